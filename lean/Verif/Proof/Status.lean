import Verif.Proof.Bits
import Verif.Model.Store
import Mathlib.Tactic.Ring

/-!
# The status word as a sum of fields
-/

namespace Verif

theorem mul_pow_or {a b k : Nat} (hb : b < 2 ^ k) : a * 2 ^ k ||| b = a * 2 ^ k + b := by
  rw [Nat.mul_comm, ← Nat.two_pow_add_eq_or_of_lt hb]

theorem elemCount_eq (st : Store) : st.elemCount = st.status % 2 ^ 20 := and_bitmask _ _ (by decide)

theorem sizeGrade_eq (st : Store) : st.sizeGrade = st.status / 2 ^ 20 % 2 ^ 8 := by
  rw [Store.sizeGrade, and_bitmask _ _ (by decide), Nat.shiftRight_eq_div_pow]

theorem invalidBits_eq (st : Store) : st.invalidBits = st.status / 2 ^ 28 % 2 ^ 3 := by
  rw [Store.invalidBits, Nat.shiftRight_eq_div_pow]
  exact Nat.and_two_pow_sub_one_eq_mod _ 3

theorem isPartial_eq (st : Store) : st.isPartial = decide (st.status / 2 ^ 31 ≠ 0) := by
  rw [Store.isPartial, Nat.shiftRight_eq_div_pow]
  generalize st.status / 2 ^ 31 = a
  cases a <;> simp

/-- Clearing a field of the status word. -/
theorem clear_field {w a b : Nat} (hw : w < 2 ^ 32) (hab : a + b ≤ 32) {k : Nat}
    (hk : ∀ i, k.testBit i = decide (a ≤ i ∧ i < a + b)) :
    (w &&& not64 k) % 2 ^ 32 = w / 2 ^ (a + b) * 2 ^ (a + b) + w % 2 ^ a := by
  have hlt : w % 2 ^ a < 2 ^ (a + b) :=
    Nat.lt_of_lt_of_le (Nat.mod_lt _ (Nat.two_pow_pos a)) (Nat.pow_le_pow_right (by decide) (by omega))
  apply testBit_ext; intro i
  rw [Nat.testBit_mod_two_pow, Nat.testBit_and, testBit_not64, hk, ← mul_pow_or hlt, Nat.testBit_or,
    Nat.testBit_mul_two_pow, Nat.testBit_div_two_pow, Nat.testBit_mod_two_pow]
  by_cases h32 : i < 32
  · by_cases h1 : i < a
    · simp [h32, h1, show i < 64 by omega, show ¬ a ≤ i by omega, show ¬ a + b ≤ i by omega]
    · by_cases h2 : i < a + b
      · simp [h32, h1, h2, show a ≤ i by omega, show ¬ a + b ≤ i by omega, show i < 64 by omega]
      · simp [h32, h1, h2, show a + b ≤ i by omega, show i < 64 by omega]
  · have : w.testBit i = false :=
      Nat.testBit_lt_two_pow (Nat.lt_of_lt_of_le hw (Nat.pow_le_pow_right (by decide) (by omega)))
    have h3 : (w.testBit (i - (a + b) + (a + b))) = w.testBit i := by
      rw [Nat.sub_add_cancel (by omega)]
    simp [h32, this, show a + b ≤ i by omega]

theorem setElemCount_status {st : Store} {n : Nat} (hst : st.status < 2 ^ 32) (hn : n < 2 ^ 20) :
    (st.setElemCount n).status = st.status / 2 ^ 20 * 2 ^ 20 + n := by
  unfold Store.setElemCount
  dsimp only
  rw [clear_field (a := 0) (b := 20) hst (by decide)]
  · rw [Nat.mod_eq_of_lt (show n < 2 ^ 32 by omega), Nat.zero_add, Nat.pow_zero, Nat.mod_one, Nat.add_zero,
      mul_pow_or hn]
  · intro i; rw [testBit_bitmask _ _ (by decide)]; simp

theorem setSizeGrade_status {st : Store} {g : Nat} (hst : st.status < 2 ^ 32) (hg : g < 2 ^ 8) :
    (st.setSizeGrade g).status = st.status / 2 ^ 28 * 2 ^ 28 + g * 2 ^ 20 + st.status % 2 ^ 20 := by
  unfold Store.setSizeGrade
  dsimp only
  rw [clear_field (a := 20) (b := 8) hst (by decide)]
  · rw [Nat.shiftLeft_eq, Nat.mod_eq_of_lt (show g * 2 ^ 20 < 2 ^ 32 by omega)]
    have h1 : st.status % 2 ^ 20 < 2 ^ 20 := Nat.mod_lt _ (by decide)
    rw [show (20 + 8 : Nat) = 28 from rfl, ← mul_pow_or (show st.status % 2 ^ 20 < 2 ^ 28 by omega),
      Nat.or_assoc, Nat.or_comm (st.status % 2 ^ 20), mul_pow_or h1,
      mul_pow_or (show g * 2 ^ 20 + st.status % 2 ^ 20 < 2 ^ 28 by omega)]
    omega
  · intro i
    rw [testBit_shl64 _ _ _ (by decide), testBit_bitmask _ _ (by decide)]
    rw [Bool.eq_iff_iff]; simp only [Bool.and_eq_true, decide_eq_true_eq]; omega

theorem setInvalidBits_status {st : Store} {v : Nat} (hst : st.status < 2 ^ 32) (hv : v < 2 ^ 3) :
    (st.setInvalidBits v).status = st.status / 2 ^ 31 * 2 ^ 31 + v * 2 ^ 28 + st.status % 2 ^ 28 := by
  unfold Store.setInvalidBits
  dsimp only
  rw [clear_field (a := 28) (b := 3) hst (by decide)]
  · rw [Nat.shiftLeft_eq, Nat.mod_eq_of_lt (show v * 2 ^ 28 < 2 ^ 32 by omega)]
    have h1 : st.status % 2 ^ 28 < 2 ^ 28 := Nat.mod_lt _ (by decide)
    rw [show (28 + 3 : Nat) = 31 from rfl, ← mul_pow_or (show st.status % 2 ^ 28 < 2 ^ 31 by omega),
      Nat.or_assoc, Nat.or_comm (st.status % 2 ^ 28), mul_pow_or h1,
      mul_pow_or (show v * 2 ^ 28 + st.status % 2 ^ 28 < 2 ^ 31 by omega)]
    omega
  · intro i
    rw [show (7 <<< 28 : Nat) = (2 ^ 3 - 1) * 2 ^ 28 by decide, Nat.testBit_mul_two_pow,
      Nat.testBit_two_pow_sub_one]
    by_cases h1 : 28 ≤ i <;> simp [h1]; omega

theorem setPartial_status {st : Store} {v : Bool} (hst : st.status < 2 ^ 32) :
    (st.setPartial v).status = v.toNat * 2 ^ 31 + st.status % 2 ^ 31 := by
  unfold Store.setPartial
  dsimp only
  have h1 : st.status % 2 ^ 31 < 2 ^ 31 := Nat.mod_lt _ (by decide)
  cases v
  · rw [if_neg (by decide), clear_field (a := 31) (b := 1) hst (by decide)]
    · simp only [Bool.toNat_false]; omega
    · intro i
      rw [show (1 <<< 31 : Nat) = (2 ^ 1 - 1) * 2 ^ 31 by decide, Nat.testBit_mul_two_pow,
        Nat.testBit_two_pow_sub_one]
      by_cases h1 : 31 ≤ i <;> simp [h1]; omega
  · rw [if_pos rfl, Bool.toNat_true, ← mul_pow_or h1]
    apply testBit_ext; intro i
    rw [Nat.testBit_or, Nat.testBit_or, Nat.testBit_mod_two_pow, show (1 <<< 31 : Nat) = 1 * 2 ^ 31 by decide,
      Nat.testBit_mul_two_pow, testBit_one']
    by_cases h : i < 31
    · simp [h, show ¬ 31 ≤ i by omega]
    · by_cases h' : i = 31
      · simp [h']
      · have : st.status.testBit i = false :=
          Nat.testBit_lt_two_pow (Nat.lt_of_lt_of_le hst (Nat.pow_le_pow_right (by decide) (by omega)))
        simp [this, h]

theorem mem_mk (a b : Nat) : (Store.mk a b).mem = b := rfl

theorem setElemCount_mem (st : Store) (n : Nat) : (st.setElemCount n).mem = st.mem := mem_mk _ _
theorem setSizeGrade_mem (st : Store) (n : Nat) : (st.setSizeGrade n).mem = st.mem := mem_mk _ _
theorem setInvalidBits_mem (st : Store) (n : Nat) : (st.setInvalidBits n).mem = st.mem := mem_mk _ _
theorem setPartial_mem (st : Store) (n : Bool) : (st.setPartial n).mem = st.mem := mem_mk _ _
theorem incElemCount_mem (st : Store) : st.incElemCount.mem = st.mem := mem_mk _ _
theorem decElemCount_mem (st : Store) : st.decElemCount.mem = st.mem := mem_mk _ _

end Verif
