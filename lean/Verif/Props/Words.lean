import Verif.Proof.Select64
import Verif.Proof.Count
import Verif.Proof.Status

/-!
# C28, C29, C30: word and bitmap primitives
-/

namespace Verif.Props

/-- Specification: number of set bits of `x` at positions below `p`. -/
def bitsBelow (x p : Nat) : Nat := ((List.range p).filter fun i => x.testBit i).length

/-- Specification: `p` is the position of the `i`-th (0-based) set bit of the 64-bit word `x`. -/
def IsNthBit (x i p : Nat) : Prop := p < 64 ∧ x.testBit p = true ∧ bitsBelow x p = i

theorem bitsBelow_eq (x p : Nat) : bitsBelow x p = cnt (fun i => x.testBit i) p := by
  rw [bitsBelow, ← List.countP_eq_length_filter, countP_range]

/-- C28, select (BMI2 build): the returned position is the `i`-th set bit, or 64 if there is none. -/
theorem C28_select (x i : Nat) (hi : i < 64) :
    (bitsBelow x 64 ≤ i → bitSelect x i = 64) ∧
    (i < bitsBelow x 64 → IsNthBit x i (bitSelect x i)) := by
  constructor
  · intro h; rw [bitsBelow_eq] at h; exact bitSelect_none hi h
  · intro h
    rw [bitsBelow_eq] at h
    obtain ⟨p, h1, h2, h3⟩ := exists_cnt h
    have : bitSelect x i = p := bitSelect_eq h1 h2 h3
    rw [this]
    exact ⟨h1, h2, by rw [bitsBelow_eq]; exact h3⟩

example : IsNthBit 0b10110 2 (bitSelect 0b10110 2) := (C28_select _ _ (by decide)).2 (by decide +kernel)

/-- C28, select (portable build, util.hpp `_select64`): same property. -/
theorem C28_portable (x i : Nat) (hx : x < 2 ^ 64) :
    (bitsBelow x 64 ≤ i → select64 x i = 64) ∧
    (i < bitsBelow x 64 → IsNthBit x i (select64 x i)) := by
  constructor
  · intro h; rw [bitsBelow_eq] at h; exact select64_none h
  · intro h
    rw [bitsBelow_eq] at h
    obtain ⟨q, h1, h2, h3, h4⟩ := select64_spec hx h
    rw [h1]
    exact ⟨h2, h3, by rw [bitsBelow_eq]; exact h4⟩

/-- C28: the two builds of select agree on every word and every index. -/
theorem C28_agree (x i : Nat) (hx : x < 2 ^ 64) (hi : i < 64) : select64 x i = bitSelect x i := by
  by_cases h : bitsBelow x 64 ≤ i
  · rw [(C28_portable x i hx).1 h, (C28_select x i hi).1 h]
  · rw [bitsBelow_eq] at h
    obtain ⟨q, h1, h2, h3, h4⟩ := select64_spec hx (show i < _ by omega)
    rw [h1, bitSelect_eq h2 h3 h4]

example : IsNthBit 0xF0F0000000000801 4 (select64 0xF0F0000000000801 4) :=
  (C28_portable _ _ (by decide)).2 (by decide +kernel)
example : select64 0xF0F0000000000801 4 = 54 := by decide +kernel

/-- C28, rank. -/
theorem C28_rank (x i : Nat) (hi : i ≤ 64) : bitRank x i = bitsBelow x i := by
  rw [bitRank_eq x i hi, bitsBelow_eq]

/-- C28, lowest set bit. -/
theorem C28_lowbit (x : Nat) (h0 : x ≠ 0) (hx : x < 2 ^ 64) :
    x.testBit (lowbitPos x) = true ∧ ∀ j, j < lowbitPos x → x.testBit j = false := by
  rcases tzcnt_cases x with ⟨_, h2, h3⟩ | ⟨_, h2⟩
  · exact ⟨h2, h3⟩
  · exfalso; apply h0
    apply testBit_ext; intro i
    rw [Nat.zero_testBit]
    by_cases hi : i < 64
    · exact h2 i hi
    · exact Nat.testBit_lt_two_pow (Nat.lt_of_lt_of_le hx (Nat.pow_le_pow_right (by decide) (by omega)))

/-- C28, highest set bit; −1 for the zero word. -/
theorem C28_highbit (x : Nat) (hx : x < 2 ^ 64) :
    (x = 0 → highbitPos x = -1) ∧
    (x ≠ 0 → ∃ p : Nat, highbitPos x = p ∧ x.testBit p = true ∧ ∀ j, p < j → x.testBit j = false) := by
  refine ⟨fun h => by rw [h]; exact highbitPos_zero, fun h => ?_⟩
  obtain ⟨h1, h2, h3⟩ := highbitPos_ne h hx
  exact ⟨_, h1, h2, h3⟩

example : highbitPos 0b10110 = 4 := by decide +kernel
example : lowbitPos 0b10110 = 1 := by decide +kernel
example : bitRank 0b10110 4 = 2 := by decide +kernel

/-- C29, right shift of the bitmap that starts at word `b`: bits `l..r` move up by `shamt`, the
positions `l..l+shamt-1` become zero, every other bit of the block is unchanged. -/
theorem C29_shift_right (m b l r shamt j : Nat) (_hlr : l ≤ r) :
    (shiftBitmapRight m b l (r + 1) shamt).testBit j =
      if 64 * b + l ≤ j ∧ j < 64 * b + l + shamt then false
      else if 64 * b + l + shamt ≤ j ∧ j ≤ 64 * b + r + shamt then m.testBit (j - shamt)
      else m.testBit j := by
  rw [testBit_shiftBitmapRight]
  simp only [show 64 * b + (l + shamt) = 64 * b + l + shamt by omega]
  split_ifs <;> first | rfl | omega

/-- C29, left shift: bits `l..r` move down by `shamt`, the top `shamt` positions of the range become
zero, every other bit is unchanged. -/
theorem C29_shift_left (m b l r shamt j : Nat) (_hlr : l ≤ r) (hs : shamt ≤ l) :
    (shiftBitmapLeft m b l (r + 1) shamt).testBit j =
      if 64 * b + r + 1 ≤ j + shamt ∧ j ≤ 64 * b + r then false
      else if 64 * b + l ≤ j + shamt ∧ j + shamt ≤ 64 * b + r then m.testBit (j + shamt)
      else m.testBit j := by
  rw [testBit_shiftBitmapLeft _ _ _ _ _ _ hs]
  split_ifs <;> first | rfl | omega

example : shiftBitmapRight 0b1011 0 1 4 2 = 0b101001 := by decide +kernel
example : shiftBitmapLeft 0b101000 0 3 6 2 = 0b001010 := by decide +kernel

/-- Specification of the status word: the four fields a caller can read. -/
structure Fields where
  count : Nat
  grade : Nat
  invalid : Nat
  isPart : Bool
deriving DecidableEq

/-- What the getters report. -/
def fields (st : Store) : Fields := ⟨st.elemCount, st.sizeGrade, st.invalidBits, st.isPartial⟩

/-- C30: each setter changes its own field to the given value and leaves the other three alone,
and the block contents as well. -/
theorem C30_fields (st : Store) (hst : st.status < 2 ^ 32) (n g v : Nat) (p : Bool)
    (hn : n < 2 ^ 20) (hg : g < 2 ^ 8) (hv : v < 2 ^ 3) :
    fields (st.setElemCount n) = { fields st with count := n } ∧ (st.setElemCount n).mem = st.mem ∧
    fields (st.setSizeGrade g) = { fields st with grade := g } ∧ (st.setSizeGrade g).mem = st.mem ∧
    fields (st.setInvalidBits v) = { fields st with invalid := v } ∧ (st.setInvalidBits v).mem = st.mem ∧
    fields (st.setPartial p) = { fields st with isPart := p } ∧ (st.setPartial p).mem = st.mem := by
  have hp : p.toNat ≤ 1 := Bool.toNat_le p
  refine ⟨?_, setElemCount_mem .., ?_, setSizeGrade_mem .., ?_, setInvalidBits_mem .., ?_, setPartial_mem ..⟩
  · simp only [fields, elemCount_eq, sizeGrade_eq, invalidBits_eq, isPartial_eq, Fields.mk.injEq,
      setElemCount_status hst hn, decide_eq_decide]
    omega
  · simp only [fields, elemCount_eq, sizeGrade_eq, invalidBits_eq, isPartial_eq, Fields.mk.injEq,
      setSizeGrade_status hst hg, decide_eq_decide]
    omega
  · simp only [fields, elemCount_eq, sizeGrade_eq, invalidBits_eq, isPartial_eq, Fields.mk.injEq,
      setInvalidBits_status hst hv, decide_eq_decide]
    omega
  · simp only [fields, elemCount_eq, sizeGrade_eq, invalidBits_eq, isPartial_eq, Fields.mk.injEq,
      setPartial_status hst]
    cases p
    · simp only [Bool.toNat_false, decide_eq_false_iff_not]; omega
    · simp only [Bool.toNat_true, decide_eq_true_eq]; omega

/-- C30: the counter updates change the count by one as long as it does not leave its 20 bits. -/
theorem C30_update (st : Store) (hst : st.status < 2 ^ 32) :
    (st.elemCount + 1 < 2 ^ 20 → fields st.incElemCount = { fields st with count := st.elemCount + 1 }) ∧
    (0 < st.elemCount → fields st.decElemCount = { fields st with count := st.elemCount - 1 }) := by
  constructor
  · intro h
    have e : st.incElemCount.status = st.status + 1 := by
      rw [elemCount_eq] at h
      unfold Store.incElemCount add32; dsimp only; omega
    simp only [fields, elemCount_eq, sizeGrade_eq, invalidBits_eq, isPartial_eq, Fields.mk.injEq, e,
      decide_eq_decide] at h ⊢
    omega
  · intro h
    have e : st.decElemCount.status = st.status - 1 := by
      rw [elemCount_eq] at h
      unfold Store.decElemCount sub32; dsimp only; omega
    simp only [fields, elemCount_eq, sizeGrade_eq, invalidBits_eq, isPartial_eq, Fields.mk.injEq, e,
      decide_eq_decide] at h ⊢
    omega

example : fields (((Store.new 55).setElemCount 1000).setPartial true) = ⟨1000, 55, 0, true⟩ := by decide +kernel

end Verif.Props
