import Verif.Proof.Frame
import Verif.Proof.Region

/-!
# Items as bit prefixes of keys

An item `x` of a region cut at level `p` above the lower boundary value `base` stands for one bit
prefix: length `ilen`, value `ival`.
-/

namespace Verif

/-- Number of trailing zeros of an item. -/
def tz (x : Nat) : Nat := (lb64 x).log2

/-- Length of the prefix. -/
def ilen (s p x : Nat) : Nat := p + s - 1 - tz x

/-- Value of the prefix. -/
def ival (s base x : Nat) : Nat := x / 2 ^ (tz x + 1) + base * 2 ^ (s - 1 - tz x)

theorem tz_odd {a t : Nat} (h : (2 * a + 1) * 2 ^ t < 2 ^ 64) : tz ((2 * a + 1) * 2 ^ t) = t := by
  rw [tz, lb64_odd h, Nat.log2_two_pow]

theorem odd_div (a t : Nat) : (2 * a + 1) * 2 ^ t / 2 ^ (t + 1) = a := by
  rw [pow_succ, Nat.mul_comm, Nat.mul_div_mul_left _ _ (Nat.two_pow_pos t)]
  omega

theorem ival_odd {a t s base : Nat} (h : (2 * a + 1) * 2 ^ t < 2 ^ 64) :
    ival s base ((2 * a + 1) * 2 ^ t) = a + base * 2 ^ (s - 1 - t) := by
  rw [ival, tz_odd h, odd_div]

theorem ilen_odd {a t s p : Nat} (h : (2 * a + 1) * 2 ^ t < 2 ^ 64) :
    ilen s p ((2 * a + 1) * 2 ^ t) = p + s - 1 - t := by
  rw [ilen, tz_odd h]

/-- An item with nonzero explicit part. -/
theorem item_decomp {x s : Nat} (h0 : x % 2 ^ s ≠ 0) : ∃ a t, x = (2 * a + 1) * 2 ^ t ∧ t < s := by
  have hx : 0 < x := by
    rcases Nat.eq_zero_or_pos x with h | h
    · subst h; simp at h0
    · exact h
  obtain ⟨a, t, rfl⟩ := odd_decomp hx
  refine ⟨a, t, rfl, ?_⟩
  by_contra hc
  apply h0
  obtain ⟨d, rfl⟩ := Nat.exists_eq_add_of_le (Nat.le_of_not_lt hc)
  rw [pow_add, Nat.mul_comm (2 ^ s), ← Nat.mul_assoc, Nat.mul_mod_left]

theorem covers_odd {a t v : Nat} (h : (2 * a + 1) * 2 ^ t < 2 ^ 64) :
    Covers ((2 * a + 1) * 2 ^ t) v ↔ v / 2 ^ (t + 1) = a := by
  rw [Covers, nolb64_odd h, lb64_odd h, Nat.div_eq_iff (Nat.two_pow_pos _)]
  have e1 : 2 * a * 2 ^ t = a * 2 ^ (t + 1) := by rw [pow_succ]; ring
  have e2 : (2 * a + 1) * 2 ^ t + 2 ^ t = a * 2 ^ (t + 1) + 2 ^ (t + 1) := by rw [pow_succ]; ring
  rw [e1, e2]
  have := Nat.two_pow_pos (t + 1)
  omega

theorem meets_odd {a t l r : Nat} (h : (2 * a + 1) * 2 ^ t < 2 ^ 64) :
    Meets ((2 * a + 1) * 2 ^ t) l r ↔ l / 2 ^ (t + 1) ≤ a ∧ a ≤ r / 2 ^ (t + 1) := by
  rw [Meets, nolb64_odd h, lb64_odd h, Nat.le_div_iff_mul_le (Nat.two_pow_pos _),
    ← Nat.lt_succ_iff (m := l / _), Nat.div_lt_iff_lt_mul (Nat.two_pow_pos _)]
  have e1 : 2 * a * 2 ^ t = a * 2 ^ (t + 1) := by rw [pow_succ]; ring
  have e2 : (2 * a + 1) * 2 ^ t + 2 ^ t = a.succ * 2 ^ (t + 1) := by rw [pow_succ, Nat.succ_eq_add_one]; ring
  rw [e1, e2]
  exact and_comm

theorem or_one (v : Nat) : v ||| 1 = v + (1 - v % 2) := by
  apply Nat.eq_of_testBit_eq
  intro i
  rcases Nat.mod_two_eq_zero_or_one v with h | h
  · rw [h, Nat.sub_zero]
    cases i with
    | zero => simp [Nat.testBit_zero]; omega
    | succ i =>
      rw [Nat.testBit_or, Nat.testBit_succ, Nat.testBit_succ, Nat.testBit_succ,
        show (v + 1) / 2 = v / 2 by omega]
      simp
  · rw [h, Nat.sub_self, Nat.add_zero]
    cases i with
    | zero => simp [Nat.testBit_zero, h]
    | succ i => rw [Nat.testBit_or, Nat.testBit_succ]; simp [Nat.testBit_succ]

theorem or_one_div (v t : Nat) : (v ||| 1) / 2 ^ (t + 1) = v / 2 ^ (t + 1) := by
  rw [or_one, pow_succ', ← Nat.div_div_eq_div_mul, ← Nat.div_div_eq_div_mul]
  congr 1
  omega

section
variable {s p : Nat} {prev k : Key}

theorem relVal_cut (h : pre p prev ≤ pre p k) {t : Nat} (ht : t < s) :
    relVal s p prev k / 2 ^ (t + 1) + pre p prev * 2 ^ (s - 1 - t) = pre (p + s - 1 - t) k := by
  have e := relVal_add (s := s) h
  have e1 : p + s = (p + s - 1 - t) + (t + 1) := by omega
  rw [e1] at e
  rw [← pre_add k (p + s - 1 - t) (t + 1), ← e]
  have e2 : pre p prev * 2 ^ s = pre p prev * 2 ^ (s - 1 - t) * 2 ^ (t + 1) := by
    rw [Nat.mul_assoc, ← pow_add]; congr 2; omega
  rw [e2, Nat.add_mul_div_right _ _ (Nat.two_pow_pos _)]

/-- An item covers the value of a key iff its prefix is a prefix of the key. -/
theorem covers_relVal {x : Nat} (h0 : x % 2 ^ s ≠ 0) (hx : x < 2 ^ 64) (h : pre p prev ≤ pre p k) :
    Covers x (relVal s p prev k) ↔ pre (ilen s p x) k = ival s (pre p prev) x := by
  obtain ⟨a, t, rfl, ht⟩ := item_decomp h0
  rw [covers_odd hx, ilen_odd hx, ival_odd hx, ← relVal_cut h ht]
  omega

/-- An item meets a range of values iff some extension of its prefix lies in the range of keys. -/
theorem meets_relVal {x : Nat} {l r : Key} (h0 : x % 2 ^ s ≠ 0) (hx : x < 2 ^ 64)
    (hl : pre p prev ≤ pre p l) (hr : pre p prev ≤ pre p r) :
    Meets x (relVal s p prev l ||| 1) (relVal s p prev r ||| 1) ↔
      pre (ilen s p x) l ≤ ival s (pre p prev) x ∧ ival s (pre p prev) x ≤ pre (ilen s p x) r := by
  obtain ⟨a, t, rfl, ht⟩ := item_decomp h0
  rw [meets_odd hx, ilen_odd hx, ival_odd hx, ← relVal_cut hl ht, ← relVal_cut hr ht, or_one_div, or_one_div]
  omega

/-- Prefix of the item stored for a key. -/
theorem item_relVal (hs : 1 ≤ s) (h : pre p prev ≤ pre p k) (hb : (relVal s p prev k ||| 1) < 2 ^ 64) :
    ilen s p (relVal s p prev k ||| 1) = p + s - 1 ∧
    ival s (pre p prev) (relVal s p prev k ||| 1) = pre (p + s - 1) k := by
  have e : (relVal s p prev k ||| 1) = (2 * (relVal s p prev k / 2) + 1) * 2 ^ 0 := by
    rw [or_one]; omega
  rw [e] at hb ⊢
  rw [ilen_odd hb, ival_odd hb]
  have := relVal_cut h (show 0 < s by omega)
  simpa using this

end

section
variable {k1 k2 : Key} {sh ig imp : Nat}

/-- The value passed to the store for a key of the region. -/
theorem Lengths.itemVal (L : Lengths k1 k2 sh ig imp) (hlt : PadLt k1 k2) {k : Key} (hk : Between k1 k k2)
    {s : Nat} (h1 : 1 ≤ s) (hs : s ≤ 46) :
    sub64 (extractPartialKey s k sh ig imp (keyBit k sh) ||| 1) (shl64 (extractPartialKey s k1 sh ig imp 0 >>> s) s) =
      (relVal s (sh + ig + imp) k1 k ||| 1) := by
  have himp := L.imp_cases
  obtain ⟨hv, hv2⟩ := L.value hlt hk hs
  have e1 := L.prevImplicit hlt hs
  have h2 := L.extract hlt hk hs
  have h3 := relVal_add (s := s) (hk (sh + ig + imp)).1
  have hb := kbit_lt k sh
  have b := extract_lt s k (msb := keyBit k sh) (show 1 ≤ imp by omega) (by rw [keyBit_eq]; omega)
    (show imp + s + (sh + ig) % 8 ≤ 64 by omega)
  have hp : 2 ^ (imp + s) ≤ 2 ^ 57 := Nat.pow_le_pow_right (by decide) (by omega)
  generalize extractPartialKey s k sh ig imp (keyBit k sh) = X at *
  generalize extractPartialKey s k1 sh ig imp 0 >>> s = Q at *
  rw [pow_imp, ← Nat.mul_assoc] at h2
  have h4 : (Q + pre (sh + ig + 1) k1 * 2 ^ (imp - 1)) * 2 ^ s = pre (sh + ig + imp) k1 * 2 ^ s := by rw [e1]
  rw [Nat.add_mul] at h4
  have hQ : shl64 Q s = Q * 2 ^ s := by
    unfold shl64
    rw [Nat.mod_eq_of_lt (show s < 64 by omega), Nat.shiftLeft_eq, Nat.mod_eq_of_lt]
    omega
  have heven : (Q * 2 ^ s) % 2 = 0 := by
    obtain ⟨d, rfl⟩ := Nat.exists_eq_add_of_le h1
    rw [pow_add, pow_one, ← Nat.mul_assoc, Nat.mul_right_comm, Nat.mul_mod_left]
  rw [hQ] at hv ⊢
  have hX : relVal s (sh + ig + imp) k1 k + Q * 2 ^ s = X := by omega
  have e5 : X % 2 = relVal s (sh + ig + imp) k1 k % 2 := by omega
  rw [or_one X, or_one, sub64_of_le (by omega) (by omega), e5]
  omega

theorem relVal_quot {s p : Nat} {prev k : Key} (h : pre p prev ≤ pre p k) (hs : 1 ≤ s) :
    (relVal s p prev k ||| 1) / 2 ^ s = pre p k - pre p prev := by
  obtain ⟨d, rfl⟩ := Nat.exists_eq_add_of_le hs
  rw [show 1 + d = d + 1 by omega, or_one_div]
  have := relVal_div (s := d + 1) h
  omega

end

end Verif
