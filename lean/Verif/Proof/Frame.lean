import Verif.Proof.Shared

/-!
# The frame of a region: how keys between two boundary keys are cut
-/

namespace Verif

/-- `k` lies between `k1` and `k2` as zero-padded bit strings. -/
def Between (k1 k k2 : Key) : Prop := ∀ p, pre p k1 ≤ pre p k ∧ pre p k ≤ pre p k2

section
variable {k1 k2 : Key} {sh ig imp : Nat}

theorem pre_succ_eq (k : Key) (p : Nat) : pre (p + 1) k = 2 * pre p k + kbit k p := rfl

theorem Lengths.pre_same (L : Lengths k1 k2 sh ig imp) : pre sh k1 = pre sh k2 := pre_eq_iff.2 L.same

theorem Lengths.bits (L : Lengths k1 k2 sh ig imp) (hlt : PadLt k1 k2) : kbit k1 sh = 0 ∧ kbit k2 sh = 1 := by
  have h1 := hlt.le (sh + 1)
  have h2 := L.pre_same
  have h3 := kbit_lt k1 sh
  have h4 := kbit_lt k2 sh
  have h5 := L.diff
  rw [pre_succ_eq, pre_succ_eq] at h1
  omega

theorem Lengths.succ_part (L : Lengths k1 k2 sh ig imp) (hlt : PadLt k1 k2) : ∀ j, j ≤ ig →
    pre (sh + 1 + j) k2 = pre (sh + 1 + j) k1 + 1
  | 0, _ => by
    obtain ⟨h1, h2⟩ := L.bits hlt
    rw [Nat.add_zero, pre_succ_eq, pre_succ_eq, h1, h2, L.pre_same]
  | j + 1, h => by
    have h1 := L.skip (sh + 1 + j) (by omega) (by omega)
    rw [← Nat.add_assoc, pre_succ_eq, pre_succ_eq, L.succ_part hlt j (by omega), h1.1, h1.2]
    omega

theorem Lengths.succ (L : Lengths k1 k2 sh ig imp) (hlt : PadLt k1 k2) :
    pre (sh + ig + 1) k2 = pre (sh + ig + 1) k1 + 1 := by
  have := L.succ_part hlt ig (Nat.le_refl _)
  rwa [show sh + 1 + ig = sh + ig + 1 by omega] at this

theorem Lengths.imp_cases (L : Lengths k1 k2 sh ig imp) : imp = 10 ∨ imp = 11 := by
  rw [L.imp_eq]; split_ifs <;> omega

/-- The number of implicit values of the region. -/
theorem Lengths.total (L : Lengths k1 k2 sh ig imp) (hlt : PadLt k1 k2) :
    pre (sh + ig + imp) k1 + 511 ≤ pre (sh + ig + imp) k2 ∧
    pre (sh + ig + imp) k2 ≤ pre (sh + ig + imp) k1 + 1023 := by
  have hs := L.succ hlt
  have e1 := pre_split k1 (sh + ig + 1) 9
  have e2 := pre_split k2 (sh + ig + 1) 9
  rw [show sh + ig + 1 + 9 = sh + ig + 10 by omega] at e1 e2
  rw [hs] at e2
  have t1 : pre (sh + ig + 10) k1 % 2 ^ 9 / 2 ^ 8 = kbit k1 (sh + 1 + ig) := by
    have := pre_bit k1 (sh + 1 + ig) 8
    rw [show sh + 1 + ig + 1 + 8 = sh + ig + 10 by omega] at this
    omega
  have t2 : pre (sh + ig + 10) k2 % 2 ^ 9 / 2 ^ 8 = kbit k2 (sh + 1 + ig) := by
    have := pre_bit k2 (sh + 1 + ig) 8
    rw [show sh + 1 + ig + 1 + 8 = sh + ig + 10 by omega] at this
    omega
  have hstop := L.stop
  have himp := L.imp_eq
  have b1 := kbit_lt k1 (sh + 1 + ig)
  have b2 := kbit_lt k2 (sh + 1 + ig)
  have b3 := kbit_lt k1 (sh + ig + 10)
  have b4 := kbit_lt k2 (sh + ig + 10)
  unfold Skip at hstop
  have a1 : pre (sh + ig + 10) k1 % 2 ^ 9 < 2 ^ 9 := Nat.mod_lt _ (by decide)
  have a2 : pre (sh + ig + 10) k2 % 2 ^ 9 < 2 ^ 9 := Nat.mod_lt _ (by decide)
  have e3 := pre_succ_eq k1 (sh + ig + 10)
  have e4 := pre_succ_eq k2 (sh + ig + 10)
  generalize pre (sh + ig + 1) k1 = P at *
  generalize pre (sh + ig + 10) k1 % 2 ^ 9 = a at *
  generalize pre (sh + ig + 10) k2 % 2 ^ 9 = b at *
  by_cases hc : 2 * (2 ^ 9 + b - a + 1) < 2 ^ 10
  · rw [if_pos hc] at himp
    subst himp
    rw [show sh + ig + 11 = sh + ig + 10 + 1 from rfl, e3, e4]
    omega
  · rw [if_neg hc] at himp
    subst himp
    omega

/-- The cut of a key between the boundaries. -/
theorem Lengths.cut (L : Lengths k1 k2 sh ig imp) (hlt : PadLt k1 k2) {k : Key} (hk : Between k1 k k2) :
    pre (sh + ig + 1) k = pre (sh + ig + 1) k1 + kbit k sh := by
  obtain ⟨h1, h2⟩ := hk (sh + ig + 1)
  obtain ⟨b1, b2⟩ := L.bits hlt
  have hs := L.succ hlt
  have h3 := pre_bit k sh ig
  have h4 := pre_bit k1 sh ig
  have h5 := pre_bit k2 sh ig
  rw [show sh + 1 + ig = sh + ig + 1 by omega] at h3 h4 h5
  rcases (show pre (sh + ig + 1) k = pre (sh + ig + 1) k1 ∨ pre (sh + ig + 1) k = pre (sh + ig + 1) k2 by omega) with e | e
  · rw [e, h4] at h3; omega
  · rw [e, h5] at h3; omega

/-- The extracted value, relative to the bits shared by the whole region. -/
theorem Lengths.extract (L : Lengths k1 k2 sh ig imp) (hlt : PadLt k1 k2) {k : Key} (hk : Between k1 k k2)
    {s : Nat} (hs : s ≤ 46) :
    extractPartialKey s k sh ig imp (keyBit k sh) + pre (sh + ig + 1) k1 * 2 ^ (imp - 1 + s) =
      pre (sh + ig + imp + s) k := by
  have himp := L.imp_cases
  have hb := kbit_lt k sh
  rw [extract_eq _ _ _ _ _ _ (by omega) (by rw [keyBit_eq]; omega) (by omega), keyBit_eq]
  have e := pre_split k (sh + ig + 1) (imp - 1 + s)
  rw [show sh + ig + 1 + (imp - 1 + s) = sh + ig + imp + s by omega, L.cut hlt hk, Nat.add_mul] at e
  omega

theorem between_left (hlt : PadLt k1 k2) : Between k1 k1 k2 := fun p => ⟨Nat.le_refl _, hlt.le p⟩

theorem between_right (hlt : PadLt k1 k2) : Between k1 k2 k2 := fun p => ⟨hlt.le p, Nat.le_refl _⟩

theorem pow_imp (imp s : Nat) : 2 ^ (imp - 1 + s) = 2 ^ (imp - 1) * 2 ^ s := pow_add _ _ _

/-- `prev_implicit` -/
theorem Lengths.prevImplicit (L : Lengths k1 k2 sh ig imp) (hlt : PadLt k1 k2) {s : Nat} (hs : s ≤ 46) :
    (extractPartialKey s k1 sh ig imp 0 >>> s) + pre (sh + ig + 1) k1 * 2 ^ (imp - 1) =
      pre (sh + ig + imp) k1 := by
  obtain ⟨b1, b2⟩ := L.bits hlt
  have h := L.extract hlt (between_left hlt) hs
  rw [keyBit_eq, b1, pow_imp, ← Nat.mul_assoc] at h
  rw [Nat.shiftRight_eq_div_pow, ← pre_add k1 (sh + ig + imp) s, ← h, Nat.add_mul_div_right _ _ (Nat.two_pow_pos s)]

/-- `next_implicit` -/
theorem Lengths.nextImplicit (L : Lengths k1 k2 sh ig imp) (hlt : PadLt k1 k2) {s : Nat} (hs : s ≤ 46) :
    (extractPartialKey s k2 sh ig imp 1 >>> s) + pre (sh + ig + 1) k1 * 2 ^ (imp - 1) =
      pre (sh + ig + imp) k2 := by
  obtain ⟨b1, b2⟩ := L.bits hlt
  have h := L.extract hlt (between_right hlt) hs
  rw [keyBit_eq, b2, pow_imp, ← Nat.mul_assoc] at h
  rw [Nat.shiftRight_eq_div_pow, ← pre_add k2 (sh + ig + imp) s, ← h, Nat.add_mul_div_right _ _ (Nat.two_pow_pos s)]

theorem extract_lt (s : Nat) (k : Key) {sh ig imp msb : Nat} (himp : 1 ≤ imp) (hmsb : msb ≤ 1)
    (h : imp + s + (sh + ig) % 8 ≤ 64) : extractPartialKey s k sh ig imp msb < 2 ^ (imp + s) := by
  rw [extract_eq _ _ _ _ _ _ himp hmsb h]
  have h1 : pre (sh + ig + imp + s) k % 2 ^ (imp - 1 + s) < 2 ^ (imp - 1 + s) := Nat.mod_lt _ (Nat.two_pow_pos _)
  have h2 : msb * 2 ^ (imp - 1 + s) ≤ 1 * 2 ^ (imp - 1 + s) := Nat.mul_le_mul_right _ hmsb
  rw [show imp + s = imp - 1 + s + 1 by omega, pow_succ]
  omega

/-- `total_implicit` -/
theorem Lengths.totalImplicit (L : Lengths k1 k2 sh ig imp) (hlt : PadLt k1 k2) {s : Nat} (hs : s ≤ 46) :
    add32 (sub64 (extractPartialKey s k2 sh ig imp 1 >>> s) (extractPartialKey s k1 sh ig imp 0 >>> s) % 2 ^ 32) 1 =
      pre (sh + ig + imp) k2 - pre (sh + ig + imp) k1 + 1 := by
  have h1 := L.prevImplicit hlt hs
  have h2 := L.nextImplicit hlt hs
  obtain ⟨h3, h4⟩ := L.total hlt
  have himp := L.imp_cases
  have b : extractPartialKey s k2 sh ig imp 1 >>> s < 2 ^ 64 := by
    have := extract_lt s k2 (msb := 1) (show 1 ≤ imp by omega) (by omega) (show imp + s + (sh + ig) % 8 ≤ 64 by omega)
    have hp : 2 ^ (imp + s) ≤ 2 ^ 64 := Nat.pow_le_pow_right (by decide) (by omega)
    rw [Nat.shiftRight_eq_div_pow]
    exact Nat.lt_of_le_of_lt (Nat.div_le_self _ _) (by omega)
  rw [sub64_of_le b (by omega)]
  unfold add32
  omega

/-- The value of a key relative to the lower boundary of its region. -/
def relVal (s p : Nat) (prev k : Key) : Nat := pre (p + s) k - pre p prev * 2 ^ s

theorem relVal_add {s p : Nat} {prev k : Key} (h : pre p prev ≤ pre p k) :
    relVal s p prev k + pre p prev * 2 ^ s = pre (p + s) k := by
  have e := pre_split k p s
  have := Nat.mul_le_mul_right (2 ^ s) h
  unfold relVal
  omega

theorem relVal_div {s p : Nat} {prev k : Key} (h : pre p prev ≤ pre p k) :
    relVal s p prev k / 2 ^ s + pre p prev = pre p k := by
  have e := relVal_add (s := s) h
  rw [← pre_add k p s, ← e, Nat.add_mul_div_right _ _ (Nat.two_pow_pos s)]

/-- Subtracting `prev_implicit << infix_size` from an extraction. -/
theorem Lengths.value (L : Lengths k1 k2 sh ig imp) (hlt : PadLt k1 k2) {k : Key} (hk : Between k1 k k2)
    {s : Nat} (hs : s ≤ 46) :
    sub64 (extractPartialKey s k sh ig imp (keyBit k sh)) (shl64 (extractPartialKey s k1 sh ig imp 0 >>> s) s) =
      relVal s (sh + ig + imp) k1 k ∧
    relVal s (sh + ig + imp) k1 k < 2 ^ (imp + s) := by
  have himp := L.imp_cases
  have h1 := L.prevImplicit hlt hs
  have h2 := L.extract hlt hk hs
  have h3 := relVal_add (s := s) (hk (sh + ig + imp)).1
  have hb := kbit_lt k sh
  have b := extract_lt s k (msb := keyBit k sh) (show 1 ≤ imp by omega) (by rw [keyBit_eq]; omega)
    (show imp + s + (sh + ig) % 8 ≤ 64 by omega)
  have hp : 2 ^ (imp + s) ≤ 2 ^ 57 := Nat.pow_le_pow_right (by decide) (by omega)
  generalize extractPartialKey s k sh ig imp (keyBit k sh) = X at *
  generalize extractPartialKey s k1 sh ig imp 0 >>> s = Q at *
  rw [pow_imp, ← Nat.mul_assoc] at h2
  have h4 : (Q + pre (sh + ig + 1) k1 * 2 ^ (imp - 1)) * 2 ^ s = pre (sh + ig + imp) k1 * 2 ^ s := by rw [h1]
  rw [Nat.add_mul] at h4
  have hQ : shl64 Q s = Q * 2 ^ s := by
    unfold shl64
    rw [Nat.mod_eq_of_lt (show s < 64 by omega), Nat.shiftLeft_eq, Nat.mod_eq_of_lt]
    omega
  rw [hQ, sub64_of_le (by omega) (by omega)]
  omega

end

end Verif
