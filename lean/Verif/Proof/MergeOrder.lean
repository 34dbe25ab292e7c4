import Verif.Proof.MergeNest
import Verif.Proof.Shrink

/-!
# The order of merged items

Items are ordered like the bit strings they stand for. Cutting all strings to a common largest length keeps the
order.
-/

namespace Verif

/-- Order of bit strings of lengths `l1`, `l2` and values `v1`, `v2`: as binary fractions, shorter ones first. -/
def ple (l1 v1 l2 v2 : Nat) : Prop := v1 * 2 ^ l2 < v2 * 2 ^ l1 ∨ (v1 * 2 ^ l2 = v2 * 2 ^ l1 ∧ l1 ≤ l2)

theorem scale_lt {l1 v1 l2 v2 C : Nat} (h1 : l1 ≤ C) (h2 : l2 ≤ C) :
    v1 * 2 ^ (C - l1) < v2 * 2 ^ (C - l2) ↔ v1 * 2 ^ l2 < v2 * 2 ^ l1 := by
  have e1 : v1 * 2 ^ (C - l1) * (2 ^ l1 * 2 ^ l2) = v1 * 2 ^ l2 * 2 ^ C := by
    obtain ⟨d, rfl⟩ := Nat.exists_eq_add_of_le h1
    rw [Nat.add_sub_cancel_left, pow_add]; ring
  have e2 : v2 * 2 ^ (C - l2) * (2 ^ l1 * 2 ^ l2) = v2 * 2 ^ l1 * 2 ^ C := by
    obtain ⟨d, rfl⟩ := Nat.exists_eq_add_of_le h2
    rw [Nat.add_sub_cancel_left, pow_add]; ring
  rw [← Nat.mul_lt_mul_right (a := 2 ^ l1 * 2 ^ l2) (Nat.mul_pos (Nat.two_pow_pos _) (Nat.two_pow_pos _)), e1, e2,
    Nat.mul_lt_mul_right (Nat.two_pow_pos _)]

theorem scale_eq {l1 v1 l2 v2 C : Nat} (h1 : l1 ≤ C) (h2 : l2 ≤ C) :
    v1 * 2 ^ (C - l1) = v2 * 2 ^ (C - l2) ↔ v1 * 2 ^ l2 = v2 * 2 ^ l1 := by
  have a := scale_lt (v1 := v1) (v2 := v2) h1 h2
  have b := scale_lt (v1 := v2) (v2 := v1) h2 h1
  omega

theorem nolb_ival {s p base x : Nat} (h0 : x % 2 ^ s ≠ 0) (hx : x < 2 ^ 64) :
    nolb64 x + base * 2 ^ s = ival s base x * 2 ^ (p + s - ilen s p x) ∧ lb64 x = 2 ^ (p + s - 1 - ilen s p x) ∧
      ilen s p x + 1 ≤ p + s ∧ p ≤ ilen s p x := by
  obtain ⟨a, t, rfl, ht⟩ := item_decomp h0
  rw [nolb64_odd hx, ival_odd hx, ilen_odd hx, lb64_odd hx, show p + s - (p + s - 1 - t) = t + 1 by omega,
    show p + s - 1 - (p + s - 1 - t) = t by omega]
  refine ⟨?_, rfl, by omega, by omega⟩
  obtain ⟨d, rfl⟩ : ∃ d, s = d + (t + 1) := ⟨s - (t + 1), by omega⟩
  rw [show d + (t + 1) - 1 - t = d by omega, pow_add, pow_succ]; ring

theorem ile_iff_ple {s p base x y : Nat} (h0 : x % 2 ^ s ≠ 0) (hx : x < 2 ^ 64) (g0 : y % 2 ^ s ≠ 0) (hy : y < 2 ^ 64) :
    ile x y ↔ ple (ilen s p x) (ival s base x) (ilen s p y) (ival s base y) := by
  obtain ⟨a1, a2, a3, a4⟩ := nolb_ival (p := p) (base := base) h0 hx
  obtain ⟨b1, b2, b3, b4⟩ := nolb_ival (p := p) (base := base) g0 hy
  unfold ile ple
  rw [← scale_lt (C := p + s) (by omega) (by omega), ← scale_eq (C := p + s) (by omega) (by omega), ← a1, ← b1, a2, b2,
    Nat.pow_le_pow_iff_right (by decide)]
  omega

/-- Cutting to at most `c` bits. -/
theorem ple_cut {l1 v1 l2 v2 c : Nat} (h : ple l1 v1 l2 v2) :
    ple (min l1 c) (v1 / 2 ^ (l1 - min l1 c)) (min l2 c) (v2 / 2 ^ (l2 - min l2 c)) := by
  unfold ple at h ⊢
  have hle : v1 * 2 ^ l2 ≤ v2 * 2 ^ l1 := by omega
  have hp1 := Nat.two_pow_pos l1
  have hp2 := Nat.two_pow_pos l2
  by_cases c1 : l1 ≤ c
  · rw [min_eq_left c1, Nat.sub_self, pow_zero, Nat.div_one]
    by_cases c2 : l2 ≤ c
    · rw [min_eq_left c2, Nat.sub_self, pow_zero, Nat.div_one]; exact h
    · obtain ⟨d, rfl⟩ : ∃ d, c = l1 + d := ⟨c - l1, by omega⟩
      obtain ⟨e, rfl⟩ : ∃ e, l2 = l1 + d + e := ⟨l2 - (l1 + d), by omega⟩
      rw [min_eq_right (by omega), show l1 + d + e - (l1 + d) = e by omega]
      have h1 : v1 * 2 ^ d ≤ v2 / 2 ^ e := by
        rw [Nat.le_div_iff_mul_le (Nat.two_pow_pos _)]
        have : v1 * 2 ^ d * 2 ^ e * 2 ^ l1 ≤ v2 * 2 ^ l1 := by
          calc _ = v1 * 2 ^ (l1 + d + e) := by rw [pow_add, pow_add]; ring
            _ ≤ _ := hle
        exact Nat.le_of_mul_le_mul_right this hp1
      have h2 : v1 * 2 ^ (l1 + d) ≤ v2 / 2 ^ e * 2 ^ l1 := by
        calc _ = v1 * 2 ^ d * 2 ^ l1 := by rw [pow_add]; ring
          _ ≤ _ := Nat.mul_le_mul_right _ h1
      omega
  · by_cases c2 : l2 ≤ c
    · obtain ⟨d, rfl⟩ : ∃ d, c = l2 + d := ⟨c - l2, by omega⟩
      obtain ⟨e, rfl⟩ : ∃ e, l1 = l2 + d + e := ⟨l1 - (l2 + d), by omega⟩
      rw [min_eq_left c2, min_eq_right (show l2 + d ≤ l2 + d + e by omega), show l2 + d + e - (l2 + d) = e by omega, Nat.sub_self, pow_zero, Nat.div_one]
      left
      have hlt : v1 * 2 ^ l2 < v2 * 2 ^ (l2 + d + e) := by omega
      have h1 : v1 / 2 ^ e < v2 * 2 ^ d := by
        rw [Nat.div_lt_iff_lt_mul (Nat.two_pow_pos _)]
        have : v1 * 2 ^ l2 < v2 * 2 ^ d * 2 ^ e * 2 ^ l2 := by
          calc _ < _ := hlt
            _ = _ := by rw [pow_add, pow_add]; ring
        exact Nat.lt_of_mul_lt_mul_right this
      calc _ < v2 * 2 ^ d * 2 ^ l2 := Nat.mul_lt_mul_of_pos_right h1 hp2
        _ = _ := by rw [pow_add]; ring
    · obtain ⟨d, rfl⟩ : ∃ d, l1 = c + d := ⟨l1 - c, by omega⟩
      obtain ⟨e, rfl⟩ : ∃ e, l2 = c + e := ⟨l2 - c, by omega⟩
      rw [min_eq_right (by omega), min_eq_right (by omega), Nat.add_sub_cancel_left, Nat.add_sub_cancel_left]
      have h1 : v1 / 2 ^ d ≤ v2 / 2 ^ e := by
        rw [Nat.le_div_iff_mul_le (Nat.two_pow_pos _)]
        have g : v1 / 2 ^ d * 2 ^ d ≤ v1 := Nat.div_mul_le_self _ _
        have g2 : v1 / 2 ^ d * 2 ^ d * 2 ^ (c + e) ≤ v2 * 2 ^ (c + d) := Nat.le_trans (Nat.mul_le_mul_right _ g) hle
        have : v1 / 2 ^ d * 2 ^ e * 2 ^ (c + d) ≤ v2 * 2 ^ (c + d) := by
          calc _ = v1 / 2 ^ d * 2 ^ d * 2 ^ (c + e) := by rw [pow_add, pow_add]; ring
            _ ≤ _ := g2
        exact Nat.le_of_mul_le_mul_right this (Nat.two_pow_pos _)
      have := Nat.mul_le_mul_right (2 ^ c) h1
      omega

/-- Prefixes of one key. -/
theorem pre_cross (k : Key) (l1 l2 : Nat) : pre l1 k * 2 ^ l2 < (pre l2 k + 1) * 2 ^ l1 := by
  rcases Nat.le_total l1 l2 with h | h
  · obtain ⟨d, rfl⟩ := Nat.exists_eq_add_of_le h
    have := pre_split k l1 d
    have h1 : pre l1 k * 2 ^ d < pre (l1 + d) k + 1 := by omega
    calc _ = pre l1 k * 2 ^ d * 2 ^ l1 := by rw [pow_add]; ring
      _ < _ := Nat.mul_lt_mul_of_pos_right h1 (Nat.two_pow_pos _)
  · obtain ⟨d, rfl⟩ := Nat.exists_eq_add_of_le h
    have := pre_split k l2 d
    have hm : pre (l2 + d) k % 2 ^ d < 2 ^ d := Nat.mod_lt _ (Nat.two_pow_pos _)
    have h1 : pre (l2 + d) k < (pre l2 k + 1) * 2 ^ d := by rw [Nat.add_mul, Nat.one_mul]; omega
    calc _ < (pre l2 k + 1) * 2 ^ d * 2 ^ l2 := Nat.mul_lt_mul_of_pos_right h1 (Nat.two_pow_pos _)
      _ = _ := by rw [pow_add]; ring

/-- A string below the key and a string above it, cut to `c` bits. -/
theorem ple_cross {k : Key} {l1 v1 l2 v2 c : Nat} (h1 : v1 ≤ pre l1 k) (h2 : pre l2 k ≤ v2) (h3 : pre l2 k = v2 → c ≤ l2) :
    ple (min l1 c) (v1 / 2 ^ (l1 - min l1 c)) (min l2 c) (v2 / 2 ^ (l2 - min l2 c)) := by
  by_cases he : pre l2 k = v2
  · have hc := h3 he
    have e2 : v2 / 2 ^ (l2 - min l2 c) = pre c k := by
      rw [min_eq_right hc, ← he, ← pre_shorten k (p := c) (q := l2) (by omega)]
    have e1 : v1 / 2 ^ (l1 - min l1 c) ≤ pre (min l1 c) k := by
      rw [pre_shorten k (p := min l1 c) (q := l1) (d := l1 - min l1 c) (by omega)]
      exact Nat.div_le_div_right h1
    rw [e2, min_eq_right hc]
    obtain ⟨d, hd⟩ := Nat.exists_eq_add_of_le (Nat.min_le_right l1 c)
    have e3 : v1 / 2 ^ (l1 - min l1 c) * 2 ^ c ≤ pre c k * 2 ^ min l1 c := by
      have := pre_split k (min l1 c) d
      rw [← hd] at this
      calc _ ≤ pre (min l1 c) k * 2 ^ c := Nat.mul_le_mul_right _ e1
        _ = pre (min l1 c) k * 2 ^ d * 2 ^ min l1 c := by
          rw [Nat.mul_assoc, ← pow_add]; congr 2; omega
        _ ≤ _ := Nat.mul_le_mul_right _ (by omega)
    unfold ple
    omega
  · apply ple_cut
    left
    calc _ ≤ pre l1 k * 2 ^ l2 := Nat.mul_le_mul_right _ h1
      _ < (pre l2 k + 1) * 2 ^ l1 := pre_cross _ _ _
      _ ≤ _ := Nat.mul_le_mul_right _ (by omega)

end Verif
