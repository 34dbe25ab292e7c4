import Verif.Proof.Bits
import Verif.Model.Store
import Mathlib.Tactic.Positivity
import Mathlib.Tactic.Linarith

/-!
# Lowest set bit and the order of items

An item `x = (2a+1)·2^t` stands for the interval `[x - 2^t, x + 2^t - 1]`.
-/

namespace Verif

theorem odd_decomp {x : Nat} (h : 0 < x) : ∃ a t, x = (2 * a + 1) * 2 ^ t := by
  induction x using Nat.strong_induction_on with
  | _ x ih =>
    rcases Nat.mod_two_eq_zero_or_one x with h2 | h2
    · obtain ⟨a, t, e⟩ := ih (x / 2) (by omega) (by omega)
      refine ⟨a, t + 1, ?_⟩
      rw [pow_succ, ← Nat.mul_assoc, ← e]; omega
    · exact ⟨x / 2, 0, by omega⟩

theorem testBit_mul_pow_add (a t r i : Nat) (hr : r < 2 ^ t) :
    (a * 2 ^ t + r).testBit i = if i < t then r.testBit i else a.testBit (i - t) := by
  rw [Nat.mul_comm, Nat.testBit_two_pow_mul_add a hr]

theorem sub64_of_le {a b : Nat} (ha : a < 2 ^ 64) (hb : b ≤ a) : sub64 a b = a - b := by
  unfold sub64; omega

theorem lb64_odd {a t : Nat} (h : (2 * a + 1) * 2 ^ t < 2 ^ 64) :
    lb64 ((2 * a + 1) * 2 ^ t) = 2 ^ t := by
  have ht : 0 < 2 ^ t := Nat.two_pow_pos t
  have hx : 0 < (2 * a + 1) * 2 ^ t := Nat.mul_pos (by omega) ht
  have ht64 : t < 64 := by
    by_contra hc
    have h1 : 2 ^ 64 ≤ 2 ^ t := Nat.pow_le_pow_right (by decide) (by omega)
    have h2 : 1 * 2 ^ t ≤ (2 * a + 1) * 2 ^ t := Nat.mul_le_mul_right _ (by omega)
    omega
  have hneg : neg64 ((2 * a + 1) * 2 ^ t) = 2 ^ 64 - ((2 * a * 2 ^ t + (2 ^ t - 1)) + 1) := by
    have e : (2 * a + 1) * 2 ^ t = 2 * a * 2 ^ t + (2 ^ t - 1) + 1 := by
      rw [Nat.add_mul]; omega
    rw [← e]
    unfold neg64 sub64; omega
  have hlt : 2 * a * 2 ^ t + (2 ^ t - 1) < 2 ^ 64 := by
    have e : (2 * a + 1) * 2 ^ t = 2 * a * 2 ^ t + 2 ^ t := by rw [Nat.add_mul]; omega
    omega
  unfold lb64
  rw [hneg]
  apply testBit_ext; intro i
  rw [Nat.testBit_and, Nat.testBit_two_pow_sub_succ hlt, testBit_mul_pow_add _ _ _ _ (by omega),
    Nat.testBit_two_pow]
  have e := testBit_mul_pow_add (2 * a + 1) t 0 i ht
  rw [Nat.add_zero] at e
  rw [e]
  by_cases hi : i < t
  · have : ¬ t = i := by omega
    simp [hi, this]
  · rw [if_neg hi, if_neg hi]
    by_cases h2 : t = i
    · subst h2; simp [ht64]
    · obtain ⟨k, hk⟩ : ∃ k, i - t = k + 1 := ⟨i - t - 1, by omega⟩
      rw [hk, Nat.testBit_succ, Nat.testBit_succ]
      have e1 : (2 * a + 1) / 2 = a := by omega
      have e2 : 2 * a / 2 = a := by omega
      rw [e1, e2]
      cases a.testBit k <;> simp [h2]

theorem nolb64_odd {a t : Nat} (h : (2 * a + 1) * 2 ^ t < 2 ^ 64) :
    nolb64 ((2 * a + 1) * 2 ^ t) = 2 * a * 2 ^ t := by
  have e : (2 * a + 1) * 2 ^ t = 2 * a * 2 ^ t + 2 ^ t := by rw [Nat.add_mul]; omega
  rw [nolb64, lb64_odd h, sub64_of_le h (by omega)]; omega

/-- Exponent decomposition of a nonzero item part below `2^s`. -/
theorem lb64_facts {x : Nat} (h0 : 0 < x) (h : x < 2 ^ 64) :
    ∃ a t, x = (2 * a + 1) * 2 ^ t ∧ lb64 x = 2 ^ t ∧ nolb64 x = 2 * a * 2 ^ t := by
  obtain ⟨a, t, rfl⟩ := odd_decomp h0
  exact ⟨a, t, rfl, lb64_odd h, nolb64_odd h⟩

theorem lb64_pos {x : Nat} (h0 : 0 < x) (h : x < 2 ^ 64) : 0 < lb64 x := by
  obtain ⟨a, t, _, h2, _⟩ := lb64_facts h0 h
  rw [h2]; exact Nat.two_pow_pos t

theorem nolb_add_lb {x : Nat} (h0 : 0 < x) (h : x < 2 ^ 64) : nolb64 x + lb64 x = x := by
  obtain ⟨a, t, h1, h2, h3⟩ := lb64_facts h0 h
  rw [h2, h3]; conv_rhs => rw [h1]
  ring

/-- Lowest bit and rest of an item with quotient `q` and nonzero explicit part `e`. -/
theorem lb64_item {q e s : Nat} (he0 : 0 < e) (he : e < 2 ^ s) (hx : q * 2 ^ s + e < 2 ^ 64) :
    lb64 (q * 2 ^ s + e) = lb64 e ∧ nolb64 (q * 2 ^ s + e) = q * 2 ^ s + nolb64 e := by
  have he64 : e < 2 ^ 64 := by omega
  obtain ⟨a, t, rfl⟩ := odd_decomp he0
  have hts : t < s := by
    by_contra hc
    have h1 : 2 ^ s ≤ 2 ^ t := Nat.pow_le_pow_right (by decide) (by omega)
    have h2 : 1 * 2 ^ t ≤ (2 * a + 1) * 2 ^ t := Nat.mul_le_mul_right _ (by omega)
    omega
  have e1 : 2 ^ s = 2 * 2 ^ (s - t - 1) * 2 ^ t := by
    rw [← pow_succ', ← pow_add]; congr 1; omega
  have e2 : q * 2 ^ s + (2 * a + 1) * 2 ^ t = (2 * (q * 2 ^ (s - t - 1) + a) + 1) * 2 ^ t := by
    rw [e1]; ring
  rw [e2] at hx ⊢
  rw [lb64_odd hx, nolb64_odd hx, lb64_odd he64, nolb64_odd he64]
  refine ⟨rfl, ?_⟩
  rw [e1]; ring

theorem lb64_of_odd {e : Nat} (ho : e % 2 = 1) (he : e < 2 ^ 64) : lb64 e = 1 ∧ nolb64 e = e - 1 := by
  have e1 : e = (2 * (e / 2) + 1) * 2 ^ 0 := by omega
  have h := he
  rw [e1] at h
  have h1 := lb64_odd h
  have h2 := nolb64_odd h
  rw [← e1] at h1 h2
  exact ⟨h1, by rw [h2]; omega⟩

/-- Order of items in a region: by left end of the interval, longer intervals first. -/
def ile (x y : Nat) : Prop :=
  nolb64 x < nolb64 y ∨ (nolb64 x = nolb64 y ∧ lb64 y ≤ lb64 x)

instance (x y : Nat) : Decidable (ile x y) := by unfold ile; infer_instance

theorem ile_refl (x : Nat) : ile x x := Or.inr ⟨rfl, Nat.le_refl _⟩

theorem ile_trans {x y z : Nat} (h1 : ile x y) (h2 : ile y z) : ile x z := by
  unfold ile at *; omega

theorem ile_total (x y : Nat) : ile x y ∨ ile y x := by
  unfold ile; omega

theorem ile_nolb {x y : Nat} (h : ile x y) : nolb64 x ≤ nolb64 y := by
  unfold ile at h; omega

theorem nolb64_div {x s : Nat} (h0 : x % 2 ^ s ≠ 0) (hx : x < 2 ^ 64) :
    nolb64 x / 2 ^ s = x / 2 ^ s ∧ nolb64 x = x / 2 ^ s * 2 ^ s + nolb64 (x % 2 ^ s) ∧
      lb64 x = lb64 (x % 2 ^ s) := by
  have hs : 0 < 2 ^ s := Nat.two_pow_pos s
  have hmod : x % 2 ^ s < 2 ^ s := Nat.mod_lt _ hs
  have e : x / 2 ^ s * 2 ^ s + x % 2 ^ s = x := by rw [Nat.mul_comm]; exact Nat.div_add_mod x _
  obtain ⟨h1, h2⟩ := lb64_item (q := x / 2 ^ s) (Nat.pos_of_ne_zero h0) hmod (by omega)
  rw [e] at h1 h2
  have h3 := nolb_add_lb (Nat.pos_of_ne_zero h0) (show x % 2 ^ s < 2 ^ 64 by omega)
  refine ⟨?_, h2, h1⟩
  have h4 : nolb64 (x % 2 ^ s) / 2 ^ s = 0 := Nat.div_eq_of_lt (by omega)
  rw [h2, Nat.mul_comm, Nat.mul_add_div hs, h4, Nat.add_zero]

/-- The order refines the order of quotients. -/
theorem ile_quot {x y s : Nat} (hx0 : x % 2 ^ s ≠ 0) (hy0 : y % 2 ^ s ≠ 0) (hx : x < 2 ^ 64)
    (hy : y < 2 ^ 64) (h : ile x y) : x / 2 ^ s ≤ y / 2 ^ s := by
  rw [← (nolb64_div hx0 hx).1, ← (nolb64_div hy0 hy).1]
  exact Nat.div_le_div_right (ile_nolb h)

/-- Items with smaller quotient come first. -/
theorem ile_of_quot_lt {x y s : Nat} (hx0 : x % 2 ^ s ≠ 0) (hy0 : y % 2 ^ s ≠ 0) (hx : x < 2 ^ 64)
    (hy : y < 2 ^ 64) (h : x / 2 ^ s < y / 2 ^ s) : ile x y := by
  left
  rw [← (nolb64_div hx0 hx).1, ← (nolb64_div hy0 hy).1] at h
  by_contra hc
  have := Nat.div_le_div_right (c := 2 ^ s) (show nolb64 y ≤ nolb64 x by omega)
  omega

/-- Within a quotient the order is the order of explicit parts. -/
theorem ile_same_quot {x y s : Nat} (hx0 : x % 2 ^ s ≠ 0) (hy0 : y % 2 ^ s ≠ 0) (hx : x < 2 ^ 64)
    (hy : y < 2 ^ 64) (h : x / 2 ^ s = y / 2 ^ s) : ile x y ↔ ile (x % 2 ^ s) (y % 2 ^ s) := by
  obtain ⟨_, h2, h3⟩ := nolb64_div hx0 hx
  obtain ⟨_, h5, h6⟩ := nolb64_div hy0 hy
  unfold ile
  rw [h2, h3, h5, h6, h]
  omega

end Verif
