import Verif.Proof.Rewrite2
import Mathlib.Algebra.Order.BigOperators.Group.List

/-!
# The number of re-encoded items is the number the code computes
-/

namespace Verif

section
variable {s sa p base : Nat} {a b : Key}

theorem expand_ne (R : RW s sa p base a b) {m t : Nat} (O : OldItem s p base a b ((2 * m + 1) * 2 ^ t))
    (ht : s ≤ t + sa) :
    0 < (expandItem s sa (rwLo sa p base a * 2 ^ s) (rwLo sa p base b * 2 ^ s) ((2 * m + 1) * 2 ^ t)).length := by
  have hx := (item_bound (s := s) (by have := R.s2; omega) O.quot).2
  obtain ⟨b1, b2, b3, b4, b5⟩ := R.bounds
  have hlt : t < s := by
    by_contra hc
    apply O.expl
    obtain ⟨j, hj⟩ : ∃ j, t = s + j := ⟨t - s, by omega⟩
    rw [hj, pow_add, ← Nat.mul_assoc, Nat.mul_right_comm, Nat.mul_mod_left]
  have lo := O.lo
  have hi := O.hi
  rw [ilen_odd hx, ival_odd hx] at lo hi
  have e1 : p + sa = (p + s - 1 - t) + (t + sa - s + 1) := by omega
  have e2 : ∀ k, pre (p + s - 1 - t) k = pre (p + sa) k / 2 ^ (t + sa - s + 1) := by
    intro k
    conv_rhs => rw [e1]
    rw [pre_add]
  have e3 : base * 2 ^ sa = base * 2 ^ (s - 1 - t) * 2 ^ (t + sa - s + 1) := by
    rw [Nat.mul_assoc, ← pow_add]; congr 2; omega
  have e4 : ∀ y, (y + base * 2 ^ sa) / 2 ^ (t + sa - s + 1) = y / 2 ^ (t + sa - s + 1) + base * 2 ^ (s - 1 - t) := by
    intro y
    rw [e3, Nat.add_mul_div_right _ _ (Nat.two_pow_pos _)]
  rw [e2, ← b4, e4] at lo
  rw [e2, ← b5, e4] at hi
  generalize hw : 2 ^ (t + sa - s + 1) = w at *
  have hp : 0 < w := by rw [← hw]; exact Nat.two_pow_pos _
  have l1 : rwLo sa p base a / w ≤ m := by omega
  have l2 : m ≤ rwLo sa p base b / w := by omega
  have l3 : rwLo sa p base a < (m + 1) * w := by
    rw [← Nat.div_lt_iff_lt_mul hp]; omega
  have l4 : m * w ≤ rwLo sa p base b := by
    rwa [← Nat.le_div_iff_mul_le hp]
  have := (expand_wide R O ht ((2 * (max (rwLo sa p base a) (m * w) - rwLo sa p base a) + 1) * 2 ^ (s - 1))).2
    ⟨max (rwLo sa p base a) (m * w), ?_, by omega, by omega, rfl⟩
  · exact List.length_pos_of_mem this
  · rw [hw, Nat.div_eq_iff hp]
    rw [Nat.add_mul] at l3
    omega

/-- Items written for one old item. -/
theorem expand_len (R : RW s sa p base a b) {x : Nat} (O : OldItem s p base a b x) :
    1 ≤ (expandItem s sa (rwLo sa p base a * 2 ^ s) (rwLo sa p base b * 2 ^ s) x).length ∧
    (expandItem s sa (rwLo sa p base a * 2 ^ s) (rwLo sa p base b * 2 ^ s) x).length ≤ 1024 ∧
    ∀ n flag, n + 1023 < 2 ^ 32 →
      (if lowbitPos x + sa ≥ s then
        (add32 n (sub64 (min (shl64 x sa >>> s ||| sub64 (shl64 x sa >>> s) 1) ((rwLo sa p base b * 2 ^ s) >>> s))
          (max (sub64 (shl64 x sa >>> s) (lb64 (shl64 x sa >>> s))) ((rwLo sa p base a * 2 ^ s) >>> s)) % 2 ^ 32), true)
      else (n, flag)).1 =
      n + ((expandItem s sa (rwLo sa p base a * 2 ^ s) (rwLo sa p base b * 2 ^ s) x).length - 1) := by
  have hx := (item_bound (s := s) (by have := R.s2; omega) O.quot).2
  obtain ⟨b1, b2, b3, b4, b5⟩ := R.bounds
  obtain ⟨h1, h2⟩ := shl_val R.fit O.quot
  have hs := R.s2
  obtain ⟨m, t, rfl, ht⟩ := item_decomp O.expl
  rw [lowbitPos_odd hx]
  by_cases hc : t + sa < s
  · rw [expand_keep R O hc]
    refine ⟨by simp, by simp, ?_⟩
    intro n flag _
    rw [if_neg (by omega)]
    simp
  · have hc' : s ≤ t + sa := by omega
    have hne := expand_ne R O hc'
    have e3 : ∀ z, (z * 2 ^ s) >>> s = z := fun z => by
      rw [Nat.shiftRight_eq_div_pow, Nat.mul_div_cancel _ (Nat.two_pow_pos s)]
    have hz : shl64 ((2 * m + 1) * 2 ^ t) sa &&& bitmask s = 0 := by
      obtain ⟨u, hu⟩ : ∃ u, t + sa = s + u := ⟨t + sa - s, by omega⟩
      have e1 : (2 * m + 1) * 2 ^ t * 2 ^ sa = (2 * m + 1) * 2 ^ u * 2 ^ s := by
        rw [Nat.mul_assoc, ← pow_add, hu, pow_add]; ring
      rw [h1, and_bitmask _ _ (by omega), e1, Nat.mul_mod_left]
    unfold expandItem at hne ⊢
    dsimp only at hne ⊢
    rw [if_pos hz, List.length_map, List.length_range] at hne ⊢
    rw [e3, e3] at hne ⊢
    have hb64 : rwLo sa p base b < 2 ^ 64 :=
      Nat.lt_of_le_of_lt (Nat.le_mul_of_pos_right _ (Nat.two_pow_pos s)) b3
    refine ⟨hne, by omega, ?_⟩
    intro n flag hn
    rw [if_pos hc']
    rw [sub64_of_le (by omega) (by omega), Nat.mod_eq_of_lt (by omega)]
    unfold add32
    dsimp only
    rw [Nat.mod_eq_of_lt (by omega)]
    omega

theorem expandedLength_eq (R : RW s sa p base a b) : ∀ {list : List Nat} (acc : Nat × Bool),
    (∀ x ∈ list, OldItem s p base a b x) → acc.1 + 1024 * list.length < 2 ^ 32 →
    (expandedLength s sa (rwLo sa p base a * 2 ^ s) (rwLo sa p base b * 2 ^ s) list acc).1 + list.length =
      acc.1 + (list.flatMap (expandItem s sa (rwLo sa p base a * 2 ^ s) (rwLo sa p base b * 2 ^ s))).length
  | [], acc, _, _ => by simp [expandedLength]
  | x :: list, (n, fl), hO, hb => by
    rw [List.length_cons, Nat.mul_add_one, ← Nat.add_assoc] at hb
    dsimp only at hb
    have hn : n + 1023 < 2 ^ 32 := by omega
    obtain ⟨l1, l2, l3⟩ := expand_len R (hO x (by simp))
    have e := l3 n fl hn
    have ih := expandedLength_eq R (list := list)
      (if lowbitPos x + sa ≥ s then
        (add32 n (sub64 (min (shl64 x sa >>> s ||| sub64 (shl64 x sa >>> s) 1) ((rwLo sa p base b * 2 ^ s) >>> s))
          (max (sub64 (shl64 x sa >>> s) (lb64 (shl64 x sa >>> s))) ((rwLo sa p base a * 2 ^ s) >>> s)) % 2 ^ 32), true)
      else (n, fl)) (fun y hy => hO y (by simp [hy])) (by rw [e]; omega)
    rw [expandedLength]
    dsimp only
    rw [List.flatMap_cons, List.length_append, List.length_cons]
    rw [e] at ih
    omega

/-- The re-encoding is always defined. -/
theorem rewrite_ok (R : RW s sa p base a b) {list : List Nat} (hO : ∀ x ∈ list, OldItem s p base a b x)
    (hl : list.length < 2 ^ 20) :
    ∃ res, rewriteList s sa (rwLo sa p base a * 2 ^ s) (rwLo sa p base b * 2 ^ s) list = .ok res := by
  have e := expandedLength_eq R (list.length, false) hO (by simp only; omega)
  have hf := expandedLength_flag (s := s) (sa := sa) (rwLo sa p base a * 2 ^ s) (rwLo sa p base b * 2 ^ s) list (list.length, false)
  unfold rewriteList
  generalize expandedLength s sa (rwLo sa p base a * 2 ^ s) (rwLo sa p base b * 2 ^ s) list (list.length, false) = E at *
  obtain ⟨len, flag⟩ := E
  dsimp only at e hf ⊢
  refine ⟨_, if_pos ?_⟩
  unfold updateInfixList
  by_cases hc : flag = true
  · rw [if_pos hc, (sortInfixes_perm _).length_eq]
    omega
  · rw [if_neg hc, List.length_map]
    have hone : ∀ x ∈ list, (expandItem s sa (rwLo sa p base a * 2 ^ s) (rwLo sa p base b * 2 ^ s) x).length = 1 := by
      intro x hx
      have O := hO x hx
      have hb := (item_bound (s := s) (by have := R.s2; omega) O.quot).2
      have h1 : ¬ lowbitPos x + sa ≥ s := by
        intro h
        apply hc
        rw [hf, Bool.or_eq_true, List.any_eq_true]
        exact Or.inr ⟨x, hx, by simpa using h⟩
      obtain ⟨m, t, rfl, ht⟩ := item_decomp O.expl
      rw [lowbitPos_odd hb] at h1
      rw [expand_keep R O (by omega)]
      rfl
    have : (list.flatMap (expandItem s sa (rwLo sa p base a * 2 ^ s) (rwLo sa p base b * 2 ^ s))).length = list.length := by
      clear e hf hl hO
      induction list with
      | nil => rfl
      | cons x l ih =>
        rw [List.flatMap_cons, List.length_append, hone x (by simp), ih (fun y hy => hone y (by simp [hy])), List.length_cons]
        omega
    omega

end

end Verif
