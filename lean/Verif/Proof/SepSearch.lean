import Verif.Proof.Rewrite2

/-!
# Where `InsertSplit` cuts the list of items
-/

namespace Verif

theorem getD_eq {l : List Nat} {i : Nat} (h : i < l.length) : l.getD i 0 = l[i] := by
  rw [List.getD_eq_getElem?_getD, List.getElem?_eq_getElem h]; rfl

theorem sorted_getD {l : List Nat} (h : l.Pairwise ile) {i j : Nat} (hij : i ≤ j) (hj : j < l.length) :
    ile (l.getD i 0) (l.getD j 0) := by
  rw [getD_eq (by omega), getD_eq hj]
  rcases Nat.lt_or_eq_of_le hij with h1 | h1
  · exact (List.pairwise_iff_getElem.1 h) i j (by omega) hj h1
  · subst h1; exact ile_refl _

theorem sepSearch_spec {list : List Nat} (hs : list.Pairwise ile) (sep : Nat) : ∀ (fuel : Nat) (l r : Int),
    -1 ≤ l → l < r → r ≤ list.length → r - l ≤ fuel →
    (∀ i : Nat, (i : Int) ≤ l → nolb64 (list.getD i 0) ≤ sub64 sep 1) →
    (∀ i : Nat, r ≤ (i : Int) → i < list.length → sub64 sep 1 < nolb64 (list.getD i 0)) →
    0 ≤ sepSearch list sep fuel l r ∧ sepSearch list sep fuel l r ≤ list.length ∧
    (∀ i : Nat, (i : Int) < sepSearch list sep fuel l r → nolb64 (list.getD i 0) ≤ sub64 sep 1) ∧
    (∀ i : Nat, sepSearch list sep fuel l r ≤ (i : Int) → i < list.length → sub64 sep 1 < nolb64 (list.getD i 0)) := by
  intro fuel
  induction fuel with
  | zero => intro l r h1 h2 h3 h4; omega
  | succ fuel ih =>
    intro l r h1 h2 h3 h4 hl hr
    rw [sepSearch]
    by_cases hc : r - l > 1
    · rw [if_pos hc]
      dsimp only
      have m1 : l < (l + r) / 2 := by omega
      have m2 : (l + r) / 2 < r := by omega
      have m3 : 0 ≤ (l + r) / 2 := by omega
      have e1 : (((l + r) / 2).toNat : Int) = (l + r) / 2 := Int.toNat_of_nonneg m3
      by_cases hm : nolb64 (list.getD ((l + r) / 2).toNat 0) ≤ sub64 sep 1
      · rw [if_pos hm]
        refine ih _ _ (by omega) m2 h3 (by omega) ?_ hr
        intro i hi
        refine Nat.le_trans (ile_nolb (sorted_getD hs (j := ((l + r) / 2).toNat) (by omega) (by omega))) hm
      · rw [if_neg hm]
        refine ih _ _ h1 m1 (by omega) (by omega) hl ?_
        intro i hi hi'
        exact Nat.lt_of_lt_of_le (Nat.lt_of_not_le hm) (ile_nolb (sorted_getD hs (i := ((l + r) / 2).toNat) (by omega) hi'))
    · rw [if_neg hc]
      refine ⟨by omega, h3, ?_, hr⟩
      intro i hi
      exact hl i (by omega)

theorem mask_match {m t sep : Nat} (ht : t + 1 < 64) (h : (2 * m + 1) * 2 ^ t < 2 ^ 64) :
    ((2 * m + 1) * 2 ^ t ||| sub64 (shl64 (lb64 ((2 * m + 1) * 2 ^ t)) 1) 1 =
      sep ||| sub64 (shl64 (lb64 ((2 * m + 1) * 2 ^ t)) 1) 1) ↔ Covers ((2 * m + 1) * 2 ^ t) sep := by
  have hp : 2 ^ (t + 1) < 2 ^ 64 := Nat.pow_lt_pow_right (by decide) ht
  have e : sub64 (shl64 (lb64 ((2 * m + 1) * 2 ^ t)) 1) 1 = bitmask (t + 1) := by
    rw [lb64_odd h, bitmask_eq _ (by omega)]
    have : shl64 (2 ^ t) 1 = 2 ^ (t + 1) := by
      unfold shl64
      rw [Nat.shiftLeft_eq, show 1 % 64 = 1 from rfl, ← pow_add, Nat.mod_eq_of_lt hp]
    rw [this, sub64_of_le hp (Nat.two_pow_pos _)]
  rw [e, or_mask_eq (by omega), odd_div, covers_odd h]
  exact eq_comm

/-- The scan finds the first item whose prefix matches. -/
theorem zeroScan_spec {list : List Nat} {s sep : Nat} (hs : list.Pairwise ile) (hs46 : s ≤ 46)
    (hitem : ∀ x ∈ list, x % 2 ^ s ≠ 0 ∧ x < 2 ^ 64) (base : Nat) : ∀ (i : Nat) (acc : Nat × Option Nat),
    i ≤ list.length → (∀ j, j < i → list.getD j 0 / 2 ^ s ≤ sep / 2 ^ s) →
    (zeroScan list s sep base i acc = acc ∧ ∀ j, j < i → ¬ Covers (list.getD j 0) sep) ∨
    (∃ j, j < i ∧ Covers (list.getD j 0) sep ∧ (∀ j', j' < j → ¬ Covers (list.getD j' 0) sep) ∧
      zeroScan list s sep base i acc = (j, some (base - tz (list.getD j 0) - 1))) := by
  intro i
  induction i with
  | zero => intro acc _ _; left; exact ⟨rfl, by omega⟩
  | succ i ih =>
    intro acc hi hq
    have hmem : list.getD i 0 ∈ list := by rw [getD_eq (by omega)]; exact List.getElem_mem _
    obtain ⟨h0, h64⟩ := hitem _ hmem
    rw [zeroScan]
    dsimp only
    rw [Nat.shiftRight_eq_div_pow, Nat.shiftRight_eq_div_pow]
    by_cases hc : list.getD i 0 / 2 ^ s = sep / 2 ^ s
    · rw [if_pos hc]
      have hmm : (list.getD i 0 ||| sub64 (shl64 (lb64 (list.getD i 0)) 1) 1 =
          sep ||| sub64 (shl64 (lb64 (list.getD i 0)) 1) 1) ↔ Covers (list.getD i 0) sep := by
        obtain ⟨m, t, e, ht⟩ := item_decomp h0
        rw [e] at h64 ⊢
        exact mask_match (by omega) h64
      have hlp : lowbitPos (list.getD i 0) = tz (list.getD i 0) := by
        obtain ⟨m, t, e, ht⟩ := item_decomp h0
        rw [e] at h64 ⊢
        rw [lowbitPos_odd h64, tz_odd h64]
      by_cases hm : Covers (list.getD i 0) sep
      · rw [if_pos (hmm.2 hm), hlp]
        right
        rcases ih (i, some (base - tz (list.getD i 0) - 1)) (by omega) (fun j hj => hq j (by omega)) with ⟨g1, g2⟩ | ⟨j, g1, g2, g3, g4⟩
        · exact ⟨i, by omega, hm, g2, g1⟩
        · exact ⟨j, by omega, g2, g3, g4⟩
      · rw [if_neg (fun h => hm (hmm.1 h))]
        rcases ih acc (by omega) (fun j hj => hq j (by omega)) with ⟨g1, g2⟩ | ⟨j, g1, g2, g3, g4⟩
        · left
          refine ⟨g1, ?_⟩
          intro j hj
          rcases Nat.lt_or_eq_of_le (Nat.le_of_lt_succ hj) with h | h
          · exact g2 j h
          · subst h; exact hm
        · right; exact ⟨j, by omega, g2, g3, g4⟩
    · rw [if_neg hc]
      left
      refine ⟨rfl, ?_⟩
      intro j hj hcov
      have hmemj : list.getD j 0 ∈ list := by rw [getD_eq (by omega)]; exact List.getElem_mem _
      obtain ⟨g0, g64⟩ := hitem _ hmemj
      have h1 := ((covers_iff g0 g64).1 hcov).1
      have h2 := hq i (by omega)
      have h3 := ile_quot g0 h0 g64 h64 (sorted_getD hs (show j ≤ i by omega) (by omega))
      omega

end Verif
