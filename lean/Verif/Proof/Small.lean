import Verif.Proof.SplitTotal
import Verif.Proof.Reach2

/-!
# When the levels always fit, and when a split returns
-/

namespace Verif

theorem level_ge {prev next : Key} {p : Nat} (h : Level prev next p) : 10 ≤ p := by
  obtain ⟨sh, ig, _, _, _, _, _, e⟩ := h
  split_ifs at e <;> omega

/-- A level is at most ten bits above the last significant bit of the keys. -/
theorem level_le {prev next : Key} {p m : Nat} (h : Level prev next p) (h1 : ∀ i, m ≤ i → kbit prev i = 0)
    (h2 : ∀ i, m ≤ i → kbit next i = 0) : p ≤ m + 10 := by
  obtain ⟨sh, ig, _, _, e3, e4, _, e⟩ := h
  have hsh : sh < m := by
    by_contra hc
    rw [h2 sh (by omega)] at e3; omega
  have hig : sh + ig < m := by
    by_contra hc
    have := (e4 (sh + ig) (by omega) (by omega)).1
    rw [h1 _ (by omega)] at this; omega
  split_ifs at e <;> omega

theorem cut_zero {p n : Nat} {key E : Key} (h : CutOf p key E) (hk : key.length ≤ n) : ∀ i, 8 * n ≤ i → kbit E i = 0 := by
  intro i hi
  rcases h with rfl | ⟨z, _, h1, h2⟩
  · exact kbit_of_ge (by omega)
  · by_cases hc : z ≤ i
    · exact h2 i hc
    · rw [pre_eq_iff.1 h1 i (by omega)]
      exact kbit_of_ge (by omega)

/-- For short keys the levels always fit. -/
theorem levelsFit_small {f : Filter} {n : Nat} (hn : 8 * n + f.cfg.infixSize ≤ 54) (hlen : LenLe n f) {key : Key}
    (hk : key.length ≤ n) : LevelsFit f key := by
  intro prev next E p hadj h1 h2 hl hcut
  have hp := level_ge hl
  obtain ⟨A, st, st', B, ht⟩ := hadj.split
  have lp : prev.length ≤ n := hlen (prev, st) (by rw [ht]; simp)
  have ln : next.length ≤ n := hlen (next, st') (by rw [ht]; simp)
  have z1 : ∀ i, 8 * n ≤ i → kbit prev i = 0 := fun i hi => kbit_of_ge (by omega)
  have z2 : ∀ i, 8 * n ≤ i → kbit next i = 0 := fun i hi => kbit_of_ge (by omega)
  have z3 := cut_zero hcut hk
  exact ⟨fun pL hL => by have := level_le hL z1 z3; omega, fun pG hG => by have := level_le hG z3 z2; omega⟩

/-- A shortened key of the full length is not equivalent to the upper boundary. -/
theorem cut_not_next {p : Nat} {key E next : Key} (h : CutOf p key E) (h2 : keyLt key next = true)
    (hlen : next.length ≤ key.length) : ¬ PadEq E next := by
  intro he
  have hle : ∀ q, pre q E ≤ pre q key := by
    rcases h with rfl | ⟨z, _, g1, g2⟩
    · exact fun q => Nat.le_refl _
    · intro q
      by_cases hq : q ≤ z
      · rw [pre_eq_len hq g1]
      · obtain ⟨j, rfl⟩ := Nat.exists_eq_add_of_le (show z ≤ q by omega)
        rw [pre_zeros g2, g1, pre_split key z j]
        omega
  have hle2 := fun q => keyLe_pre (keyLt_keyLe h2) q
  have heq : PadEq next key := fun q => Nat.le_antisymm (by rw [← he q]; exact hle q) (hle2 q)
  have := keyLe_of_padEq heq hlen
  rw [keyLe_iff_not_lt, h2] at this
  cases this

end Verif
