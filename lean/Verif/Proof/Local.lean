import Verif.Proof.Query

/-!
# Queries look at one region only
-/

namespace Verif

section
variable {c : Cfg} {P Q : Tree} {e q : Key × Store} {k r : Key}

theorem seek_take (he : keyLe k e.1 = true) (st : Store) :
    treeSeek (P ++ e :: Q) k = treeSeek (P ++ [(e.1, st)]) k ∧ treeSeek (P ++ e :: Q) k ≤ P.length := by
  unfold treeSeek
  rw [List.findIdx_append, List.findIdx_append]
  by_cases h : P.findIdx (fun e => keyLe k e.1) < P.length
  · rw [if_pos h, if_pos h]; exact ⟨rfl, by omega⟩
  · rw [if_neg h, if_neg h, List.findIdx_cons, List.findIdx_cons]
    simp [he]

theorem peek_take {i : Nat} (h : i < P.length) (X : Tree) : treePeek (P ++ X) i = treePeek P i := by
  unfold treePeek; rw [List.getElem?_append_left h]

theorem seek_drop (hP : ∀ a ∈ P, keyLt a.1 k = true) :
    treeSeek (P ++ Q) k = treeSeek Q k + P.length := by
  unfold treeSeek
  rw [List.findIdx_append]
  have h1 : P.findIdx (fun e => keyLe k e.1) = P.length := by
    rw [List.findIdx_eq_length]
    intro a ha
    rw [keyLe_iff_not_lt, hP a ha]; rfl
  rw [h1, if_neg (by omega)]

theorem peek_drop (i : Nat) : treePeek (P ++ Q) (i + P.length) = treePeek Q i := by
  unfold treePeek; rw [List.getElem?_append_right (by omega)]; congr 2; omega

/-- The part of the tree above the first boundary not below the key is irrelevant. -/
theorem pointQuery_take (he : keyLe k e.1 = true) (st : Store) :
    pointQuery ⟨c, P ++ e :: Q⟩ k = pointQuery ⟨c, P ++ [(e.1, st)]⟩ k := by
  obtain ⟨h1, h2⟩ := seek_take (P := P) (Q := Q) he st
  unfold pointQuery
  simp only [h1]
  rw [h1] at h2
  generalize treeSeek (P ++ [(e.1, st)]) k = i at *
  rcases Nat.lt_or_eq_of_le h2 with hi | hi
  · rw [peek_take hi, peek_take hi, peek_take (show i - 1 < P.length by omega),
      peek_take (show i - 1 < P.length by omega)]
  · subst hi
    rw [peek_append, peek_append, Res.bind_ok, Res.bind_ok]
    by_cases hz : P.length = 0
    · simp only [hz, if_true]
    · rw [peek_take (show P.length - 1 < P.length by omega), peek_take (show P.length - 1 < P.length by omega)]

theorem rangeQuery_take {io : Bool} (he : keyLe k e.1 = true) (st : Store) :
    rangeQuery io ⟨c, P ++ e :: Q⟩ k r = rangeQuery io ⟨c, P ++ [(e.1, st)]⟩ k r := by
  obtain ⟨h1, h2⟩ := seek_take (P := P) (Q := Q) he st
  unfold rangeQuery
  simp only [h1]
  rw [h1] at h2
  generalize treeSeek (P ++ [(e.1, st)]) k = i at *
  rcases Nat.lt_or_eq_of_le h2 with hi | hi
  · rw [peek_take hi, peek_take hi, peek_take (show i - 1 < P.length by omega),
      peek_take (show i - 1 < P.length by omega)]
  · subst hi
    rw [peek_append, peek_append, Res.bind_ok, Res.bind_ok]
    by_cases hz : P.length = 0
    · simp only [hz, if_true]
    · rw [peek_take (show P.length - 1 < P.length by omega), peek_take (show P.length - 1 < P.length by omega)]

theorem seek_pos (hq : keyLt q.1 k = true) : treeSeek (q :: Q) k ≠ 0 := by
  unfold treeSeek
  rw [List.findIdx_cons]
  have : keyLe k q.1 = false := by rw [keyLe_iff_not_lt, hq]; rfl
  rw [this]; simp

/-- The part of the tree below a boundary smaller than the key is irrelevant. -/
theorem pointQuery_drop (hP : ∀ a ∈ P, keyLt a.1 k = true) (hq : keyLt q.1 k = true) :
    pointQuery ⟨c, P ++ q :: Q⟩ k = pointQuery ⟨c, q :: Q⟩ k := by
  have h1 := seek_drop (Q := q :: Q) hP
  have h2 := seek_pos (Q := Q) hq
  unfold pointQuery
  simp only [h1, peek_drop]
  generalize treeSeek (q :: Q) k = i at *
  obtain ⟨j, rfl⟩ := Nat.exists_eq_succ_of_ne_zero h2
  rw [show j.succ + P.length - 1 = j + P.length by omega, peek_drop]
  simp only [Nat.succ_ne_zero, show j.succ + P.length ≠ 0 by omega, if_false, Nat.succ_sub_one]

theorem rangeQuery_drop {io : Bool} (hP : ∀ a ∈ P, keyLt a.1 k = true) (hq : keyLt q.1 k = true) :
    rangeQuery io ⟨c, P ++ q :: Q⟩ k r = rangeQuery io ⟨c, q :: Q⟩ k r := by
  have h1 := seek_drop (Q := q :: Q) hP
  have h2 := seek_pos (Q := Q) hq
  unfold rangeQuery
  simp only [h1, peek_drop]
  generalize treeSeek (q :: Q) k = i at *
  obtain ⟨j, rfl⟩ := Nat.exists_eq_succ_of_ne_zero h2
  rw [show j.succ + P.length - 1 = j + P.length by omega, peek_drop]
  simp only [Nat.succ_ne_zero, show j.succ + P.length ≠ 0 by omega, if_false, Nat.succ_sub_one]

end

/-- Two filters that differ only between two boundaries (and in the store of the lower one). -/
structure SameOutside (f f' : Filter) (A : Tree) (prev next : Key) (B : Tree) : Prop where
  cfg : f'.cfg = f.cfg
  ok : FilterOK f
  ok' : FilterOK f'
  last : ∃ C C', ∃ st st2 st', f.tree = A ++ (prev, st) :: (C ++ (next, st') :: B) ∧
    f'.tree = A ++ (prev, st2) :: (C' ++ (next, st') :: B)

theorem below_all {f : Filter} (h : FilterOK f) {A B : Tree} {e : Key × Store} (ht : f.tree = A ++ e :: B) {k : Key}
    (hk : keyLe e.1 k = true) : ∀ a ∈ A, keyLt a.1 k = true := fun _ ha =>
  keyLt_of_padLt ((h.before ht ha).trans_le (keyLe_pre hk))

theorem SameOutside.point {f f' : Filter} {A B : Tree} {prev next k : Key} (S : SameOutside f f' A prev next B)
    (hk : ¬ (keyLt prev k = true ∧ keyLt k next = true)) : pointQuery f' k = pointQuery f k := by
  obtain ⟨C, C', st, st2, st', ht, ht'⟩ := S.last
  have e1 : f = ⟨f.cfg, f.tree⟩ := rfl
  have e2 : f' = ⟨f.cfg, f'.tree⟩ := by rw [← S.cfg]
  rcases keyLe_or_lt k prev with hp | hp
  · rw [e1, e2, ht, ht']
    exact (pointQuery_take (e := (prev, st2)) hp st).trans (pointQuery_take (e := (prev, st)) hp st).symm
  · have hn : keyLe next k = true := by
      rcases keyLe_or_lt next k with hh | hh
      · exact hh
      · exact absurd ⟨hp, hh⟩ hk
    have ht1 : f.tree = (A ++ (prev, st) :: C) ++ (next, st') :: B := by rw [ht]; simp
    have ht2 : f'.tree = (A ++ (prev, st2) :: C') ++ (next, st') :: B := by rw [ht']; simp
    by_cases heq : next = k
    · subst heq
      rw [pointQuery_boundary S.ok ht1, pointQuery_boundary S.ok' ht2]
    · have hlt := keyLt_iff.2 ⟨hn, heq⟩
      rw [e1, e2, ht1, ht2, pointQuery_drop (below_all S.ok ht1 hn) hlt, pointQuery_drop (below_all S.ok' ht2 hn) hlt]

theorem SameOutside.range {f f' : Filter} {A B : Tree} {prev next l r : Key} {io : Bool}
    (S : SameOutside f f' A prev next B) (hlr : keyLe l r = true)
    (hk : ¬ (keyLt prev l = true ∧ keyLt l next = true)) : rangeQuery io f' l r = rangeQuery io f l r := by
  obtain ⟨C, C', st, st2, st', ht, ht'⟩ := S.last
  have e1 : f = ⟨f.cfg, f.tree⟩ := rfl
  have e2 : f' = ⟨f.cfg, f'.tree⟩ := by rw [← S.cfg]
  rcases keyLe_or_lt l prev with hp | hp
  · rw [e1, e2, ht, ht']
    exact (rangeQuery_take (e := (prev, st2)) hp st).trans (rangeQuery_take (e := (prev, st)) hp st).symm
  · have hn : keyLe next l = true := by
      rcases keyLe_or_lt next l with hh | hh
      · exact hh
      · exact absurd ⟨hp, hh⟩ hk
    have ht1 : f.tree = (A ++ (prev, st) :: C) ++ (next, st') :: B := by rw [ht]; simp
    have ht2 : f'.tree = (A ++ (prev, st2) :: C') ++ (next, st') :: B := by rw [ht']; simp
    by_cases heq : next = l
    · subst heq
      rw [rangeQuery_boundary S.ok ht1 (keyLe_refl _) hlr, rangeQuery_boundary S.ok' ht2 (keyLe_refl _) hlr]
    · have hlt := keyLt_iff.2 ⟨hn, heq⟩
      rw [e1, e2, ht1, ht2, rangeQuery_drop (below_all S.ok ht1 hn) hlt, rangeQuery_drop (below_all S.ok' ht2 hn) hlt]

end Verif
