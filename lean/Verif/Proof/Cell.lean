import Verif.Proof.Reach
import Verif.Spec.Cell

/-!
# Answers and cells
-/

namespace Verif

theorem adjacent_of {f : Filter} {A B : Tree} {p e : Key × Store} (ht : f.tree = A ++ p :: e :: B) :
    Adjacent f p.1 e.1 := by
  refine ⟨A.length, ?_, ?_⟩
  · unfold boundaries; rw [ht]; simp
  · unfold boundaries
    rw [ht, List.map_append, List.getElem?_append_right (by simp)]
    simp

theorem Adjacent.split {f : Filter} {prev next : Key} (h : Adjacent f prev next) :
    ∃ A st st' B, f.tree = A ++ (prev, st) :: (next, st') :: B := by
  obtain ⟨i, h1, h2⟩ := h
  unfold boundaries at h1 h2
  rw [List.getElem?_map, Option.map_eq_some_iff] at h1 h2
  obtain ⟨⟨a, st⟩, h1, rfl⟩ := h1
  obtain ⟨⟨b, st'⟩, h2, rfl⟩ := h2
  obtain ⟨g1, e1⟩ := List.getElem?_eq_some_iff.1 h1
  obtain ⟨g2, e2⟩ := List.getElem?_eq_some_iff.1 h2
  refine ⟨f.tree.take i, st, st', f.tree.drop (i + 2), ?_⟩
  dsimp only
  rw [← e1, ← e2, ← List.drop_eq_getElem_cons g2, ← List.drop_eq_getElem_cons g1, List.take_append_drop]

theorem FilterOK.sorted {f : Filter} (h : FilterOK f) : (boundaries f).Pairwise fun a b => keyLt a b = true := by
  unfold boundaries
  rw [List.pairwise_map]
  exact h.pairwise.imp fun h => keyLt_of_padLt h

theorem Adjacent.unique {f : Filter} (h : FilterOK f) {p e p' e' k : Key} (h1 : Adjacent f p e) (h2 : Adjacent f p' e')
    (a1 : keyLe p k = true) (a2 : keyLt k e = true) (b1 : keyLe p' k = true) (b2 : keyLt k e' = true) : p = p' ∧ e = e' := by
  have hs := h.sorted
  obtain ⟨i, i1, i2⟩ := h1
  obtain ⟨j, j1, j2⟩ := h2
  obtain ⟨g1, rfl⟩ := List.getElem?_eq_some_iff.1 i1
  obtain ⟨g2, rfl⟩ := List.getElem?_eq_some_iff.1 i2
  obtain ⟨g3, rfl⟩ := List.getElem?_eq_some_iff.1 j1
  obtain ⟨g4, rfl⟩ := List.getElem?_eq_some_iff.1 j2
  have mono : ∀ a b (ha : a < (boundaries f).length) (hb : b < (boundaries f).length), a ≤ b →
      keyLe (boundaries f)[a] (boundaries f)[b] = true := by
    intro a b ha hb hab
    rcases Nat.eq_or_lt_of_le hab with rfl | hlt
    · exact keyLe_refl _
    · exact keyLt_keyLe (List.pairwise_iff_getElem.1 hs a b ha hb hlt)
  have clash : ∀ {x y : Key}, keyLe x y = true → keyLe y k = true → keyLt k x = true → False := by
    intro x y h1 h2 h3
    have := keyLe_trans h1 h2
    rw [keyLe_iff_not_lt, h3] at this; cases this
  rcases Nat.lt_trichotomy i j with hij | rfl | hij
  · exact (clash (mono (i + 1) j g2 g3 hij) b1 a2).elim
  · exact ⟨rfl, rfl⟩
  · exact (clash (mono (j + 1) i g4 g1 hij) a1 b2).elim

theorem Adjacent.congr {f f' : Filter} (hb : boundaries f' = boundaries f) {p e : Key} :
    Adjacent f' p e ↔ Adjacent f p e := by unfold Adjacent; rw [hb]

theorem SameCell.congr {f f' : Filter} (hb : boundaries f' = boundaries f) (hc : f'.cfg = f.cfg) {key k : Key} :
    SameCell f' key k ↔ SameCell f key k := by
  unfold SameCell Adjacent; rw [hb, hc]

theorem CellMeets.congr {f f' : Filter} (hb : boundaries f' = boundaries f) (hc : f'.cfg = f.cfg) {key l r : Key} :
    CellMeets f' key l r ↔ CellMeets f key l r := by
  unfold CellMeets Adjacent; rw [hb, hc]

theorem meetL_insert {s p : Nat} {prev key l r : Key} {X Y : List Nat} {x : Nat}
    (hx : ilen s p x = p + s - 1 ∧ ival s (pre p prev) x = pre (p + s - 1) key) :
    MeetL s p prev (X ++ x :: Y) l r ↔ MeetL s p prev (X ++ Y) l r ∨
      (pre (p + s - 1) l ≤ pre (p + s - 1) key ∧ pre (p + s - 1) key ≤ pre (p + s - 1) r) := by
  unfold MeetL
  constructor
  · rintro ⟨y, hy, e⟩
    rcases List.mem_append.1 hy with hy | hy
    · exact Or.inl ⟨y, List.mem_append_left _ hy, e⟩
    · rcases List.mem_cons.1 hy with rfl | hy
      · rw [hx.1, hx.2] at e; exact Or.inr e
      · exact Or.inl ⟨y, List.mem_append_right _ hy, e⟩
  · rintro (⟨y, hy, e⟩ | e)
    · refine ⟨y, ?_, e⟩
      rcases List.mem_append.1 hy with hy | hy
      · exact List.mem_append_left _ hy
      · exact List.mem_append_right _ (List.mem_cons_of_mem _ hy)
    · exact ⟨x, by simp, by rw [hx.1, hx.2]; exact e⟩

theorem keyLt_of_le_of_lt {a b d : Key} (h1 : keyLe a b = true) (h2 : keyLt b d = true) : keyLt a d = true := by
  rcases keyLe_or_lt d a with h | h
  · have := keyLe_trans h h1
    rw [keyLe_iff_not_lt, h2] at this; cases this
  · exact h

section
variable {f : Filter}

/-- How a simple insert changes the answers. -/
theorem insertSimple_cells (h : FilterOK f) {key : Key} {f' : Filter} (hi : insertSimple f key = .ok f')
    (hfit : SimpleFits f key) : FilterOK f' ∧ f'.cfg = f.cfg ∧ boundaries f' = boundaries f ∧
      (∃ prev next, Adjacent f prev next ∧ keyLe prev key = true ∧ keyLt key next = true) ∧
      (∀ k, pointQuery f' k = .ok true ↔ pointQuery f k = .ok true ∨ SameCell f key k) ∧
      (∀ l r, keyLe l r = true →
        (rangeQuery false f' l r = .ok true ↔ rangeQuery false f l r = .ok true ∨ CellMeets f key l r)) ∧
      ∀ m, (∀ e ∈ f.tree, e.2.elemCount ≤ m) → ∀ e ∈ f'.tree, e.2.elemCount ≤ m + 1 := by
  obtain ⟨A, prev, st, st2, next, st', B, sh, ig, imp, X, Y, ht, ht', hcfg, h1, h2, e1, e2, R, R2, hok⟩ :=
    insertSimple_spec h hi hfit
  have hk := between_of_le h1 (keyLt_keyLe h2)
  have hpre := R.item_prefix h.wf hk
  have hbd : boundaries f' = boundaries f := by unfold boundaries; rw [ht, ht']; simp
  have hadj : Adjacent f prev next := adjacent_of ht
  have S : SameOutside f f' A prev next B := ⟨hcfg, h, hok, [], [], st, st2, st', ht, ht'⟩
  refine ⟨hok, hcfg, hbd, ⟨prev, next, hadj, h1, h2⟩, ?_, ?_, ?_⟩
  · intro k
    by_cases hin : keyLt prev k = true ∧ keyLt k next = true
    · obtain ⟨g1, g2⟩ := hin
      obtain ⟨b, hb, hbt⟩ := pointQuery_gap h ht R g1 g2
      obtain ⟨b', hb', hbt'⟩ := pointQuery_gap hok (p := (prev, st2)) (e := (next, st')) ht' (by rw [hcfg]; exact R2) g1 g2
      rw [hb, hb']
      simp only at hbt hbt'
      rw [hcfg, hitL_insert hpre] at hbt'
      rw [Res.ok.injEq, Res.ok.injEq, hbt, hbt', e1, e2]
      constructor
      · rintro (hh | hh | hh)
        · exact Or.inl (Or.inl hh)
        · exact Or.inl (Or.inr hh)
        · exact Or.inr ⟨prev, next, _, hadj, R.level, h1, h2, g1, g2, hh⟩
      · rintro ((hh | hh) | ⟨p', n', q, c1, c2, c3, c4, c5, c6, c7⟩)
        · exact Or.inl hh
        · exact Or.inr (Or.inl hh)
        · obtain ⟨rfl, rfl⟩ := hadj.unique h c1 h1 h2 c3 c4
          rw [R.level.unique c2]
          exact Or.inr (Or.inr c7)
    · rw [S.point hin]
      constructor
      · exact Or.inl
      · rintro (hh | ⟨p', n', q, c1, c2, c3, c4, c5, c6, c7⟩)
        · exact hh
        · obtain ⟨rfl, rfl⟩ := hadj.unique h c1 h1 h2 c3 c4
          exact absurd ⟨c5, c6⟩ hin
  · intro l r hlr
    rcases keyLe_or_lt next r with hr | hr
    · -- the range reaches the upper boundary or lies above it
      have hno : ¬ CellMeets f key l r := by
        rintro ⟨p', n', q, c1, c2, c3, c4, c5, c6, c7⟩
        obtain ⟨rfl, rfl⟩ := hadj.unique h c1 h1 h2 c3 c4
        rw [keyLe_iff_not_lt, c6] at hr; cases hr
      by_cases hin : keyLt prev l = true ∧ keyLt l next = true
      · have t1 : f.tree = (A ++ [(prev, st)]) ++ (next, st') :: B := by rw [ht]; simp
        have t2 : f'.tree = (A ++ [(prev, st2)]) ++ (next, st') :: B := by rw [ht']; simp
        rw [rangeQuery_boundary h t1 (keyLt_keyLe hin.2) hr, rangeQuery_boundary hok t2 (keyLt_keyLe hin.2) hr]
        simp
      · rw [S.range hlr hin]
        simp only [hno, or_false]
    · by_cases hin : keyLt prev l = true ∧ keyLt l next = true
      · obtain ⟨b, hb, hbt⟩ := rangeQuery_gap h ht R hin.1 hlr hr
        obtain ⟨b', hb', hbt'⟩ := rangeQuery_gap hok (p := (prev, st2)) (e := (next, st')) ht' (by rw [hcfg]; exact R2) hin.1 hlr hr
        rw [hb, hb']
        simp only at hbt hbt'
        rw [hcfg, meetL_insert hpre] at hbt'
        rw [Res.ok.injEq, Res.ok.injEq, hbt, hbt', e1, e2]
        constructor
        · rintro (hh | hh | hh)
          · exact Or.inl (Or.inl hh)
          · exact Or.inl (Or.inr hh)
          · exact Or.inr ⟨prev, next, _, hadj, R.level, h1, h2, hin.1, hr, hh⟩
        · rintro ((hh | hh) | ⟨p', n', q, c1, c2, c3, c4, c5, c6, c7⟩)
          · exact Or.inl hh
          · exact Or.inr (Or.inl hh)
          · obtain ⟨rfl, rfl⟩ := hadj.unique h c1 h1 h2 c3 c4
            rw [R.level.unique c2]
            exact Or.inr (Or.inr c7)
      · rw [S.range hlr hin]
        constructor
        · exact Or.inl
        · rintro (hh | ⟨p', n', q, c1, c2, c3, c4, c5, c6, c7⟩)
          · exact hh
          · obtain ⟨rfl, rfl⟩ := hadj.unique h c1 h1 h2 c3 c4
            exact absurd ⟨c5, keyLt_of_le_of_lt hlr c6⟩ hin
  · intro m hm e he
    rw [ht'] at he
    have hm' := hm
    rw [ht] at hm'
    rcases List.mem_append.1 he with he | he
    · have := hm' e (List.mem_append_left _ he); omega
    · rcases List.mem_cons.1 he with rfl | he
      · have h3 := hm' (prev, st) (by simp)
        have h4 := R.has.count
        have h5 := R2.has.count
        simp only [List.length_append, List.length_cons] at h4 h5
        dsimp only at h3 ⊢
        omega
      · have := hm' e (by simp [List.mem_cons.1 he]); omega

end

end Verif
