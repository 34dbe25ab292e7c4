import Verif.Proof.Cell

/-!
# Answers of a filter: stored prefixes, definedness, repeated inserts
-/

namespace Verif

section
variable {f : Filter}

theorem mem_boundaries {k : Key} (h : k ∈ boundaries f) : ∃ A st B, f.tree = A ++ (k, st) :: B := by
  obtain ⟨⟨a, st⟩, he, rfl⟩ := List.mem_map.1 h
  obtain ⟨A, B, hAB⟩ := List.append_of_mem he
  exact ⟨A, st, B, hAB⟩

theorem boundary_of {A B : Tree} {e : Key × Store} (ht : f.tree = A ++ e :: B) : e.1 ∈ boundaries f := by
  unfold boundaries; rw [ht]; simp

/-- A region is a set of prefixes, and both queries answer according to it. -/
theorem region_prefixes (h : FilterQ f) {prev next : Key} (hadj : Adjacent f prev next) :
    ∃ (q : Nat) (P : List (Nat × Nat)), Level prev next q ∧ (BitsOK f → ∀ w ∈ P, w.1 ≤ q + f.cfg.infixSize - 1) ∧
      (∀ w ∈ P, w.1 ≤ q + f.cfg.infixSize - 1 ∨ (w.1 ≤ 8 * prev.length ∧ w.2 = pre w.1 prev)) ∧
      (∀ k, keyLt prev k = true → keyLt k next = true →
        ∃ b, pointQuery f k = .ok b ∧ (b = true ↔ ∃ w ∈ P, pre w.1 k = w.2)) ∧
      ∀ l r, keyLt prev l = true → keyLe l r = true → keyLt r next = true →
        ∃ b, rangeQuery false f l r = .ok b ∧ (b = true ↔ ∃ w ∈ P, pre w.1 l ≤ w.2 ∧ w.2 ≤ pre w.1 r) := by
  obtain ⟨A, st, st', B, ht⟩ := hadj.split
  obtain ⟨sh, ig, imp, L, R⟩ := h.region ht
  have hib := invalidBits_lt st
  have hpart : ∀ k, keyLt prev k = true → (isPrefixOf prev k st.invalidBits = true ↔ prev ≠ [] ∧
      pre (8 * prev.length - st.invalidBits) k = pre (8 * prev.length - st.invalidBits) prev) := by
    intro k hk
    rw [isPrefixOf_iff hib]
    constructor
    · rintro ⟨a, _, b⟩; exact ⟨a, b.symm⟩
    · rintro ⟨a, b⟩; exact ⟨a, length_le_of_prefix hk (by omega) b.symm, b.symm⟩
  refine ⟨sh + ig + imp, L.map (fun x => (ilen f.cfg.infixSize (sh + ig + imp) x,
      ival f.cfg.infixSize (pre (sh + ig + imp) prev) x)) ++
    (if st.isPartial then [(8 * prev.length - st.invalidBits, pre (8 * prev.length - st.invalidBits) prev)] else []),
    R.level, ?_, ?_, ?_, ?_⟩
  rotate_left
  · intro w hw
    rcases List.mem_append.1 hw with hw | hw
    · obtain ⟨x, _, rfl⟩ := List.mem_map.1 hw
      left
      dsimp only
      unfold ilen; omega
    · by_cases hp : st.isPartial = true
      · rw [if_pos hp, List.mem_singleton] at hw
        subst hw
        exact Or.inr ⟨Nat.sub_le _ _, rfl⟩
      · rw [if_neg hp] at hw; cases hw
  rotate_right
  · intro hB w hw
    rcases List.mem_append.1 hw with hw | hw
    · obtain ⟨x, _, rfl⟩ := List.mem_map.1 hw
      dsimp only
      unfold ilen; omega
    · by_cases hp : st.isPartial = true
      · rw [if_pos hp, List.mem_singleton] at hw
        subst hw
        unfold BitsOK at hB
        rw [ht] at hB
        have := (List.isChain_append_cons_cons.1 hB).2.1 sh ig imp R.sii hp
        dsimp only at this ⊢
        omega
      · rw [if_neg hp] at hw; cases hw
  · intro k h1 h2
    obtain ⟨b, hb, hbt⟩ := pointQuery_gap0 h.wf h.pairwise ht R h1 h2
    refine ⟨b, hb, ?_⟩
    dsimp only at hbt
    rw [hbt, hpart k h1]
    unfold HitL
    constructor
    · rintro (⟨a, _, c⟩ | ⟨x, hx, e⟩)
      · exact ⟨_, List.mem_append_right _ (by rw [if_pos a]; exact List.mem_singleton_self _), c⟩
      · exact ⟨_, List.mem_append_left _ (List.mem_map_of_mem hx), e⟩
    · rintro ⟨w, hw, e⟩
      rcases List.mem_append.1 hw with hw | hw
      · obtain ⟨x, hx, rfl⟩ := List.mem_map.1 hw
        exact Or.inr ⟨x, hx, e⟩
      · by_cases hp : st.isPartial = true
        · rw [if_pos hp, List.mem_singleton] at hw
          subst hw
          exact Or.inl ⟨hp, h.part ht hp, e⟩
        · rw [if_neg hp] at hw; cases hw
  · intro l r h1 hlr h2
    obtain ⟨b, hb, hbt⟩ := rangeQuery_gap0 h.wf h.pairwise ht R h1 hlr h2
    refine ⟨b, hb, ?_⟩
    dsimp only at hbt
    rw [hbt, hpart l h1]
    unfold MeetL
    constructor
    · rintro (⟨a, _, c⟩ | ⟨x, hx, e⟩)
      · refine ⟨_, List.mem_append_right _ (by rw [if_pos a]; exact List.mem_singleton_self _), ?_, ?_⟩
        · exact Nat.le_of_eq c
        · dsimp only; rw [← c]; exact keyLe_pre hlr _
      · exact ⟨_, List.mem_append_left _ (List.mem_map_of_mem hx), e⟩
    · rintro ⟨w, hw, e⟩
      rcases List.mem_append.1 hw with hw | hw
      · obtain ⟨x, hx, rfl⟩ := List.mem_map.1 hw
        exact Or.inr ⟨x, hx, e⟩
      · by_cases hp : st.isPartial = true
        · rw [if_pos hp, List.mem_singleton] at hw
          subst hw
          have := keyLe_pre (keyLt_keyLe h1) (8 * prev.length - st.invalidBits)
          exact Or.inl ⟨hp, h.part ht hp, by have := e.1; dsimp only at this; omega⟩
        · rw [if_neg hp] at hw; cases hw

/-- When a point query returns. -/
theorem pointQuery_defined (h : FilterQ f) (k : Key) : (pointQuery f k = .ub ∨ ∃ b, pointQuery f k = .ok b) ∧
    ((∃ b, pointQuery f k = .ok b) ↔ k ∈ boundaries f ∨
      ∃ prev next, Adjacent f prev next ∧ keyLt prev k = true ∧ keyLt k next = true) := by
  have hdef : (k ∈ boundaries f ∨ ∃ prev next, Adjacent f prev next ∧ keyLt prev k = true ∧ keyLt k next = true) →
      ∃ b, pointQuery f k = .ok b := by
    rintro (hb | ⟨prev, next, hadj, h1, h2⟩)
    · obtain ⟨A, st, B, ht⟩ := mem_boundaries hb
      exact ⟨true, pointQuery_boundary0 h.pairwise ht⟩
    · obtain ⟨_, _, _, _, _, hp, _⟩ := region_prefixes h hadj
      obtain ⟨b, hb, _⟩ := hp k h1 h2
      exact ⟨b, hb⟩
  rcases pointQuery_cases h k with ⟨A, e, B, ht, rfl, hq⟩ | ⟨A, p, e, B, ht, h1, h2, b, hq⟩ | hu
  · exact ⟨Or.inr ⟨_, hq⟩, fun _ => Or.inl (boundary_of ht), hdef⟩
  · exact ⟨Or.inr ⟨_, hq⟩, fun _ => Or.inr ⟨_, _, adjacent_of ht, h1, h2⟩, hdef⟩
  · refine ⟨Or.inl hu, ?_, hdef⟩
    rintro ⟨b, hb⟩
    rw [hu] at hb; cases hb

/-- When a range query returns. -/
theorem rangeQuery_defined (h : FilterQ f) {l r : Key} (hlr : keyLe l r = true) :
    (rangeQuery false f l r = .ub ∨ ∃ b, rangeQuery false f l r = .ok b) ∧
    ((∃ b, rangeQuery false f l r = .ok b) ↔ (∃ x ∈ boundaries f, keyLe l x = true ∧ keyLe x r = true) ∨
      ∃ prev next, Adjacent f prev next ∧ keyLt prev l = true ∧ keyLt r next = true) := by
  have hdef : ((∃ x ∈ boundaries f, keyLe l x = true ∧ keyLe x r = true) ∨
      ∃ prev next, Adjacent f prev next ∧ keyLt prev l = true ∧ keyLt r next = true) →
      ∃ b, rangeQuery false f l r = .ok b := by
    rintro (⟨x, hb, h1, h2⟩ | ⟨prev, next, hadj, h1, h2⟩)
    · obtain ⟨A, st, B, ht⟩ := mem_boundaries hb
      exact ⟨true, rangeQuery_boundary0 h.pairwise ht h1 h2⟩
    · obtain ⟨_, _, _, _, _, _, hp⟩ := region_prefixes h hadj
      obtain ⟨b, hb, _⟩ := hp l r h1 hlr h2
      exact ⟨b, hb⟩
  rcases rangeQuery_cases h hlr false with ⟨A, e, B, ht, h1, h2, hq⟩ | ⟨A, p, e, B, ht, h1, h2⟩ | hu
  · exact ⟨Or.inr ⟨_, hq⟩, fun _ => Or.inl ⟨_, boundary_of ht, h1, h2⟩, hdef⟩
  · have := hdef (Or.inr ⟨_, _, adjacent_of ht, h1, h2⟩)
    exact ⟨Or.inr this, fun _ => Or.inr ⟨_, _, adjacent_of ht, h1, h2⟩, hdef⟩
  · refine ⟨Or.inl hu, ?_, hdef⟩
    rintro ⟨b, hb⟩
    rw [hu] at hb; cases hb

/-- Filters with the same boundaries agree on a point query if they agree on positive answers. -/
theorem point_ext {f' : Filter} (h : FilterQ f) (h' : FilterQ f') (hb : boundaries f' = boundaries f) {k : Key}
    (hp : pointQuery f' k = .ok true ↔ pointQuery f k = .ok true) : pointQuery f' k = pointQuery f k := by
  obtain ⟨a1, a2⟩ := pointQuery_defined h k
  obtain ⟨b1, b2⟩ := pointQuery_defined h' k
  have hdd : (∃ b, pointQuery f' k = .ok b) ↔ ∃ b, pointQuery f k = .ok b := by
    rw [a2, b2, hb]; simp only [Adjacent.congr hb]
  rcases a1 with a1 | ⟨b, a1⟩ <;> rcases b1 with b1 | ⟨b', b1⟩
  · rw [a1, b1]
  · rw [a1, b1] at hdd; simp at hdd
  · rw [a1, b1] at hdd; simp at hdd
  · rw [a1, b1] at hp ⊢
    simp only [Res.ok.injEq] at hp ⊢
    exact Bool.eq_iff_iff.2 hp

theorem range_ext {f' : Filter} (h : FilterQ f) (h' : FilterQ f') (hb : boundaries f' = boundaries f) {l r : Key}
    (hlr : keyLe l r = true)
    (hp : rangeQuery false f' l r = .ok true ↔ rangeQuery false f l r = .ok true) :
    rangeQuery false f' l r = rangeQuery false f l r := by
  obtain ⟨a1, a2⟩ := rangeQuery_defined h hlr
  obtain ⟨b1, b2⟩ := rangeQuery_defined h' hlr
  have hdd : (∃ b, rangeQuery false f' l r = .ok b) ↔ ∃ b, rangeQuery false f l r = .ok b := by
    rw [a2, b2, hb]; simp only [Adjacent.congr hb]
  rcases a1 with a1 | ⟨b, a1⟩ <;> rcases b1 with b1 | ⟨b', b1⟩
  · rw [a1, b1]
  · rw [a1, b1] at hdd; simp at hdd
  · rw [a1, b1] at hdd; simp at hdd
  · rw [a1, b1] at hp ⊢
    simp only [Res.ok.injEq] at hp ⊢
    exact Bool.eq_iff_iff.2 hp

/-- A positive key that is not a boundary makes its whole cell positive. -/
theorem cell_of_positive (h : FilterOK f) (hB : BitsOK f) {key : Key} (hpos : pointQuery f key = .ok true) (hnb : key ∉ boundaries f) :
    (∀ k, SameCell f key k → pointQuery f k = .ok true) ∧
    ∀ l r, keyLe l r = true → CellMeets f key l r → rangeQuery false f l r = .ok true := by
  have strict : ∀ {p n : Key}, Adjacent f p n → keyLe p key = true → keyLt p key = true := by
    intro p n hadj hle
    refine keyLt_iff.2 ⟨hle, ?_⟩
    rintro rfl
    obtain ⟨i, h1, _⟩ := hadj
    exact hnb (List.mem_of_getElem? h1)
  constructor
  · rintro k ⟨prev, next, q, hadj, hl, a1, a2, b1, b2, he⟩
    obtain ⟨q', P, hl', hq, _, hp, _⟩ := region_prefixes h.q hadj
    obtain rfl := hl.unique hl'
    obtain ⟨b, hb, hbt⟩ := hp key (strict hadj a1) a2
    rw [hpos] at hb
    obtain rfl : b = true := by injection hb with hb; exact hb.symm
    obtain ⟨w, hw, e⟩ := hbt.1 rfl
    obtain ⟨b', hb', hbt'⟩ := hp k b1 b2
    rw [hb', hbt'.2 ⟨w, hw, by rw [← e]; exact pre_eq_len (hq hB w hw) he⟩]
  · rintro l r hlr ⟨prev, next, q, hadj, hl, a1, a2, b1, b2, e1, e2⟩
    obtain ⟨q', P, hl', hq, _, hp, hr⟩ := region_prefixes h.q hadj
    obtain rfl := hl.unique hl'
    obtain ⟨b, hb, hbt⟩ := hp key (strict hadj a1) a2
    rw [hpos] at hb
    obtain rfl : b = true := by injection hb with hb; exact hb.symm
    obtain ⟨w, hw, e⟩ := hbt.1 rfl
    obtain ⟨b', hb', hbt'⟩ := hr l r b1 hlr b2
    rw [hb', hbt'.2 ⟨w, hw, by rw [← e]; exact pre_le_len (hq hB w hw) e1, by rw [← e]; exact pre_le_len (hq hB w hw) e2⟩]

/-- Inserting a positive key that is not a boundary changes no answer. -/
theorem insert_again (h : FilterOK f) (hB : BitsOK f) {key : Key} {f' : Filter} (hi : insertSimple f key = .ok f')
    (hfit : SimpleFits f key) (hpos : pointQuery f key = .ok true) (hnb : key ∉ boundaries f) :
    (∀ k, pointQuery f' k = pointQuery f k) ∧
    ∀ l r, keyLe l r = true → rangeQuery false f' l r = rangeQuery false f l r := by
  obtain ⟨a1, a2, a3, _, a4, a5, _⟩ := insertSimple_cells h hi hfit
  obtain ⟨c1, c2⟩ := cell_of_positive h hB hpos hnb
  constructor
  · intro k
    apply point_ext h.q a1.q a3
    rw [a4]
    exact ⟨fun hh => hh.elim id (c1 k), Or.inl⟩
  · intro l r hlr
    apply range_ext h.q a1.q a3 hlr
    rw [a5 l r hlr]
    exact ⟨fun hh => hh.elim id (c2 l r hlr), Or.inl⟩

end

/-! ## Several simple inserts -/

/-- Inserts without split. -/
def runSimple : Res Filter → List Key → Res Filter
  | r, [] => r
  | r, k :: ks => runSimple (r.bind fun f => insert f k false) ks

theorem runSimple_ub (ks : List Key) : runSimple .ub ks = .ub := by
  induction ks with
  | nil => rfl
  | cons a ks ih => exact ih

theorem runSimple_hang (ks : List Key) : runSimple .hang ks = .hang := by
  induction ks with
  | nil => rfl
  | cons a ks ih => exact ih

theorem mem_of_locate {t : Tree} {key prev next : Key} {i : Nat} {st : Store} (h : locate t key = .ok (i, prev, st, next)) :
    (prev, st) ∈ t := by
  have peek : ∀ {j e}, treePeek t j = .ok e → e ∈ t := by
    intro j e h
    unfold treePeek at h
    cases hg : t[j]? with
    | none => rw [hg] at h; cases h
    | some x =>
      rw [hg] at h
      obtain rfl : x = e := by injection h
      exact List.mem_of_getElem? hg
  unfold locate at h
  dsimp only at h
  obtain ⟨e, h1, h⟩ := Res.bind_eq_ok h
  split_ifs at h with c1 c2
  · obtain ⟨e', h2, h⟩ := Res.bind_eq_ok h
    injection h with h
    injection h with _ h
    injection h with a h
    injection h with b _
    have := peek h1
    rw [← a, ← b]; exact this
  · obtain ⟨e', h2, h⟩ := Res.bind_eq_ok h
    injection h with h
    injection h with _ h
    injection h with a h
    injection h with b _
    have := peek h2
    rw [← a, ← b]; exact this

theorem runSimple_spec : ∀ {ks : List Key} {f f' : Filter}, FilterOK f → runSimple (.ok f) ks = .ok f' →
    (∀ e ∈ f.tree, e.2.elemCount + ks.length < f.cfg.cap) →
    FilterOK f' ∧ f'.cfg = f.cfg ∧ boundaries f' = boundaries f ∧
      (∀ k, pointQuery f' k = .ok true ↔ pointQuery f k = .ok true ∨ ∃ key ∈ ks, SameCell f key k) ∧
      (∀ l r, keyLe l r = true →
        (rangeQuery false f' l r = .ok true ↔ rangeQuery false f l r = .ok true ∨ ∃ key ∈ ks, CellMeets f key l r))
  | [], f, f', h, hr, _ => by
    simp only [runSimple, Res.ok.injEq] at hr
    subst hr
    exact ⟨h, rfl, rfl, by simp, by simp⟩
  | key :: ks, f, f', h, hr, hcnt => by
    simp only [runSimple, Res.bind_ok] at hr
    have hins : insert f key false = insertSimple f key := by unfold insert; simp
    rw [hins] at hr
    cases hi : insertSimple f key with
    | ub => rw [hi, runSimple_ub] at hr; cases hr
    | hang => rw [hi, runSimple_hang] at hr; cases hr
    | ok f1 =>
      rw [hi] at hr
      have hfit : SimpleFits f key := by
        intro i prev st next hl
        have := hcnt _ (mem_of_locate hl)
        simp only [List.length_cons] at this
        omega
      obtain ⟨a1, a2, a3, _, a4, a5, a6⟩ := insertSimple_cells h hi hfit
      obtain ⟨b1, b2, b3, b4, b5⟩ := runSimple_spec a1 hr (by
        intro e he
        rw [a2]
        by_cases hlen : ks.length + 1 < f.cfg.cap
        · have := a6 (f.cfg.cap - ks.length - 2) (by
            intro e' he'
            have := hcnt e' he'
            simp only [List.length_cons] at this
            omega) e he
          omega
        · exfalso
          obtain ⟨x, hx⟩ : ∃ x, x ∈ f.tree := by
            rcases hf : f.tree with _ | ⟨x, t⟩
            · unfold insertSimple at hi
              rw [hf] at hi; simp [locate, treeSeek, treePeek] at hi
            · exact ⟨x, by simp⟩
          have := hcnt x hx
          simp only [List.length_cons] at this
          omega)
      refine ⟨b1, by rw [b2, a2], by rw [b3, a3], ?_, ?_⟩
      · intro k
        rw [b4, a4]
        simp only [SameCell.congr a3 a2, List.mem_cons, exists_eq_or_imp, or_assoc]
      · intro l r hlr
        rw [b5 l r hlr, a5 l r hlr]
        simp only [CellMeets.congr a3 a2, List.mem_cons, exists_eq_or_imp, or_assoc]

/-- The order of simple inserts is irrelevant. -/
theorem simple_order {f f1 f2 : Filter} (h : FilterOK f) {ks ks' : List Key} (hmem : ∀ k, k ∈ ks ↔ k ∈ ks')
    (hr : runSimple (.ok f) ks = .ok f1) (hr' : runSimple (.ok f) ks' = .ok f2)
    (hc : ∀ e ∈ f.tree, e.2.elemCount + ks.length < f.cfg.cap) (hc' : ∀ e ∈ f.tree, e.2.elemCount + ks'.length < f.cfg.cap) :
    (∀ k, pointQuery f1 k = pointQuery f2 k) ∧
    ∀ l r, keyLe l r = true → rangeQuery false f1 l r = rangeQuery false f2 l r := by
  obtain ⟨a1, a2, a3, a4, a5⟩ := runSimple_spec h hr hc
  obtain ⟨b1, b2, b3, b4, b5⟩ := runSimple_spec h hr' hc'
  have hb : boundaries f1 = boundaries f2 := by rw [a3, b3]
  constructor
  · intro k
    apply point_ext b1.q a1.q hb
    rw [a4, b4]; simp only [hmem]
  · intro l r hlr
    apply range_ext b1.q a1.q hb hlr
    rw [a5 l r hlr, b5 l r hlr]; simp only [hmem]

end Verif
