import Verif.Proof.WhFull

/-!
# The filter on the tree with the index

Every call that the filter on the leaves completes is completed by the filter on leaves and index, with the same answer.
-/

namespace Verif

/-- If `s` succeeds with a result meeting `L`, so does `r`, with a related result. -/
def Fwd {α β : Type} (L : β → Prop) (R : α → β → Prop) (r : Res α) (s : Res β) : Prop :=
  ∀ a, s = .ok a → L a → ∃ b, r = .ok b ∧ R b a

section
variable {α α' β β' : Type} {L : β' → Prop} {R : α → β → Prop} {Q : α' → β' → Prop} {r : Res α} {s : Res β}
  {f : α → Res α'} {g : β → Res β'}

theorem Fwd.bind (h : Fwd (fun _ => True) R r s) (hf : ∀ b a, R b a → Fwd L Q (f b) (g a)) : Fwd L Q (r.bind f) (s.bind g) := by
  intro x e hL
  obtain ⟨a, e1, e2⟩ := Res.bind_eq_ok e
  obtain ⟨b, e3, hR⟩ := h a e1 trivial
  rw [e3, Res.bind_ok]
  exact hf b a hR x e2 hL

theorem Fwd.same {f : β → Res α'} (hf : ∀ a, Fwd L Q (f a) (g a)) : Fwd L Q (s.bind f) (s.bind g) := by
  intro x e hL
  obtain ⟨a, e1, e2⟩ := Res.bind_eq_ok e
  rw [e1, Res.bind_ok]
  exact hf a x e2 hL

theorem Fwd.ok {a : α'} {b : β'} (h : Q a b) : Fwd L Q (.ok a) (.ok b) := by
  intro x e _
  cases e
  exact ⟨_, rfl, h⟩

theorem Fwd.ub {r : Res α'} : Fwd L Q r (.ub : Res β') := fun _ e => by cases e

theorem Fwd.weak {L' : β' → Prop} {r : Res α'} {s : Res β'} (h : Fwd L Q r s) (hL : ∀ a, L' a → L a) : Fwd L' Q r s :=
  fun a e ha => h a e (hL a ha)

theorem Fwd.ite {p : Prop} [Decidable p] {a b : Res α'} {a' b' : Res β'} (h1 : p → Fwd L Q a a') (h2 : ¬ p → Fwd L Q b b') :
    Fwd L Q (if p then a else b) (if p then a' else b') := by
  by_cases hp : p
  · rw [if_pos hp, if_pos hp]; exact h1 hp
  · rw [if_neg hp, if_neg hp]; exact h2 hp
end

variable {tags : Tags} {s : WhMap} {t : Wh} {k : Key}

/-- Leaves and cursor. -/
abbrev IxCur (a : WhMap × Cursor) (b : Wh × Cursor) : Prop := Ix a.1 b.1 ∧ a.2 = b.2

/-- Leaves, cursor and region. -/
abbrev IxReg (a : WhMap × Cursor × Key × Store × Key) (b : Wh × Cursor × Key × Store × Key) : Prop := Ix a.1 b.1 ∧ a.2 = b.2

/-- The filters agree, and the index is that of the leaves. -/
def Indexed (F : IxFilter) (w : WhFilter) : Prop := F.cfg = w.cfg ∧ Ix F.tree w.tree

/-- Leaves of the result in order. -/
abbrev Ordered (w : WhFilter) : Prop := Ladder w.tree.anchors

theorem Ix.seekF (ht : tags.Sound) (h : Ix s t) (k : Key) : Fwd (fun _ => True) IxCur (s.seek tags k) (t.seek k) := by
  rintro ⟨t', cur⟩ e _
  obtain ⟨s', e', h'⟩ := h.seek ht e
  exact ⟨(s', cur), e', h', rfl⟩

theorem Ix.skip1F (h : Ix s t) (cur : Cursor) : Fwd (fun _ => True) IxCur (s.skip1 cur) (t.skip1 cur) := by
  rintro ⟨t', cur⟩ e _
  obtain ⟨s', e', h'⟩ := h.skip1 e
  exact ⟨(s', cur), e', h', rfl⟩

theorem Ix.skip1RevF (h : Ix s t) (cur : Cursor) : Fwd (fun _ => True) IxCur (s.skip1Rev cur) (t.skip1Rev cur) := by
  rintro ⟨t', cur⟩ e _
  obtain ⟨s', e', h'⟩ := h.skip1Rev e
  exact ⟨(s', cur), e', h', rfl⟩

theorem Ix.delF (ht : tags.Sound) (h : Ix s t) (k : Key) : Fwd (fun _ => True) Ix (s.del tags k) (t.del k) :=
  fun _ e _ => h.del ht e

theorem Ix.putF (ht : tags.Sound) (h : Ix s t) {st : Store} {α β : Type} {L : β → Prop} {Q : α → β → Prop} {f : WhMap → Res α}
    {g : Wh → Res β} (hg : ∀ t' a, t.put k st = .ok t' → g t' = .ok a → L a → Rising t'.anchors)
    (hf : ∀ s' t', Ix s' t' → Fwd L Q (f s') (g t')) : Fwd L Q ((s.put tags k st).bind f) ((t.put k st).bind g) := by
  intro a e hL
  obtain ⟨t', e1, e2⟩ := Res.bind_eq_ok e
  obtain ⟨s', e3, h'⟩ := h.put ht e1 ⟨put_head h.ladder.1 e1, hg t' a e1 e2 hL⟩
  rw [e3, Res.bind_ok]
  exact hf s' t' h' a e2 hL

theorem Ix.put1 (ht : tags.Sound) (h : Ix s t) {st : Store} {c : Cfg} :
    Fwd Ordered Indexed ((s.put tags k st).bind fun s => .ok ⟨c, s⟩) ((t.put k st).bind fun t => .ok ⟨c, t⟩) := by
  refine h.putF ht ?_ fun s' t' h' => Fwd.ok ⟨rfl, h'⟩
  intro t' a _ e hL
  cases e
  exact hL.2

theorem Ix.put2 (ht : tags.Sound) (h : Ix s t) {st st' : Store} {k' : Key} {c : Cfg} :
    Fwd Ordered Indexed ((s.put tags k st).bind fun s => (s.put tags k' st').bind fun s => .ok ⟨c, s⟩)
      ((t.put k st).bind fun t => (t.put k' st').bind fun t => .ok ⟨c, t⟩) := by
  refine h.putF ht ?_ fun s' t' h' => h'.put1 ht
  intro t' a _ e hL
  obtain ⟨t2, e1, e2⟩ := Res.bind_eq_ok e
  cases e2
  exact rising_sub (put_sublist e1) hL.2

theorem Ix.locate (ht : tags.Sound) (h : Ix s t) (k : Key) : Fwd (fun _ => True) IxReg (s.locate tags k) (t.locate k) := by
  unfold WhMap.locate Wh.locate
  refine (h.seekF ht k).bind ?_
  rintro ⟨s, cur⟩ ⟨t, _⟩ ⟨h, rfl⟩
  dsimp only at h ⊢
  rw [h.peek]
  refine Fwd.same fun e => Fwd.ite (fun _ => ?_) fun _ => ?_
  · refine (h.skip1F cur).bind ?_
    rintro ⟨s, nx⟩ ⟨t, _⟩ ⟨h, rfl⟩
    dsimp only at h ⊢
    rw [h.peek]
    exact Fwd.same fun e' => Fwd.ok ⟨h, rfl⟩
  · refine (h.skip1RevF cur).bind ?_
    rintro ⟨s, nx⟩ ⟨t, _⟩ ⟨h, rfl⟩
    dsimp only at h ⊢
    rw [h.peek]
    exact Fwd.same fun e' => Fwd.ok ⟨h, rfl⟩

theorem Ix.around (h : Ix s t) (cur : Cursor) (e : Key × Store) (k : Key) :
    Fwd (fun _ => True) IxReg (s.around cur e k) (t.around cur e k) := by
  unfold WhMap.around Wh.around
  refine Fwd.ite (fun _ => ?_) fun _ => ?_
  · refine (h.skip1F cur).bind ?_
    rintro ⟨s, nx⟩ ⟨t, _⟩ ⟨h, rfl⟩
    dsimp only at h ⊢
    rw [h.peek]
    refine Fwd.same fun e' => ?_
    refine (h.skip1RevF nx).bind ?_
    rintro ⟨s, nx⟩ ⟨t, _⟩ ⟨h, rfl⟩
    exact Fwd.ok ⟨h, rfl⟩
  · refine (h.skip1RevF cur).bind ?_
    rintro ⟨s, nx⟩ ⟨t, _⟩ ⟨h, rfl⟩
    dsimp only at h ⊢
    rw [h.peek]
    exact Fwd.same fun e' => Fwd.ok ⟨h, rfl⟩

variable {F : IxFilter} {w : WhFilter}

/-- Filters agree and so do the answers. -/
abbrev IndexedAns (a : IxFilter × Bool) (b : WhFilter × Bool) : Prop := Indexed a.1 b.1 ∧ a.2 = b.2

theorem Indexed.point (ht : tags.Sound) (h : Indexed F w) (k : Key) :
    Fwd (fun _ => True) IndexedAns (ixPointQuery tags F k) (whPointQuery w k) := by
  obtain ⟨c, s⟩ := F
  obtain ⟨c', t⟩ := w
  obtain ⟨rfl : c = c', h : Ix s t⟩ := h
  unfold ixPointQuery whPointQuery
  dsimp only
  refine (h.seekF ht k).bind ?_
  rintro ⟨s, cur⟩ ⟨t, _⟩ ⟨h, rfl⟩
  dsimp only at h ⊢
  rw [h.peek]
  refine Fwd.same fun e => Fwd.ite (fun _ => Fwd.ok ⟨⟨rfl, h⟩, rfl⟩) fun _ => ?_
  refine (h.skip1RevF cur).bind ?_
  rintro ⟨s, nx⟩ ⟨t, _⟩ ⟨h, rfl⟩
  dsimp only at h ⊢
  rw [h.peek]
  refine Fwd.same fun p => Fwd.ite (fun _ => Fwd.ok ⟨⟨rfl, h⟩, rfl⟩) fun _ => ?_
  exact Fwd.same fun fr => Fwd.ok ⟨⟨rfl, h⟩, rfl⟩

theorem Indexed.range (ht : tags.Sound) (h : Indexed F w) (k r : Key) :
    Fwd (fun _ => True) IndexedAns (ixRangeQuery tags F k r) (whRangeQuery w k r) := by
  obtain ⟨c, s⟩ := F
  obtain ⟨c', t⟩ := w
  obtain ⟨rfl : c = c', h : Ix s t⟩ := h
  unfold ixRangeQuery whRangeQuery
  dsimp only
  refine (h.seekF ht k).bind ?_
  rintro ⟨s, cur⟩ ⟨t, _⟩ ⟨h, rfl⟩
  dsimp only at h ⊢
  rw [h.peek]
  refine Fwd.same fun e => Fwd.ite (fun _ => Fwd.ok ⟨⟨rfl, h⟩, rfl⟩) fun _ => ?_
  refine (h.skip1RevF cur).bind ?_
  rintro ⟨s, nx⟩ ⟨t, _⟩ ⟨h, rfl⟩
  dsimp only at h ⊢
  rw [h.peek]
  refine Fwd.same fun p => Fwd.ite (fun _ => Fwd.ok ⟨⟨rfl, h⟩, rfl⟩) fun _ => ?_
  exact Fwd.same fun fr => Fwd.ok ⟨⟨rfl, h⟩, rfl⟩

theorem Indexed.insertSimple (ht : tags.Sound) (h : Indexed F w) (k : Key) :
    Fwd (fun _ => True) Indexed (ixInsertSimple tags F k) (whInsertSimple w k) := by
  obtain ⟨c, s⟩ := F
  obtain ⟨c', t⟩ := w
  obtain ⟨rfl : c = c', h : Ix s t⟩ := h
  unfold ixInsertSimple whInsertSimple
  dsimp only
  refine (h.locate ht k).bind ?_
  rintro ⟨s, cur, p, st, n⟩ ⟨t, _⟩ ⟨h, e⟩
  dsimp only at e
  subst e
  exact Fwd.same fun fr => Fwd.ok ⟨rfl, h.write _ _⟩

theorem Indexed.insertSplit (ht : tags.Sound) (h : Indexed F w) (k : Key) :
    Fwd Ordered Indexed (ixInsertSplit tags F k) (whInsertSplit w k) := by
  obtain ⟨c, s⟩ := F
  obtain ⟨c', t⟩ := w
  obtain ⟨rfl : c = c', h : Ix s t⟩ := h
  unfold ixInsertSplit whInsertSplit
  dsimp only
  refine (h.locate ht k).bind ?_
  rintro ⟨s, cur, p, st, n⟩ ⟨t, _⟩ ⟨h, e⟩
  dsimp only at e
  subst e
  refine Fwd.same fun d => ?_
  cases d with
  | none => exact Fwd.weak (Indexed.insertSimple (F := ⟨c, s⟩) (w := ⟨c, t⟩) ht ⟨rfl, h⟩ k) fun _ _ => trivial
  | some d =>
    dsimp only
    cases d.zeroPos with
    | some zp => exact Fwd.ite (fun _ => Fwd.ub) fun _ => h.put2 ht
    | none => exact h.put2 ht

theorem Indexed.insert (ht : tags.Sound) (h : Indexed F w) (k : Key) (split : Bool) :
    Fwd Ordered Indexed (ixInsert tags F k split) (whInsert w k split) := by
  unfold ixInsert whInsert
  exact Fwd.ite (fun _ => h.insertSplit ht k) fun _ => (h.insertSimple ht k).weak fun _ _ => trivial

theorem Ix.deleteMerge (ht : tags.Sound) (h : Ix s t) (c : Cfg) (cm : Cursor) :
    Fwd Ordered Indexed (ixDeleteMerge tags c s cm) (whDeleteMerge c t cm) := by
  unfold ixDeleteMerge whDeleteMerge
  dsimp only
  rw [h.peek]
  refine Fwd.same fun ⟨middle, storeR⟩ => ?_
  refine (h.skip1F cm).bind ?_
  rintro ⟨s, cr⟩ ⟨t, _⟩ ⟨h, rfl⟩
  dsimp only at h ⊢
  rw [h.peek]
  refine Fwd.same fun ⟨right, _⟩ => ?_
  refine (h.skip1RevF cr).bind ?_
  rintro ⟨s, cm⟩ ⟨t, _⟩ ⟨h, rfl⟩
  dsimp only at h ⊢
  refine (h.skip1RevF cm).bind ?_
  rintro ⟨s, cl⟩ ⟨t, _⟩ ⟨h, rfl⟩
  dsimp only at h ⊢
  rw [h.peek]
  refine Fwd.same fun ⟨left, storeL⟩ => Fwd.same fun fr => Fwd.ite (fun _ => Fwd.ub) fun _ => Fwd.same fun newL => Fwd.same fun newR => ?_
  rw [h.jump ht, Res.bind_ok]
  refine (h.delF ht middle).bind fun s' t' h' => ?_
  rw [h.eq, h'.eq]
  refine Fwd.same fun ⟨keyL, storeL'⟩ => Fwd.same fun ⟨keyR, _⟩ => ?_
  exact h'.put1 ht

theorem Indexed.delete (ht : tags.Sound) (h : Indexed F w) (k : Key) :
    Fwd Ordered Indexed (ixDelete tags F k) (whDelete w k) := by
  obtain ⟨c, s⟩ := F
  obtain ⟨c', t⟩ := w
  obtain ⟨rfl : c = c', h : Ix s t⟩ := h
  unfold ixDelete whDelete
  dsimp only
  refine (h.seekF ht k).bind ?_
  rintro ⟨s, cur⟩ ⟨t, _⟩ ⟨h, rfl⟩
  dsimp only at h ⊢
  rw [h.peek]
  refine Fwd.same fun e => Fwd.ite (fun _ => h.deleteMerge ht c cur) fun _ => ?_
  refine (h.around cur e k).bind ?_
  rintro ⟨s, cur, p, st, n⟩ ⟨t, _⟩ ⟨h, e⟩
  dsimp only at e
  subst e
  exact Fwd.same fun fr => Fwd.ite (fun _ => h.deleteMerge ht c cur) fun _ => Fwd.ok ⟨rfl, h.write _ _⟩

/-! ## Construction -/

theorem IdxOK.empty : IdxOK Index.empty (· ∈ [([] : Key)]) := by
  have hm : ∀ a : Key, a ∈ [([] : Key)] ↔ a = [] := fun a => List.mem_singleton
  have hh : ∀ p, Has (· ∈ [([] : Key)]) p ↔ p = [] := by
    intro p
    constructor
    · rintro ⟨a, ha, hp⟩
      rw [(hm a).1 ha] at hp
      exact List.prefix_nil.1 hp
    · rintro rfl
      exact ⟨[], by simp, List.prefix_refl _⟩
  have hle : ∀ a : Key, keyLe [] a = true := fun a => by cases a <;> rfl
  refine ⟨?_, ?_, ?_⟩
  · intro p hp
    obtain rfl := (hh p).1 hp
    refine ⟨⟨[], [], [], 256, 256, Option.none⟩, rfl, ⟨by simp, List.prefix_refl _, fun a _ _ => hle a, by simp, List.prefix_refl _, ?_,
      ⟨by simp, hle _, ?_⟩, ⟨?_, Or.inl ⟨rfl, rfl, ?_⟩, fun _ => rfl⟩⟩⟩
    · intro a ha _
      rw [(hm a).1 ha]; rfl
    · intro a ha _
      rw [(hm a).1 ha]; rfl
    · rintro b ⟨c, rfl, hc⟩
      exact absurd ((hh _).1 hc) (by simp)
    · rintro b ⟨c, rfl, hc⟩
      exact absurd ((hh _).1 hc) (by simp)
  · intro p hp
    exact if_neg fun e => hp ((hh p).2 e)
  · intro a ha
    rw [(hm a).1 ha]; exact Nat.zero_le _

theorem Ix.empty : Ix WhMap.empty Wh.empty := ⟨rfl, ⟨rfl, by simp [Wh.empty, Wh.anchors], by simp [Wh.empty, Wh.anchors, Leaf.new]⟩, IdxOK.empty⟩

theorem bulkRegion_sublist {c : Cfg} {t' : Wh} {l r : Key} {ks : List Key} {g : Nat} (e : whBulkRegion c t l r ks g = .ok t') :
    t.anchors.Sublist t'.anchors := by
  unfold whBulkRegion at e
  obtain ⟨fr, _, e⟩ := Res.bind_eq_ok e
  exact put_sublist e

theorem bulkLoop_sublist {c : Cfg} {K : List Key} : ∀ {fuel j last : Nat} {t : Wh} {q : Wh × Nat},
    whBulkLoop c K fuel j last t = .ok q → t.anchors.Sublist q.1.anchors
  | 0, _, _, _, _, e => by cases e; exact List.Sublist.refl _
  | fuel + 1, j, last, t, q, e => by
    rw [whBulkLoop] at e
    by_cases hj : j % 1024 = 0
    · rw [if_pos hj] at e
      obtain ⟨t', e1, e2⟩ := Res.bind_eq_ok e
      exact (bulkRegion_sublist e1).trans (bulkLoop_sublist e2)
    · rw [if_neg hj] at e
      exact bulkLoop_sublist e

theorem bulkCore_sublist {c : Cfg} {K : List Key} {t' : Wh} (e : whBulkCore c t K = .ok t') : t.anchors.Sublist t'.anchors := by
  unfold whBulkCore at e
  by_cases h0 : K.length = 0
  · rw [if_pos h0] at e; cases e
  · rw [if_neg h0] at e
    obtain ⟨⟨t1, last⟩, e1, e⟩ := Res.bind_eq_ok e
    obtain ⟨t2, e2, e⟩ := Res.bind_eq_ok e
    refine ((bulkLoop_sublist e1).trans (bulkRegion_sublist e2)).trans ?_
    by_cases h1 : K.length - 1 ≠ last
    · rw [if_pos h1] at e; exact put_sublist e
    · rw [if_neg h1] at e; cases e; exact List.Sublist.refl _

/-- The leaves are in order. -/
abbrev InOrder (t : Wh) : Prop := Rising t.anchors

theorem Ix.putE (ht : tags.Sound) (h : Ix s t) (st : Store) : Fwd InOrder Ix (s.put tags k st) (t.put k st) :=
  fun _ e hL => h.put ht e ⟨put_head h.ladder.1 e, hL⟩

theorem Fwd.bindL {α α' β β' : Type} {L : β' → Prop} {M : β → Prop} {R : α → β → Prop} {Q : α' → β' → Prop} {r : Res α} {s : Res β}
    {f : α → Res α'} {g : β → Res β'} (h : Fwd M R r s) (hg : ∀ a x, g a = .ok x → L x → M a)
    (hf : ∀ b a, R b a → Fwd L Q (f b) (g a)) : Fwd L Q (r.bind f) (s.bind g) := by
  intro x e hL
  obtain ⟨a, e1, e2⟩ := Res.bind_eq_ok e
  obtain ⟨b, e3, hR⟩ := h a e1 (hg a x e2 hL)
  rw [e3, Res.bind_ok]
  exact hf b a hR x e2 hL

theorem Ix.bulkRegion (ht : tags.Sound) (h : Ix s t) (c : Cfg) (l r : Key) (K : List Key) (g : Nat) :
    Fwd InOrder Ix (ixBulkRegion tags c s l r K g) (whBulkRegion c t l r K g) := by
  unfold ixBulkRegion whBulkRegion
  exact Fwd.same fun fr => h.putE ht _

theorem Ix.bulkLoop (ht : tags.Sound) (c : Cfg) (K : List Key) : ∀ (fuel j last : Nat) {s : WhMap} {t : Wh}, Ix s t →
    Fwd (fun q : Wh × Nat => InOrder q.1) (fun p q => Ix p.1 q.1 ∧ p.2 = q.2) (ixBulkLoop tags c K fuel j last s) (whBulkLoop c K fuel j last t)
  | 0, _, _, _, _, h => Fwd.ok ⟨h, rfl⟩
  | fuel + 1, j, last, s, t, h => by
    rw [ixBulkLoop, whBulkLoop]
    refine Fwd.ite (fun _ => ?_) fun _ => Ix.bulkLoop ht c K fuel (j + 1) last h
    refine (h.bulkRegion ht c _ _ _ _).bindL ?_ fun s' t' h' => Ix.bulkLoop ht c K fuel (j + 1) (last + 1024) h'
    intro t' q e hq
    exact rising_sub (bulkLoop_sublist e) hq

theorem Ix.bulkCore (ht : tags.Sound) (h : Ix s t) (c : Cfg) (K : List Key) :
    Fwd InOrder Ix (ixBulkCore tags c s K) (whBulkCore c t K) := by
  unfold ixBulkCore whBulkCore
  refine Fwd.ite (fun _ => Fwd.ub) fun _ => ?_
  refine (Ix.bulkLoop ht c K _ 1 0 h).bindL ?_ ?_
  · rintro ⟨t1, last⟩ x e hx
    obtain ⟨t2, e2, e⟩ := Res.bind_eq_ok e
    refine rising_sub ((bulkRegion_sublist e2).trans ?_) hx
    by_cases h1 : K.length - 1 ≠ last
    · rw [if_pos h1] at e; exact put_sublist e
    · rw [if_neg h1] at e; cases e; exact List.Sublist.refl _
  · rintro ⟨s1, last⟩ ⟨t1, _⟩ ⟨h1, rfl⟩
    dsimp only at h1 ⊢
    refine (h1.bulkRegion ht c _ _ _ _).bindL ?_ ?_
    · intro t2 x e hx
      refine rising_sub ?_ hx
      by_cases h1 : K.length - 1 ≠ last
      · rw [if_pos h1] at e; exact put_sublist e
      · rw [if_neg h1] at e; cases e; exact List.Sublist.refl _
    · intro s2 t2 h2
      exact Fwd.ite (fun _ => h2.putE ht _) fun _ => Fwd.ok h2

theorem bulkFixed_ix (ht : tags.Sound) (c : Cfg) (n : Nat) (K : List Key) :
    Fwd Ordered Indexed (ixBulkFixed tags c n K) (whBulkFixed c n K) := by
  unfold ixBulkFixed whBulkFixed
  refine Fwd.bindL (M := InOrder) (Ix.empty.putE ht _) ?_ fun s1 t1 h1 => ?_
  · intro t1 w e hw
    obtain ⟨t2, e2, e⟩ := Res.bind_eq_ok e
    obtain ⟨t3, e3, e⟩ := Res.bind_eq_ok e
    cases e
    exact rising_sub ((put_sublist e2).trans (bulkCore_sublist e3)) hw.2
  · refine Fwd.bindL (M := InOrder) (h1.putE ht _) ?_ fun s2 t2 h2 => ?_
    · intro t2 w e hw
      obtain ⟨t3, e3, e⟩ := Res.bind_eq_ok e
      cases e
      exact rising_sub (bulkCore_sublist e3) hw.2
    · refine Fwd.bindL (M := InOrder) (h2.bulkCore ht c K) ?_ fun s3 t3 h3 => Fwd.ok ⟨rfl, h3⟩
      intro t3 w e hw
      cases e
      exact hw.2

/-! ## Runs -/

theorem whRun_prefix : ∀ {calls : List Call} {w w' : WhFilter} {o : List Bool}, whRun w calls = .ok (w', o) → ∀ i,
    ∃ w'' o', whRun w (calls.take i) = .ok (w'', o')
  | [], w, w', o, _, i => ⟨w, [], by rw [List.take_nil]; rfl⟩
  | _ :: _, w, w', o, _, 0 => ⟨w, [], rfl⟩
  | c :: l, w, w', o, e, i + 1 => by
    rw [List.take_succ_cons]
    cases c with
    | insert k b =>
      obtain ⟨w1, e1, e2⟩ := Res.bind_eq_ok e
      obtain ⟨w2, o2, h⟩ := whRun_prefix e2 i
      exact ⟨w2, o2, by rw [whRun, e1, Res.bind_ok, h]⟩
    | delete k =>
      obtain ⟨w1, e1, e2⟩ := Res.bind_eq_ok e
      obtain ⟨w2, o2, h⟩ := whRun_prefix e2 i
      exact ⟨w2, o2, by rw [whRun, e1, Res.bind_ok, h]⟩
    | point k =>
      obtain ⟨⟨w1, b⟩, e1, e2⟩ := Res.bind_eq_ok e
      obtain ⟨⟨w3, o3⟩, e3, _⟩ := Res.bind_eq_ok e2
      obtain ⟨w2, o2, h⟩ := whRun_prefix e3 i
      exact ⟨w2, b :: o2, by rw [whRun, e1, Res.bind_ok, h]; rfl⟩
    | range k r =>
      obtain ⟨⟨w1, b⟩, e1, e2⟩ := Res.bind_eq_ok e
      obtain ⟨⟨w3, o3⟩, e3, _⟩ := Res.bind_eq_ok e2
      obtain ⟨w2, o2, h⟩ := whRun_prefix e3 i
      exact ⟨w2, b :: o2, by rw [whRun, e1, Res.bind_ok, h]; rfl⟩

/-- Runs through ordered states. -/
theorem Indexed.run (ht : tags.Sound) : ∀ {calls : List Call} {F : IxFilter} {w w' : WhFilter} {o : List Bool}, Indexed F w →
    (∀ i w' o, whRun w (calls.take i) = .ok (w', o) → Ordered w') → whRun w calls = .ok (w', o) →
    ∃ F', ixRun tags F calls = .ok (F', o) ∧ Indexed F' w'
  | [], F, w, w', o, h, _, e => by cases e; exact ⟨F, rfl, h⟩
  | c :: l, F, w, w', o, h, hord, e => by
    have hnext : ∀ {w1 : WhFilter}, (∀ i w' o, whRun w1 (l.take i) = .ok (w', o) → ∃ o', whRun w ((c :: l).take (i + 1)) = .ok (w', o')) →
        ∀ i w' o, whRun w1 (l.take i) = .ok (w', o) → Ordered w' := by
      intro w1 hh i w' o e
      obtain ⟨o', e'⟩ := hh i w' o e
      exact hord (i + 1) w' o' e'
    cases c with
    | insert k b =>
      obtain ⟨w1, e1, e2⟩ := Res.bind_eq_ok e
      have hn := hnext (w1 := w1) fun i w' o e => ⟨o, by rw [List.take_succ_cons, whRun, e1, Res.bind_ok, e]⟩
      obtain ⟨F1, f1, h1⟩ := h.insert ht k b w1 e1 (hn 0 w1 [] rfl)
      obtain ⟨F2, f2, h2⟩ := Indexed.run ht h1 hn e2
      exact ⟨F2, by rw [ixRun, f1, Res.bind_ok, f2], h2⟩
    | delete k =>
      obtain ⟨w1, e1, e2⟩ := Res.bind_eq_ok e
      have hn := hnext (w1 := w1) fun i w' o e => ⟨o, by rw [List.take_succ_cons, whRun, e1, Res.bind_ok, e]⟩
      obtain ⟨F1, f1, h1⟩ := h.delete ht k w1 e1 (hn 0 w1 [] rfl)
      obtain ⟨F2, f2, h2⟩ := Indexed.run ht h1 hn e2
      exact ⟨F2, by rw [ixRun, f1, Res.bind_ok, f2], h2⟩
    | point k =>
      obtain ⟨⟨w1, b⟩, e1, e2⟩ := Res.bind_eq_ok e
      obtain ⟨⟨w3, o3⟩, e3, e4⟩ := Res.bind_eq_ok e2
      cases e4
      have hn := hnext (w1 := w1) fun i w' o e => ⟨b :: o, by rw [List.take_succ_cons, whRun, e1, Res.bind_ok, e]; rfl⟩
      obtain ⟨⟨F1, b'⟩, f1, h1, rfl⟩ := h.point ht k (w1, b) e1 trivial
      obtain ⟨F2, f2, h2⟩ := Indexed.run ht h1 hn e3
      exact ⟨F2, by rw [ixRun, f1, Res.bind_ok, f2]; rfl, h2⟩
    | range k r =>
      obtain ⟨⟨w1, b⟩, e1, e2⟩ := Res.bind_eq_ok e
      obtain ⟨⟨w3, o3⟩, e3, e4⟩ := Res.bind_eq_ok e2
      cases e4
      have hn := hnext (w1 := w1) fun i w' o e => ⟨b :: o, by rw [List.take_succ_cons, whRun, e1, Res.bind_ok, e]; rfl⟩
      obtain ⟨⟨F1, b'⟩, f1, h1, rfl⟩ := h.range ht k r (w1, b) e1 trivial
      obtain ⟨F2, f2, h2⟩ := Indexed.run ht h1 hn e3
      exact ⟨F2, by rw [ixRun, f1, Res.bind_ok, f2]; rfl, h2⟩

/-! ## Histories of the index alone -/

theorem IndexHist.ok {x : Index} {as : List Key} (h : IndexHist x as) : Ladder as ∧ IdxOK x (· ∈ as) := by
  induction h with
  | empty => exact ⟨⟨rfl, by simp, by simp⟩, IdxOK.empty⟩
  | split _ hl e ih =>
    obtain ⟨x', e', ok⟩ := indexSplit_spec ih.2 (ladder_gap hl.2.1) (ladder_fits hl).2
    rw [e] at e'
    cases e'
    exact ⟨hl, by rw [← ladder_with]; exact ok⟩
  | @merge x x' A B p a _ e ih =>
    obtain ⟨hl, hi⟩ := ih
    rw [← ladder_with] at hi
    obtain ⟨x', e', ok⟩ := indexMerge_spec hi (ladder_gap hl.2.1) (ladder_fits hl).1 (ladder_fits hl).2
    rw [e] at e'
    cases e'
    refine ⟨⟨?_, rising_sub (List.Sublist.append_left (List.Sublist.cons_cons _ (List.sublist_cons_self _ _)) _) hl.2⟩, ok⟩
    have := hl.1
    cases A with
    | nil => simpa using this
    | cons x xs => simpa using this

end Verif
