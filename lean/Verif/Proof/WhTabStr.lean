import Verif.Proof.WhTab

/-!
# The string tree with its hash table does what the leaves do, unless an insertion into the table does not return
-/

namespace Verif.Str

variable {h : Key → Nat} {depth : Nat} {W : Option (Key → Prop)} {P : Key → Prop} {s : TabMap} {t : STree} {k : Key}

/-- `s` holds the leaves `t` and their index. -/
structure Tx (h : Key → Nat) (W : Option (Key → Prop)) (P : Key → Prop) (s : TabMap) (t : STree) : Prop where
  good : Good h W s.index
  ix : Ix P ⟨s.leaves, s.index.view h, 0⟩ t

/-- The tags in the table. -/
def tabTags (h : Key → Nat) (x : TabIndex) : Tags := fun _ v p => (v.get p).isSome || x.tab.peek h p

theorem tabTags_sound (x : TabIndex) : (tabTags h x).Sound := by
  intro n v p hp
  unfold tabTags
  cases hv : v.get p with
  | none => exact absurd hv hp
  | some m => rfl

theorem tabTags_eq (H : Good h W s.index) (n : Nat) : tabTags h s.index n (s.index.view h) = s.index.tab.peek h := by
  funext p
  unfold tabTags
  show ((s.index.find h p).isSome || _) = _
  cases hf : s.index.find h p with
  | none => rfl
  | some m => rw [H.peek (some_ne hf)]; rfl

theorem jump_eq (H : Good h W s.index) (k : Key) :
    s.jump h k = StrMap.jump (tabTags h s.index) ⟨s.leaves, s.index.view h, 0⟩ k := by
  unfold TabMap.jump StrMap.jump TabIndex.jump
  rw [tabTags_eq H]
  rfl

theorem Tx.jump (H : Tx h W P s t) (k : Key) : s.jump h k = .ok (t.jump k) := by
  rw [jump_eq H.good]
  exact H.ix.jump (tabTags_sound _) k

/-- The same outcome and result, unless an insertion does not return. -/
def SimR {β : Type} (h : Key → Nat) (W : Option (Key → Prop)) (P : Key → Prop) (r : Res (TabMap × β)) (s : Res (STree × β)) : Prop :=
  (W = none ∧ r = .hang) ∨ RelRes (fun a b => Tx h W P a.1 b.1 ∧ a.2 = b.2) r s

theorem Tx.with {t' : STree} (H : Tx h W P s t) (H' : Ix P (StrMap.with ⟨s.leaves, s.index.view h, 0⟩ t') t') :
    Tx h W P ⟨t', s.index⟩ t' := ⟨H.good, H'.calls⟩

/-- The kinds of keys: all prefixes are of the same kind, and short; with `W`, they are spread over the table. -/
structure Kind (h : Key → Nat) (depth : Nat) (W : Option (Key → Prop)) (P : Key → Prop) : Prop where
  nil : P []
  closed : Closed P
  short : ∀ k, P k → k.length ≤ pbufRoom
  fine : ∀ Q, W = some Q → Q = P ∧ Thin h P ∧ 2 ≤ depth

theorem Kind.take (K : Kind h depth W P) {a : Key} (ha : P a) (i : Nat) : Fine h depth W (a.take i) := by
  intro Q hQ
  obtain ⟨rfl, h2, h3⟩ := K.fine Q hQ
  exact ⟨K.closed a i ha, h2, h3⟩

theorem Tx.put (K : Kind h depth W P) (H : Tx h W P s t) (hk : P k) (st : Store) : SimR h W P (s.put h depth k st) (t.put k st) := by
  obtain ⟨s', t', b, e1, e2, h'⟩ := H.ix.put (tabTags_sound s.index) K.closed K.short hk st
  rw [e1]
  unfold StrMap.put at e2
  unfold TabMap.put
  rw [jump_eq H.good]
  obtain ⟨i, ei, e2⟩ := Res.bind_eq_ok e2
  rw [ei, Res.bind_ok]
  dsimp only at e2
  cases hl : s.leaves[i]? with
  | none => rw [hl] at e2; cases e2
  | some l =>
    rw [hl] at e2
    dsimp only at e2 ⊢
    cases hm : l.matchHs k with
    | some ih =>
      rw [hm] at e2
      dsimp only at e2 ⊢
      obtain ⟨l', el, e2⟩ := Res.bind_eq_ok e2
      cases e2
      rw [el]
      exact .inr ⟨⟨H.good, h'.calls⟩, rfl⟩
    | none =>
      rw [hm] at e2
      dsimp only at e2 ⊢
      by_cases hn : l.nr < 32
      · rw [if_pos hn] at e2 ⊢
        obtain ⟨l', el, e2⟩ := Res.bind_eq_ok e2
        cases e2
        rw [el]
        exact .inr ⟨⟨H.good, h'.calls⟩, rfl⟩
      · rw [if_neg hn] at e2 ⊢
        obtain ⟨o, eo, e2⟩ := Res.bind_eq_ok e2
        rw [eo, Res.bind_ok]
        cases o with
        | none =>
          dsimp only at e2 ⊢
          obtain ⟨l', el, e2⟩ := Res.bind_eq_ok e2
          cases e2
          rw [el]
          exact .inr ⟨⟨H.good, h'.calls⟩, rfl⟩
        | some ab =>
          obtain ⟨a, b'⟩ := ab
          dsimp only at e2 ⊢
          obtain ⟨x', ex, e2⟩ := Res.bind_eq_ok e2
          cases e2
          have hfit : P b'.anchor := h'.fits _ (by
            rw [← h'.eq]
            exact List.mem_map_of_mem (by simp))
          rcases H.good.split (depth := depth) a.anchor b'.anchor (s.leaves.anchorAt (i + 1)) (K.take hfit) with ⟨hw, e3⟩ | e3
          · rw [e3]; exact .inl ⟨hw, rfl⟩
          · obtain ⟨y, ey, Hy, rfl⟩ := e3.okR ex
            rw [ey]
            exact .inr ⟨⟨Hy, h'.calls⟩, rfl⟩

theorem Tx.del (hb : ∀ k, P k → k.length ≤ pbufRoom) (H : Tx h W P s t) (k : Key) : ∃ s' t', s.del h k = .ok s' ∧ t.del k = .ok t' ∧ Tx h W P s' t' := by
  obtain ⟨s', t', e1, e2, h'⟩ := H.ix.del (tabTags_sound s.index) hb k
  rw [e1]
  unfold StrMap.del at e2
  unfold TabMap.del
  rw [jump_eq H.good]
  obtain ⟨i, ei, e2⟩ := Res.bind_eq_ok e2
  rw [ei, Res.bind_ok]
  dsimp only at e2
  cases hl : s.leaves[i]? with
  | none => rw [hl] at e2; cases e2
  | some l =>
    rw [hl] at e2
    dsimp only at e2 ⊢
    cases hm : l.matchHs k with
    | none =>
      rw [hm] at e2
      cases e2
      exact ⟨_, _, rfl, rfl, H.good, h'⟩
    | some ih =>
      rw [hm] at e2
      dsimp only at e2 ⊢
      obtain ⟨l', el, e2⟩ := Res.bind_eq_ok e2
      rw [el, Res.bind_ok]
      unfold StrMap.tryMerge at e2
      unfold TabMap.tryMerge
      generalize s.leaves.set i l' = u at *
      cases h1 : u[i]? with
      | none => rw [h1] at e2; cases e2; exact ⟨_, _, rfl, rfl, H.good, h'.calls⟩
      | some a =>
        cases h2 : u[i + 1]? with
        | none => rw [h1, h2] at e2; cases e2; exact ⟨_, _, rfl, rfl, H.good, h'.calls⟩
        | some b =>
          rw [h1, h2] at e2
          dsimp only at e2 ⊢
          by_cases c1 : a.nr = 0 ∨ a.nr + b.nr < 24
          · rw [if_pos c1] at e2 ⊢
            by_cases c2 : a.nr + b.nr ≤ 32
            · rw [if_pos c2] at e2 ⊢
              obtain ⟨m, em, e2⟩ := Res.bind_eq_ok e2
              rw [em, Res.bind_ok]
              obtain ⟨x', ex, e2⟩ := Res.bind_eq_ok e2
              cases e2
              obtain ⟨y, ey, Hy, rfl⟩ := RelRes.okR (H.good.merge a.anchor b.anchor (STree.anchorAt u (i + 2))) ex
              rw [ey]
              exact ⟨_, _, rfl, rfl, Hy, h'.calls⟩
            · rw [if_neg c2] at e2 ⊢; cases e2; exact ⟨_, _, rfl, rfl, H.good, h'.calls⟩
          · rw [if_neg c1] at e2 ⊢; cases e2; exact ⟨_, _, rfl, rfl, H.good, h'.calls⟩

theorem Tx.seek (H : Tx h W P s t) (k : Key) : ∃ s' t' cur, s.seek h k = .ok (s', cur) ∧ t.seek k = .ok (t', cur) ∧ Tx h W P s' t' := by
  obtain ⟨s', t', cur, e1, e2, h'⟩ := H.ix.seek (tabTags_sound s.index) k
  unfold StrMap.seek at e2
  unfold TabMap.seek
  rw [jump_eq H.good]
  obtain ⟨i, ei, e2⟩ := Res.bind_eq_ok e2
  rw [ei, Res.bind_ok]
  dsimp only at e2
  cases hl : s.leaves[i]? with
  | none => rw [hl] at e2; cases e2
  | some l =>
    rw [hl] at e2
    dsimp only at e2 ⊢
    obtain ⟨l', el, e2⟩ := Res.bind_eq_ok e2
    obtain ⟨is, es, e2⟩ := Res.bind_eq_ok e2
    obtain ⟨⟨u, c⟩, eu, e2⟩ := Res.bind_eq_ok e2
    cases e2
    rw [el, Res.bind_ok, es, Res.bind_ok, eu, Res.bind_ok]
    exact ⟨_, _, _, rfl, e1, H.good, h'.calls⟩

/-- Any client. -/
theorem Tx.client (K : Kind h depth W P) {α : Type} : ∀ (p : Client α), p.KeysIn P → ∀ {s : TabMap} {t : STree}, Tx h W P s t →
    SimR h W P (p.onTable h depth s) (p.onLeaves t) := by
  intro p
  induction p with
  | ret r =>
    intro hp s t H
    rw [Client.onTable, Client.onLeaves]
    cases r with
    | ok a => exact .inr ⟨H, rfl⟩
    | ub => exact .inr trivial
    | hang => exact .inr trivial
  | put k st next ih =>
    intro hp s t H
    rw [Client.onTable, Client.onLeaves]
    rcases H.put K hp.1 st with ⟨hw, e⟩ | e
    · rw [e]; exact .inl ⟨hw, rfl⟩
    · cases e1 : s.put h depth k st with
      | hang =>
        rw [e1] at e
        cases e2 : t.put k st <;> rw [e2] at e <;> first | exact .inr trivial | exact e.elim
      | ub =>
        rw [e1] at e
        cases e2 : t.put k st <;> rw [e2] at e <;> first | exact .inr trivial | exact e.elim
      | ok q =>
        obtain ⟨s', b⟩ := q
        obtain ⟨⟨t', b'⟩, e2, H', hb⟩ := (e1 ▸ e).okL rfl
        dsimp only at H' hb
        subst hb
        rw [e2]
        exact ih b (hp.2 b) H'
  | del k next ih =>
    intro hp s t H
    rw [Client.onTable, Client.onLeaves]
    obtain ⟨s', t', e1, e2, H'⟩ := H.del K.short k
    rw [e1, e2]
    exact ih hp H'
  | delRead k c1 c2 next ih =>
    intro hp s t H
    rw [Client.onTable, Client.onLeaves, show s.leaves = t from H.ix.eq]
    obtain ⟨m, hm, hf⟩ := H.ix.rep
    cases he1 : t.peek c1 with
    | ok e1 =>
      cases he2 : t.peek c2 with
      | ok e2 =>
        obtain ⟨s', t', e1', e2', H'⟩ := H.del K.short k
        rw [e1', e2']
        exact ih e1 e2 (hp e1 e2 (hf e1 (peek_mem hm he1)) (hf e2 (peek_mem hm he2))) H'
      | ub => exact .inr trivial
      | hang => exact .inr trivial
    | ub => exact .inr trivial
    | hang => exact .inr trivial
  | seek k next ih =>
    intro hp s t H
    rw [Client.onTable, Client.onLeaves]
    obtain ⟨s', t', cur, e1, e2, H'⟩ := H.seek k
    rw [e1, e2]
    exact ih cur (hp cur) H'
  | skip cur next ih =>
    intro hp s t H
    rw [Client.onTable, Client.onLeaves, show s.leaves = t from H.ix.eq]
    cases e : t.skip1 cur with
    | ok q => exact ih _ (hp _) (H.with (H.ix.skip1 (cur' := q.2) e))
    | ub => exact .inr trivial
    | hang => exact .inr trivial
  | back cur next ih =>
    intro hp s t H
    rw [Client.onTable, Client.onLeaves, show s.leaves = t from H.ix.eq]
    cases e : t.skip1Rev cur with
    | ok q => exact ih _ (hp _) (H.with (H.ix.skip1Rev (cur' := q.2) e))
    | ub => exact .inr trivial
    | hang => exact .inr trivial
  | peek cur next ih =>
    intro hp s t H
    rw [Client.onTable, Client.onLeaves, show s.leaves = t from H.ix.eq]
    cases he : t.peek cur with
    | ok e =>
      obtain ⟨m, hm, hf⟩ := H.ix.rep
      exact ih e (hp e (hf e (peek_mem hm he))) H
    | ub => exact .inr trivial
    | hang => exact .inr trivial
  | write cur st next ih =>
    intro hp s t H
    rw [Client.onTable, Client.onLeaves]
    have h' := H.ix.write cur st
    have e := h'.eq
    have e2 : s.leaves.write cur st = t.write cur st := e
    rw [e2]
    exact ih hp (H.with (by have := h'; unfold StrMap.with at this ⊢; dsimp only at this ⊢; rwa [e2] at this))
  | release cur next ih =>
    intro hp s t H
    rw [Client.onTable, Client.onLeaves]
    exact ih hp H
  | fuel next ih =>
    intro hp s t H
    rw [Client.onTable, Client.onLeaves, show s.leaves = t from H.ix.eq]
    exact ih _ (hp _) H

theorem Tx.create (K : Kind h depth W P) :
    (W = none ∧ TabMap.create h depth = .hang) ∨ ∃ s, TabMap.create h depth = .ok s ∧ Tx h W P s STree.empty := by
  unfold TabMap.create
  rcases tab_create (h := h) (depth := depth) (W := W) (K.take (a := []) K.nil 0) with ⟨hw, e⟩ | ⟨y, e, Hy, hv⟩
  · rw [e]; exact .inl ⟨hw, rfl⟩
  · rw [e]
    refine .inr ⟨_, rfl, Hy, ?_⟩
    dsimp only
    rw [hv]
    exact Ix.empty K.nil

end Verif.Str
