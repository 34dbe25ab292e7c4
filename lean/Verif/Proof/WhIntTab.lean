import Verif.Proof.WhTabStr
import Verif.Proof.IxFilter
import Verif.Spec.IntTab

/-!
# The integer tree with its hash table does what the leaves do, unless an insertion into the table does not return
-/

namespace Verif.IntT

open Verif.Str (Kind tabTags tabTags_sound)

variable {h : Key → Nat} {depth : Nat} {W : Option (Key → Prop)} {P : Key → Prop} {s : IntTab} {t : Wh} {k : Key}

/-- The index of `s` without the table. -/
abbrev view (h : Key → Nat) (s : IntTab) : WhMap := ⟨s.leaves, s.index.view h, 0⟩

/-- `s` holds the leaves `t` and their index. -/
structure Tx (h : Key → Nat) (W : Option (Key → Prop)) (P : Key → Prop) (s : IntTab) (t : Wh) : Prop where
  good : Good h W s.index
  ix : Ix (view h s) t
  kind : ∀ l ∈ t, P l.anchor

theorem tabTags_eq (H : Good h W s.index) (n : Nat) : tabTags h s.index n (s.index.view h) = s.index.tab.peek h := by
  funext p
  unfold tabTags
  show ((s.index.find h p).isSome || _) = _
  cases hf : s.index.find h p with
  | none => rfl
  | some m => rw [H.peek (some_ne hf)]; rfl

theorem jump_eq (H : Good h W s.index) (k : Key) : s.jump h k = (view h s).jump (tabTags h s.index) k := by
  unfold IntTab.jump WhMap.jump TabIndex.jump
  rw [tabTags_eq H]
  rfl

theorem Tx.jump (H : Tx h W P s t) (k : Key) : s.jump h k = .ok (t.jump k) := by
  rw [jump_eq H.good]
  exact H.ix.jump (tabTags_sound _) k

/-- The same outcome and result, unless an insertion does not return. -/
def SimR {β : Type} (h : Key → Nat) (W : Option (Key → Prop)) (P : Key → Prop) (r : Res (IntTab × β)) (s : Res (Wh × β)) : Prop :=
  (W = none ∧ r = .hang) ∨ RelRes (fun a b => Tx h W P a.1 b.1 ∧ a.2 = b.2) r s

/-- The same without a result. -/
def SimT (h : Key → Nat) (W : Option (Key → Prop)) (P : Key → Prop) (r : Res IntTab) (s : Res Wh) : Prop :=
  (W = none ∧ r = .hang) ∨ RelRes (Tx h W P) r s

theorem ixCalls {c c' : Nat} {l : Wh} {x : Index} (H : Ix ⟨l, x, c⟩ t) : Ix ⟨l, x, c'⟩ t := ⟨H.eq, H.ladder, H.idx⟩

theorem Tx.order (H : Tx h W P s t) : t.InOrder P := ⟨H.ix.ladder, H.kind⟩

/-- Other leaves with the same anchors. -/
theorem Tx.same {t' : Wh} (H : Tx h W P s t) (e : t'.anchors = t.anchors) : Tx h W P ⟨t', s.index⟩ t' := by
  refine ⟨H.good, ixCalls (H.ix.with e), fun l hl => ?_⟩
  have : l.anchor ∈ t.anchors := by rw [← e]; exact List.mem_map_of_mem hl
  obtain ⟨l', hl', e'⟩ := List.mem_map.1 this
  rw [← e']
  exact H.kind l' hl'

theorem Tx.put (K : Kind h depth W P) (H : Tx h W P s t) (st : Store) (hi : ∀ t', t.put k st = .ok t' → t'.InOrder P) :
    SimT h W P (s.put h depth k st) (t.put k st) := by
  obtain ⟨A, l, B, z⟩ := H.ix.ladder.zip k
  have hp := fun t' e => H.ix.put (tabTags_sound (h := h) s.index) (k := k) (st := st) (t' := t') e (hi t' e).1
  have hj := H.ix.jump (tabTags_sound (h := h) s.index) k
  unfold WhMap.put at hp
  rw [hj] at hp
  unfold IntTab.put
  rw [H.jump, show s.leaves = t from H.ix.eq]
  have he : (view h s).leaves = t := H.ix.eq
  rw [he] at hp
  unfold Wh.put at hp hi ⊢
  dsimp only [Res.bind_ok] at hp hi ⊢
  rw [z.get] at hp hi ⊢
  dsimp only at hp hi ⊢
  cases hs : l.searchEq k with
  | ub => exact .inr trivial
  | hang => exact .inr trivial
  | ok o =>
    rw [hs] at hp hi
    dsimp only [Res.bind_ok] at hp hi ⊢
    cases o with
    | some pos => exact .inr (H.same (set_anchors z.get rfl))
    | none =>
      dsimp only at hp hi ⊢
      by_cases hn : l.nr < 32
      · rw [if_pos hn] at hp hi ⊢
        rw [if_pos hn]
        cases ha : l.append (k, st) with
        | ub => exact .inr trivial
        | hang => exact .inr trivial
        | ok l' => exact .inr (H.same (set_anchors z.get (append_anchor ha)))
      · rw [if_neg hn] at hp hi ⊢
        rw [if_neg hn]
        cases ha : l.split (decide (t.jump k + 1 < t.length)) (k, st) with
        | ub => exact .inr trivial
        | hang => exact .inr trivial
        | ok ab =>
          obtain ⟨a, b⟩ := ab
          rw [ha] at hp hi
          dsimp only [Res.bind_ok] at hp hi ⊢
          obtain ⟨s', e1, h'⟩ := hp _ rfl
          rw [if_neg hn] at e1
          obtain ⟨x', ex, e1⟩ := Res.bind_eq_ok e1
          cases e1
          have hk := (hi _ rfl).2
          have hfit : P b.anchor := hk b (by simp)
          rcases H.good.split (depth := depth) a.anchor b.anchor (t.anchorAt (t.jump k + 1)) (K.take hfit) with ⟨hw, e3⟩ | e3
          · rw [e3]; exact .inl ⟨hw, rfl⟩
          · obtain ⟨y, ey, Hy, rfl⟩ := e3.okR ex
            rw [ey]
            exact .inr ⟨Hy, ixCalls h', hk⟩

theorem del_sublist {t' : Wh} (e : t.del k = .ok t') : t'.anchors.Sublist t.anchors := by
  unfold Wh.del at e
  dsimp only at e
  cases hl : t[t.jump k]? with
  | none => rw [hl] at e; cases e
  | some l =>
    rw [hl] at e
    dsimp only at e
    obtain ⟨o, _, e⟩ := Res.bind_eq_ok e
    cases o with
    | none => cases e; exact List.Sublist.refl _
    | some pos =>
      dsimp only at e
      have hs : Wh.anchors (t.set (t.jump k) (l.remove pos)) = t.anchors := set_anchors hl rfl
      rw [← hs]
      generalize t.set (t.jump k) (l.remove pos) = u at *
      generalize t.jump k = i at *
      unfold Wh.tryMerge at e
      cases h1 : u[i]? with
      | none => rw [h1] at e; cases e; exact List.Sublist.refl _
      | some a =>
        cases h2 : u[i + 1]? with
        | none => rw [h1, h2] at e; cases e; exact List.Sublist.refl _
        | some b =>
          rw [h1, h2] at e
          dsimp only at e
          split_ifs at e
          · obtain ⟨m, em, e⟩ := Res.bind_eq_ok e
            cases e
            obtain ⟨hi, hg⟩ := List.getElem?_eq_some_iff.1 h1
            obtain ⟨hi2, hg2⟩ := List.getElem?_eq_some_iff.1 h2
            have ht : u = u.take i ++ a :: b :: u.drop (i + 2) := by
              conv_lhs => rw [← List.take_append_drop i u, List.drop_eq_getElem_cons hi, hg, List.drop_eq_getElem_cons hi2, hg2]
            conv_rhs => rw [ht]
            unfold Wh.anchors
            simp only [List.map_append, List.map_cons, merge_anchor em]
            exact List.Sublist.append_left (List.Sublist.cons_cons _ (List.sublist_cons_self _ _)) _
          · cases e; exact List.Sublist.refl _
          · cases e; exact List.Sublist.refl _

theorem kind_sub {t' : Wh} (hk : ∀ l ∈ t, P l.anchor) (e : t'.anchors.Sublist t.anchors) : ∀ l ∈ t', P l.anchor := by
  intro l hl
  obtain ⟨l', hl', e'⟩ := List.mem_map.1 (e.subset (List.mem_map_of_mem (f := Leaf.anchor) hl))
  rw [← e']
  exact hk l' hl'

theorem Tx.del (H : Tx h W P s t) (k : Key) : RelRes (Tx h W P) (s.del h k) (t.del k) := by
  obtain ⟨A, l, B, z⟩ := H.ix.ladder.zip k
  have hp := fun t' e => H.ix.del (tabTags_sound (h := h) s.index) (k := k) (t' := t') e
  have hsub := fun t' (e : t.del k = .ok t') => del_sublist e
  have hj := H.ix.jump (tabTags_sound (h := h) s.index) k
  unfold WhMap.del at hp
  rw [hj] at hp
  unfold IntTab.del
  rw [H.jump, show s.leaves = t from H.ix.eq]
  have he : (view h s).leaves = t := H.ix.eq
  rw [he] at hp
  unfold Wh.del at hp hsub ⊢
  dsimp only [Res.bind_ok] at hp hsub ⊢
  rw [z.get] at hp hsub ⊢
  dsimp only at hp hsub ⊢
  cases hs : l.searchEq k with
  | ub => exact trivial
  | hang => exact trivial
  | ok o =>
    rw [hs] at hp hsub
    dsimp only [Res.bind_ok] at hp hsub ⊢
    cases o with
    | none => exact H
    | some pos =>
      dsimp only at hp hsub ⊢
      have hset : Wh.anchors (t.set (t.jump k) (l.remove pos)) = t.anchors := set_anchors z.get rfl
      have hsame := H.same hset
      generalize t.set (t.jump k) (l.remove pos) = u at *
      generalize t.jump k = i at *
      unfold Wh.tryMerge at hp hsub ⊢
      unfold WhMap.tryMerge at hp
      unfold IntTab.tryMerge
      cases h1 : u[i]? with
      | none => exact hsame
      | some a =>
        cases h2 : u[i + 1]? with
        | none => exact hsame
        | some b =>
          rw [h1, h2] at hp hsub
          dsimp only at hp hsub ⊢
          by_cases c1 : a.nr = 0 ∨ a.nr + b.nr < 24
          · rw [if_pos c1] at hp hsub ⊢
            rw [if_pos c1]
            by_cases c2 : a.nr + b.nr ≤ 32
            · rw [if_pos c2] at hp hsub ⊢
              rw [if_pos c2]
              cases hm : a.merge b with
              | ub => exact trivial
              | hang => exact trivial
              | ok m =>
                rw [hm] at hp hsub
                obtain ⟨s', e1, h'⟩ := hp _ rfl
                rw [if_pos c1, if_pos c2, Res.bind_ok] at e1
                rw [Res.bind_ok]
                obtain ⟨x', ex, e1⟩ := Res.bind_eq_ok e1
                cases e1
                obtain ⟨y, ey, Hy, rfl⟩ := RelRes.okR (H.good.merge a.anchor b.anchor (Wh.anchorAt u (i + 2))) ex
                rw [ey]
                exact ⟨Hy, ixCalls h', kind_sub H.kind (hsub _ rfl)⟩
            · rw [if_neg c2, if_neg c2]; exact hsame
          · rw [if_neg c1, if_neg c1]; exact hsame

theorem seek_anchors {t' : Wh} {cur : Cursor} (e : t.seek k = .ok (t', cur)) : t'.anchors = t.anchors := by
  unfold Wh.seek at e
  dsimp only at e
  cases hl : t[t.jump k]? with
  | none => rw [hl] at e; cases e
  | some l =>
    rw [hl] at e
    dsimp only at e
    obtain ⟨l', el, e⟩ := Res.bind_eq_ok e
    obtain ⟨is, _, e⟩ := Res.bind_eq_ok e
    rw [iterFix_anchors e]
    exact set_anchors hl (sync_anchor el)

theorem Tx.seek (H : Tx h W P s t) (k : Key) :
    RelRes (fun a b => Tx h W P a.1 b.1 ∧ a.2 = b.2) (s.seek h k) (t.seek k) := by
  obtain ⟨A, l, B, z⟩ := H.ix.ladder.zip k
  have hs := fun t' cur (e : t.seek k = .ok (t', cur)) => seek_anchors e
  unfold IntTab.seek
  rw [H.jump, show s.leaves = t from H.ix.eq]
  unfold Wh.seek at hs ⊢
  dsimp only [Res.bind_ok] at hs ⊢
  rw [z.get] at hs ⊢
  dsimp only at hs ⊢
  cases h1 : l.sync with
  | ub => exact trivial
  | hang => exact trivial
  | ok l' =>
    rw [h1] at hs
    dsimp only [Res.bind_ok] at hs ⊢
    cases h2 : l'.search k with
    | ub => exact trivial
    | hang => exact trivial
    | ok is =>
      rw [h2] at hs
      dsimp only [Res.bind_ok] at hs ⊢
      cases h3 : iterFix (t.length + 1) (t.set (t.jump k) l') (t.jump k) is with
      | ub => exact trivial
      | hang => exact trivial
      | ok q => exact ⟨H.same (hs q.1 q.2 h3), rfl⟩

theorem RelRes.nok {α β : Type} {R : α → β → Prop} {r : Res α} {s : Res β} (hr : RelRes R r s) {γ δ : Type} {R' : γ → δ → Prop}
    {f : α → Res γ} {g : β → Res δ} {V : Prop} (hf : ∀ a b, r = .ok a → s = .ok b → R a b → V ∨ RelRes R' (f a) (g b)) :
    V ∨ RelRes R' (r.bind f) (s.bind g) := by
  cases r with
  | ok a =>
    cases s with
    | ok b => exact hf a b rfl rfl hr
    | ub => exact hr.elim
    | hang => exact hr.elim
  | ub =>
    cases s with
    | ok b => exact hr.elim
    | ub => exact .inr trivial
    | hang => exact hr.elim
  | hang =>
    cases s with
    | ok b => exact hr.elim
    | ub => exact hr.elim
    | hang => exact .inr trivial

theorem skip_anchors {t' : Wh} {cur cur' : Cursor} (e : t.skip1 cur = .ok (t', cur')) : t'.anchors = t.anchors := by
  unfold Wh.skip1 at e
  cases cur with
  | none => cases e; rfl
  | some q => exact iterFix_anchors e

theorem back_anchors {t' : Wh} {cur cur' : Cursor} (e : t.skip1Rev cur = .ok (t', cur')) : t'.anchors = t.anchors := by
  cases cur with
  | none => cases e; rfl
  | some p =>
    unfold Wh.skip1Rev at e
    dsimp only at e
    by_cases hz : p.2 = 0
    · rw [if_pos hz] at e; exact iterFixRev_anchors e
    · rw [if_neg hz] at e; cases e; rfl

/-- Any client. -/
theorem Tx.client (K : Kind h depth W P) {α : Type} : ∀ (p : Client α) {s : IntTab} {t : Wh}, p.InOrder P t → Tx h W P s t →
    SimR h W P (p.onIntTable h depth s) (p.onWh t) := by
  intro p
  induction p with
  | ret r =>
    intro s t hp H
    rw [Client.onIntTable, Client.onWh]
    cases r with
    | ok a => exact .inr ⟨H, rfl⟩
    | ub => exact .inr trivial
    | hang => exact .inr trivial
  | put k st next ih =>
    intro s t hp H
    rw [Client.onIntTable, Client.onWh]
    rcases H.put K st (fun t' e => (hp t' e).1) with ⟨hw, e⟩ | e
    · rw [e]; exact .inl ⟨hw, rfl⟩
    · rcases RelRes.nok e (V := W = none ∧ (s.put h depth k st).bind (fun s => (next true).onIntTable h depth s) = .hang)
        (f := fun s => (next true).onIntTable h depth s) (g := fun t => (next true).onWh t)
        (R' := fun a b => Tx h W P a.1 b.1 ∧ a.2 = b.2) (fun a b e1 e2 H' => by
          rw [e1]
          exact ih true (hp b e2).2 H') with e' | e'
      · exact .inl e'
      · exact .inr e'
  | del k next ih =>
    intro s t hp H
    rw [Client.onIntTable, Client.onWh]
    refine RelRes.nok (H.del k) fun a b e1 e2 H' => ?_
    rw [e1]
    exact ih (hp b e2) H'
  | delRead k c1 c2 next ih =>
    intro s t hp H
    rw [Client.onIntTable, Client.onWh, H.jump, Res.bind_ok]
    refine RelRes.nok (H.del k) fun a b e1 e2 H' => ?_
    rw [e1, Res.bind_ok, show s.leaves = t from H.ix.eq, show a.leaves = b from H'.ix.eq]
    cases h1 : Wh.reread t b (t.jump k) c1 with
    | ub => exact .inr trivial
    | hang => exact .inr trivial
    | ok x1 =>
      cases h2 : Wh.reread t b (t.jump k) c2 with
      | ub => exact .inr trivial
      | hang => exact .inr trivial
      | ok x2 => exact ih x1 x2 (hp b e2 x1 x2 h1 h2) H'
  | seek k next ih =>
    intro s t hp H
    rw [Client.onIntTable, Client.onWh]
    refine RelRes.nok (H.seek k) fun a b e1 e2 H' => ?_
    rw [e1, Res.bind_ok]
    obtain ⟨s', c⟩ := a
    obtain ⟨t', c'⟩ := b
    obtain ⟨H', rfl⟩ := H'
    exact ih c (hp t' c e2) H'
  | skip cur next ih =>
    intro s t hp H
    rw [Client.onIntTable, Client.onWh, show s.leaves = t from H.ix.eq]
    cases e : t.skip1 cur with
    | ok q => exact ih _ (hp q.1 q.2 e) (H.same (skip_anchors (cur' := q.2) e))
    | ub => exact .inr trivial
    | hang => exact .inr trivial
  | back cur next ih =>
    intro s t hp H
    rw [Client.onIntTable, Client.onWh, show s.leaves = t from H.ix.eq]
    cases e : t.skip1Rev cur with
    | ok q => exact ih _ (hp q.1 q.2 e) (H.same (back_anchors (cur' := q.2) e))
    | ub => exact .inr trivial
    | hang => exact .inr trivial
  | peek cur next ih =>
    intro s t hp H
    rw [Client.onIntTable, Client.onWh, show s.leaves = t from H.ix.eq]
    cases he : t.peek cur with
    | ok e => exact ih e (hp e he) H
    | ub => exact .inr trivial
    | hang => exact .inr trivial
  | write cur st next ih =>
    intro s t hp H
    rw [Client.onIntTable, Client.onWh, show s.leaves = t from H.ix.eq]
    exact ih hp (H.same (write_anchors cur st))
  | release cur next ih =>
    intro s t hp H
    rw [Client.onIntTable, Client.onWh]
    exact ih hp H
  | fuel next ih =>
    intro s t hp H
    rw [Client.onIntTable, Client.onWh, show s.leaves = t from H.ix.eq]
    exact ih _ hp H

theorem Tx.create (K : Kind h depth W P) :
    (W = none ∧ IntTab.create h depth = .hang) ∨ ∃ s, IntTab.create h depth = .ok s ∧ Tx h W P s Wh.empty := by
  unfold IntTab.create
  rcases tab_create (h := h) (depth := depth) (W := W) (K.take (a := []) K.nil 0) with ⟨hw, e⟩ | ⟨y, e, Hy, hv⟩
  · rw [e]; exact .inl ⟨hw, rfl⟩
  · rw [e]
    refine .inr ⟨_, rfl, Hy, ?_, ?_⟩
    · unfold view
      rw [hv]
      exact ixCalls (c := 0) Ix.empty
    · intro l hl
      rw [List.mem_singleton.1 hl]
      exact K.nil

end Verif.IntT
