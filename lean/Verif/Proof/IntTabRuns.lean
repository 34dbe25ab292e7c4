import Verif.Proof.WhIntTab
import Verif.Proof.IntClient
import Verif.Proof.IntRuns

/-!
# Histories of `Diva<true>` keep the anchors in order
-/

namespace Verif.IntT

open Client

variable {α β : Type} {P : Key → Prop} {c : Cfg} {t t' : Wh} {k : Key}

/-- The client deletes nothing. -/
def NoDel : Client α → Prop
  | .ret _ => True
  | .put _ _ next => ∀ b, NoDel (next b)
  | .del _ _ => False
  | .delRead _ _ _ _ => False
  | .seek _ next => ∀ c, NoDel (next c)
  | .skip _ next => ∀ c, NoDel (next c)
  | .back _ next => ∀ c, NoDel (next c)
  | .peek _ next => ∀ e, NoDel (next e)
  | .write _ _ next => NoDel next
  | .release _ next => NoDel next
  | .fuel next => ∀ m, NoDel (next m)

/-- The client inserts nothing and deletes nothing. -/
def Still : Client α → Prop
  | .ret _ => True
  | .put _ _ _ => False
  | .del _ _ => False
  | .delRead _ _ _ _ => False
  | .seek _ next => ∀ c, Still (next c)
  | .skip _ next => ∀ c, Still (next c)
  | .back _ next => ∀ c, Still (next c)
  | .peek _ next => ∀ e, Still (next e)
  | .write _ _ next => Still next
  | .release _ next => Still next
  | .fuel next => ∀ m, Still (next m)

/-- After an insertion the client deletes nothing. -/
def PutsLast : Client α → Prop
  | .ret _ => True
  | .put _ _ next => ∀ b, NoDel (next b)
  | .del _ next => PutsLast next
  | .delRead _ _ _ next => ∀ e1 e2, PutsLast (next e1 e2)
  | .seek _ next => ∀ c, PutsLast (next c)
  | .skip _ next => ∀ c, PutsLast (next c)
  | .back _ next => ∀ c, PutsLast (next c)
  | .peek _ next => ∀ e, PutsLast (next e)
  | .write _ _ next => PutsLast next
  | .release _ next => PutsLast next
  | .fuel next => ∀ m, PutsLast (next m)

theorem NoDel.last {p : Client α} (h : NoDel p) : PutsLast p := by
  induction p with
  | ret r => trivial
  | put k st next ih => exact h
  | del k next ih => exact h.elim
  | delRead k c1 c2 next ih => exact h.elim
  | seek k next ih => exact fun c => ih c (h c)
  | skip k next ih => exact fun c => ih c (h c)
  | back k next ih => exact fun c => ih c (h c)
  | peek k next ih => exact fun c => ih c (h c)
  | write cur st next ih => exact ih h
  | release cur next ih => exact ih h
  | fuel next ih => exact fun m => ih m (h m)

theorem nd_bind {p : Client α} {f : α → Client β} (h : NoDel p) (hf : ∀ a, NoDel (f a)) : NoDel (p >>= f) := by
  show NoDel (Client.bind p f)
  induction p with
  | ret r =>
    cases r with
    | ok a => exact hf a
    | ub => trivial
    | hang => trivial
  | put k st next ih => exact fun b => ih b (h b)
  | del k next ih => exact h.elim
  | delRead k c1 c2 next ih => exact h.elim
  | seek k next ih => exact fun c => ih c (h c)
  | skip k next ih => exact fun c => ih c (h c)
  | back k next ih => exact fun c => ih c (h c)
  | peek k next ih => exact fun c => ih c (h c)
  | write cur st next ih => exact ih h
  | release cur next ih => exact ih h
  | fuel next ih => exact fun m => ih m (h m)

theorem last_bind {p : Client α} {f : α → Client β} (h : Still p) (hf : ∀ a, PutsLast (f a)) : PutsLast (p >>= f) := by
  show PutsLast (Client.bind p f)
  induction p with
  | ret r =>
    cases r with
    | ok a => exact hf a
    | ub => trivial
    | hang => trivial
  | put k st next ih => exact h.elim
  | del k next ih => exact h.elim
  | delRead k c1 c2 next ih => exact h.elim
  | seek k next ih => exact fun c => ih c (h c)
  | skip k next ih => exact fun c => ih c (h c)
  | back k next ih => exact fun c => ih c (h c)
  | peek k next ih => exact fun c => ih c (h c)
  | write cur st next ih => exact ih h
  | release cur next ih => exact ih h
  | fuel next ih => exact fun m => ih m (h m)

theorem last_map {p : Client α} {f : α → Client β} (h : PutsLast p) (hf : ∀ a, NoDel (f a)) : PutsLast (p >>= f) := by
  show PutsLast (Client.bind p f)
  induction p with
  | ret r =>
    cases r with
    | ok a => exact (hf a).last
    | ub => trivial
    | hang => trivial
  | put k st next ih => exact fun b => nd_bind (h b) hf
  | del k next ih => exact ih h
  | delRead k c1 c2 next ih => exact fun e1 e2 => ih e1 e2 (h e1 e2)
  | seek k next ih => exact fun c => ih c (h c)
  | skip k next ih => exact fun c => ih c (h c)
  | back k next ih => exact fun c => ih c (h c)
  | peek k next ih => exact fun c => ih c (h c)
  | write cur st next ih => exact ih h
  | release cur next ih => exact ih h
  | fuel next ih => exact fun m => ih m (h m)

theorem head_of_eq (e : t'.anchors = t.anchors) (h : t.InOrder P) : t'.InOrder P :=
  ⟨by show Ladder t'.anchors; rw [e]; exact h.1, kind_sub h.2 (by rw [e])⟩

theorem order_back {t1 : Wh} {st : Store} (h0 : t.anchors.head? = some []) (h : t1.InOrder P) (e : t.put k st = .ok t1) : t.InOrder P :=
  ⟨ladder_back h0 h.1 e, kind_sub h.2 (put_sublist e)⟩

/-- Without deletions, if the anchors are in order at the end they always were. -/
theorem NoDel.order {p : Client α} : ∀ {t t' : Wh} {a : α}, NoDel p → t.anchors.head? = some [] → p.onWh t = .ok (t', a) →
    t'.InOrder P → t.InOrder P ∧ p.InOrder P t := by
  induction p with
  | ret r =>
    intro t t' a _ _ e h
    obtain ⟨b, _, e⟩ := Res.bind_eq_ok e
    cases e
    exact ⟨h, trivial⟩
  | put k st next ih =>
    intro t t' a hp h0 e h
    obtain ⟨t1, e1, e⟩ := Res.bind_eq_ok e
    obtain ⟨o1, o2⟩ := ih true (hp true) (put_head h0 e1) e h
    refine ⟨order_back h0 o1 e1, fun t2 e2 => ?_⟩
    rw [e1] at e2
    cases e2
    exact ⟨o1, o2⟩
  | del k next ih => intro t t' a hp; exact hp.elim
  | delRead k c1 c2 next ih => intro t t' a hp; exact hp.elim
  | seek k next ih =>
    intro t t' a hp h0 e h
    obtain ⟨⟨t1, cur⟩, e1, e⟩ := Res.bind_eq_ok e
    have ha := seek_anchors e1
    obtain ⟨o1, o2⟩ := ih cur (hp cur) (by rw [ha]; exact h0) e h
    refine ⟨head_of_eq ha.symm o1, fun t2 c2 e2 => ?_⟩
    rw [e1] at e2
    cases e2
    exact o2
  | skip k next ih =>
    intro t t' a hp h0 e h
    obtain ⟨⟨t1, cur⟩, e1, e⟩ := Res.bind_eq_ok e
    have ha := skip_anchors e1
    obtain ⟨o1, o2⟩ := ih cur (hp cur) (by rw [ha]; exact h0) e h
    refine ⟨head_of_eq ha.symm o1, fun t2 c2 e2 => ?_⟩
    rw [e1] at e2
    cases e2
    exact o2
  | back k next ih =>
    intro t t' a hp h0 e h
    obtain ⟨⟨t1, cur⟩, e1, e⟩ := Res.bind_eq_ok e
    have ha := back_anchors e1
    obtain ⟨o1, o2⟩ := ih cur (hp cur) (by rw [ha]; exact h0) e h
    refine ⟨head_of_eq ha.symm o1, fun t2 c2 e2 => ?_⟩
    rw [e1] at e2
    cases e2
    exact o2
  | peek k next ih =>
    intro t t' a hp h0 e h
    obtain ⟨x, e1, e⟩ := Res.bind_eq_ok e
    obtain ⟨o1, o2⟩ := ih x (hp x) h0 e h
    refine ⟨o1, fun y e2 => ?_⟩
    rw [e1] at e2
    cases e2
    exact o2
  | write cur st next ih =>
    intro t t' a hp h0 e h
    have ha : Wh.anchors (t.write cur st) = t.anchors := write_anchors cur st
    obtain ⟨o1, o2⟩ := ih hp (by rw [ha]; exact h0) e h
    exact ⟨head_of_eq ha.symm o1, o2⟩
  | release cur next ih => intro t t' a hp h0 e h; exact ih hp h0 e h
  | fuel next ih => intro t t' a hp h0 e h; exact ih _ (hp _) h0 e h

theorem del_head (h0 : t.anchors.head? = some []) (e : t.del k = .ok t') : t'.anchors.head? = some [] := by
  unfold Wh.del at e
  dsimp only at e
  cases hl : t[t.jump k]? with
  | none => rw [hl] at e; cases e
  | some l =>
    rw [hl] at e
    dsimp only at e
    obtain ⟨o, _, e⟩ := Res.bind_eq_ok e
    cases o with
    | none => cases e; exact h0
    | some pos =>
      dsimp only at e
      have hs : Wh.anchors (t.set (t.jump k) (l.remove pos)) = t.anchors := set_anchors hl rfl
      rw [← hs] at h0
      generalize t.set (t.jump k) (l.remove pos) = u at *
      generalize t.jump k = i at *
      unfold Wh.tryMerge at e
      cases h1 : u[i]? with
      | none => rw [h1] at e; cases e; exact h0
      | some a =>
        cases h2 : u[i + 1]? with
        | none => rw [h1, h2] at e; cases e; exact h0
        | some b =>
          rw [h1, h2] at e
          dsimp only at e
          split_ifs at e
          · obtain ⟨m, em, e⟩ := Res.bind_eq_ok e
            cases e
            obtain ⟨hi, hg⟩ := List.getElem?_eq_some_iff.1 h1
            have ht : u = u.take i ++ a :: u.drop (i + 1) := by
              conv_lhs => rw [← List.take_append_drop i u, List.drop_eq_getElem_cons hi, hg]
            rw [ht] at h0
            unfold Wh.anchors at h0 ⊢
            rw [List.map_append, List.map_cons] at h0
            rw [List.map_append, List.map_cons, merge_anchor em]
            cases hm : (u.take i).map Leaf.anchor with
            | nil => rw [hm] at h0; simpa using h0
            | cons x xs => rw [hm] at h0; simpa using h0
          · cases e; exact h0
          · cases e; exact h0

theorem order_del (h : t.InOrder P) (e : t.del k = .ok t') : t'.InOrder P :=
  ⟨⟨del_head h.1.1 e, rising_sub (del_sublist e) h.1.2⟩, kind_sub h.2 (del_sublist e)⟩

/-- If the anchors are in order at the beginning and the end they are in between. -/
theorem PutsLast.order {p : Client α} : ∀ {t t' : Wh} {a : α}, PutsLast p → t.InOrder P → p.onWh t = .ok (t', a) →
    t'.InOrder P → p.InOrder P t := by
  induction p with
  | ret r => intros; trivial
  | put k st next ih =>
    intro t t' a hp h0 e h
    obtain ⟨t1, e1, e⟩ := Res.bind_eq_ok e
    obtain ⟨o1, o2⟩ := (hp true).order (put_head h0.1.1 e1) e h
    intro t2 e2
    rw [e1] at e2
    cases e2
    exact ⟨o1, o2⟩
  | del k next ih =>
    intro t t' a hp h0 e h
    obtain ⟨t1, e1, e⟩ := Res.bind_eq_ok e
    intro t2 e2
    rw [e1] at e2
    cases e2
    exact ih hp (order_del h0 e1) e h
  | delRead k c1 c2 next ih =>
    intro t t' a hp h0 e h
    obtain ⟨t1, e1, e⟩ := Res.bind_eq_ok e
    obtain ⟨x1, f1, e⟩ := Res.bind_eq_ok e
    obtain ⟨x2, f2, e⟩ := Res.bind_eq_ok e
    intro t2 e2 y1 y2 g1 g2
    rw [e1] at e2
    cases e2
    rw [f1] at g1
    rw [f2] at g2
    cases g1
    cases g2
    exact ih x1 x2 (hp x1 x2) (order_del h0 e1) e h
  | seek k next ih =>
    intro t t' a hp h0 e h
    obtain ⟨⟨t1, cur⟩, e1, e⟩ := Res.bind_eq_ok e
    intro t2 c2 e2
    rw [e1] at e2
    cases e2
    exact ih cur (hp cur) (head_of_eq (seek_anchors e1) h0) e h
  | skip k next ih =>
    intro t t' a hp h0 e h
    obtain ⟨⟨t1, cur⟩, e1, e⟩ := Res.bind_eq_ok e
    intro t2 c2 e2
    rw [e1] at e2
    cases e2
    exact ih cur (hp cur) (head_of_eq (skip_anchors e1) h0) e h
  | back k next ih =>
    intro t t' a hp h0 e h
    obtain ⟨⟨t1, cur⟩, e1, e⟩ := Res.bind_eq_ok e
    intro t2 c2 e2
    rw [e1] at e2
    cases e2
    exact ih cur (hp cur) (head_of_eq (back_anchors e1) h0) e h
  | peek k next ih =>
    intro t t' a hp h0 e h
    obtain ⟨x, e1, e⟩ := Res.bind_eq_ok e
    intro y e2
    rw [e1] at e2
    cases e2
    exact ih x (hp x) h0 e h
  | write cur st next ih =>
    intro t t' a hp h0 e h
    exact ih hp (head_of_eq (write_anchors cur st) h0) e h
  | release cur next ih => intro t t' a hp h0 e h; exact ih hp h0 e h
  | fuel next ih => intro t t' a hp h0 e h; exact ih _ (hp _) h0 e h

theorem order_bind {p : Client α} {f : α → Client β} : ∀ {t : Wh}, p.InOrder P t → (∀ t' a, p.onWh t = .ok (t', a) → (f a).InOrder P t') →
    Client.InOrder P (p >>= f) t := by
  show ∀ {t : Wh}, p.InOrder P t → _ → Client.InOrder P (Client.bind p f) t
  induction p with
  | ret r =>
    intro t _ hf
    cases r with
    | ok a => exact hf t a rfl
    | ub => trivial
    | hang => trivial
  | put k st next ih =>
    intro t h hf t' e
    exact ⟨(h t' e).1, ih true (h t' e).2 fun t2 a e2 => hf t2 a (by rw [Client.onWh, e]; exact e2)⟩
  | del k next ih =>
    intro t h hf t' e
    exact ih (h t' e) fun t2 a e2 => hf t2 a (by rw [Client.onWh, e]; exact e2)
  | delRead k c1 c2 next ih =>
    intro t h hf t' e x1 x2 f1 f2
    exact ih x1 x2 (h t' e x1 x2 f1 f2) fun t2 a e2 => hf t2 a (by rw [Client.onWh, e, Res.bind_ok, f1, Res.bind_ok, f2]; exact e2)
  | seek k next ih =>
    intro t h hf t' c e
    exact ih c (h t' c e) fun t2 a e2 => hf t2 a (by rw [Client.onWh, e]; exact e2)
  | skip k next ih =>
    intro t h hf t' c e
    exact ih c (h t' c e) fun t2 a e2 => hf t2 a (by rw [Client.onWh, e]; exact e2)
  | back k next ih =>
    intro t h hf t' c e
    exact ih c (h t' c e) fun t2 a e2 => hf t2 a (by rw [Client.onWh, e]; exact e2)
  | peek k next ih =>
    intro t h hf x e
    exact ih x (h x e) fun t2 a e2 => hf t2 a (by rw [Client.onWh, e]; exact e2)
  | write cur st next ih => intro t h hf; exact ih h hf
  | release cur next ih => intro t h hf; exact ih h hf
  | fuel next ih => intro t h hf; exact ih _ h hf

/-! ## The functions of the filter -/

theorem nd_locate (k : Key) : NoDel (Client.locate k) := by
  refine fun cur e => ?_
  show NoDel (ite _ _ _)
  split
  · exact fun _ _ => trivial
  · exact fun _ _ => trivial

theorem nd_insertSimple (k : Key) : NoDel (Client.insertSimple c k) :=
  nd_bind (nd_locate k) fun _ => nd_bind trivial fun _ => trivial

theorem nd_put (k : Key) (st : Store) : NoDel (doPut k st) := fun _ => trivial

theorem nd_insertSplit (k : Key) : NoDel (Client.insertSplit c k) := by
  refine nd_bind (nd_locate k) fun q => nd_bind trivial fun o => ?_
  cases o with
  | none => exact nd_insertSimple k
  | some d =>
    dsimp only
    split
    · split
      · trivial
      · exact nd_bind (nd_put _ _) fun _ => nd_put _ _
    · exact nd_bind (nd_put _ _) fun _ => nd_put _ _

theorem nd_insert (k : Key) (split : Bool) : NoDel (Client.insert c k split) := by
  unfold Client.insert
  split
  · exact nd_insertSplit k
  · exact nd_insertSimple k

theorem nd_point (k : Key) : NoDel (Client.pointQuery c k) := by
  refine fun cur e => ?_
  show NoDel (ite _ _ _)
  split
  · trivial
  · refine fun cur p => ?_
    show NoDel (ite _ _ _)
    split
    · trivial
    · exact nd_bind trivial fun _ => trivial

theorem nd_range (l r : Key) : NoDel (Client.intRangeQuery c l r) := by
  refine fun cur e => ?_
  show NoDel (ite _ _ _)
  split
  · trivial
  · refine fun cur p => ?_
    show NoDel (ite _ _ _)
    split
    · trivial
    · exact nd_bind trivial fun _ => trivial

theorem last_deleteMerge (cm : Cursor) : PutsLast (Client.intDeleteMerge c cm) := by
  refine fun mid cr right cm cl left => last_bind (p := doRelease cl) trivial fun _ => last_bind (p := lift _) trivial fun fr => ?_
  split
  · trivial
  · exact last_bind trivial fun _ => last_bind trivial fun _ => fun _ _ => (nd_put _ _).last

theorem still_around (cur : Cursor) (e : Key × Store) (k : Key) : Still (Client.around cur e k) := by
  unfold Client.around
  split
  · exact fun _ _ _ => trivial
  · exact fun _ _ => trivial

theorem last_delete (k : Key) : PutsLast (Client.intDelete c k) := by
  refine fun cur e => ?_
  show PutsLast (ite _ _ _)
  split
  · exact last_deleteMerge cur
  · refine last_bind (still_around cur e k) fun q => last_bind trivial fun fr => ?_
    dsimp only
    split
    · exact last_deleteMerge _
    · trivial

theorem nd_region (l r : Key) (K : List Key) (g : Nat) : NoDel (Client.bulkRegion c l r K g) := nd_bind trivial fun _ => nd_put _ _

theorem nd_loop (K : List Key) : ∀ m j last, NoDel (Client.bulkLoop c K m j last)
  | 0, _, _ => trivial
  | m + 1, j, last => by
    rw [Client.bulkLoop]
    split
    · exact nd_bind (nd_region _ _ _ _) fun _ => nd_loop K m _ _
    · exact nd_loop K m _ _

theorem nd_core (K : List Key) : NoDel (Client.bulkCore c K) := by
  unfold Client.bulkCore
  split
  · trivial
  · refine nd_bind (nd_loop _ _ _ _) fun last => nd_bind (nd_region _ _ _ _) fun _ => ?_
    split
    · exact nd_put _ _
    · trivial

theorem nd_streamKey (b : Stream) (k : Key) : NoDel (Client.streamKey c b k) := by
  unfold Client.streamKey
  split
  · trivial
  · dsimp only
    split
    · trivial
    · exact nd_bind (nd_region _ _ _ _) fun _ => trivial

theorem nd_streamKeys : ∀ (K : List Key) (b : Stream), NoDel (Client.streamKeys c K b)
  | [], _ => trivial
  | k :: K, b => nd_bind (nd_streamKey b k) fun b => nd_streamKeys K b

theorem nd_finish (b : Stream) : NoDel (Client.streamFinish c b) := by
  unfold Client.streamFinish
  split
  · trivial
  · refine nd_bind (nd_put _ _) fun _ => nd_bind (nd_put _ _) fun _ => ?_
    split
    · exact nd_bind (nd_region _ _ _ _) fun _ => nd_put _ _
    · trivial

theorem nd_deserLoop (c : Cfg) : ∀ (n : Nat) (buf : List UInt8), NoDel (Client.deserLoop c n buf)
  | 0, _ => trivial
  | n + 1, buf => by
    rw [Client.deserLoop]
    refine nd_bind trivial fun q => ?_
    split
    · trivial
    · split
      · trivial
      · exact nd_bind trivial fun p => nd_bind (nd_put _ _) fun _ => nd_deserLoop c n _

theorem nd_load (c : Cfg) (ld : IntLoad) : NoDel (ld.client c) := by
  cases ld with
  | fixed m K => exact nd_bind (nd_put _ _) fun _ => nd_bind (nd_put _ _) fun _ => nd_bind (nd_core K) fun _ => trivial
  | stream K => exact nd_bind (nd_streamKeys K _) fun b => nd_bind (nd_finish b) fun _ => trivial
  | restore buf => exact nd_bind trivial fun q => nd_bind (nd_deserLoop _ _ _) fun _ => trivial

theorem nd_scanLoop (g : α → Key × Store → α) : ∀ (n : Nat) (cur : Cursor) (acc : α), NoDel (Client.scanLoop g n cur acc)
  | 0, _, _ => trivial
  | _ + 1, none, _ => trivial
  | n + 1, some _, _ => fun _ cur => nd_scanLoop g n cur _

theorem nd_scan (g : α → Key × Store → α) (acc : α) : NoDel (Client.scan g acc) := fun _ m => nd_scanLoop g (m + 1) _ _

theorem nd_shrinkLoop (s' : Nat) : ∀ (n : Nat) (cur : Cursor), NoDel (Client.shrinkLoop c s' n cur)
  | 0, _ => trivial
  | n + 1, cur => by
    rw [Client.shrinkLoop]
    refine fun e cur => ?_
    show NoDel (ite _ _ _)
    split
    · exact nd_shrinkLoop s' n _
    · trivial

theorem nd_shrink (s : Nat) : NoDel (Client.shrink c s) := by
  refine nd_bind (p := doSeek []) (fun _ => trivial) fun cur => ?_
  refine nd_bind (p := fuel fun n => Client.shrinkLoop c s (n + 1) cur) (fun m => nd_shrinkLoop s (m + 1) _) fun _ => ?_
  trivial

theorem nd_then {p : Client α} {f : α → β} (h : NoDel p) : PutsLast (p >>= fun a => pure (f a)) := NoDel.last (nd_bind h fun _ => trivial)

theorem last_call (call : FilterCall) : PutsLast (call.intClient c) := by
  cases call with
  | insert k split => exact nd_then (nd_insert k split)
  | delete k => exact last_map (last_delete k) fun _ => trivial
  | point k => exact nd_then (nd_point k)
  | range l r => exact nd_then (nd_range l r)
  | shrink s => exact nd_then (nd_shrink s)
  | size => exact nd_then (p := Client.intSize c) (nd_bind (nd_scan _ _) fun _ => trivial)
  | serialize seed lf => exact nd_then (p := Client.intSerialize seed lf c) (nd_bind (nd_scan _ _) fun _ => trivial)

/-! ## Histories -/

theorem anchors_now {w : WhFilter} {calls : List FilterCall} (h : AnchorsFrom P w calls) : ∀ l ∈ w.tree, P l.anchor := by
  cases calls with
  | nil => exact h
  | cons call calls => exact h.1

theorem Twin.order {w : WhFilter} {f : Filter} (h : Twin w f) (ha : ∀ l ∈ w.tree, P l.anchor) : w.tree.InOrder P :=
  ⟨h.2.ladder, ha⟩

theorem calls_order : ∀ {calls : List FilterCall} {c : Cfg} {t : Wh} {f : Filter}, Twin ⟨c, t⟩ f → (∀ call ∈ calls, call.Short) →
    CalmFrom ⟨c, t⟩ calls → AnchorsFrom P ⟨c, t⟩ calls → (∃ q, intTreeFrom ⟨c, t⟩ calls = .ok q) →
    (intCallsClient calls c).InOrder P t
  | [], _, _, _, _, _, _, _, _ => trivial
  | call :: calls, c, t, f, hT, hs, hc, ha, ⟨q, hq⟩ => by
    rw [intTreeFrom] at hq
    obtain ⟨⟨w', as⟩, e, hq⟩ := Res.bind_eq_ok hq
    obtain ⟨q', hq', -⟩ := Res.bind_eq_ok hq
    have hsame := intCall_same hT (hs call (by simp)) hc.1
    rw [e] at hsame
    obtain ⟨f', as', -, hT', -⟩ : ∃ f' as', call.onIntList f = .ok (f', as') ∧ Twin w' f' ∧ as = as' := by
      revert hsame
      cases call.onIntList f with
      | ok p => exact fun h => ⟨p.1, p.2, rfl, h.1, h.2⟩
      | ub => exact fun h => h.elim
      | hang => exact fun h => h.elim
    have ha' := ha.2 w' as e
    have e' := e
    rw [IntC.call_client] at e'
    obtain ⟨⟨t', c', bs⟩, e1, e2⟩ := Res.bind_eq_ok e'
    cases e2
    refine order_bind ((last_call call).order (Twin.order (w := ⟨c, t⟩) hT ha.1) e1 (Twin.order hT' (anchors_now ha'))) fun t2 p e3 => ?_
    rw [e1] at e3
    cases e3
    exact order_bind (calls_order hT' (fun x hx => hs x (by simp [hx])) (hc.2 _ _ e) ha' ⟨q', hq'⟩) fun _ _ _ => trivial

theorem run_order (c : Cfg) {ld : IntLoad} {calls : List FilterCall} (h1 : ld.OK) (h2 : ∀ call ∈ calls, call.Short)
    (h3 : ∀ w, ld.onTree c = .ok w → CalmFrom w calls) (h4 : ∀ w, ld.onTree c = .ok w → AnchorsFrom P w calls)
    (h5 : ∃ q, intTreeRun c ld calls = .ok q) : (intRunClient c ld calls).InOrder P Wh.empty := by
  obtain ⟨q, h5⟩ := h5
  obtain ⟨w, e, h5⟩ := Res.bind_eq_ok h5
  obtain ⟨f, -, hT⟩ := (intLoad_same c h1).okL e
  have e' := e
  rw [IntC.load_client] at e'
  obtain ⟨⟨t, c'⟩, e1, e2⟩ := Res.bind_eq_ok e'
  cases e2
  refine order_bind ((nd_load c ld).order rfl e1 (Twin.order hT (anchors_now (h4 _ e)))).2 fun t2 p e3 => ?_
  rw [e1] at e3
  cases e3
  exact calls_order hT h2 (h3 _ e) (h4 _ e) ⟨q, h5⟩

end Verif.IntT
