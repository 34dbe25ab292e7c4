import Verif.Proof.WhLock

/-!
# The functions of `Diva<false>` release what they hold
-/

namespace Verif.Lock

open Verif Client

variable {α β : Type} {c : Cfg} {held : Cursor}

/-- As `Client.Releases`, and at the end the result and what is held meet `Q`. -/
def Bal (Q : α → Cursor → Prop) : Cursor → Client α → Prop
  | held, .ret r => ∀ a, r = .ok a → Q a held
  | held, .put _ _ next => held = none ∧ ∀ b, Bal Q none (next b)
  | held, .del _ next => held = none ∧ Bal Q none next
  | held, .delRead _ _ _ next => held = none ∧ ∀ e1 e2, Bal Q none (next e1 e2)
  | held, .seek _ next => held = none ∧ ∀ c, Bal Q c (next c)
  | held, .skip cur next => cur = held ∧ ∀ c, Bal Q c (next c)
  | held, .back cur next => cur = held ∧ ∀ c, Bal Q c (next c)
  | held, .peek cur next => cur = held ∧ ∀ e, Bal Q held (next e)
  | held, .write _ _ next => Bal Q held next
  | held, .release cur next => cur = held ∧ Bal Q none next
  | held, .fuel next => ∀ n, Bal Q held (next n)

/-- Nothing is held at the end. -/
abbrev Done : α → Cursor → Prop := fun _ h => h = none

/-- The result is what is held at the end. -/
abbrev Gets : Cursor → Cursor → Prop := fun a h => a = h

theorem Bal.releases {p : Client α} : ∀ {held : Cursor}, Bal Done held p → p.Releases held := by
  induction p with
  | ret r => exact id
  | put k st next ih => exact fun h => ⟨h.1, fun b => ih b (h.2 b)⟩
  | del k next ih => exact fun h => ⟨h.1, ih h.2⟩
  | delRead k c1 c2 next ih => exact fun h => ⟨h.1, fun e1 e2 => ih e1 e2 (h.2 e1 e2)⟩
  | seek k next ih => exact fun h => ⟨h.1, fun b => ih b (h.2 b)⟩
  | skip k next ih => exact fun h => ⟨h.1, fun b => ih b (h.2 b)⟩
  | back k next ih => exact fun h => ⟨h.1, fun b => ih b (h.2 b)⟩
  | peek k next ih => exact fun h => ⟨h.1, fun b => ih b (h.2 b)⟩
  | write cur st next ih => exact fun h => ih h
  | release cur next ih => exact fun h => ⟨h.1, ih h.2⟩
  | fuel next ih => exact fun h m => ih m (h m)

theorem Bal.bind {Q : α → Cursor → Prop} {R : β → Cursor → Prop} {p : Client α} {f : α → Client β} :
    ∀ {held : Cursor}, Bal Q held p → (∀ a h, Q a h → Bal R h (f a)) → Bal R held (p >>= f) := by
  show ∀ {held : Cursor}, Bal Q held p → (∀ a h, Q a h → Bal R h (f a)) → Bal R held (Client.bind p f)
  induction p with
  | ret r =>
    intro held h hf
    cases r with
    | ok a => exact hf a held (h a rfl)
    | ub => exact fun a e => by cases e
    | hang => exact fun a e => by cases e
  | put k st next ih => exact fun h hf => ⟨h.1, fun b => ih b (h.2 b) hf⟩
  | del k next ih => exact fun h hf => ⟨h.1, ih h.2 hf⟩
  | delRead k c1 c2 next ih => exact fun h hf => ⟨h.1, fun e1 e2 => ih e1 e2 (h.2 e1 e2) hf⟩
  | seek k next ih => exact fun h hf => ⟨h.1, fun b => ih b (h.2 b) hf⟩
  | skip k next ih => exact fun h hf => ⟨h.1, fun b => ih b (h.2 b) hf⟩
  | back k next ih => exact fun h hf => ⟨h.1, fun b => ih b (h.2 b) hf⟩
  | peek k next ih => exact fun h hf => ⟨h.1, fun b => ih b (h.2 b) hf⟩
  | write cur st next ih => exact fun h hf => ih h hf
  | release cur next ih => exact fun h hf => ⟨h.1, ih h.2 hf⟩
  | fuel next ih => exact fun h hf m => ih m (h m) hf

/-- After a program that ends with nothing held. -/
theorem Bal.then {R : β → Cursor → Prop} {p : Client α} {f : α → Client β} (h : Bal Done held p)
    (hf : ∀ a, Bal R none (f a)) : Bal R held (p >>= f) := h.bind fun a _ e => by rw [e]; exact hf a

/-- After a program that ends with an iterator. -/
theorem Bal.gets {R : β → Cursor → Prop} {p : Client Cursor} {f : Cursor → Client β} (h : Bal Gets held p)
    (hf : ∀ cur, Bal R cur (f cur)) : Bal R held (p >>= f) := h.bind fun a _ e => by rw [← e]; exact hf a

/-- After a program that keeps what is held. -/
theorem Bal.keep {R : β → Cursor → Prop} {p : Client α} {f : α → Client β} (h : Bal (fun _ h => h = held) held p)
    (hf : ∀ a, Bal R held (f a)) : Bal R held (p >>= f) := h.bind fun a _ e => by rw [e]; exact hf a

theorem bal_pure {Q : α → Cursor → Prop} {a : α} (h : Q a held) : Bal Q held (pure a) := fun _ e => by cases e; exact h

theorem bal_done (a : α) : Bal Done none (pure a) := bal_pure rfl

theorem bal_lift (r : Res α) : Bal (fun _ h => h = held) held (lift r) := fun _ _ => rfl

theorem bal_ub {Q : α → Cursor → Prop} : Bal Q held (lift .ub : Client α) := fun _ e => by cases e

theorem bal_put (k : Key) (st : Store) : Bal Done none (doPut k st) := ⟨rfl, fun _ _ _ => rfl⟩

theorem bal_del (k : Key) : Bal Done none (doDel k) := ⟨rfl, fun _ _ => rfl⟩

theorem bal_seek (k : Key) : Bal Gets none (doSeek k) := ⟨rfl, fun _ _ e => by cases e; rfl⟩

theorem bal_skip (cur : Cursor) : Bal Gets cur (doSkip cur) := ⟨rfl, fun _ _ e => by cases e; rfl⟩

theorem bal_back (cur : Cursor) : Bal Gets cur (doBack cur) := ⟨rfl, fun _ _ e => by cases e; rfl⟩

theorem bal_peek (cur : Cursor) : Bal (fun _ h => h = cur) cur (doPeek cur) := ⟨rfl, fun _ _ _ => rfl⟩

theorem bal_write (cur : Cursor) (st : Store) : Bal (fun _ h => h = held) held (doWrite cur st) := fun _ _ => rfl

theorem bal_release (cur : Cursor) : Bal Done cur (doRelease cur) := ⟨rfl, fun _ _ => rfl⟩

theorem bal_locate (k : Key) : Bal Done none (Client.locate k) := by
  refine (bal_seek k).gets fun cur => (bal_peek cur).keep fun e => ?_
  split
  · exact (bal_skip cur).gets fun nx => (bal_peek nx).keep fun e' => (bal_release nx).then fun _ => bal_done _
  · exact (bal_back cur).gets fun pv => (bal_peek pv).keep fun p => (bal_release pv).then fun _ => bal_done _

theorem bal_around (cur : Cursor) (e : Key × Store) (k : Key) : Bal (fun q h => q.1 = h) cur (Client.around cur e k) := by
  unfold Client.around
  split
  · exact (bal_skip cur).gets fun nx => (bal_peek nx).keep fun e' => (bal_back nx).gets fun _ => bal_pure rfl
  · exact (bal_back cur).gets fun pv => (bal_peek pv).keep fun p => bal_pure rfl

theorem bal_point (k : Key) : Bal Done none (Client.pointQuery c k) := by
  refine (bal_seek k).gets fun cur => (bal_peek cur).keep fun e => ?_
  split
  · exact (bal_release cur).then fun _ => bal_done _
  · refine (bal_back cur).gets fun pv => (bal_peek pv).keep fun p => (bal_release pv).then fun _ => ?_
    split
    · exact bal_done _
    · exact (bal_lift _).keep fun _ => bal_done _

theorem bal_range (l r : Key) : Bal Done none (Client.rangeQuery c l r) := by
  refine (bal_seek l).gets fun cur => (bal_peek cur).keep fun e => ?_
  split
  · exact (bal_release cur).then fun _ => bal_done _
  · refine (bal_back cur).gets fun pv => (bal_peek pv).keep fun p => (bal_release pv).then fun _ => ?_
    split
    · exact bal_done _
    · exact (bal_lift _).keep fun _ => bal_done _

theorem bal_insertSimple (k : Key) : Bal Done none (Client.insertSimple c k) :=
  (bal_locate k).then fun _ => (bal_lift _).keep fun _ => bal_write _ _

theorem bal_insertSplit (k : Key) : Bal Done none (Client.insertSplit c k) := by
  refine (bal_locate k).then fun q => (bal_lift _).keep fun o => ?_
  cases o with
  | none => exact bal_insertSimple k
  | some d =>
    dsimp only
    cases d.zeroPos with
    | none => exact (bal_put _ _).then fun _ => bal_put _ _
    | some zp =>
      dsimp only
      split
      · exact bal_ub
      · exact (bal_put _ _).then fun _ => bal_put _ _

theorem bal_insert (k : Key) (split : Bool) : Bal Done none (Client.insert c k split) := by
  unfold Client.insert
  cases split
  · exact bal_insertSimple k
  · exact bal_insertSplit k

theorem bal_deleteMerge (cm : Cursor) : Bal Done cm (Client.deleteMerge c cm) := by
  refine (bal_peek cm).keep fun mid => (bal_skip cm).gets fun cr => (bal_peek cr).keep fun right =>
    (bal_back cr).gets fun cm => (bal_back cm).gets fun cl => (bal_peek cl).keep fun left =>
    (bal_release cl).then fun _ => (bal_lift _).keep fun fr => ?_
  split
  · exact bal_ub
  · exact (bal_lift _).keep fun _ => (bal_lift _).keep fun _ => (bal_del _).then fun _ => bal_put _ _

theorem bal_delete (k : Key) : Bal Done none (Client.delete c k) := by
  refine (bal_seek k).gets fun cur => (bal_peek cur).keep fun e => ?_
  split
  · exact bal_deleteMerge cur
  · refine (bal_around cur e k).bind fun q h hq => ?_
    subst hq
    refine (bal_lift _).keep fun fr => ?_
    dsimp only
    split
    · exact bal_deleteMerge _
    · exact (bal_release _).then fun _ => bal_write _ _

/-! ## Construction -/

theorem bal_region (l r : Key) (K : List Key) (g : Nat) : Bal Done none (Client.bulkRegion c l r K g) :=
  (bal_lift _).keep fun _ => bal_put _ _

theorem bal_loop (K : List Key) : ∀ m j last, Bal Done none (Client.bulkLoop c K m j last)
  | 0, _, _ => bal_done _
  | m + 1, j, last => by
    rw [Client.bulkLoop]
    split
    · exact (bal_region _ _ _ _).then fun _ => bal_loop K m _ _
    · exact bal_loop K m _ _

theorem bal_core (K : List Key) : Bal Done none (Client.bulkCore c K) := by
  unfold Client.bulkCore
  split
  · exact bal_ub
  · refine (bal_loop K _ _ _).then fun last => (bal_region _ _ _ _).then fun _ => ?_
    split
    · exact bal_put _ _
    · exact bal_done _

theorem bal_streamKey (b : Stream) (k : Key) : Bal Done none (Client.streamKey c b k) := by
  unfold Client.streamKey
  cases b.left with
  | none => exact bal_done _
  | some l =>
    dsimp only
    split
    · exact bal_done _
    · exact (bal_region _ _ _ _).then fun _ => bal_done _

theorem bal_streamKeys : ∀ (K : List Key) (b : Stream), Bal Done none (Client.streamKeys c K b)
  | [], _ => bal_done _
  | k :: K, b => (bal_streamKey b k).then fun b' => bal_streamKeys K b'

theorem bal_finish (b : Stream) : Bal Done none (Client.streamFinish c b) := by
  unfold Client.streamFinish
  split
  · exact bal_ub
  · refine (bal_put _ _).then fun _ => (bal_put _ _).then fun _ => ?_
    split
    · exact (bal_region _ _ _ _).then fun _ => bal_put _ _
    · exact bal_done _

theorem bal_deserLoop : ∀ m buf, Bal Done none (Client.deserLoop c m buf)
  | 0, _ => fun _ e => by cases e
  | m + 1, buf => by
    rw [Client.deserLoop]
    refine (bal_lift _).keep fun q => ?_
    split
    · exact bal_done _
    · split
      · exact bal_ub
      · exact (bal_lift _).keep fun p => (bal_put _ _).then fun _ => bal_deserLoop m _

theorem bal_load (c : Cfg) (ld : Load) : Bal Done none (ld.client c) := by
  cases ld with
  | fixed m K => exact (bal_put _ _).then fun _ => (bal_put _ _).then fun _ => (bal_core K).then fun _ => bal_done _
  | var K => exact (bal_put _ _).then fun _ => (bal_core K).then fun _ => (bal_put _ _).then fun _ => bal_done _
  | stream K => exact (bal_streamKeys K _).then fun b => (bal_finish b).then fun _ => bal_done _
  | restore buf => exact (bal_lift _).keep fun q => (bal_deserLoop _ _).then fun _ => bal_done _

/-! ## Calls that visit the whole tree -/

theorem bal_scanLoop (g : α → Key × Store → α) : ∀ m cur acc, Bal Done cur (Client.scanLoop g m cur acc)
  | 0, _, _ => fun _ e => by cases e
  | _ + 1, none, _ => bal_done _
  | m + 1, some p, acc => (bal_peek _).keep fun _ => (bal_skip _).gets fun _ => bal_scanLoop g m _ _

theorem bal_scan (g : α → Key × Store → α) (acc : α) : Bal Done none (Client.scan g acc) :=
  (bal_seek _).gets fun _ m => bal_scanLoop g (m + 1) _ acc

theorem bal_shrinkLoop (s' : Nat) : ∀ m cur, Bal Done cur (Client.shrinkLoop c s' m cur)
  | 0, _ => fun _ e => by cases e
  | m + 1, cur => by
    rw [Client.shrinkLoop]
    refine (bal_peek _).keep fun _ => (bal_write _ _).keep fun _ => (bal_skip _).gets fun cur' => ?_
    split
    · exact bal_shrinkLoop s' m _
    · cases cur' with
      | none => exact bal_done _
      | some p => rename_i h; exact (h rfl).elim

/-! ## Histories -/

theorem bal_call (call : FilterCall) : Bal Done none (call.client c) := by
  cases call with
  | insert k split => exact (bal_insert k split).then fun _ => bal_done _
  | delete k => exact (bal_delete k).then fun _ => bal_done _
  | point k => exact (bal_point k).then fun _ => bal_done _
  | range l r => exact (bal_range l r).then fun _ => bal_done _
  | shrink s =>
    refine Bal.then ?_ fun _ => bal_done _
    exact (bal_seek _).gets fun _ => Bal.then (fun m => bal_shrinkLoop s (m + 1) _) fun _ => bal_done _
  | size => exact ((bal_scan _ _).then fun _ => bal_done _ : Bal Done none (Client.size c)).then fun _ => bal_done _
  | serialize seed lf =>
    exact ((bal_scan _ _).then fun _ => bal_done _ : Bal Done none (Client.serialize seed lf c)).then fun _ => bal_done _

theorem bal_calls : ∀ (calls : List FilterCall) (q : Cfg × List Answer), Bal Done none (callsClient calls q)
  | [], _ => bal_done _
  | call :: calls, _ => (bal_call call).then fun _ => bal_calls calls _

theorem bal_run (c : Cfg) (ld : Load) (calls : List FilterCall) : Bal Done none (runClient c ld calls) :=
  (bal_load c ld).then fun _ => bal_calls calls _

theorem bal_steps : ∀ (bs : List Bool) (cur : Cursor), Bal Done cur (stepsClient cur bs)
  | [], _ => bal_release _
  | b :: bs, cur => by
    rw [stepsClient]
    split
    · exact (bal_skip _).gets fun cur' => bal_steps bs cur'
    · exact (bal_back _).gets fun cur' => bal_steps bs cur'

theorem bal_treeCall (call : TreeCall) : Bal Done none call.client := by
  cases call with
  | put k st => exact ⟨rfl, fun _ _ _ => rfl⟩
  | del k => exact (bal_del k).then fun _ => bal_done _
  | walk k bs => exact (bal_seek k).gets fun cur => (bal_steps bs cur).then fun _ => bal_done _
  | write k st =>
    refine (bal_seek k).gets fun cur => ?_
    cases cur with
    | none => exact bal_done _
    | some p =>
      refine (bal_peek _).keep fun e => ?_
      dsimp only
      split
      · exact (bal_write _ _).keep fun _ => (bal_release _).then fun _ => bal_done _
      · exact (bal_release _).then fun _ => bal_done _

theorem bal_tree : ∀ (calls : List TreeCall) (b : Bool), Bal Done none (treeClient calls b)
  | [], _ => bal_done _
  | call :: calls, _ => (bal_treeCall call).then fun _ => bal_tree calls _

end Verif.Lock
