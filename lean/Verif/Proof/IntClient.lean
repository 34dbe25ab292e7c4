import Verif.Proof.StrClient
import Verif.Spec.IntClient

/-!
# The functions of `Diva<true>` are clients of the tree
-/

namespace Verif.IntC

open Client
open Verif.Str (bind_assoc bind_id bind_ite ub_bind hang_bind)

variable {α β : Type} {t : Wh} {c : Cfg}

theorem onWh_bind (p : Client α) (f : α → Client β) (t : Wh) :
    (p >>= f).onWh t = (p.onWh t).bind fun q => (f q.2).onWh q.1 := by
  show (Client.bind p f).onWh t = _
  induction p generalizing t with
  | ret r => cases r <;> rfl
  | put k st next ih => simp only [Client.bind, onWh, bind_assoc, ih]
  | del k next ih => simp only [Client.bind, onWh, bind_assoc, ih]
  | delRead k c1 c2 next ih => simp only [Client.bind, onWh, bind_assoc, ih]
  | seek k next ih => simp only [Client.bind, onWh, bind_assoc, ih]
  | skip k next ih => simp only [Client.bind, onWh, bind_assoc, ih]
  | back k next ih => simp only [Client.bind, onWh, bind_assoc, ih]
  | peek k next ih => simp only [Client.bind, onWh, bind_assoc, ih]
  | write cur st next ih => simp only [Client.bind, onWh, ih]
  | release cur next ih => simp only [Client.bind, onWh, ih]
  | fuel next ih => simp only [Client.bind, onWh, ih]

theorem onWh_pure (a : α) (t : Wh) : (pure a : Client α).onWh t = .ok (t, a) := rfl

theorem onWh_lift (r : Res α) (t : Wh) : (lift r).onWh t = r.bind fun a => .ok (t, a) := rfl

theorem onWh_put (k : Key) (st : Store) (t : Wh) : (doPut k st).onWh t = (t.put k st).bind fun t => .ok (t, ()) := rfl

theorem onWh_del (k : Key) (t : Wh) : (doDel k).onWh t = (t.del k).bind fun t => .ok (t, ()) := rfl

theorem onWh_delRead (k : Key) (c1 c2 : Cursor) (next : Key × Store → Key × Store → Client α) (t : Wh) :
    (delRead k c1 c2 next).onWh t = (t.del k).bind fun t' =>
      (Wh.reread t t' (t.jump k) c1).bind fun e1 => (Wh.reread t t' (t.jump k) c2).bind fun e2 => (next e1 e2).onWh t' := rfl

theorem onWh_seek (k : Key) (t : Wh) : (doSeek k).onWh t = t.seek k := bind_id _

theorem onWh_skip (k : Cursor) (t : Wh) : (doSkip k).onWh t = t.skip1 k := bind_id _

theorem onWh_back (k : Cursor) (t : Wh) : (doBack k).onWh t = t.skip1Rev k := bind_id _

theorem onWh_peek (k : Cursor) (t : Wh) : (doPeek k).onWh t = (t.peek k).bind fun e => .ok (t, e) := rfl

theorem onWh_release (k : Cursor) (t : Wh) : (doRelease k).onWh t = .ok (t, ()) := rfl

theorem onWh_write (k : Cursor) (st : Store) (t : Wh) : (doWrite k st).onWh t = .ok (t.write k st, ()) := rfl

theorem onWh_ite (p : Prop) [Decidable p] (a b : Client α) (t : Wh) :
    (if p then a else b).onWh t = if p then a.onWh t else b.onWh t := by
  split <;> rfl

theorem locate_client (k : Key) (t : Wh) : (Client.locate k).onWh t = t.locate k := by
  unfold Client.locate Wh.locate
  simp only [onWh_bind, onWh_seek, onWh_peek, onWh_release, onWh_skip, onWh_back, onWh_ite, onWh_pure, bind_assoc,
    Res.bind_ok]

theorem around_client (cur : Cursor) (e : Key × Store) (k : Key) (t : Wh) :
    (Client.around cur e k).onWh t = t.around cur e k := by
  unfold Client.around Wh.around
  simp only [onWh_bind, onWh_peek, onWh_skip, onWh_back, onWh_ite, onWh_pure, bind_assoc,
    Res.bind_ok]

/-- The state after a client without result. -/
def after (c : Cfg) (r : Res (Wh × Unit)) : Res WhFilter := r.bind fun q => .ok ⟨c, q.1⟩

/-- The state after a client that answers. -/
def answer (c : Cfg) (r : Res (Wh × α)) : Res (WhFilter × α) := r.bind fun q => .ok (⟨c, q.1⟩, q.2)

theorem point_client (k : Key) : whPointQuery ⟨c, t⟩ k = answer c ((Client.pointQuery c k).onWh t) := by
  unfold whPointQuery Client.pointQuery answer
  simp only [onWh_bind, onWh_seek, onWh_peek, onWh_release, onWh_back, onWh_ite, onWh_pure, onWh_lift,
    bind_assoc, bind_ite, Res.bind_ok]

theorem range_client (k r : Key) : whRangeQuery ⟨c, t⟩ k r = answer c ((Client.intRangeQuery c k r).onWh t) := by
  unfold whRangeQuery Client.intRangeQuery answer
  simp only [onWh_bind, onWh_seek, onWh_peek, onWh_release, onWh_back, onWh_ite, onWh_pure, onWh_lift,
    bind_assoc, bind_ite, Res.bind_ok]

theorem insertSimple_client (k : Key) : whInsertSimple ⟨c, t⟩ k = after c ((Client.insertSimple c k).onWh t) := by
  unfold whInsertSimple Client.insertSimple after
  simp only [onWh_bind, locate_client, onWh_lift, onWh_write, bind_assoc, Res.bind_ok]

theorem insertSplit_client (k : Key) : whInsertSplit ⟨c, t⟩ k = after c ((Client.insertSplit c k).onWh t) := by
  unfold whInsertSplit Client.insertSplit after
  simp only [onWh_bind, locate_client, onWh_lift, bind_assoc, Res.bind_ok]
  congr 1
  funext q
  congr 1
  funext o
  cases o with
  | none => exact insertSimple_client k
  | some d =>
    dsimp only
    cases d.zeroPos with
    | none => simp only [onWh_bind, onWh_put, bind_assoc, Res.bind_ok]
    | some zp => simp only [onWh_bind, onWh_put, onWh_ite, onWh_lift, bind_ite, ub_bind, bind_assoc, Res.bind_ok]

theorem insert_client (k : Key) (split : Bool) : whInsert ⟨c, t⟩ k split = after c ((Client.insert c k split).onWh t) := by
  unfold whInsert Client.insert
  cases split
  · exact insertSimple_client k
  · exact insertSplit_client k

theorem deleteMerge_client (cm : Cursor) : whDeleteMerge c t cm = after c ((Client.intDeleteMerge c cm).onWh t) := by
  unfold whDeleteMerge Client.intDeleteMerge after
  simp only [onWh_bind, onWh_put, onWh_delRead, onWh_peek, onWh_release, onWh_skip, onWh_back, onWh_ite, onWh_lift,
    bind_ite, ub_bind, bind_assoc, Res.bind_ok]

theorem delete_client (k : Key) : whDelete ⟨c, t⟩ k = after c ((Client.intDelete c k).onWh t) := by
  unfold whDelete Client.intDelete
  simp only [onWh_bind, onWh_seek, onWh_peek, onWh_release, onWh_write, around_client, onWh_ite, onWh_lift,
    deleteMerge_client, after, bind_ite, bind_assoc, Res.bind_ok]

/-! ## Construction -/

theorem addTreeKey_client (k : Key) (t : Wh) : (Client.addTreeKey k).onWh t = (whAddTreeKey t k).bind fun t => .ok (t, ()) :=
  onWh_put _ _ _

theorem bulkRegion_client (c : Cfg) (l r : Key) (K : List Key) (g : Nat) (t : Wh) :
    (Client.bulkRegion c l r K g).onWh t = (whBulkRegion c t l r K g).bind fun t => .ok (t, ()) := by
  unfold Client.bulkRegion whBulkRegion
  simp only [onWh_bind, onWh_put, onWh_lift, bind_assoc, Res.bind_ok]

theorem bulkLoop_client (c : Cfg) (K : List Key) : ∀ (n j last : Nat) (t : Wh),
    (Client.bulkLoop c K n j last).onWh t = whBulkLoop c K n j last t
  | 0, _, _, _ => rfl
  | n + 1, j, last, t => by
    rw [Client.bulkLoop, whBulkLoop]
    simp only [onWh_bind, onWh_ite, bulkRegion_client, bulkLoop_client c K n, bind_assoc, Res.bind_ok]

theorem bulkCore_client (c : Cfg) (K : List Key) (t : Wh) :
    (Client.bulkCore c K).onWh t = (whBulkCore c t K).bind fun t => .ok (t, ()) := by
  unfold Client.bulkCore whBulkCore
  simp only [onWh_bind, onWh_ite, bulkRegion_client, bulkLoop_client, addTreeKey_client, onWh_lift, onWh_pure, bind_ite,
    ub_bind, bind_assoc, Res.bind_ok]

/-- The filter that a constructor returns. -/
def made (r : Res (Wh × Cfg)) : Res WhFilter := r.bind fun q => .ok ⟨q.2, q.1⟩

theorem bulkFixed_client (c : Cfg) (n : Nat) (K : List Key) :
    whBulkFixed c n K = made ((Client.bulkFixed c n K).onWh Wh.empty) := by
  unfold Client.bulkFixed whBulkFixed made
  simp only [onWh_bind, bulkCore_client, addTreeKey_client, onWh_pure, bind_assoc, Res.bind_ok]

theorem streamKey_client (c : Cfg) (b : Stream) (k : Key) (t : Wh) :
    whStreamKey ⟨c, t⟩ b k = answer c ((Client.streamKey c b k).onWh t) := by
  unfold whStreamKey Client.streamKey answer
  cases b.left with
  | none => rfl
  | some l =>
    simp only [onWh_bind, onWh_ite, bulkRegion_client, onWh_pure, bind_ite, bind_assoc, Res.bind_ok]

theorem streamFinish_client (c : Cfg) (b : Stream) (t : Wh) :
    (whStreamFinish ⟨c, t⟩ b).bind (fun q => .ok q.1) = after c ((Client.streamFinish c b).onWh t) := by
  unfold whStreamFinish Client.streamFinish after
  simp only [onWh_bind, onWh_ite, bulkRegion_client, addTreeKey_client, onWh_pure, onWh_lift, bind_ite, ub_bind,
    bind_assoc, Res.bind_ok]

theorem stream_ub : ∀ K : List Key,
    K.foldl (fun r k => Res.bind r fun (f, b) => whStreamKey f b k) (Res.ub : Res (WhFilter × Stream)) = .ub
  | [] => rfl
  | _ :: K => stream_ub K

theorem stream_hang : ∀ K : List Key,
    K.foldl (fun r k => Res.bind r fun (f, b) => whStreamKey f b k) (Res.hang : Res (WhFilter × Stream)) = .hang
  | [] => rfl
  | _ :: K => stream_hang K

theorem streamKeys_client (c : Cfg) : ∀ (K : List Key) (b : Stream) (t : Wh),
    K.foldl (fun r k => Res.bind r fun (f, b) => whStreamKey f b k) (Res.ok (⟨c, t⟩, b)) = answer c ((Client.streamKeys c K b).onWh t)
  | [], _, _ => rfl
  | k :: K, b, t => by
    rw [List.foldl_cons, Client.streamKeys, onWh_bind, Res.bind_ok]
    dsimp only
    rw [streamKey_client]
    cases h : (Client.streamKey c b k).onWh t with
    | ok q => exact streamKeys_client c K q.2 q.1
    | ub => exact stream_ub K
    | hang => exact stream_hang K

theorem streamAll_client (c : Cfg) (K : List Key) : whStreamAll c K = made ((Client.streamAll c K).onWh Wh.empty) := by
  unfold whStreamAll Client.streamAll made
  rw [streamKeys_client]
  simp only [onWh_bind, onWh_pure, bind_assoc, Res.bind_ok, answer]
  congr 1
  funext q
  have := streamFinish_client c q.2 q.1
  rw [after] at this
  exact this

/-! ## Calls that visit the whole tree -/

theorem scanLoop_client (g : α → Key × Store → α) : ∀ (n : Nat) (cur : Cursor) (acc : α) (t : Wh),
    (Client.scanLoop g n cur acc).onWh t = Wh.scanLoop g n t cur acc
  | 0, _, _, _ => rfl
  | _ + 1, none, _, _ => rfl
  | n + 1, some c, acc, t => by
    rw [Client.scanLoop, Wh.scanLoop]
    simp only [onWh_bind, onWh_peek, onWh_skip, scanLoop_client g n, bind_assoc, Res.bind_ok]

theorem scan_client (g : α → Key × Store → α) (acc : α) (t : Wh) : (Client.scan g acc).onWh t = t.scan g acc := by
  unfold Client.scan Wh.scan
  rw [onWh_bind, onWh_seek]
  simp only [onWh, scanLoop_client]

theorem size_client : whSize ⟨c, t⟩ = answer c ((Client.intSize c).onWh t) := by
  unfold whSize Client.intSize answer
  simp only [onWh_bind, scan_client, onWh_pure, bind_assoc, Res.bind_ok]

theorem serialize_client (seed lf : Nat) : whSerialize seed lf ⟨c, t⟩ = answer c ((Client.intSerialize seed lf c).onWh t) := by
  unfold whSerialize Client.intSerialize answer
  simp only [onWh_bind, scan_client, onWh_pure, bind_assoc, Res.bind_ok]

theorem shrinkLoop_client (c : Cfg) (s' : Nat) : ∀ (n : Nat) (cur : Cursor) (t : Wh),
    (Client.shrinkLoop c s' n cur).onWh t = (whShrinkLoop c s' n t cur).bind fun t => .ok (t, ())
  | 0, _, _ => rfl
  | n + 1, cur, t => by
    rw [Client.shrinkLoop, whShrinkLoop]
    simp only [onWh_bind, onWh_peek, onWh_write, onWh_skip, onWh_ite, onWh_pure, shrinkLoop_client c s' n,
      bind_ite, bind_assoc, Res.bind_ok]

theorem shrink_client (s' : Nat) : whShrink ⟨c, t⟩ s' = made ((Client.shrink c s').onWh t) := by
  unfold whShrink Client.shrink made
  rw [onWh_bind, onWh_seek]
  simp only [onWh_bind, onWh_pure]
  simp only [onWh, shrinkLoop_client, bind_assoc, Res.bind_ok]

theorem deserLoop_client (c : Cfg) : ∀ (n : Nat) (buf : List UInt8) (t : Wh),
    (Client.deserLoop c n buf).onWh t = (whDeserLoop c n t buf).bind fun t => .ok (t, ())
  | 0, _, _ => rfl
  | n + 1, buf, t => by
    rw [Client.deserLoop, whDeserLoop]
    simp only [onWh_bind, onWh_lift, onWh_put, onWh_ite, onWh_pure, deserLoop_client c n, bind_ite, ub_bind, bind_assoc,
      Res.bind_ok]

theorem deserialize_client (buf : List UInt8) : whDeserialize buf = made ((Client.intDeserialize buf).onWh Wh.empty) := by
  unfold whDeserialize Client.intDeserialize made
  simp only [onWh_bind, onWh_lift, onWh_pure, deserLoop_client, bind_assoc, Res.bind_ok]

/-! ## Histories -/

theorem load_client (c : Cfg) (ld : IntLoad) : ld.onTree c = made ((ld.client c).onWh Wh.empty) := by
  cases ld with
  | fixed n K => exact bulkFixed_client c n K
  | stream K => exact streamAll_client c K
  | restore buf => exact deserialize_client buf

/-- State and answers. -/
def result (r : Res (Wh × Cfg × List Answer)) : Res (WhFilter × List Answer) := r.bind fun q => .ok (⟨q.2.1, q.1⟩, q.2.2)

theorem call_client (call : FilterCall) : call.onIntTree ⟨c, t⟩ = result ((call.intClient c).onWh t) := by
  unfold result
  cases call with
  | insert k split =>
    simp only [FilterCall.onIntTree, FilterCall.intClient, insert_client, after, onWh_bind, onWh_pure, bind_assoc, Res.bind_ok]
  | delete k =>
    simp only [FilterCall.onIntTree, FilterCall.intClient, delete_client, after, onWh_bind, onWh_pure, bind_assoc, Res.bind_ok]
  | point k =>
    simp only [FilterCall.onIntTree, FilterCall.intClient, point_client, answer, onWh_bind, onWh_pure, bind_assoc, Res.bind_ok]
  | range l r =>
    simp only [FilterCall.onIntTree, FilterCall.intClient, range_client, answer, onWh_bind, onWh_pure, bind_assoc, Res.bind_ok]
  | shrink s =>
    simp only [FilterCall.onIntTree, FilterCall.intClient, shrink_client, made, onWh_bind, onWh_pure, bind_assoc, Res.bind_ok]
  | size =>
    simp only [FilterCall.onIntTree, FilterCall.intClient, size_client, answer, onWh_bind, onWh_pure, bind_assoc, Res.bind_ok]
  | serialize seed lf =>
    simp only [FilterCall.onIntTree, FilterCall.intClient, serialize_client, answer, onWh_bind, onWh_pure, bind_assoc, Res.bind_ok]

theorem calls_client : ∀ (calls : List FilterCall) (c : Cfg) (t : Wh),
    intTreeFrom ⟨c, t⟩ calls = result ((intCallsClient calls c).onWh t)
  | [], _, _ => rfl
  | call :: calls, c, t => by
    rw [intCallsClient, intTreeFrom, call_client]
    simp only [onWh_bind, onWh_pure, result, bind_assoc, Res.bind_ok]
    congr 1
    funext q
    have := calls_client calls q.2.1 q.1
    rw [result] at this
    simp only [this, bind_assoc, Res.bind_ok]

theorem run_client (c : Cfg) (ld : IntLoad) (calls : List FilterCall) :
    intTreeRun c ld calls = result ((intRunClient c ld calls).onWh Wh.empty) := by
  unfold intRunClient intTreeRun
  rw [load_client]
  simp only [onWh_bind, result, made, bind_assoc, Res.bind_ok]
  congr 1
  funext q
  exact calls_client calls q.2 q.1

end Verif.IntC
