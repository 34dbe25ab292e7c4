import Verif.Proof.WhStrFull
import Verif.Proof.StrStates
import Verif.Spec.StrClient

/-!
# The functions of `Diva<false>` are clients of the tree
-/

namespace Verif.Str

open Client

variable {α β : Type} {t : STree} {c : Cfg}

theorem bind_assoc {γ : Type} (r : Res α) (f : α → Res β) (g : β → Res γ) : (r.bind f).bind g = r.bind fun a => (f a).bind g := by
  cases r <;> rfl

theorem onLeaves_bind (p : Client α) (f : α → Client β) (t : STree) :
    (p >>= f).onLeaves t = (p.onLeaves t).bind fun q => (f q.2).onLeaves q.1 := by
  show (Client.bind p f).onLeaves t = _
  induction p generalizing t with
  | ret r => cases r <;> rfl
  | put k st next ih => simp only [Client.bind, onLeaves, bind_assoc, ih]
  | del k next ih => simp only [Client.bind, onLeaves, bind_assoc, ih]
  | delRead k c1 c2 next ih => simp only [Client.bind, onLeaves, bind_assoc, ih]
  | seek k next ih => simp only [Client.bind, onLeaves, bind_assoc, ih]
  | skip k next ih => simp only [Client.bind, onLeaves, bind_assoc, ih]
  | back k next ih => simp only [Client.bind, onLeaves, bind_assoc, ih]
  | peek k next ih => simp only [Client.bind, onLeaves, bind_assoc, ih]
  | write cur st next ih => simp only [Client.bind, onLeaves, ih]
  | release cur next ih => simp only [Client.bind, onLeaves, ih]
  | fuel next ih => simp only [Client.bind, onLeaves, ih]

theorem onLeaves_pure (a : α) (t : STree) : (pure a : Client α).onLeaves t = .ok (t, a) := rfl

theorem onLeaves_lift (r : Res α) (t : STree) : (lift r).onLeaves t = r.bind fun a => .ok (t, a) := rfl

theorem bind_id (r : Res (α × β)) : (r.bind fun q => .ok (q.1, q.2)) = r := by cases r <;> rfl

theorem onLeaves_put (k : Key) (st : Store) (t : STree) : (doPut k st).onLeaves t = (t.wput k st).bind fun t => .ok (t, ()) := by
  unfold STree.wput
  rw [bind_assoc]
  rfl

theorem onLeaves_del (k : Key) (t : STree) : (doDel k).onLeaves t = (t.del k).bind fun t => .ok (t, ()) := rfl

theorem onLeaves_seek (k : Key) (t : STree) : (doSeek k).onLeaves t = t.seek k := bind_id _

theorem onLeaves_skip (k : Cursor) (t : STree) : (doSkip k).onLeaves t = t.skip1 k := bind_id _

theorem onLeaves_back (k : Cursor) (t : STree) : (doBack k).onLeaves t = t.skip1Rev k := bind_id _

theorem onLeaves_peek (k : Cursor) (t : STree) : (doPeek k).onLeaves t = (t.peek k).bind fun e => .ok (t, e) := rfl

theorem onLeaves_release (k : Cursor) (t : STree) : (doRelease k).onLeaves t = .ok (t, ()) := rfl

theorem onLeaves_write (k : Cursor) (st : Store) (t : STree) : (doWrite k st).onLeaves t = .ok (t.write k st, ()) := rfl

theorem onLeaves_ite (p : Prop) [Decidable p] (a b : Client α) (t : STree) :
    (if p then a else b).onLeaves t = if p then a.onLeaves t else b.onLeaves t := by
  split <;> rfl

theorem bind_ite (p : Prop) [Decidable p] (a b : Res α) (f : α → Res β) :
    (if p then a else b).bind f = if p then a.bind f else b.bind f := by
  split <;> rfl

theorem ub_bind (f : α → Res β) : (Res.ub : Res α).bind f = .ub := rfl

theorem hang_bind (f : α → Res β) : (Res.hang : Res α).bind f = .hang := rfl

theorem locate_client (k : Key) (t : STree) : (Client.locate k).onLeaves t = t.locate k := by
  unfold Client.locate STree.locate
  simp only [onLeaves_bind, onLeaves_seek, onLeaves_peek, onLeaves_release, onLeaves_skip, onLeaves_back, onLeaves_ite, onLeaves_pure, bind_assoc,
    Res.bind_ok]

theorem around_client (cur : Cursor) (e : Key × Store) (k : Key) (t : STree) :
    (Client.around cur e k).onLeaves t = t.around cur e k := by
  unfold Client.around STree.around
  simp only [onLeaves_bind, onLeaves_peek, onLeaves_skip, onLeaves_back, onLeaves_ite, onLeaves_pure, bind_assoc,
    Res.bind_ok]

/-- The state after a client without result. -/
def after (c : Cfg) (r : Res (STree × Unit)) : Res StrFilter := r.bind fun q => .ok ⟨c, q.1⟩

/-- The state after a client that answers. -/
def answer (c : Cfg) (r : Res (STree × α)) : Res (StrFilter × α) := r.bind fun q => .ok (⟨c, q.1⟩, q.2)

theorem point_client (k : Key) : strPointQuery ⟨c, t⟩ k = answer c ((Client.pointQuery c k).onLeaves t) := by
  unfold strPointQuery Client.pointQuery answer
  simp only [onLeaves_bind, onLeaves_seek, onLeaves_peek, onLeaves_release, onLeaves_back, onLeaves_ite, onLeaves_pure, onLeaves_lift,
    bind_assoc, bind_ite, Res.bind_ok]

theorem range_client (k r : Key) : strRangeQuery ⟨c, t⟩ k r = answer c ((Client.rangeQuery c k r).onLeaves t) := by
  unfold strRangeQuery Client.rangeQuery answer
  simp only [onLeaves_bind, onLeaves_seek, onLeaves_peek, onLeaves_release, onLeaves_back, onLeaves_ite, onLeaves_pure, onLeaves_lift,
    bind_assoc, bind_ite, Res.bind_ok]

theorem insertSimple_client (k : Key) : strInsertSimple ⟨c, t⟩ k = after c ((Client.insertSimple c k).onLeaves t) := by
  unfold strInsertSimple Client.insertSimple after
  simp only [onLeaves_bind, locate_client, onLeaves_lift, onLeaves_write, bind_assoc, Res.bind_ok]

theorem insertSplit_client (k : Key) : strInsertSplit ⟨c, t⟩ k = after c ((Client.insertSplit c k).onLeaves t) := by
  unfold strInsertSplit Client.insertSplit after
  simp only [onLeaves_bind, locate_client, onLeaves_lift, bind_assoc, Res.bind_ok]
  congr 1
  funext q
  congr 1
  funext o
  cases o with
  | none => exact insertSimple_client k
  | some d =>
    dsimp only
    cases d.zeroPos with
    | none => simp only [onLeaves_bind, onLeaves_put, bind_assoc, Res.bind_ok]
    | some zp => simp only [onLeaves_bind, onLeaves_put, onLeaves_ite, onLeaves_lift, bind_ite, ub_bind, bind_assoc, Res.bind_ok]

theorem insert_client (k : Key) (split : Bool) : strInsert ⟨c, t⟩ k split = after c ((Client.insert c k split).onLeaves t) := by
  unfold strInsert Client.insert
  cases split
  · exact insertSimple_client k
  · exact insertSplit_client k

theorem deleteMerge_client (cm : Cursor) : strDeleteMerge c t cm = after c ((Client.deleteMerge c cm).onLeaves t) := by
  unfold strDeleteMerge Client.deleteMerge after
  simp only [onLeaves_bind, onLeaves_put, onLeaves_del, onLeaves_peek, onLeaves_release, onLeaves_skip, onLeaves_back, onLeaves_ite, onLeaves_lift,
    bind_ite, ub_bind, bind_assoc, Res.bind_ok]

theorem delete_client (k : Key) : strDelete ⟨c, t⟩ k = after c ((Client.delete c k).onLeaves t) := by
  unfold strDelete Client.delete
  simp only [onLeaves_bind, onLeaves_seek, onLeaves_peek, onLeaves_release, onLeaves_write, around_client, onLeaves_ite, onLeaves_lift,
    deleteMerge_client, after, bind_ite, bind_assoc, Res.bind_ok]

/-! ## Construction -/

theorem addTreeKey_client (k : Key) (t : STree) : (Client.addTreeKey k).onLeaves t = (strAddTreeKey t k).bind fun t => .ok (t, ()) :=
  onLeaves_put _ _ _

theorem bulkRegion_client (c : Cfg) (l r : Key) (K : List Key) (g : Nat) (t : STree) :
    (Client.bulkRegion c l r K g).onLeaves t = (strBulkRegion c t l r K g).bind fun t => .ok (t, ()) := by
  unfold Client.bulkRegion strBulkRegion
  simp only [onLeaves_bind, onLeaves_put, onLeaves_lift, bind_assoc, Res.bind_ok]

theorem bulkLoop_client (c : Cfg) (K : List Key) : ∀ (n j last : Nat) (t : STree),
    (Client.bulkLoop c K n j last).onLeaves t = strBulkLoop c K n j last t
  | 0, _, _, _ => rfl
  | n + 1, j, last, t => by
    rw [Client.bulkLoop, strBulkLoop]
    simp only [onLeaves_bind, onLeaves_ite, bulkRegion_client, bulkLoop_client c K n, bind_assoc, Res.bind_ok]

theorem bulkCore_client (c : Cfg) (K : List Key) (t : STree) :
    (Client.bulkCore c K).onLeaves t = (strBulkCore c t K).bind fun t => .ok (t, ()) := by
  unfold Client.bulkCore strBulkCore
  simp only [onLeaves_bind, onLeaves_ite, bulkRegion_client, bulkLoop_client, addTreeKey_client, onLeaves_lift, onLeaves_pure, bind_ite,
    ub_bind, bind_assoc, Res.bind_ok]

/-- The filter that a constructor returns. -/
def made (r : Res (STree × Cfg)) : Res StrFilter := r.bind fun q => .ok ⟨q.2, q.1⟩

theorem bulkFixed_client (c : Cfg) (n : Nat) (K : List Key) :
    strBulkFixed c n K = made ((Client.bulkFixed c n K).onLeaves STree.empty) := by
  unfold Client.bulkFixed strBulkFixed made
  simp only [onLeaves_bind, bulkCore_client, addTreeKey_client, onLeaves_pure, bind_assoc, Res.bind_ok]

theorem bulkVar_client (c : Cfg) (K : List Key) : strBulkVar c K = made ((Client.bulkVar c K).onLeaves STree.empty) := by
  unfold Client.bulkVar strBulkVar made
  simp only [onLeaves_bind, bulkCore_client, addTreeKey_client, onLeaves_pure, bind_assoc, Res.bind_ok]

theorem streamKey_client (c : Cfg) (b : Stream) (k : Key) (t : STree) :
    strStreamKey ⟨c, t⟩ b k = answer c ((Client.streamKey c b k).onLeaves t) := by
  unfold strStreamKey Client.streamKey answer
  cases b.left with
  | none => rfl
  | some l =>
    simp only [onLeaves_bind, onLeaves_ite, bulkRegion_client, onLeaves_pure, bind_ite, bind_assoc, Res.bind_ok]

theorem streamFinish_client (c : Cfg) (b : Stream) (t : STree) :
    (strStreamFinish ⟨c, t⟩ b).bind (fun q => .ok q.1) = after c ((Client.streamFinish c b).onLeaves t) := by
  unfold strStreamFinish Client.streamFinish after
  simp only [onLeaves_bind, onLeaves_ite, bulkRegion_client, addTreeKey_client, onLeaves_pure, onLeaves_lift, bind_ite, ub_bind,
    bind_assoc, Res.bind_ok]

theorem stream_ub : ∀ K : List Key,
    K.foldl (fun r k => Res.bind r fun (f, b) => strStreamKey f b k) (Res.ub : Res (StrFilter × Stream)) = .ub
  | [] => rfl
  | _ :: K => stream_ub K

theorem stream_hang : ∀ K : List Key,
    K.foldl (fun r k => Res.bind r fun (f, b) => strStreamKey f b k) (Res.hang : Res (StrFilter × Stream)) = .hang
  | [] => rfl
  | _ :: K => stream_hang K

theorem streamKeys_client (c : Cfg) : ∀ (K : List Key) (b : Stream) (t : STree),
    K.foldl (fun r k => Res.bind r fun (f, b) => strStreamKey f b k) (Res.ok (⟨c, t⟩, b)) = answer c ((Client.streamKeys c K b).onLeaves t)
  | [], _, _ => rfl
  | k :: K, b, t => by
    rw [List.foldl_cons, Client.streamKeys, onLeaves_bind, Res.bind_ok]
    dsimp only
    rw [streamKey_client]
    cases h : (Client.streamKey c b k).onLeaves t with
    | ok q => exact streamKeys_client c K q.2 q.1
    | ub => exact stream_ub K
    | hang => exact stream_hang K

theorem streamAll_client (c : Cfg) (K : List Key) : strStreamAll c K = made ((Client.streamAll c K).onLeaves STree.empty) := by
  unfold strStreamAll Client.streamAll made
  rw [streamKeys_client]
  simp only [onLeaves_bind, onLeaves_pure, bind_assoc, Res.bind_ok, answer]
  congr 1
  funext q
  have := streamFinish_client c q.2 q.1
  rw [after] at this
  exact this

/-! ## Calls that visit the whole tree -/

theorem scanLoop_client (g : α → Key × Store → α) : ∀ (n : Nat) (cur : Cursor) (acc : α) (t : STree),
    (Client.scanLoop g n cur acc).onLeaves t = STree.scanLoop g n t cur acc
  | 0, _, _, _ => rfl
  | _ + 1, none, _, _ => rfl
  | n + 1, some c, acc, t => by
    rw [Client.scanLoop, STree.scanLoop]
    simp only [onLeaves_bind, onLeaves_peek, onLeaves_skip, scanLoop_client g n, bind_assoc, Res.bind_ok]

theorem scan_client (g : α → Key × Store → α) (acc : α) (t : STree) : (Client.scan g acc).onLeaves t = t.scan g acc := by
  unfold Client.scan STree.scan
  rw [onLeaves_bind, onLeaves_seek]
  simp only [onLeaves, scanLoop_client]

theorem size_client : strSize ⟨c, t⟩ = answer c ((Client.size c).onLeaves t) := by
  unfold strSize Client.size answer
  simp only [onLeaves_bind, scan_client, onLeaves_pure, bind_assoc, Res.bind_ok]

theorem serialize_client (seed lf : Nat) : strSerialize seed lf ⟨c, t⟩ = answer c ((Client.serialize seed lf c).onLeaves t) := by
  unfold strSerialize Client.serialize answer
  simp only [onLeaves_bind, scan_client, onLeaves_pure, bind_assoc, Res.bind_ok]

theorem shrinkLoop_client (c : Cfg) (s' : Nat) : ∀ (n : Nat) (cur : Cursor) (t : STree),
    (Client.shrinkLoop c s' n cur).onLeaves t = (strShrinkLoop c s' n t cur).bind fun t => .ok (t, ())
  | 0, _, _ => rfl
  | n + 1, cur, t => by
    rw [Client.shrinkLoop, strShrinkLoop]
    simp only [onLeaves_bind, onLeaves_peek, onLeaves_write, onLeaves_skip, onLeaves_ite, onLeaves_pure, shrinkLoop_client c s' n,
      bind_ite, bind_assoc, Res.bind_ok]

theorem shrink_client (s' : Nat) : strShrink ⟨c, t⟩ s' = made ((Client.shrink c s').onLeaves t) := by
  unfold strShrink Client.shrink made
  rw [onLeaves_bind, onLeaves_seek]
  simp only [onLeaves_bind, onLeaves_pure]
  simp only [onLeaves, shrinkLoop_client, bind_assoc, Res.bind_ok]

theorem deserLoop_client (c : Cfg) : ∀ (n : Nat) (buf : List UInt8) (t : STree),
    (Client.deserLoop c n buf).onLeaves t = (strDeserLoop c n t buf).bind fun t => .ok (t, ())
  | 0, _, _ => rfl
  | n + 1, buf, t => by
    rw [Client.deserLoop, strDeserLoop]
    simp only [onLeaves_bind, onLeaves_lift, onLeaves_put, onLeaves_ite, onLeaves_pure, deserLoop_client c n, bind_ite, ub_bind, bind_assoc,
      Res.bind_ok]

theorem deserialize_client (buf : List UInt8) : strDeserialize buf = made ((Client.deserialize buf).onLeaves STree.empty) := by
  unfold strDeserialize Client.deserialize made
  simp only [onLeaves_bind, onLeaves_lift, onLeaves_pure, deserLoop_client, bind_assoc, Res.bind_ok]

/-! ## Histories -/

theorem load_client (c : Cfg) (ld : Load) : ld.onTree c = made ((ld.client c).onLeaves STree.empty) := by
  cases ld with
  | fixed n K => exact bulkFixed_client c n K
  | var K => exact bulkVar_client c K
  | stream K => exact streamAll_client c K
  | restore buf => exact deserialize_client buf

/-- State and answers. -/
def result (r : Res (STree × Cfg × List Answer)) : Res (StrFilter × List Answer) := r.bind fun q => .ok (⟨q.2.1, q.1⟩, q.2.2)

theorem call_client (call : FilterCall) : call.onTree ⟨c, t⟩ = result ((call.client c).onLeaves t) := by
  unfold result
  cases call with
  | insert k split =>
    simp only [FilterCall.onTree, FilterCall.client, insert_client, after, onLeaves_bind, onLeaves_pure, bind_assoc, Res.bind_ok]
  | delete k =>
    simp only [FilterCall.onTree, FilterCall.client, delete_client, after, onLeaves_bind, onLeaves_pure, bind_assoc, Res.bind_ok]
  | point k =>
    simp only [FilterCall.onTree, FilterCall.client, point_client, answer, onLeaves_bind, onLeaves_pure, bind_assoc, Res.bind_ok]
  | range l r =>
    simp only [FilterCall.onTree, FilterCall.client, range_client, answer, onLeaves_bind, onLeaves_pure, bind_assoc, Res.bind_ok]
  | shrink s =>
    simp only [FilterCall.onTree, FilterCall.client, shrink_client, made, onLeaves_bind, onLeaves_pure, bind_assoc, Res.bind_ok]
  | size =>
    simp only [FilterCall.onTree, FilterCall.client, size_client, answer, onLeaves_bind, onLeaves_pure, bind_assoc, Res.bind_ok]
  | serialize seed lf =>
    simp only [FilterCall.onTree, FilterCall.client, serialize_client, answer, onLeaves_bind, onLeaves_pure, bind_assoc, Res.bind_ok]

/-- One call after the other on the tree. -/
def callsOn (calls : List FilterCall) (r : Res (StrFilter × List Answer)) : Res (StrFilter × List Answer) :=
  calls.foldl (fun r call => r.bind fun q => (call.onTree q.1).bind fun p => .ok (p.1, q.2 ++ p.2)) r

theorem callsOn_ub : ∀ calls, callsOn calls .ub = .ub
  | [] => rfl
  | _ :: l => callsOn_ub l

theorem callsOn_hang : ∀ calls, callsOn calls .hang = .hang
  | [] => rfl
  | _ :: l => callsOn_hang l

theorem calls_client : ∀ (calls : List FilterCall) (c : Cfg) (t : STree) (as : List Answer),
    callsOn calls (.ok (⟨c, t⟩, as)) = result ((callsClient calls (c, as)).onLeaves t)
  | [], _, _, _ => rfl
  | call :: calls, c, t, as => by
    rw [callsClient, onLeaves_bind]
    show callsOn calls ((call.onTree ⟨c, t⟩).bind fun p => .ok (p.1, as ++ p.2)) = _
    rw [call_client]
    cases (call.client c).onLeaves t with
    | ok q => exact calls_client calls q.2.1 q.1 (as ++ q.2.2)
    | ub => exact callsOn_ub calls
    | hang => exact callsOn_hang calls

theorem run_client (c : Cfg) (ld : Load) (calls : List FilterCall) :
    runTree c ld calls = result ((runClient c ld calls).onLeaves STree.empty) := by
  unfold runClient
  rw [onLeaves_bind]
  show callsOn calls ((ld.onTree c).bind fun w => .ok (w, [])) = _
  rw [load_client]
  cases (ld.client c).onLeaves STree.empty with
  | ok q => exact calls_client calls q.2 q.1 []
  | ub => exact callsOn_ub calls
  | hang => exact callsOn_hang calls

/-! ## Calls of the tree -/

theorem steps_client : ∀ (bs : List Bool) (cur : Cursor) (t : STree),
    (stepsClient cur bs).onLeaves t = (t.steps cur bs).bind fun q => .ok (q.1, ())
  | [], _, _ => rfl
  | b :: bs, cur, t => by
    rw [stepsClient, STree.steps]
    simp only [onLeaves_bind, onLeaves_ite, onLeaves_skip, onLeaves_back, bind_ite, bind_assoc, steps_client bs]

theorem treeCall_client (call : TreeCall) (t : STree) : call.client.onLeaves t = call.run t := by
  cases call with
  | put k st => exact bind_id _
  | del k => simp only [TreeCall.client, TreeCall.run, onLeaves_bind, onLeaves_del, onLeaves_pure, bind_assoc, Res.bind_ok]
  | walk k bs =>
    simp only [TreeCall.client, TreeCall.run, STree.walk, onLeaves_bind, onLeaves_seek, onLeaves_pure, steps_client, bind_assoc,
      Res.bind_ok]
  | write k st =>
    simp only [TreeCall.client, TreeCall.run, onLeaves_bind, onLeaves_seek]
    congr 1
    funext q
    obtain ⟨t, cur⟩ := q
    cases cur with
    | none => rfl
    | some c =>
      simp only [onLeaves_bind, onLeaves_peek, onLeaves_release, onLeaves_ite, onLeaves_write, onLeaves_pure, bind_assoc, Res.bind_ok]
      congr 1
      funext e
      split <;> rfl

/-- One call after the other. -/
def treeOn (calls : List TreeCall) (r : Res (STree × Bool)) : Res (STree × Bool) :=
  calls.foldl (fun r call => r.bind fun q => (call.run q.1).bind fun p => .ok (p.1, q.2 && p.2)) r

theorem treeOn_ub : ∀ calls, treeOn calls .ub = .ub
  | [] => rfl
  | _ :: l => treeOn_ub l

theorem treeOn_hang : ∀ calls, treeOn calls .hang = .hang
  | [] => rfl
  | _ :: l => treeOn_hang l

theorem tree_client : ∀ (calls : List TreeCall) (b : Bool) (t : STree), (treeClient calls b).onLeaves t = treeOn calls (.ok (t, b))
  | [], _, _ => rfl
  | call :: calls, b, t => by
    rw [treeClient, onLeaves_bind, treeCall_client]
    show _ = treeOn calls ((call.run t).bind fun p => .ok (p.1, b && p.2))
    cases call.run t with
    | ok q => exact tree_client calls (b && q.2) q.1
    | ub => exact (treeOn_ub calls).symm
    | hang => exact (treeOn_hang calls).symm

end Verif.Str
