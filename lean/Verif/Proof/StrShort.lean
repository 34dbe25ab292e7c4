import Verif.Proof.StrClient

/-!
# The functions of `Diva<false>` put no longer keys than they are given or find
-/

namespace Verif.Str

open Client

variable {α β : Type} {n : Nat} {P : Key → Prop} {c : Cfg} {k : Key}

/-- As `Client.KeysIn`, and the result meets `Q`. -/
def Ends (P : Key → Prop) (Q : α → Prop) : Client α → Prop
  | .ret r => ∀ a, r = .ok a → Q a
  | .put k _ next => P k ∧ ∀ b, Ends P Q (next b)
  | .del _ next => Ends P Q next
  | .delRead _ _ _ next => ∀ e1 e2 : Key × Store, P e1.1 → P e2.1 → Ends P Q (next e1 e2)
  | .seek _ next => ∀ c, Ends P Q (next c)
  | .skip _ next => ∀ c, Ends P Q (next c)
  | .back _ next => ∀ c, Ends P Q (next c)
  | .peek _ next => ∀ e, P e.1 → Ends P Q (next e)
  | .write _ _ next => Ends P Q next
  | .release _ next => Ends P Q next
  | .fuel next => ∀ m, Ends P Q (next m)

theorem Ends.keysIn {Q : α → Prop} {p : Client α} (h : Ends P Q p) : p.KeysIn P := by
  induction p with
  | ret r => trivial
  | put k st next ih => exact ⟨h.1, fun b => ih b (h.2 b)⟩
  | del k next ih => exact ih h
  | delRead k c1 c2 next ih => exact fun e1 e2 h1 h2 => ih e1 e2 (h e1 e2 h1 h2)
  | seek k next ih => exact fun c => ih c (h c)
  | skip k next ih => exact fun c => ih c (h c)
  | back k next ih => exact fun c => ih c (h c)
  | peek k next ih => exact fun e he => ih e (h e he)
  | write cur st next ih => exact ih h
  | release cur next ih => exact ih h
  | fuel next ih => exact fun m => ih m (h m)

theorem Ends.bind {Q : α → Prop} {R : β → Prop} {p : Client α} {f : α → Client β} (h : Ends P Q p) (hf : ∀ a, Q a → Ends P R (f a)) :
    Ends P R (p >>= f) := by
  show Ends P R (Client.bind p f)
  induction p with
  | ret r =>
    cases r with
    | ok a => exact hf a (h a rfl)
    | ub => exact fun a e => by cases e
    | hang => exact fun a e => by cases e
  | put k st next ih => exact ⟨h.1, fun b => ih b (h.2 b)⟩
  | del k next ih => exact ih h
  | delRead k c1 c2 next ih => exact fun e1 e2 h1 h2 => ih e1 e2 (h e1 e2 h1 h2)
  | seek k next ih => exact fun c => ih c (h c)
  | skip k next ih => exact fun c => ih c (h c)
  | back k next ih => exact fun c => ih c (h c)
  | peek k next ih => exact fun e he => ih e (h e he)
  | write cur st next ih => exact ih h
  | release cur next ih => exact ih h
  | fuel next ih => exact fun m => ih m (h m)

theorem Ends.mono {Q R : α → Prop} {p : Client α} (h : Ends P Q p) (hq : ∀ a, Q a → R a) : Ends P R p := by
  induction p with
  | ret r => exact fun a e => hq a (h a e)
  | put k st next ih => exact ⟨h.1, fun b => ih b (h.2 b)⟩
  | del k next ih => exact ih h
  | delRead k c1 c2 next ih => exact fun e1 e2 h1 h2 => ih e1 e2 (h e1 e2 h1 h2)
  | seek k next ih => exact fun c => ih c (h c)
  | skip k next ih => exact fun c => ih c (h c)
  | back k next ih => exact fun c => ih c (h c)
  | peek k next ih => exact fun e he => ih e (h e he)
  | write cur st next ih => exact ih h
  | release cur next ih => exact ih h
  | fuel next ih => exact fun m => ih m (h m)

/-- Any result will do. -/
abbrev Within (P : Key → Prop) (p : Client α) : Prop := Ends P (fun _ => True) p

/-- Any result, and short keys. -/
abbrev Short (n : Nat) (p : Client α) : Prop := Within (Upto n) p

theorem ends_pure {Q : α → Prop} {a : α} (h : Q a) : Ends P Q (pure a) := fun _ e => by cases e; exact h

theorem short_lift (r : Res α) : Within P (lift r) := fun _ _ => trivial

theorem short_ub {Q : α → Prop} : Ends P Q (lift .ub : Client α) := fun _ e => by cases e

theorem ends_lift (r : Res α) : Ends P (fun a => r = .ok a) (lift r) := fun _ e => e

theorem short_put (hk : P k) (st : Store) : Within P (doPut k st) := ⟨hk, fun _ _ _ => trivial⟩

theorem short_del (k : Key) : Within P (doDel k) := fun _ _ => trivial

theorem short_seek (k : Key) : Within P (doSeek k) := fun _ _ _ => trivial

theorem short_skip (cur : Cursor) : Within P (doSkip cur) := fun _ _ _ => trivial

theorem short_back (cur : Cursor) : Within P (doBack cur) := fun _ _ _ => trivial

theorem ends_peek (cur : Cursor) : Ends P (fun e : Key × Store => P e.1) (doPeek cur) := fun _ he _ h => by cases h; exact he

theorem short_write (cur : Cursor) (st : Store) : Within P (doWrite cur st) := fun _ _ => trivial

theorem short_release (cur : Cursor) : Within P (doRelease cur) := fun _ _ => trivial

theorem ends_locate (k : Key) : Ends (Upto n) (fun q => q.2.1.length ≤ n) (Client.locate k) := by
  refine (short_seek k).bind fun cur _ => (ends_peek cur).bind fun e he => ?_
  split
  · exact (short_skip cur).bind fun nx _ => (ends_peek nx).bind fun e' _ =>
      (short_release nx).bind fun _ _ => ends_pure he
  · exact (short_back cur).bind fun pv _ => (ends_peek pv).bind fun p hp =>
      (short_release pv).bind fun _ _ => ends_pure hp

theorem ends_around (cur : Cursor) {e : Key × Store} (he : e.1.length ≤ n) (k : Key) :
    Ends (Upto n) (fun q => q.2.1.length ≤ n) (Client.around cur e k) := by
  unfold Client.around
  split
  · exact (short_skip cur).bind fun nx _ => (ends_peek nx).bind fun e' _ => (short_back nx).bind fun _ _ => ends_pure he
  · exact (short_back cur).bind fun pv _ => (ends_peek pv).bind fun p hp => ends_pure hp

theorem short_point (k : Key) : Short n (Client.pointQuery c k) := by
  refine (short_seek k).bind fun cur _ => (ends_peek cur).bind fun e _ => ?_
  split
  · exact (short_release cur).bind fun _ _ => ends_pure trivial
  · refine (short_back cur).bind fun pv _ => (ends_peek pv).bind fun p _ => (short_release pv).bind fun _ _ => ?_
    split
    · exact ends_pure trivial
    · exact (short_lift _).bind fun _ _ => ends_pure trivial

theorem short_range (l r : Key) : Short n (Client.rangeQuery c l r) := by
  refine (short_seek l).bind fun cur _ => (ends_peek cur).bind fun e _ => ?_
  split
  · exact (short_release cur).bind fun _ _ => ends_pure trivial
  · refine (short_back cur).bind fun pv _ => (ends_peek pv).bind fun p _ => (short_release pv).bind fun _ _ => ?_
    split
    · exact ends_pure trivial
    · exact (short_lift _).bind fun _ _ => ends_pure trivial

theorem short_insertSimple (k : Key) : Short n (Client.insertSimple c k) :=
  (ends_locate k).bind fun _ _ => (short_lift _).bind fun _ _ => short_write _ _

theorem short_insertSplit (hk : k.length ≤ n) : Short n (Client.insertSplit c k) := by
  refine (ends_locate k).bind fun q hq => (ends_lift _).bind fun o ho => ?_
  cases o with
  | none => exact short_insertSimple k
  | some d =>
    obtain ⟨hprev, hed⟩ := planAt_prev ho
    have h1 : d.prev.length ≤ n := by rw [hprev]; exact hq
    have h2 : d.edited.length ≤ n := by rw [hed]; exact Nat.le_trans (editKey_length_le k _) hk
    dsimp only
    cases d.zeroPos with
    | none => exact (short_put h1 _).bind fun _ _ => short_put hk _
    | some zp =>
      dsimp only
      split
      · exact short_ub
      · exact (short_put h1 _).bind fun _ _ => short_put h2 _

theorem short_insert (hk : k.length ≤ n) (split : Bool) : Short n (Client.insert c k split) := by
  unfold Client.insert
  cases split
  · exact short_insertSimple k
  · exact short_insertSplit hk

theorem short_deleteMerge (cm : Cursor) : Short n (Client.deleteMerge c cm) := by
  refine (ends_peek cm).bind fun mid _ => (short_skip cm).bind fun cr _ => (ends_peek cr).bind fun right _ =>
    (short_back cr).bind fun cm _ => (short_back cm).bind fun cl _ => (ends_peek cl).bind fun left hl =>
    (short_release cl).bind fun _ _ => (short_lift _).bind fun fr _ => ?_
  split
  · exact short_ub
  · exact (short_lift _).bind fun _ _ => (short_lift _).bind fun _ _ => (short_del _).bind fun _ _ => short_put hl _

theorem short_delete (k : Key) : Short n (Client.delete c k) := by
  refine (short_seek k).bind fun cur _ => (ends_peek cur).bind fun e he => ?_
  split
  · exact short_deleteMerge cur
  · refine (ends_around cur he k).bind fun q _ => (short_lift _).bind fun fr _ => ?_
    dsimp only
    split
    · exact short_deleteMerge _
    · exact (short_release _).bind fun _ _ => short_write _ _

/-! ## Construction -/

theorem short_region {l : Key} (hl : l.length ≤ n) (r : Key) (K : List Key) (g : Nat) : Short n (Client.bulkRegion c l r K g) :=
  (short_lift _).bind fun _ _ => short_put hl _

theorem getD_le {K : List Key} (h : ∀ k ∈ K, k.length ≤ n) (i : Nat) : (K.getD i []).length ≤ n := by
  rw [List.getD_eq_getElem?_getD]
  cases hi : K[i]? with
  | none => exact Nat.zero_le _
  | some k => exact h k (List.mem_of_getElem? hi)

theorem short_loop {K : List Key} (h : ∀ k ∈ K, k.length ≤ n) : ∀ m j last, Short n (Client.bulkLoop c K m j last)
  | 0, _, _ => ends_pure trivial
  | m + 1, j, last => by
    rw [Client.bulkLoop]
    split
    · exact (short_region (getD_le h _) _ _ _).bind fun _ _ => short_loop h m _ _
    · exact short_loop h m _ _

theorem short_core {K : List Key} (h : ∀ k ∈ K, k.length ≤ n) : Short n (Client.bulkCore c K) := by
  unfold Client.bulkCore
  split
  · exact short_ub
  · refine (short_loop h _ _ _).bind fun last _ => (short_region (getD_le h _) _ _ _).bind fun _ _ => ?_
    split
    · exact short_put (getD_le h _) _
    · exact ends_pure trivial

theorem longest_le {K : List Key} (h : ∀ k ∈ K, k.length ≤ n) : ∀ m, m ≤ n → K.foldl (fun m k => max m k.length) m ≤ n := by
  induction K with
  | nil => exact fun m hm => hm
  | cons k K ih =>
    exact fun m hm => ih (fun k hk => h k (List.mem_cons_of_mem _ hk)) _ (Nat.max_le.2 ⟨hm, h k (List.mem_cons_self ..)⟩)

/-- The buffered keys. -/
def BufLe (n : Nat) (b : Stream) : Prop :=
  (∀ k, b.left = some k → k.length ≤ n) ∧ (∀ k ∈ b.keys, k.length ≤ n) ∧ b.maxLen ≤ n

theorem ends_streamKey {b : Stream} (hb : BufLe n b) (hk : k.length ≤ n) : Ends (Upto n) (BufLe n) (Client.streamKey c b k) := by
  unfold Client.streamKey
  cases hl : b.left with
  | none => exact ends_pure ⟨fun _ e => by cases e; exact hk, hb.2.1, hk⟩
  | some l =>
    have hll := hb.1 l hl
    have hm : max b.maxLen k.length ≤ n := Nat.max_le.2 ⟨hb.2.2, hk⟩
    dsimp only
    split
    · refine ends_pure ⟨fun _ e => by cases e; exact hll, fun x hx => ?_, hm⟩
      rcases List.mem_append.1 hx with hx | hx
      · exact hb.2.1 x hx
      · rw [List.mem_singleton.1 hx]; exact hk
    · exact (short_region hll _ _ _).bind fun _ _ => ends_pure ⟨fun _ e => by cases e; exact hk, fun _ hx => (List.not_mem_nil hx).elim, hm⟩

theorem ends_streamKeys : ∀ {K : List Key} (_ : ∀ k ∈ K, k.length ≤ n) {b : Stream}, BufLe n b →
    Ends (Upto n) (BufLe n) (Client.streamKeys c K b)
  | [], _, _, hb => ends_pure hb
  | k :: _, h, _, hb => (ends_streamKey hb (h k (List.mem_cons_self ..))).bind fun _ hb' =>
      ends_streamKeys (fun x hx => h x (List.mem_cons_of_mem _ hx)) hb'

theorem short_finish {b : Stream} (hb : BufLe n b) : Short n (Client.streamFinish c b) := by
  unfold Client.streamFinish
  split
  · exact short_ub
  · refine (short_put (by rw [Upto, List.length_replicate]; exact hb.2.2) _).bind fun _ _ =>
      (short_put (by rw [Upto, List.length_replicate]; exact hb.2.2) _).bind fun _ _ => ?_
    split
    · have hr : (b.keys.getLastD []).length ≤ n := by
        rw [List.getLastD_eq_getLast?]
        cases hg : b.keys.getLast? with
        | none => exact Nat.zero_le _
        | some x => exact hb.2.1 x (List.mem_of_getLast? hg)
      have hl : (b.left.getD []).length ≤ n := by
        cases hg : b.left with
        | none => exact Nat.zero_le _
        | some x => exact hb.1 x hg
      exact (short_region hl _ _ _).bind fun _ _ => short_put hr _
    · exact ends_pure trivial

theorem short_deserLoop (hn : 20000 ≤ n) : ∀ m buf, Short n (Client.deserLoop c m buf)
  | 0, _ => fun _ e => by cases e
  | m + 1, buf => by
    rw [Client.deserLoop]
    refine (short_lift _).bind fun q _ => ?_
    split
    · exact ends_pure trivial
    · split
      · exact short_ub
      · rename_i h
        refine (short_lift _).bind fun p _ => (short_put ?_ _).bind fun _ _ => short_deserLoop hn m _
        rw [Upto, List.length_take]
        omega

theorem short_load (hn : 20000 ≤ n) (c : Cfg) {ld : Load} (h : ld.KeysLe n) : Short n (ld.client c) := by
  cases ld with
  | fixed m K =>
    exact (short_put (by rw [Upto, List.length_replicate]; exact h.1) _).bind fun _ _ =>
      (short_put (by rw [Upto, List.length_replicate]; exact h.1) _).bind fun _ _ => (short_core h.2).bind fun _ _ => ends_pure trivial
  | var K =>
    refine (short_put (by rw [Upto, List.length_replicate]; omega) _).bind fun _ _ => (short_core h).bind fun _ _ =>
      (short_put ?_ _).bind fun _ _ => ends_pure trivial
    rw [Upto, List.length_replicate]
    exact longest_le h 0 (Nat.zero_le _)
  | stream K =>
    exact (ends_streamKeys h ⟨(fun _ e => by cases e), fun _ hx => (List.not_mem_nil hx).elim, Nat.zero_le _⟩).bind fun b hb =>
      (short_finish hb).bind fun _ _ => ends_pure trivial
  | restore buf =>
    exact (short_lift _).bind fun q _ => (short_deserLoop hn _ _).bind fun _ _ => ends_pure trivial

/-! ## Calls that visit the whole tree -/

theorem short_scanLoop (g : α → Key × Store → α) : ∀ m cur acc, Short n (Client.scanLoop g m cur acc)
  | 0, _, _ => fun _ e => by cases e
  | _ + 1, none, _ => ends_pure trivial
  | m + 1, some p, acc => (ends_peek _).bind fun _ _ => (short_skip _).bind fun _ _ => short_scanLoop g m _ _

theorem short_scan (g : α → Key × Store → α) (acc : α) : Short n (Client.scan g acc) :=
  (short_seek _).bind fun _ _ m => short_scanLoop g (m + 1) _ acc

theorem short_shrinkLoop (s' : Nat) : ∀ m cur, Short n (Client.shrinkLoop c s' m cur)
  | 0, _ => fun _ e => by cases e
  | m + 1, cur => by
    rw [Client.shrinkLoop]
    refine (ends_peek _).bind fun _ _ => (short_write _ _).bind fun _ _ => (short_skip _).bind fun cur' _ => ?_
    split
    · exact short_shrinkLoop s' m _
    · exact ends_pure trivial

/-! ## Histories -/

theorem short_call {call : FilterCall} (h : ∀ k split, call = .insert k split → k.length ≤ n) : Short n (call.client c) := by
  cases call with
  | insert k split => exact (short_insert (h k split rfl) split).bind fun _ _ => ends_pure trivial
  | delete k => exact (short_delete k).bind fun _ _ => ends_pure trivial
  | point k => exact (short_point k).bind fun _ _ => ends_pure trivial
  | range l r => exact (short_range l r).bind fun _ _ => ends_pure trivial
  | shrink s =>
    refine Ends.bind (Q := fun _ => True) ?_ fun _ _ => ends_pure trivial
    exact (short_seek _).bind fun _ _ => Ends.bind (Q := fun _ => True) (fun m => short_shrinkLoop s (m + 1) _) fun _ _ =>
      ends_pure trivial
  | size => exact ((short_scan _ _).bind fun _ _ => ends_pure trivial : Short n (Client.size c)).bind fun _ _ => ends_pure trivial
  | serialize seed lf =>
    exact ((short_scan _ _).bind fun _ _ => ends_pure trivial : Short n (Client.serialize seed lf c)).bind fun _ _ => ends_pure trivial

theorem short_calls : ∀ {calls : List FilterCall}, InsertsLe n calls → ∀ q, Short n (callsClient calls q)
  | [], _, _ => ends_pure trivial
  | _ :: _, h, _ => (short_call fun k split e => h k split (e ▸ List.mem_cons_self ..)).bind fun _ _ =>
      short_calls (fun k split hin => h k split (List.mem_cons_of_mem _ hin)) _

theorem short_run (hn : 20000 ≤ n) (c : Cfg) {ld : Load} {calls : List FilterCall} (h1 : ld.KeysLe n) (h2 : InsertsLe n calls) :
    Short n (runClient c ld calls) := (short_load hn c h1).bind fun _ _ => short_calls h2 _

theorem short_steps : ∀ (bs : List Bool) (cur : Cursor), Within P (stepsClient cur bs)
  | [], _ => short_release _
  | b :: bs, cur => by
    rw [stepsClient]
    split
    · exact (short_skip _).bind fun cur' _ => short_steps bs cur'
    · exact (short_back _).bind fun cur' _ => short_steps bs cur'

theorem short_treeCall {call : TreeCall} (h : ∀ k st, call = .put k st → P k) : Within P call.client := by
  cases call with
  | put k st => exact ⟨h k st rfl, fun _ _ _ => trivial⟩
  | del k => exact (short_del k).bind fun _ _ => ends_pure trivial
  | walk k bs => exact (short_seek k).bind fun cur _ => (short_steps bs cur).bind fun _ _ => ends_pure trivial
  | write k st =>
    refine (short_seek k).bind fun cur _ => ?_
    cases cur with
    | none => exact ends_pure trivial
    | some p =>
      refine (ends_peek _).bind fun e _ => ?_
      dsimp only
      split
      · exact (short_write _ _).bind fun _ _ => (short_release _).bind fun _ _ => ends_pure trivial
      · exact (short_release _).bind fun _ _ => ends_pure trivial

theorem short_tree : ∀ {calls : List TreeCall}, (∀ k st, TreeCall.put k st ∈ calls → P k) → ∀ b, Within P (treeClient calls b)
  | [], _, _ => ends_pure trivial
  | _ :: _, h, _ => (short_treeCall fun k st e => h k st (e ▸ List.mem_cons_self ..)).bind fun _ _ =>
      short_tree (fun k st hin => h k st (List.mem_cons_of_mem _ hin)) _

end Verif.Str
