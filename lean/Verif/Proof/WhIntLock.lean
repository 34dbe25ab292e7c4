import Verif.Proof.LockFilter
import Verif.Proof.IntClient

/-!
# Locks of the integer tree: every call takes and releases them in turn
-/

namespace Verif.Lock

open Verif

variable {t : Wh} {i : Nat}

theorem iput_same {s : LockMap Leaf} {t : Wh} (h : Idle s t) (k : Key) (st : Store) : RelRes Idle (s.iput k st) (t.put k st) := by
  unfold LockMap.iput Wh.put
  rw [show Wh.jump s.leaves k = t.jump k by rw [h.leaves]]
  by_cases hi : t.jump k < t.length
  · obtain ⟨s1, e1, h1⟩ := (At.park h false).jumpWrite hi rfl
    rw [e1]
    simp only [Res.bind_ok]
    rw [h1.leaves, List.getElem?_eq_getElem hi]
    have fin : ∀ {r : Res (LockMap Leaf)} {r' : Res Wh}, RelRes Idle r r' →
        RelRes Idle (r.bind fun s => .ok { s with parked := true }) r' := by
      intro r r' hr
      cases r <;> cases r' <;> first | exact hr.elim | exact trivial | exact At.park hr true
    have unl : ∀ {t' : Wh}, t'.length = t.length → RelRes Idle ((s1.setLeaves t').unlockWrite (t.jump k)) (.ok t') := by
      intro t' he
      obtain ⟨s2, e2, h2⟩ := Writing.unlock (h1.set he) (by rw [he]; exact hi)
      rw [e2]
      exact h2
    apply fin
    dsimp only
    generalize t[t.jump k]'hi = l0
    refine relRes_same _ fun o => ?_
    cases o with
    | some pos => exact unl List.length_set
    | none =>
      dsimp only
      split
      · exact relRes_same _ fun l => unl List.length_set
      · refine relRes_same _ fun ab => ?_
        obtain ⟨s2, e2, h2⟩ := Writing.split h1 hi ab.1 ab.2
        rw [e2]
        exact h2
  · rw [((At.park h false).jump_ub hi).2]
    have : t[t.jump k]? = none := List.getElem?_eq_none (by omega)
    dsimp only
    rw [this]
    exact trivial

theorem itryMerge_same {s : LockMap Leaf} {t : Wh} (h : Writing s t i) (hi : i < t.length) : RelRes Idle (s.itryMerge i) (t.tryMerge i) := by
  have hu : ∀ {s : LockMap Leaf}, Writing s t i → RelRes Idle (s.unlockWrite i) (.ok t) := by
    intro s h
    obtain ⟨s2, e2, h2⟩ := Writing.unlock h hi
    rw [e2]
    exact h2
  unfold LockMap.itryMerge Wh.tryMerge
  rw [h.leaves, List.getElem?_eq_getElem hi]
  by_cases hn : i + 1 < t.length
  · rw [List.getElem?_eq_getElem hn]
    dsimp only
    split
    · obtain ⟨s1, e1, h1⟩ := At.lockWrite (i := i + 1) h hn (by rw [setH_other _ _ (by omega)]; rfl)
      rw [e1]
      show RelRes Idle (ite _ _ _) _
      split
      · refine relRes_same _ fun l => ?_
        obtain ⟨s2, e2, h2⟩ := Writing.merge h1 hn l
        rw [e2]
        exact h2
      · obtain ⟨s2, e2, h2⟩ := h1.unlockWrite (i := i) hi (by rw [setH_other _ _ (by omega), setH_same])
        rw [setH_comm _ _ _ (by omega), setH_twice, setH_none] at h2
        obtain ⟨s3, e3, h3⟩ := h2.unlockWrite (i := i + 1) hn (by rw [setH_same])
        rw [setH_twice, setH_none] at h3
        rw [e2]
        show RelRes Idle (s2.unlockWrite (i + 1)) _
        rw [e3]
        exact h3
    · exact hu h
  · rw [List.getElem?_eq_none (by omega)]
    exact hu h

theorem idel_same {s : LockMap Leaf} {t : Wh} (h : Idle s t) (k : Key) : RelRes Idle (s.idel k) (t.del k) := by
  unfold LockMap.idel Wh.del
  rw [show Wh.jump s.leaves k = t.jump k by rw [h.leaves]]
  by_cases hi : t.jump k < t.length
  · obtain ⟨s1, e1, h1⟩ := (At.park h false).jumpWrite hi rfl
    rw [e1]
    simp only [Res.bind_ok]
    rw [h1.leaves, List.getElem?_eq_getElem hi]
    have fin : ∀ {r : Res (LockMap Leaf)} {r' : Res Wh}, RelRes Idle r r' →
        RelRes Idle (r.bind fun s => .ok { s with parked := true }) r' := by
      intro r r' hr
      cases r <;> cases r' <;> first | exact hr.elim | exact trivial | exact At.park hr true
    apply fin
    dsimp only
    generalize t[t.jump k]'hi = l0
    refine relRes_same _ fun o => ?_
    cases o with
    | some pos =>
      refine itryMerge_same (h1.set List.length_set) ?_
      rw [List.length_set]
      exact hi
    | none =>
      obtain ⟨s2, e2, h2⟩ := Writing.unlock h1 hi
      dsimp only
      rw [e2]
      exact h2
  · rw [((At.park h false).jump_ub hi).2]
    have : t[t.jump k]? = none := List.getElem?_eq_none (by omega)
    dsimp only
    rw [this]
    exact trivial

abbrev SameIti (p : LockMap Leaf × Cursor) (q : Wh × Cursor) : Prop := p.2 = q.2 ∧ Held p.1 q.1 q.2

theorem ifix_same : ∀ (fuel : Nat) {s : LockMap Leaf} {t : Wh} {i : Nat} (is : Nat), Reading s t i → i < t.length →
    RelRes SameIti (LockMap.ifix fuel s i is) (iterFix fuel t i is)
  | 0, _, _, _, _, _, _ => trivial
  | fuel + 1, s, t, i, is, h, hi => by
    unfold LockMap.ifix iterFix
    rw [h.leaves, List.getElem?_eq_getElem hi]
    dsimp only
    split
    · by_cases hn : i + 1 < t.length
      · rw [List.getElem?_eq_getElem hn]
        obtain ⟨s1, s2, e1, e2, h2⟩ := Reading.move h hi hn (by omega)
        dsimp only
        rw [e1]
        show RelRes SameIti ((s1.unlockRead i).bind _) _
        rw [e2]
        simp only [Res.bind_ok]
        refine relRes_same _ fun n => ?_
        rw [h2.leaves]
        exact ifix_same fuel 0 (h2.set List.length_set) (by rw [List.length_set]; exact hn)
      · rw [List.getElem?_eq_none (by omega)]
        obtain ⟨s1, e1, h1⟩ := Reading.unlock h hi
        dsimp only
        rw [e1]
        exact ⟨rfl, held_none.2 h1⟩
    · exact ⟨rfl, Reading.held h hi is⟩

theorem ifixRev_same : ∀ (i : Nat) {s : LockMap Leaf} {t : Wh}, Reading s t i → i < t.length →
    RelRes SameIti (LockMap.ifixRev i s) (iterFixRev t i)
  | 0, s, t, h, hi => by
    unfold LockMap.ifixRev iterFixRev
    obtain ⟨s1, e1, h1⟩ := Reading.unlock h hi
    rw [e1]
    exact ⟨rfl, held_none.2 h1⟩
  | i + 1, s, t, h, hi => by
    have hi' : i < t.length := by omega
    unfold LockMap.ifixRev iterFixRev
    rw [h.leaves, List.getElem?_eq_getElem hi']
    obtain ⟨s1, s2, e1, e2, h2⟩ := Reading.move h hi hi' (by omega)
    dsimp only
    rw [e1]
    show RelRes SameIti ((s1.unlockRead (i + 1)).bind _) _
    rw [e2]
    simp only [Res.bind_ok]
    refine relRes_same _ fun n => ?_
    rw [h2.leaves]
    have hl : i < (t.set i n).length := by rw [List.length_set]; exact hi'
    split
    · exact ifixRev_same i (h2.set List.length_set) hl
    · exact ⟨rfl, Reading.held (h2.set List.length_set) hl _⟩

theorem iseek_same {s : LockMap Leaf} {t : Wh} (h : Idle s t) (k : Key) : RelRes SameIti (s.iseek k) (t.seek k) := by
  unfold LockMap.iseek Wh.seek
  rw [show Wh.jump s.leaves k = t.jump k by rw [h.leaves]]
  by_cases hi : t.jump k < t.length
  · obtain ⟨s1, e1, h1⟩ := (At.park h false).jumpRead hi rfl
    rw [e1]
    show RelRes SameIti (match s1.leaves[t.jump k]? with | none => _ | some l => _) _
    dsimp only
    rw [h1.leaves, List.getElem?_eq_getElem hi]
    dsimp only
    exact relRes_same _ fun l => relRes_same _ fun is => ifix_same _ is (h1.set List.length_set) (by rw [List.length_set]; exact hi)
  · rw [((At.park h false).jump_ub hi).1]
    have : t[t.jump k]? = none := List.getElem?_eq_none (by omega)
    dsimp only
    rw [this]
    exact trivial

theorem iskip_same {s : LockMap Leaf} {t : Wh} {cur : Cursor} (h : Held s t cur) : RelRes SameIti (s.iskip1 cur) (t.skip1 cur) := by
  cases cur with
  | none => exact ⟨rfl, h⟩
  | some p =>
    obtain ⟨i, is⟩ := p
    unfold LockMap.iskip1 Wh.skip1
    rw [h.at'.leaves]
    exact ifix_same _ _ h.at' (h.inside _ _ rfl)

theorem iback_same {s : LockMap Leaf} {t : Wh} {cur : Cursor} (h : Held s t cur) : RelRes SameIti (s.iskip1Rev cur) (t.skip1Rev cur) := by
  cases cur with
  | none => exact ⟨rfl, h⟩
  | some p =>
    obtain ⟨i, is⟩ := p
    unfold LockMap.iskip1Rev Wh.skip1Rev
    dsimp only
    split
    · exact ifixRev_same _ h.at' (h.inside _ _ rfl)
    · exact ⟨rfl, Reading.held h.at' (h.inside _ _ rfl) _⟩

theorem iwrite_length (t : Wh) (cur : Cursor) (st : Store) : (t.write cur st).length = t.length := by
  unfold Wh.write
  split
  · rfl
  · split
    · rfl
    · simp only [List.length_set]

theorem iwrite_same {s : LockMap Leaf} {t : Wh} {held : Cursor} (h : Held s t held) (cur : Cursor) (st : Store) :
    Held (s.setLeaves (t.write cur st)) (t.write cur st) held :=
  ⟨h.at'.set (iwrite_length t cur st), fun i is e => by rw [iwrite_length]; exact h.inside i is e⟩

/-- A program that releases what it holds does the same with locks, and nothing is held after it. -/
theorem iclient_same {α : Type} {p : Client α} : ∀ {held : Cursor} {s : LockMap Leaf} {t : Wh}, p.Releases held → Held s t held →
    RelRes (fun a b => a.2 = b.2 ∧ Idle a.1 b.1) (p.onIntLocks s) (p.onWh t) := by
  induction p with
  | ret r =>
    intro held s t hp h
    cases r with
    | ok a =>
      have e := hp a rfl
      subst e
      exact ⟨rfl, h.at'⟩
    | ub => exact trivial
    | hang => exact trivial
  | put k st next ih =>
    intro held s t hp h
    obtain ⟨e, hn⟩ := hp
    subst e
    exact relRes_bind (iput_same h.at' k st) fun a b hab => ih true (hn true) (held_none.2 hab)
  | del k next ih =>
    intro held s t hp h
    obtain ⟨e, hn⟩ := hp
    subst e
    exact relRes_bind (idel_same h.at' k) fun a b hab => ih hn (held_none.2 hab)
  | delRead k c1 c2 next ih =>
    intro held s t hp h
    obtain ⟨e, hn⟩ := hp
    subst e
    unfold Client.onIntLocks Client.onWh
    rw [h.at'.leaves]
    refine relRes_bind (idel_same h.at' k) fun a b hab => ?_
    rw [hab.leaves]
    exact relRes_same _ fun e1 => relRes_same _ fun e2 => ih e1 e2 (hn e1 e2) (held_none.2 hab)
  | seek k next ih =>
    intro held s t hp h
    obtain ⟨e, hn⟩ := hp
    subst e
    refine relRes_bind (iseek_same h.at' k) fun a b hab => ?_
    obtain ⟨a, x⟩ := a
    obtain ⟨b, y⟩ := b
    obtain ⟨h1, h2⟩ := hab
    cases h1
    exact ih _ (hn x) h2
  | skip cur next ih =>
    intro held s t hp h
    obtain ⟨e, hn⟩ := hp
    subst e
    refine relRes_bind (iskip_same h) fun a b hab => ?_
    obtain ⟨a, x⟩ := a
    obtain ⟨b, y⟩ := b
    obtain ⟨h1, h2⟩ := hab
    cases h1
    exact ih _ (hn x) h2
  | back cur next ih =>
    intro held s t hp h
    obtain ⟨e, hn⟩ := hp
    subst e
    refine relRes_bind (iback_same h) fun a b hab => ?_
    obtain ⟨a, x⟩ := a
    obtain ⟨b, y⟩ := b
    obtain ⟨h1, h2⟩ := hab
    cases h1
    exact ih _ (hn x) h2
  | peek cur next ih =>
    intro held s t hp h
    unfold Client.onIntLocks Client.onWh
    rw [h.at'.leaves]
    exact relRes_same _ fun e => ih e (hp.2 e) h
  | write cur st next ih =>
    intro held s t hp h
    unfold Client.onIntLocks Client.onWh
    rw [h.at'.leaves]
    exact ih hp (iwrite_same h cur st)
  | release cur next ih =>
    intro held s t hp h
    obtain ⟨e, hn⟩ := hp
    subst e
    obtain ⟨s1, e1, h1⟩ := release_same h
    unfold Client.onIntLocks Client.onWh
    rw [e1]
    exact ih hn h1
  | fuel next ih =>
    intro held s t hp h
    unfold Client.onIntLocks Client.onWh
    rw [h.at'.leaves]
    exact ih _ (hp _) h

/-! ## The functions of `Diva<true>` release what they hold -/

variable {c : Cfg}

theorem bal_intRange (l r : Key) : Bal Done none (Client.intRangeQuery c l r) := by
  refine (bal_seek l).gets fun cur => (bal_peek cur).keep fun e => ?_
  split
  · exact (bal_release cur).then fun _ => bal_done _
  · refine (bal_back cur).gets fun pv => (bal_peek pv).keep fun p => (bal_release pv).then fun _ => ?_
    split
    · exact bal_done _
    · exact (bal_lift _).keep fun _ => bal_done _

theorem bal_intDeleteMerge (cm : Cursor) : Bal Done cm (Client.intDeleteMerge c cm) := by
  refine (bal_peek cm).keep fun mid => (bal_skip cm).gets fun cr => (bal_peek cr).keep fun right =>
    (bal_back cr).gets fun cm => (bal_back cm).gets fun cl => (bal_peek cl).keep fun left =>
    (bal_release cl).then fun _ => (bal_lift _).keep fun fr => ?_
  split
  · exact bal_ub
  · exact (bal_lift _).keep fun _ => (bal_lift _).keep fun _ => ⟨rfl, fun _ _ => bal_put _ _⟩

theorem bal_intDelete (k : Key) : Bal Done none (Client.intDelete c k) := by
  refine (bal_seek k).gets fun cur => (bal_peek cur).keep fun e => ?_
  split
  · exact bal_intDeleteMerge cur
  · refine (bal_around cur e k).bind fun q h hq => ?_
    subst hq
    refine (bal_lift _).keep fun fr => ?_
    dsimp only
    split
    · exact bal_intDeleteMerge _
    · exact (bal_release _).then fun _ => bal_write _ _

theorem bal_intLoad (c : Cfg) (ld : IntLoad) : Bal Done none (ld.client c) := by
  cases ld with
  | fixed m K => exact (bal_put _ _).then fun _ => (bal_put _ _).then fun _ => (bal_core K).then fun _ => bal_done _
  | stream K => exact (bal_streamKeys K _).then fun b => (bal_finish b).then fun _ => bal_done _
  | restore buf => exact (bal_lift _).keep fun q => (bal_deserLoop _ _).then fun _ => bal_done _

theorem bal_intCall (call : FilterCall) : Bal Done none (call.intClient c) := by
  cases call with
  | insert k split => exact (bal_insert k split).then fun _ => bal_done _
  | delete k => exact (bal_intDelete k).then fun _ => bal_done _
  | point k => exact (bal_point k).then fun _ => bal_done _
  | range l r => exact (bal_intRange l r).then fun _ => bal_done _
  | shrink s =>
    refine Bal.then ?_ fun _ => bal_done _
    exact (bal_seek _).gets fun _ => Bal.then (fun m => bal_shrinkLoop s (m + 1) _) fun _ => bal_done _
  | size => exact ((bal_scan _ _).then fun _ => bal_done _ : Bal Done none (Client.intSize c)).then fun _ => bal_done _
  | serialize seed lf =>
    exact ((bal_scan _ _).then fun _ => bal_done _ : Bal Done none (Client.intSerialize seed lf c)).then fun _ => bal_done _

theorem bal_intCalls : ∀ (calls : List FilterCall) (c : Cfg), Bal Done none (intCallsClient calls c)
  | [], _ => bal_done _
  | call :: calls, _ => (bal_intCall call).then fun _ => (bal_intCalls calls _).then fun _ => bal_done _

theorem bal_intRun (c : Cfg) (ld : IntLoad) (calls : List FilterCall) : Bal Done none (intRunClient c ld calls) :=
  (bal_intLoad c ld).then fun _ => bal_intCalls calls _

end Verif.Lock
