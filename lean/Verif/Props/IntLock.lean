import Verif.Proof.WhIntLock
import Verif.Props.IntRuns

/-!
# C54: locks of the integer tree
-/

namespace Verif.Props

open Lock

variable {α : Type}

theorem int_lock_outcome {r : Res (LockMap Leaf × α)} {r' : Res (Wh × α)}
    (h : RelRes (fun a b => a.2 = b.2 ∧ Idle a.1 b.1) r r') : r.bind (fun q => .ok (q.1.leaves, q.2)) = r' := by
  cases r <;> cases r' <;> first | exact h.elim | rfl | skip
  obtain ⟨h1, h2⟩ := h
  rw [Res.bind_ok, h1, h2.leaves]

/-! ## Any program that calls the tree -/

/-- C54: a program that releases its iterators has the outcome that it has without locks: it never waits for one, releases
none that it does not hold, and computes the same. -/
theorem C54_client {p : Client α} (hp : p.Releases none) :
    (p.onIntLocks (LockMap.new Wh.empty)).bind (fun q => .ok (q.1.leaves, q.2)) = p.onWh Wh.empty :=
  int_lock_outcome (iclient_same hp (held_none.2 (new_idle _)))

/-- C54: and no lock is held after it. -/
theorem C54_free {p : Client α} (hp : p.Releases none) {s : LockMap Leaf} {a : α}
    (h : p.onIntLocks (LockMap.new Wh.empty) = .ok (s, a)) : s.Free := by
  obtain ⟨q, _, _, hi⟩ := (iclient_same hp (held_none.2 (new_idle _))).okL h
  exact Lock.Idle.free hi

/-- C54: the iterator holds the leaf that it points into, and no other. -/
theorem C54_held {p : Client α} (hp : p.Releases none) {s : LockMap Leaf} {a : α}
    (h : p.onIntLocks (LockMap.new Wh.empty) = .ok (s, a)) {k : Key} {s' : LockMap Leaf} {i is : Nat}
    (hs : s.iseek k = .ok (s', some (i, is))) :
    i < s'.locks.length ∧ ∀ j l, s'.locks[j]? = some l → l.writer = false ∧ l.readers = if j = i then 1 else 0 := by
  obtain ⟨q, _, _, hi⟩ := (iclient_same hp (held_none.2 (new_idle _))).okL h
  obtain ⟨⟨t, cur⟩, _, hc, hh⟩ := (iseek_same hi k).okL hs
  dsimp only at hc hh
  subst hc
  refine ⟨by rw [hh.at'.len]; exact hh.inside i is rfl, fun j l hj => ?_⟩
  obtain ⟨h1, h2, -⟩ := hh.at'.lock j l hj
  rw [h1, h2]
  show (setH none' i (1, false) j).2 = false ∧ (setH none' i (1, false) j).1 = _
  unfold setH
  split <;> exact ⟨rfl, rfl⟩

/-- C54: while an iterator holds a leaf, a put or a deletion of a key of that leaf never returns. -/
theorem C54_waits {p : Client α} (hp : p.Releases none) {s : LockMap Leaf} {a : α}
    (h : p.onIntLocks (LockMap.new Wh.empty) = .ok (s, a)) {k : Key} {s' : LockMap Leaf} {i is : Nat}
    (hs : s.iseek k = .ok (s', some (i, is))) {k' : Key} (hk : Wh.jump s'.leaves k' = i) :
    (∀ st, s'.iput k' st = .hang) ∧ s'.idel k' = .hang := by
  obtain ⟨hl, hr⟩ := C54_held hp h hs
  have hg := List.getElem?_eq_getElem hl
  have h1 := (hr i _ hg).2
  rw [if_pos rfl] at h1
  have hw : { s' with parked := false }.jumpWrite (Wh.jump s'.leaves k') = .hang := by
    unfold LockMap.jumpWrite
    simp only [hk, LockMap.lockWrite, hg, h1]
    rw [if_pos (Or.inr Nat.one_ne_zero)]
    rfl
  exact ⟨fun st => by unfold LockMap.iput; rw [hw]; rfl, by unfold LockMap.idel; rw [hw]; rfl⟩

/-! ## The filter -/

/-- C54: every history of `Diva<true>` has the outcome that it has without locks: no call waits for a lock. -/
theorem C54_filter (c : Cfg) (ld : IntLoad) (calls : List FilterCall) :
    (intRunLocks c ld calls).bind (fun q => .ok (⟨q.2.1, q.1.leaves⟩, q.2.2)) = intTreeRun c ld calls := by
  rw [IntC.run_client, ← C54_client (bal_intRun c ld calls).releases, intRunLocks]
  cases (intRunClient c ld calls).onIntLocks (LockMap.new Wh.empty) <;> rfl

/-- C54: no lock is held after any history of `Diva<true>`. -/
theorem C54_filter_free {c : Cfg} {ld : IntLoad} {calls : List FilterCall} {s : LockMap Leaf} {q : Cfg × List Answer}
    (h : intRunLocks c ld calls = .ok (s, q)) : s.Free := C54_free (bal_intRun c ld calls).releases h

/-! ## Cases -/

/-- The history of `run_sample`: four leaves, and the same answers. -/
example : ∃ s c, intRunLocks (cfg95 5) (.stream threeKeys) runCalls = .ok (s, c, runAnswers) ∧ s.Free ∧ s.locks.length = 4 := by
  obtain ⟨w, f, hw, hl, -⟩ := run_sample
  have h := C54_filter (cfg95 5) (.stream threeKeys) runCalls
  rw [hw] at h
  obtain ⟨⟨s, c, as⟩, e, h⟩ := Res.bind_eq_ok h
  have h := Res.ok.inj h
  simp only [Prod.mk.injEq] at h
  obtain ⟨h1, rfl⟩ := h
  have hf := C54_filter_free e
  refine ⟨s, c, e, hf, ?_⟩
  have hl := congrArg List.length hl
  rw [← h1, List.length_map] at hl
  rw [hf.2.1]
  exact hl

/-- Fifty puts and forty deletions, with splits and merges. -/
def churn : Client Unit := do
  (List.range 50).forM fun i => Client.doPut (encodeInt (17 * i % 50)) Store.zero
  (List.range 40).forM fun i => Client.doDel (encodeInt (13 * i % 50))

/-- 28 splits and merges, and seven leaves in the end. -/
example : ∃ s, churn.onIntLocks (LockMap.new Wh.empty) = .ok (s, ()) ∧ s.locks.length = 7 ∧ s.version = 28 := by
  have h : (churn.onIntLocks (LockMap.new Wh.empty)).bind (fun q => .ok (q.1.locks.length, q.1.version)) = .ok (7, 28) := by
    decide +kernel
  obtain ⟨⟨s, u⟩, e, h⟩ := Res.bind_eq_ok h
  have h := Res.ok.inj h
  simp only [Prod.mk.injEq] at h
  exact ⟨s, e, h.1, h.2⟩

/-- Without the release before it, the put never returns. -/
example : (Client.onIntLocks (do Client.doPut [1] Store.zero; let _ ← Client.doSeek [1]; Client.doPut [2] Store.zero)
    (LockMap.new Wh.empty)) = .hang := by
  have h : ∀ r : Res (LockMap Leaf × Unit), (match r with | .hang => true | _ => false) = true → r = .hang := by
    intro r hr; cases r <;> first | rfl | cases hr
  exact h _ (by decide +kernel)

/-- `C54_held` and `C54_waits`: one key, an iterator at it, and a put next to it. -/
example : ∃ s s' i is, (Client.doPut [1] Store.zero).onIntLocks (LockMap.new Wh.empty) = .ok (s, ()) ∧
    s.iseek [1] = .ok (s', some (i, is)) ∧ Wh.jump s'.leaves [2] = i ∧ (Client.doPut [1] Store.zero).Releases none ∧
    ∀ st, s'.iput [2] st = .hang := by
  have h : ((Client.doPut [1] Store.zero).onIntLocks (LockMap.new Wh.empty)).bind (fun q => (q.1.iseek [1]).bind fun q' =>
      .ok (q'.2, Wh.jump q'.1.leaves [2])) = .ok (some (0, 0), 0) := by decide +kernel
  obtain ⟨⟨s, u⟩, e, h⟩ := Res.bind_eq_ok h
  obtain ⟨⟨s', cur⟩, e', h⟩ := Res.bind_eq_ok h
  have h := Res.ok.inj h
  simp only [Prod.mk.injEq] at h
  obtain ⟨rfl, hj⟩ := h
  have hp := (bal_put [1] Store.zero).releases
  exact ⟨s, s', 0, 0, e, e', hj, hp, (C54_waits hp e e' hj).1⟩

end Verif.Props
