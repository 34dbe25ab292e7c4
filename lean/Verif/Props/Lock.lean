import Verif.Proof.LockFilter
import Verif.Props.StrTree

/-!
# C53: locks of the string tree
-/

namespace Verif.Props

open Str Lock

variable {α : Type}

theorem lock_outcome {r : Res (LockMap SLeaf × α)} {r' : Res (STree × α)}
    (h : RelRes (fun a b => a.2 = b.2 ∧ Idle a.1 b.1) r r') : r.bind (fun q => .ok (q.1.leaves, q.2)) = r' := by
  cases r <;> cases r' <;> first | exact h.elim | rfl | skip
  obtain ⟨h1, h2⟩ := h
  rw [Res.bind_ok, h1, h2.leaves]

/-! ## Any program that calls the tree -/

/-- C53: a program that releases its iterators has the outcome that it has without locks: it never waits for one, releases
none that it does not hold, and computes the same. -/
theorem C53_client {p : Client α} (hp : p.Releases none) :
    (p.onLocks (LockMap.new STree.empty)).bind (fun q => .ok (q.1.leaves, q.2)) = p.onLeaves STree.empty :=
  lock_outcome (client_same hp (held_none.2 (new_idle _)))

/-- C53: and no lock is held after it. -/
theorem C53_free {p : Client α} (hp : p.Releases none) {s : LockMap SLeaf} {a : α} (h : p.onLocks (LockMap.new STree.empty) = .ok (s, a)) : s.Free := by
  obtain ⟨q, _, _, hi⟩ := (client_same hp (held_none.2 (new_idle _))).okL h
  exact Lock.Idle.free hi

/-- C53: the iterator holds the leaf that it points into, and no other. -/
theorem C53_held {p : Client α} (hp : p.Releases none) {s : LockMap SLeaf} {a : α} (h : p.onLocks (LockMap.new STree.empty) = .ok (s, a)) {k : Key}
    {s' : LockMap SLeaf} {i is : Nat} (hs : s.seek k = .ok (s', some (i, is))) :
    i < s'.locks.length ∧ ∀ j l, s'.locks[j]? = some l → l.writer = false ∧ l.readers = if j = i then 1 else 0 := by
  obtain ⟨q, _, _, hi⟩ := (client_same hp (held_none.2 (new_idle _))).okL h
  obtain ⟨⟨t, cur⟩, _, hc, hh⟩ := (seek_same hi k).okL hs
  dsimp only at hc hh
  subst hc
  refine ⟨by rw [hh.at'.len]; exact hh.inside i is rfl, fun j l hj => ?_⟩
  obtain ⟨h1, h2, -⟩ := hh.at'.lock j l hj
  rw [h1, h2]
  show (setH none' i (1, false) j).2 = false ∧ (setH none' i (1, false) j).1 = _
  unfold setH
  split <;> exact ⟨rfl, rfl⟩

/-- C53: while an iterator holds a leaf, a put or a deletion of a key of that leaf never returns. -/
theorem C53_waits {p : Client α} (hp : p.Releases none) {s : LockMap SLeaf} {a : α} (h : p.onLocks (LockMap.new STree.empty) = .ok (s, a)) {k : Key}
    {s' : LockMap SLeaf} {i is : Nat} (hs : s.seek k = .ok (s', some (i, is))) {k' : Key} (hk : STree.jump s'.leaves k' = i) :
    (∀ st, s'.put k' st = .hang) ∧ s'.del k' = .hang := by
  obtain ⟨hl, hr⟩ := C53_held hp h hs
  have hg := List.getElem?_eq_getElem hl
  have h1 := (hr i _ hg).2
  rw [if_pos rfl] at h1
  have hw : { s' with parked := false }.jumpWrite (STree.jump s'.leaves k') = .hang := by
    unfold LockMap.jumpWrite
    simp only [hk, LockMap.lockWrite, hg, h1]
    rw [if_pos (Or.inr Nat.one_ne_zero)]
    rfl
  exact ⟨fun st => by unfold LockMap.put; rw [hw]; rfl, by unfold LockMap.del; rw [hw]; rfl⟩

/-- C53: puts, deletions and walks of iterators in any order all return, on keys of at most 65535 bytes, and no lock is held
after them. -/
theorem C53_tree {calls : List TreeCall} (hk : PutsLe 65535 calls) :
    ∃ s, (treeClient calls true).onLocks (LockMap.new STree.empty) = .ok (s, true) ∧ s.Free := by
  obtain ⟨t, e, -⟩ := C49_map hk
  have hl : (treeClient calls true).onLeaves STree.empty = .ok (t, true) := by rw [tree_client]; exact e
  have hp := (bal_tree calls true).releases
  obtain ⟨⟨s, b⟩, hr, hb, -⟩ := (client_same hp (held_none.2 (new_idle _))).okR hl
  dsimp only at hb
  subst hb
  exact ⟨s, hr, C53_free hp hr⟩

/-! ## The filter -/

/-- C53: every history of `Diva<false>`, with keys of any length, has the outcome that it has without locks: no call waits for
a lock. -/
theorem C53_filter (c : Cfg) (ld : Load) (calls : List FilterCall) :
    (runLocks c ld calls).bind (fun q => .ok (⟨q.2.1, q.1.leaves⟩, q.2.2)) = runTree c ld calls := by
  rw [run_client, ← C53_client (bal_run c ld calls).releases, runLocks]
  cases (runClient c ld calls).onLocks (LockMap.new STree.empty) <;> rfl

/-- C53: no lock is held after any history of `Diva<false>`. -/
theorem C53_filter_free {c : Cfg} {ld : Load} {calls : List FilterCall} {s : LockMap SLeaf} {q : Cfg × List Answer}
    (h : runLocks c ld calls = .ok (s, q)) : s.Free := C53_free (bal_run c ld calls).releases h

/-! ## Cases -/

/-- Three leaves, one merge, and the answers of C49. -/
example : ∃ s c, runLocks (cfg95 5) (.var varKeys) strCalls = .ok (s, c, strAnswers) ∧ s.Free ∧ s.locks.length = 3 ∧ s.version ≥ 3 := by
  have h : (runLocks (cfg95 5) (.var varKeys) strCalls).bind (fun q => .ok (q.1.locks.length, decide (q.1.version ≥ 3), q.2.2)) =
    .ok (3, true, strAnswers) := by decide +kernel
  obtain ⟨⟨s, c, as⟩, e, h⟩ := Res.bind_eq_ok h
  have h := Res.ok.inj h
  simp only [Prod.mk.injEq] at h
  obtain ⟨h1, h2, rfl⟩ := h
  exact ⟨s, c, e, C53_filter_free e, h1, of_decide_eq_true h2⟩

/-- A walk through the tree of the example for C49. -/
example : ∃ s, (treeClient treeCalls true).onLocks (LockMap.new STree.empty) = .ok (s, true) ∧ s.Free := C53_tree (treeCalls_le (by decide))

/-- Without the release before it, the put never returns. -/
example : (Client.onLocks (do Client.doPut [1] Store.zero; let _ ← Client.doSeek [1]; Client.doPut [2] Store.zero) (LockMap.new STree.empty)) = .hang := by
  have h : ∀ r : Res (LockMap SLeaf × Unit), (match r with | .hang => true | _ => false) = true → r = .hang := by
    intro r hr; cases r <;> first | rfl | cases hr
  exact h _ (by decide +kernel)

/-- A release of what is not held is undefined. -/
example : (Client.onLocks (do Client.doPut [1] Store.zero; Client.doRelease (some (0, 0))) (LockMap.new STree.empty)) = .ub := by
  have h : ∀ r : Res (LockMap SLeaf × Unit), (match r with | .ub => true | _ => false) = true → r = .ub := by
    intro r hr; cases r <;> first | rfl | cases hr
  exact h _ (by decide +kernel)

/-- `C53_held` and `C53_waits`: one key, an iterator at it, and a put next to it. -/
example : ∃ s s' i is, (Client.doPut [1] Store.zero).onLocks (LockMap.new STree.empty) = .ok (s, ()) ∧ s.seek [1] = .ok (s', some (i, is)) ∧
    STree.jump s'.leaves [2] = i ∧ (Client.doPut [1] Store.zero).Releases none ∧ ∀ st, s'.put [2] st = .hang := by
  have h : ((Client.doPut [1] Store.zero).onLocks (LockMap.new STree.empty)).bind (fun q => (q.1.seek [1]).bind fun q' =>
      .ok (q'.2, STree.jump q'.1.leaves [2])) = .ok (some (0, 0), 0) := by decide +kernel
  obtain ⟨⟨s, u⟩, e, h⟩ := Res.bind_eq_ok h
  obtain ⟨⟨s', cur⟩, e', h⟩ := Res.bind_eq_ok h
  have h := Res.ok.inj h
  simp only [Prod.mk.injEq] at h
  obtain ⟨rfl, hj⟩ := h
  have hp := (bal_put [1] Store.zero).releases
  exact ⟨s, s', 0, 0, e, e', hj, hp, (C53_waits hp e e' hj).1⟩

end Verif.Props
