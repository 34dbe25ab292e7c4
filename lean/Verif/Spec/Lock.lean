import Verif.Model.WhLock
import Verif.Spec.StrClient

/-!
# Programs that release what they hold
-/

namespace Verif

/-- No lock is held. -/
def LockMap.Free {L : Type} (s : LockMap L) : Prop :=
  s.metalock = false ∧ s.locks.length = s.leaves.length ∧ ∀ k ∈ s.locks, k.readers = 0 ∧ k.writer = false

/-- A program that has one iterator at a time, and none when it puts, deletes or ends; `held` is where the iterator is. -/
def Client.Releases {α : Type} : Cursor → Client α → Prop
  | held, .ret r => ∀ a, r = .ok a → held = none
  | held, .put _ _ next => held = none ∧ ∀ b, (next b).Releases none
  | held, .del _ next => held = none ∧ next.Releases none
  | held, .delRead _ _ _ next => held = none ∧ ∀ e1 e2, (next e1 e2).Releases none
  | held, .seek _ next => held = none ∧ ∀ c, (next c).Releases c
  | held, .skip cur next => cur = held ∧ ∀ c, (next c).Releases c
  | held, .back cur next => cur = held ∧ ∀ c, (next c).Releases c
  | held, .peek cur next => cur = held ∧ ∀ e, (next e).Releases held
  | held, .write _ _ next => next.Releases held
  | held, .release cur next => cur = held ∧ next.Releases none
  | held, .fuel next => ∀ n, (next n).Releases held

/-- A history of the filter on the tree with locks: final state and answers. -/
def runLocks (c : Cfg) (ld : Load) (calls : List FilterCall) : Res (LockMap SLeaf × Cfg × List Answer) :=
  (runClient c ld calls).onLocks (LockMap.new STree.empty)

end Verif
