import Verif.Spec.IntRuns
import Verif.Spec.Lock
import Verif.Model.WhIntLock

/-!
# Histories of `Diva<true>` as programs that call the integer tree
-/

namespace Verif

/-- Construction as a client of the tree. -/
def IntLoad.client (c : Cfg) : IntLoad → Client Cfg
  | .fixed n K => Client.bulkFixed c n K
  | .stream K => Client.streamAll c K
  | .restore buf => Client.intDeserialize buf

/-- A call as a client of the tree. -/
def FilterCall.intClient (c : Cfg) : FilterCall → Client (Cfg × List Answer)
  | .insert k split => do Client.insert c k split; pure (c, [])
  | .delete k => do Client.intDelete c k; pure (c, [])
  | .point k => do let b ← Client.pointQuery c k; pure (c, [.flag b])
  | .range l r => do let b ← Client.intRangeQuery c l r; pure (c, [.flag b])
  | .shrink s => do let c ← Client.shrink c s; pure (c, [])
  | .size => do let n ← Client.intSize c; pure (c, [.size n])
  | .serialize seed lf => do let l ← Client.intSerialize seed lf c; pure (c, [.bytes l])

/-- The calls one after the other. -/
def intCallsClient : List FilterCall → Cfg → Client (Cfg × List Answer)
  | [], c => pure (c, [])
  | call :: calls, c => do
    let p ← call.intClient c
    let q ← intCallsClient calls p.1
    pure (q.1, p.2 ++ q.2)

/-- Load, then the calls. -/
def intRunClient (c : Cfg) (ld : IntLoad) (calls : List FilterCall) : Client (Cfg × List Answer) := do
  let c ← ld.client c
  intCallsClient calls c

/-- A history of the filter on the tree with locks: final state and answers. -/
def intRunLocks (c : Cfg) (ld : IntLoad) (calls : List FilterCall) : Res (LockMap Leaf × Cfg × List Answer) :=
  (intRunClient c ld calls).onIntLocks (LockMap.new Wh.empty)

end Verif
