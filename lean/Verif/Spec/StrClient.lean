import Verif.Spec.StrStates
import Verif.Spec.WhIndex
import Verif.Model.WhStrFull
import Verif.Spec.StrTree

/-!
# Histories of `Diva<false>` on leaves and index
-/

namespace Verif

/-- A program that puts keys of the kind `P` only, as long as it reads no others. -/
def Client.KeysIn {α : Type} (P : Key → Prop) : Client α → Prop
  | .ret _ => True
  | .put k _ next => P k ∧ ∀ b, (next b).KeysIn P
  | .del _ next => next.KeysIn P
  | .delRead _ _ _ next => ∀ e1 e2 : Key × Store, P e1.1 → P e2.1 → (next e1 e2).KeysIn P
  | .seek _ next => ∀ c, (next c).KeysIn P
  | .skip _ next => ∀ c, (next c).KeysIn P
  | .back _ next => ∀ c, (next c).KeysIn P
  | .peek _ next => ∀ e, P e.1 → (next e).KeysIn P
  | .write _ _ next => next.KeysIn P
  | .release _ next => next.KeysIn P
  | .fuel next => ∀ m, (next m).KeysIn P

/-- At most `n` bytes. -/
abbrev Upto (n : Nat) (k : Key) : Prop := k.length ≤ n

/-- A program that puts keys of at most `n` bytes, as long as it reads no longer ones. -/
abbrev Client.KeysLe {α : Type} (n : Nat) (p : Client α) : Prop := p.KeysIn (Upto n)

/-- Construction as a client of the tree. -/
def Load.client (c : Cfg) : Load → Client Cfg
  | .fixed n K => Client.bulkFixed c n K
  | .var K => Client.bulkVar c K
  | .stream K => Client.streamAll c K
  | .restore buf => Client.deserialize buf

/-- A call as a client of the tree. -/
def FilterCall.client (c : Cfg) : FilterCall → Client (Cfg × List Answer)
  | .insert k split => do Client.insert c k split; pure (c, [])
  | .delete k => do Client.delete c k; pure (c, [])
  | .point k => do let b ← Client.pointQuery c k; pure (c, [.flag b])
  | .range l r => do let b ← Client.rangeQuery c l r; pure (c, [.flag b])
  | .shrink s => do let c ← Client.shrink c s; pure (c, [])
  | .size => do let n ← Client.size c; pure (c, [.size n])
  | .serialize seed lf => do let l ← Client.serialize seed lf c; pure (c, [.bytes l])

/-- The calls one after the other. -/
def callsClient : List FilterCall → Cfg × List Answer → Client (Cfg × List Answer)
  | [], q => pure q
  | call :: calls, q => do
    let p ← call.client q.1
    callsClient calls (p.1, q.2 ++ p.2)

/-- Load, then the calls. -/
def runClient (c : Cfg) (ld : Load) (calls : List FilterCall) : Client (Cfg × List Answer) := do
  let c ← ld.client c
  callsClient calls (c, [])

/-- The history on leaves and index: final state and answers. -/
def runIndex (tags : Tags) (c : Cfg) (ld : Load) (calls : List FilterCall) : Res (StrMap × Cfg × List Answer) :=
  (runClient c ld calls).onIndex tags StrMap.empty

/-! ## Calls of the tree -/

/-- Steps of an iterator. -/
def stepsClient : Cursor → List Bool → Client Unit
  | cur, [] => Client.doRelease cur
  | cur, b :: bs => do
    let cur ← if b then Client.doSkip cur else Client.doBack cur
    stepsClient cur bs

/-- A call of the tree, with the result of `wh_put`. -/
def TreeCall.client : TreeCall → Client Bool
  | .put k st => .put k st fun b => pure b
  | .del k => do Client.doDel k; pure true
  | .walk k bs => do
    let cur ← Client.doSeek k
    stepsClient cur bs
    pure true
  | .write k st => do
    let cur ← Client.doSeek k
    match cur with
    | none => pure true
    | some c => do
      let e ← Client.doPeek (some c)
      if e.1 == k then Client.doWrite (some c) st
      Client.doRelease (some c)
      pure true

/-- The calls one after the other; did they all return true? -/
def treeClient : List TreeCall → Bool → Client Bool
  | [], b => pure b
  | call :: calls, b => do
    let b' ← call.client
    treeClient calls (b && b')

end Verif
