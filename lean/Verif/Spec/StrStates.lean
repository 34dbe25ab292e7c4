import Verif.Spec.StrTree
import Verif.Model.WhStrScan

/-!
# Histories of `Diva<false>`, on its tree and on the ordered list
-/

namespace Verif

/-- The pairs of the tree as an ordered list. -/
def STree.contents (t : STree) : Tree := t.pairs.foldl (fun m e => treePut m e.1 e.2) []

/-- The filter with the leaves forgotten. -/
def StrFilter.flat (w : StrFilter) : Filter := ⟨w.cfg, w.tree.contents⟩

/-- The ways to construct a filter: three loads, and restoring from bytes. -/
inductive Load
  | fixed (n : Nat) (K : List Key)
  | var (K : List Key)
  | stream (K : List Key)
  | restore (buf : List UInt8)

def Load.onList (c : Cfg) : Load → Res Filter
  | .fixed n K => bulkFixed c n K
  | .var K => bulkVar c K
  | .stream K => streamAll c K
  | .restore buf => deserialize false buf

def Load.onTree (c : Cfg) : Load → Res StrFilter
  | .fixed n K => strBulkFixed c n K
  | .var K => strBulkVar c K
  | .stream K => strStreamAll c K
  | .restore buf => strDeserialize buf

/-- No loaded key is longer than `N` bytes. (Restoring reads keys of at most 20000 bytes.) -/
def Load.KeysLe (N : Nat) : Load → Prop
  | .fixed n K => n ≤ N ∧ ∀ k ∈ K, k.length ≤ N
  | .var K => ∀ k ∈ K, k.length ≤ N
  | .stream K => ∀ k ∈ K, k.length ≤ N
  | .restore _ => True

theorem Load.KeysLe.mono {N M : Nat} (h : N ≤ M) {ld : Load} : ld.KeysLe N → ld.KeysLe M := by
  cases ld with
  | fixed n K => exact fun hk => ⟨Nat.le_trans hk.1 h, fun k hin => Nat.le_trans (hk.2 k hin) h⟩
  | var K => exact fun hk k hin => Nat.le_trans (hk k hin) h
  | stream K => exact fun hk k hin => Nat.le_trans (hk k hin) h
  | restore _ => exact id

/-- The calls of the API. -/
inductive FilterCall
  | insert (k : Key) (split : Bool)
  | delete (k : Key)
  | point (k : Key)
  | range (l r : Key)
  | shrink (s : Nat)
  | size
  | serialize (seed lf : Nat)

/-- What a call returns. -/
inductive Answer
  | flag (b : Bool)
  | size (n : Nat)
  | bytes (l : List UInt8)
deriving DecidableEq

/-- New state and answers. -/
def FilterCall.onList (f : Filter) : FilterCall → Res (Filter × List Answer)
  | .insert k split => (Verif.insert f k split).bind fun f => .ok (f, [])
  | .delete k => (Verif.delete f k).bind fun f => .ok (f, [])
  | .point k => (pointQuery f k).bind fun b => .ok (f, [.flag b])
  | .range l r => (rangeQuery false f l r).bind fun b => .ok (f, [.flag b])
  | .shrink s => (shrinkInfixSize f s).bind fun f => .ok (f, [])
  | .size => .ok (f, [.size (sizeOf false f)])
  | .serialize seed lf => .ok (f, [.bytes (Verif.serialize false seed lf f)])

def FilterCall.onTree (w : StrFilter) : FilterCall → Res (StrFilter × List Answer)
  | .insert k split => (strInsert w k split).bind fun w => .ok (w, [])
  | .delete k => (strDelete w k).bind fun w => .ok (w, [])
  | .point k => (strPointQuery w k).bind fun q => .ok (q.1, [.flag q.2])
  | .range l r => (strRangeQuery w l r).bind fun q => .ok (q.1, [.flag q.2])
  | .shrink s => (strShrink w s).bind fun w => .ok (w, [])
  | .size => (strSize w).bind fun q => .ok (q.1, [.size q.2])
  | .serialize seed lf => (strSerialize seed lf w).bind fun q => .ok (q.1, [.bytes q.2])

/-- Load, then the calls, with all answers in order. -/
def runList (c : Cfg) (ld : Load) (calls : List FilterCall) : Res (Filter × List Answer) :=
  calls.foldl (fun r call => r.bind fun q => (call.onList q.1).bind fun p => .ok (p.1, q.2 ++ p.2))
    ((ld.onList c).bind fun f => .ok (f, []))

def runTree (c : Cfg) (ld : Load) (calls : List FilterCall) : Res (StrFilter × List Answer) :=
  calls.foldl (fun r call => r.bind fun q => (call.onTree q.1).bind fun p => .ok (p.1, q.2 ++ p.2))
    ((ld.onTree c).bind fun w => .ok (w, []))

/-- No inserted key is longer than `N` bytes. -/
def InsertsLe (N : Nat) (calls : List FilterCall) : Prop := ∀ k split, FilterCall.insert k split ∈ calls → k.length ≤ N

end Verif
