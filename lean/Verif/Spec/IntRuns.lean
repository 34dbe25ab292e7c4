import Verif.Spec.IntStates
import Verif.Spec.StrStates
import Verif.Model.WhScan

/-!
# Histories of `Diva<true>`, on its tree and on the ordered list
-/

namespace Verif

/-- The keys that the deserialising constructor reads from a buffer. -/
def bufKeys (c : Cfg) : Nat → List UInt8 → List Key
  | 0, _ => []
  | fuel + 1, buf =>
    match readLe 4 buf with
    | .ok (len, buf) =>
      if len = 2 ^ 32 - 1 then []
      else if len > 20000 ∨ buf.length < roundKeyLen len then []
      else
        match deserializeStore c (buf.drop (roundKeyLen len)) with
        | .ok (_, rest) => buf.take len :: bufKeys c fuel rest
        | _ => []
    | _ => []

/-- The keys in the buffer have at most eight bytes and differ. -/
def RestoreOK (buf : List UInt8) : Prop :=
  ∀ s seed rest, deserializeMetadata true buf = .ok (s, seed, rest) →
    (∀ k ∈ bufKeys (cfg95 s) (rest.length + 1) rest, k.length ≤ 8) ∧ (bufKeys (cfg95 s) (rest.length + 1) rest).Nodup

/-- The ways to construct a `Diva<true>`: two loads, and restoring from bytes. -/
inductive IntLoad
  | fixed (n : Nat) (K : List Key)
  | stream (K : List Key)
  | restore (buf : List UInt8)

def IntLoad.onList (c : Cfg) : IntLoad → Res Filter
  | .fixed n K => bulkFixed c n K
  | .stream K => streamAll c K
  | .restore buf => deserialize true buf

def IntLoad.onTree (c : Cfg) : IntLoad → Res WhFilter
  | .fixed n K => whBulkFixed c n K
  | .stream K => whStreamAll c K
  | .restore buf => whDeserialize buf

/-- No key is longer than eight bytes, and equal keys stand together. Streamed keys are in order and of one length, and if
the largest key of this length is the last of more than 1024, then it is the first of a region (see `C51_false_stream`). -/
def IntLoad.OK : IntLoad → Prop
  | .fixed n K => n ≤ 8 ∧ (∀ k ∈ K, k.length ≤ 8) ∧ Grouped K
  | .stream K => ∃ n, n ≤ 8 ∧ (∀ k ∈ K, k.length = n) ∧ K.Pairwise (fun a b => keyLe a b = true) ∧
      (K.length ≤ 1024 ∨ K.length % 1024 = 1 ∨ K.getLastD [] ≠ List.replicate n 255)
  | .restore buf => RestoreOK buf

/-- New state and answers of `Diva<true>`, on the ordered list. -/
def FilterCall.onIntList (f : Filter) : FilterCall → Res (Filter × List Answer)
  | .insert k split => (Verif.insert f k split).bind fun f => .ok (f, [])
  | .delete k => (Verif.delete f k).bind fun f => .ok (f, [])
  | .point k => (pointQuery f k).bind fun b => .ok (f, [.flag b])
  | .range l r => (rangeQuery true f l r).bind fun b => .ok (f, [.flag b])
  | .shrink s => (shrinkInfixSize f s).bind fun f => .ok (f, [])
  | .size => .ok (f, [.size (sizeOf true f)])
  | .serialize seed lf => .ok (f, [.bytes (Verif.serialize true seed lf f)])

/-- The same on the tree. -/
def FilterCall.onIntTree (w : WhFilter) : FilterCall → Res (WhFilter × List Answer)
  | .insert k split => (whInsert w k split).bind fun w => .ok (w, [])
  | .delete k => (whDelete w k).bind fun w => .ok (w, [])
  | .point k => (whPointQuery w k).bind fun q => .ok (q.1, [.flag q.2])
  | .range l r => (whRangeQuery w l r).bind fun q => .ok (q.1, [.flag q.2])
  | .shrink s => (whShrink w s).bind fun w => .ok (w, [])
  | .size => (whSize w).bind fun q => .ok (q.1, [.size q.2])
  | .serialize seed lf => (whSerialize seed lf w).bind fun q => .ok (q.1, [.bytes q.2])

/-- The calls in order, with all answers. -/
def intListFrom : Filter → List FilterCall → Res (Filter × List Answer)
  | f, [] => .ok (f, [])
  | f, call :: calls => (call.onIntList f).bind fun p => (intListFrom p.1 calls).bind fun q => .ok (q.1, p.2 ++ q.2)

def intTreeFrom : WhFilter → List FilterCall → Res (WhFilter × List Answer)
  | w, [] => .ok (w, [])
  | w, call :: calls => (call.onIntTree w).bind fun p => (intTreeFrom p.1 calls).bind fun q => .ok (q.1, p.2 ++ q.2)

def intListRun (c : Cfg) (ld : IntLoad) (calls : List FilterCall) : Res (Filter × List Answer) :=
  (ld.onList c).bind fun f => intListFrom f calls

def intTreeRun (c : Cfg) (ld : IntLoad) (calls : List FilterCall) : Res (WhFilter × List Answer) :=
  (ld.onTree c).bind fun w => intTreeFrom w calls

/-- The key of the call has at most eight bytes. (The right end of a range is only compared.) -/
def FilterCall.Short : FilterCall → Prop
  | .insert k _ => k.length ≤ 8
  | .delete k => k.length ≤ 8
  | .point k => k.length ≤ 8
  | .range l _ => l.length ≤ 8
  | _ => True

def FilterCall.IsDelete : FilterCall → Prop
  | .delete _ => True
  | _ => False

/-- No deletion on the way merges leaves as in `C45_false`. -/
def CalmFrom : WhFilter → List FilterCall → Prop
  | _, [] => True
  | w, call :: calls => (∀ k, call = .delete k → DeleteCalm w k) ∧
      ∀ w' as, call.onIntTree w = .ok (w', as) → CalmFrom w' calls

end Verif
