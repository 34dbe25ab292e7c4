import Verif.Model.Own
import Verif.Spec.History
import Verif.Spec.States

/-!
# Histories together with the heap
-/

namespace Verif

/-- `HeapRun f h`: a bulk load of any keys, then any calls of `Insert`, `Delete` and `ShrinkInfixSize` that returned,
made the filter `f` and the heap `h`. -/
inductive HeapRun : Filter → Heap → Prop
  | fixed {c : Cfg} {m : Nat} {K : List Key} {f : Filter} : bulkFixed c m K = .ok f → HeapRun f (heapFixed m K)
  | var {c : Cfg} {K : List Key} {f : Filter} : bulkVar c K = .ok f → HeapRun f (heapVar K)
  | stream {c : Cfg} {K : List Key} {f : Filter} : streamAll c K = .ok f → HeapRun f (heapStream K)
  | insert {f f' : Filter} {h h' : Heap} {key : Key} {split : Bool} : HeapRun f h → insert f key split = .ok f' →
      heapInsert f h key split = .ok h' → HeapRun f' h'
  | delete {f f' : Filter} {h h' : Heap} {key : Key} : HeapRun f h → delete f key = .ok f' →
      heapDelete f h key = .ok h' → HeapRun f' h'
  | shrink {f f' : Filter} {h h' : Heap} {s' : Nat} : HeapRun f h → shrinkInfixSize f s' = .ok f' →
      heapShrink (f.tree.map Prod.fst) h = .ok h' → HeapRun f' h'

/-- The same, with loaded keys of which equal ones stand together and none is the lowest or the highest boundary key of the load, and inserts
only into states without faults. -/
inductive HeapTidy (c : Cfg) (n : Nat) : Filter → Heap → Prop
  | fixed {m : Nat} {K : List Key} {f : Filter} : Grouped K → 0 < m → List.replicate m 0 ∉ K → List.replicate m 255 ∉ K →
      bulkFixed c m K = .ok f → HeapTidy c n f (heapFixed m K)
  | var {K : List Key} {f : Filter} : Grouped K → List.replicate 8 0 ∉ K →
      List.replicate (K.foldl (fun m k => max m k.length) 0) 255 ∉ K →
      bulkVar c K = .ok f → HeapTidy c n f (heapVar K)
  | stream {K : List Key} {f : Filter} : Grouped K → List.replicate (K.foldl (fun m k => max m k.length) 0) 0 ∉ K →
      List.replicate (K.foldl (fun m k => max m k.length) 0) 255 ∉ K →
      streamAll c K = .ok f → HeapTidy c n f (heapStream K)
  | insert {f f' : Filter} {h h' : Heap} {key : Key} {split : Bool} : HeapTidy c n f h →
      (Reach c n f ∨ (∃ S, OpsTame c n true f S) ∨ ∃ s, Shrunk n s f) → key.length ≤ n → InsertFits f key split → insert f key split = .ok f' →
      heapInsert f h key split = .ok h' → HeapTidy c n f' h'
  | delete {f f' : Filter} {h h' : Heap} {key : Key} : HeapTidy c n f h → delete f key = .ok f' →
      heapDelete f h key = .ok h' → HeapTidy c n f' h'
  | shrink {f f' : Filter} {h h' : Heap} {s' : Nat} : HeapTidy c n f h → shrinkInfixSize f s' = .ok f' →
      heapShrink (f.tree.map Prod.fst) h = .ok h' → HeapTidy c n f' h'

end Verif
