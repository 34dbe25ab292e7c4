import Verif.Spec.Fits
import Verif.Spec.Key

/-!
# Histories of API calls
-/

namespace Verif

/-- `Built c n f S`: the filter `f` comes from a bulk load of sorted keys of `n` bytes, repeated or not, followed
by calls of `Insert` with keys of `n` bytes that all returned, whatever the random generator decided;
`S` are the loaded and inserted keys. -/
inductive Built (c : Cfg) (n : Nat) : Filter → List Key → Prop
  | load {K : List Key} {f : Filter} : (∀ k ∈ K, k.length = n) → K.Pairwise (fun a b => keyLe a b = true) →
      bulkFixed c n K = .ok f → Built c n f K
  | insert {f f' : Filter} {S : List Key} {key : Key} {split : Bool} : Built c n f S → key.length = n →
      insert f key split = .ok f' → Built c n f' (key :: S)

/-- The same with the side condition that every `Insert` stays inside the fixed widths. -/
inductive BuiltFit (c : Cfg) (n : Nat) : Filter → List Key → Prop
  | load {K : List Key} {f : Filter} : (∀ k ∈ K, k.length = n) → K.Pairwise (fun a b => keyLe a b = true) →
      bulkFixed c n K = .ok f → BuiltFit c n f K
  | insert {f f' : Filter} {S : List Key} {key : Key} {split : Bool} : BuiltFit c n f S → key.length = n →
      InsertFits f key split → insert f key split = .ok f' → BuiltFit c n f' (key :: S)

/-- `Reach c n f`: the filter `f` comes from any of the three bulk loads followed by any calls of
`Insert` that stay inside the fixed widths; all keys have at most `n` bytes and may differ in length. The
loaded keys may be repeated but no two are different with equal zero-padded strings, and none is an all-zero string
shorter than the lowest boundary key (8 zero bytes for `var`, as many as the longest key for `stream`). For `stream` the
sampled keys differ, so that the number of keys is not 1 modulo 1024, and the all-zero key is not the first of more than
1024 keys; see `C12_false`. `fixed` and `var` return only if the sampled keys differ; see `C57`. -/
inductive Reach (c : Cfg) (n : Nat) : Filter → Prop
  | fixed {m : Nat} {K : List Key} {f : Filter} : m ≤ n → (∀ k ∈ K, k.length = m) →
      K.Pairwise (fun a b => keyLe a b = true) → bulkFixed c m K = .ok f → Reach c n f
  | var {K : List Key} {f : Filter} : 8 ≤ n → (∀ k ∈ K, k.length ≤ n) → K.Pairwise PadLeq →
      (∀ k ∈ K, k = List.replicate 8 0 ∨ PadLt (List.replicate 8 0) k) → bulkVar c K = .ok f → Reach c n f
  | stream {m : Nat} {K : List Key} {f : Filter} : m ≤ n → m = K.foldl (fun m k => max m k.length) 0 →
      K.Pairwise PadLeq → (∀ k ∈ K, k = List.replicate m 0 ∨ PadLt (List.replicate m 0) k) → Sampled K →
      (K.length ≤ 1024 ∨ K.getD 0 [] ≠ List.replicate m 0) → streamAll c K = .ok f → Reach c n f
  | insert {f f' : Filter} {key : Key} {split : Bool} : Reach c n f → key.length ≤ n →
      InsertFits f key split → insert f key split = .ok f' → Reach c n f'

/-- The same with the loaded and inserted keys `S`, of any lengths. A splitting insert must not be given a
key of which an earlier key is a proper prefix; see `C27_false`. -/
inductive BuiltVar (c : Cfg) (n : Nat) : Filter → List Key → Prop
  | fixed {m : Nat} {K : List Key} {f : Filter} : m ≤ n → (∀ k ∈ K, k.length = m) →
      K.Pairwise (fun a b => keyLe a b = true) → bulkFixed c m K = .ok f → BuiltVar c n f K
  | var {K : List Key} {f : Filter} : 8 ≤ n → (∀ k ∈ K, k.length ≤ n) → K.Pairwise PadLeq →
      (∀ k ∈ K, k = List.replicate 8 0 ∨ PadLt (List.replicate 8 0) k) → bulkVar c K = .ok f → BuiltVar c n f K
  | stream {m : Nat} {K : List Key} {f : Filter} : m ≤ n → m = K.foldl (fun m k => max m k.length) 0 →
      K.Pairwise PadLeq → (∀ k ∈ K, k = List.replicate m 0 ∨ PadLt (List.replicate m 0) k) → Sampled K →
      (K.length ≤ 1024 ∨ K.getD 0 [] ≠ List.replicate m 0) → streamAll c K = .ok f → BuiltVar c n f K
  | insert {f f' : Filter} {S : List Key} {key : Key} {split : Bool} : BuiltVar c n f S → key.length ≤ n →
      InsertFits f key split → (split = true → ∀ k ∈ S, k <+: key → k = key) → insert f key split = .ok f' →
      BuiltVar c n f' (key :: S)

end Verif
