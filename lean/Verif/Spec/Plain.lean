import Verif.Spec.Tame

/-!
# Histories without splits

`Insert` splits a region with probability 1/1024 per call. Histories in which no call of `Insert` did, and in which
all deletions come last, need no further conditions.
-/

namespace Verif

/-- `OpsPlain c n m ins f S`: a bulk load or streaming, inserts without split, then deletions of present keys. `m` is the number
of keys that were loaded or inserted, `ins` says that nothing was deleted yet. -/
inductive OpsPlain (c : Cfg) (n : Nat) : Nat → Bool → Filter → List Key → Prop
  | load {K : List Key} {f : Filter} : (∀ k ∈ K, k.length = n) → K.Pairwise (fun a b => keyLt a b = true) →
      bulkFixed c n K = .ok f → OpsPlain c n K.length true f K
  | stream {K : List Key} {f : Filter} : (∀ k ∈ K, k.length = n) → K.Pairwise (fun a b => keyLt a b = true) →
      K.length % 1024 ≠ 1 → (K.length ≤ 1024 ∨ K.getD 0 [] ≠ List.replicate n 0) → streamAll c K = .ok f →
      OpsPlain c n K.length true f K
  | insert {m : Nat} {f f' : Filter} {S : List Key} {key : Key} : OpsPlain c n m true f S → key.length = n →
      insert f key false = .ok f' → OpsPlain c n (m + 1) true f' (key :: S)
  | delete {m : Nat} {ins : Bool} {f f' : Filter} {S : List Key} {key : Key} : OpsPlain c n m ins f S → key ∈ S →
      delete f key = .ok f' → OpsPlain c n m false f' (S.erase key)

end Verif
