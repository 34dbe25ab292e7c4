import Verif.Model.WhHash

/-!
# What the hash table is for
-/

namespace Verif

/-- The table after insertions that return and deletions, with the prefixes in it. -/
inductive HashHist (h : Key → Nat) : HTab → List Key → Prop
  | init : HashHist h HTab.init []
  | set {t t' : HTab} {S : List Key} {k : Key} {fuel : Nat} : HashHist h t S → k ∉ S → t.set h fuel k = .ok t' →
      HashHist h t' (k :: S)
  | del {t t' : HTab} {S : List Key} {k : Key} : HashHist h t S → k ∈ S → t.del h k = some t' → HashHist h t' (S.erase k)

/-- The same with insertions only, and before the table first grows. -/
inductive HashGrow (h : Key → Nat) : HTab → List Key → Prop
  | init : HashGrow h HTab.init []
  | set {t t' : HTab} {S : List Key} {k : Key} {fuel : Nat} : HashGrow h t S → k ∉ S → t.set h fuel k = .ok t' →
      t'.mask = t.mask → HashGrow h t' (k :: S)

/-- `S` lists the prefixes of the anchors `as`, that is the nodes of the index. -/
def NodesOf (as S : List Key) : Prop := ∀ q, q ∈ S ↔ ∃ a ∈ as, q <+: a

end Verif
