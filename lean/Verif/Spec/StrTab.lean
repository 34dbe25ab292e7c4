import Verif.Model.WhTab
import Verif.Spec.StrClient

/-!
# Programs and histories on leaves, index and hash table
-/

namespace Verif

/-- A client on a new tree. `hang`: an insertion into the table goes deeper than `depth`, or the client does not end. -/
def Client.onNew {α : Type} (h : Key → Nat) (depth : Nat) (p : Client α) : Res (TabMap × α) :=
  (TabMap.create h depth).bind fun s => p.onTable h depth s

/-- A history of the filter: final state and answers. -/
def runTable (h : Key → Nat) (depth : Nat) (c : Cfg) (ld : Load) (calls : List FilterCall) : Res (TabMap × Cfg × List Answer) :=
  (runClient c ld calls).onNew h depth

/-- The index in its table after splits and merges of leaves, with the anchors. -/
inductive TabHist (h : Key → Nat) : TabIndex → List Key → Prop
  | create {x : TabIndex} {depth : Nat} : TabIndex.create h depth = .ok x → TabHist h x [[]]
  | split {x y : TabIndex} {A B : List Key} {prev a : Key} {depth : Nat} : TabHist h x (A ++ prev :: B) →
      Ladder (A ++ prev :: a :: B) → x.split h depth prev a B.head? = .ok y → TabHist h y (A ++ prev :: a :: B)
  | merge {x y : TabIndex} {A B : List Key} {prev a : Key} : TabHist h x (A ++ prev :: a :: B) →
      x.merge h prev a B.head? = .ok y → TabHist h y (A ++ prev :: B)

/-- At most eight keys of the kind `P` have the same first bucket in a table of 4096 buckets. -/
def Thin (h : Key → Nat) (P : Key → Prop) : Prop :=
  ∀ (b : Nat) (L : List Key), L.Nodup → (∀ q ∈ L, P q ∧ h q &&& 4095 = b) → L.length ≤ 8

/-- A prefix of one of the keys. -/
def Stem (K : List Key) (q : Key) : Prop := ∃ k ∈ [] :: K, q <+: k

end Verif
