import Verif.Model.WhIntTab
import Verif.Spec.IntClient
import Verif.Spec.StrTab

/-!
# Programs and histories on leaves, index and hash table of the integer tree
-/

namespace Verif

/-- A client on a new tree. `hang`: an insertion into the table goes deeper than `depth`, or the client does not end. -/
def Client.onIntNew {α : Type} (h : Key → Nat) (depth : Nat) (p : Client α) : Res (IntTab × α) :=
  (IntTab.create h depth).bind fun s => p.onIntTable h depth s

/-- A history of the filter: final state and answers. -/
def intRunTable (h : Key → Nat) (depth : Nat) (c : Cfg) (ld : IntLoad) (calls : List FilterCall) : Res (IntTab × Cfg × List Answer) :=
  (intRunClient c ld calls).onIntNew h depth

/-- The first anchor is empty, the anchors increase, and all are of the kind `P`. -/
def Wh.InOrder (P : Key → Prop) (t : Wh) : Prop := Ladder (t.map Leaf.anchor) ∧ ∀ l ∈ t, P l.anchor

/-- On the leaves, the anchors are in order after every insertion that the client makes. -/
def Client.InOrder (P : Key → Prop) {α : Type} : Client α → Wh → Prop
  | ret _, _ => True
  | put k st next, t => ∀ t', t.put k st = .ok t' → t'.InOrder P ∧ (next true).InOrder P t'
  | del k next, t => ∀ t', t.del k = .ok t' → next.InOrder P t'
  | delRead k c1 c2 next, t => ∀ t', t.del k = .ok t' → ∀ e1 e2, Wh.reread t t' (t.jump k) c1 = .ok e1 →
      Wh.reread t t' (t.jump k) c2 = .ok e2 → (next e1 e2).InOrder P t'
  | seek k next, t => ∀ t' c, t.seek k = .ok (t', c) → (next c).InOrder P t'
  | skip cur next, t => ∀ t' c, t.skip1 cur = .ok (t', c) → (next c).InOrder P t'
  | back cur next, t => ∀ t' c, t.skip1Rev cur = .ok (t', c) → (next c).InOrder P t'
  | peek cur next, t => ∀ e, t.peek cur = .ok e → (next e).InOrder P t
  | write cur st next, t => next.InOrder P (t.write cur st)
  | release _ next, t => next.InOrder P t
  | fuel next, t => (next t.count).InOrder P t

/-- After the load, and after each call, the anchors are of the kind `P`. -/
def AnchorsFrom (P : Key → Prop) : WhFilter → List FilterCall → Prop
  | w, [] => ∀ l ∈ w.tree, P l.anchor
  | w, call :: calls => (∀ l ∈ w.tree, P l.anchor) ∧ ∀ w' as, call.onIntTree w = .ok (w', as) → AnchorsFrom P w' calls

end Verif
