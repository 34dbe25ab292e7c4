import Verif.Spec.States
import Verif.Proof.Reach2
import Verif.Proof.TameOps
import Verif.Proof.ShrinkState

/-!
# What all reached states have in common
-/

namespace Verif

structure StateInv (c : Cfg) (n : Nat) (f : Filter) : Prop where
  q : FilterQ f
  cfg : f.cfg = c
  len : LenLe n f
  clean : CleanTree f.cfg f.tree

theorem States.inv {c : Cfg} (hc : c.WF) {n : Nat} (hn : n < 2 ^ 28) {f : Filter} (h : States c n f) : StateInv c n f := by
  cases h with
  | reach h => exact ⟨(h.inv hc hn).ok.q, (h.inv hc hn).cfg, (h.inv hc hn).len, (h.inv hc hn).clean⟩
  | tame h => exact ⟨(h.inv hc hn).weak.q, (h.inv hc hn).cfg, (h.inv hc hn).len, (h.inv hc hn).clean⟩
  | shrunk e h => subst e; exact ⟨(h.inv hn).ok.q, (h.inv hn).cfg, (h.inv hn).len, (h.inv hn).clean⟩

theorem StateInv.io {c : Cfg} {n : Nat} {f : Filter} (h : StateInv c n f) {io : Bool} {l r : Key}
    (hio : io = true → n ≤ 8 ∧ l.length ≤ 8 ∧ r.length ≤ 8) :
    rangeQuery io f l r = rangeQuery false f l r := by
  cases io with
  | false => rfl
  | true =>
    obtain ⟨h1, h2, h3⟩ := hio rfl
    exact rangeQuery_int h.q.wf (fun e he => Nat.le_trans (h.len e he) h1) h2 h3

end Verif
