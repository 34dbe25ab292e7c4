import Verif.Spec.Present
import Verif.Props.Shrink
import Verif.Props.Tame
import Verif.Props.Queries

/-!
# Present keys are reported (C01, C02, C15, C19, C27 together)
-/

namespace Verif.Props

variable {c : Cfg} {n : Nat} {f : Filter} {S : List Key} {k l r : Key}

/-- Every present key is found. -/
theorem present_point (hc : c.WF) (hn : n < 2 ^ 28) (h : Present c n f S) (hk : k ∈ S) : pointQuery f k = .ok true := by
  cases h with
  | built h => exact h.pos hc hn k hk
  | tame h => exact tame_pos hc hn h k hk
  | shrunk h => exact C19_keys_partial hn h k hk

theorem _root_.Verif.Present.states (hc : c.WF) (h : Present c n f S) : ∃ c' : Cfg, c'.WF ∧ States c' n f := by
  cases h with
  | built h => exact ⟨c, hc, .reach h.toReach⟩
  | tame h => exact ⟨c, hc, .tame h⟩
  | shrunk h => exact ⟨_, cfg95_wf _ h.state.1.1 h.state.1.2, h.states⟩

/-- Every range around a present key is positive. -/
theorem present_range (hc : c.WF) (hn : n < 2 ^ 28) (h : Present c n f S) (hk : k ∈ S) {io : Bool}
    (hio : io = true → n ≤ 8 ∧ l.length ≤ 8 ∧ r.length ≤ 8) (hl : keyLe l k = true) (hr : keyLe k r = true) :
    rangeQuery io f l r = .ok true := by
  obtain ⟨c', hc', hs⟩ := h.states hc
  exact C03_partial hc' hn hs hio hl hr (present_point hc hn h hk)

/-- After loads, inserts and two shrinks, also through the integer path. -/
example : ∃ f S, Present (cfg95 5) 8 f S ∧ encodeInt 0x1000000000000000 ∈ S ∧ encodeInt 0x3000000000000000 ∈ S ∧
    rangeQuery true f (encodeInt 0x2fffffffffffff00) (encodeInt 0x3000000000000001) = .ok true ∧
    pointQuery f (encodeInt 0x1800000000000000) = .ok false := by
  obtain ⟨f, hb, _, hq, _⟩ := shrunk_built
  have hP : Present (cfg95 5) 8 f _ := .shrunk hb
  exact ⟨f, _, hP, by simp, by simp, present_range (cfg95_wf 5 (by decide) (by decide)) (by decide) hP
    (k := encodeInt 0x3000000000000000) (by simp) (fun _ => ⟨by decide, by decide, by decide⟩) (by decide +kernel)
    (by decide +kernel), hq⟩

end Verif.Props
