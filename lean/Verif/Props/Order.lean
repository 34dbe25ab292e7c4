import Verif.Proof.Commute
import Verif.Props.Inserts

/-!
# C41: the bytes do not depend on the order of inserts
-/

namespace Verif.Props

section
variable {c : Cfg} {n : Nat} {f : Filter}

/-- C41: inserts that do not split, in any order, give the same outcome, and if they return then the same filter: the same
boundaries and status words and the same bits in every block, hence the same bytes of `Serialize`. Keys may be repeated.
The last hypothesis says that no 20-bit counter overflows. -/
theorem C41 (hc : c.WF) (hn : n < 2 ^ 28) (h : Reach c n f) {ks ks' : List Key} (hp : ks.Perm ks')
    (hcnt : ∀ e ∈ f.tree, e.2.elemCount + ks.length < f.cfg.cap) :
    runSimple (.ok f) ks = runSimple (.ok f) ks' ∧
    ∀ {f1 f2 : Filter}, runSimple (.ok f) ks = .ok f1 → runSimple (.ok f) ks' = .ok f2 →
      ∀ io seed lf, serialize io seed lf f1 = serialize io seed lf f2 := by
  have I := h.inv hc hn
  have he := runSimple_perm hp I.ok I.clean hcnt
  refine ⟨he, fun {f1 f2} h1 h2 io seed lf => ?_⟩
  rw [he, h2] at h1
  injection h1 with h1
  rw [h1]

end

/-- Three inserts into the sample, two of them of the same key, in two orders. -/
example : ∃ f1, runSimple (.ok sample) [encodeInt 0x4000000000000000, encodeInt 0x4000000000000001, encodeInt 0x4000000000000000] = .ok f1 ∧
    runSimple (.ok sample) [encodeInt 0x4000000000000001, encodeInt 0x4000000000000000, encodeInt 0x4000000000000000] = .ok f1 := by
  obtain ⟨f1, h1⟩ : ∃ f', runSimple (.ok sample)
      [encodeInt 0x4000000000000000, encodeInt 0x4000000000000001, encodeInt 0x4000000000000000] = .ok f' := by
    rw [runSimple_defined (sample_reach.inv cfg95_5 (by decide)).ok (fun e he => by
      have := sample_count e he; have := sample_room; simp only [List.length_cons, List.length_nil]; omega)]
    have hk : ∀ k ∈ [encodeInt 0x4000000000000000, encodeInt 0x4000000000000001, encodeInt 0x4000000000000000],
      keyLe (encodeInt 0x3000000000000000) k = true ∧ keyLt k (encodeInt 0x7000000000000000) = true := by decide
    intro k hkm
    exact ⟨encodeInt 0x3000000000000000, encodeInt 0x7000000000000000,
      by rw [adjacent_mem, sample_boundaries]; decide, (hk k hkm).1, (hk k hkm).2⟩
  refine ⟨f1, h1, ?_⟩
  rw [← (C41 cfg95_5 (by decide) sample_reach (.swap _ _ _)
    (fun e he => by have := sample_count e he; have := sample_room; simp only [List.length_cons, List.length_nil]; omega)).1]
  exact h1

end Verif.Props
