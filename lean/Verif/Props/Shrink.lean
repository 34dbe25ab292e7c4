import Verif.Proof.ShrinkState
import Verif.Spec.States
import Verif.Proof.Reach2
import Verif.Proof.Answers
import Verif.Proof.Query
import Verif.Proof.WhInt
import Verif.Props.Sample

/-!
# Shrinking the infix size (C19)
-/

namespace Verif.Props

variable {s s' n : Nat} {f f' : Filter}

/-- The region of a key that is not a boundary. -/
theorem locate_gap (h : FilterOK f) {A B : Tree} {p e : Key × Store} (ht : f.tree = A ++ p :: e :: B) {k : Key}
    (h1 : keyLt p.1 k = true) (h2 : keyLt k e.1 = true) : locate f.tree k = .ok (A.length, p.1, p.2, e.1) := by
  have hA : ∀ a ∈ A, keyLt a.1 k = true := by
    intro a ha
    exact keyLt_of_padLt ((h.before ht ha).trans_le (keyLe_pre (keyLt_keyLe h1)))
  have hs := seek_gap (B := B) (e := e) hA h1 (keyLt_keyLe h2)
  have hne : (e.1 == k) = false := by
    rw [beq_eq_false_iff_ne]
    rintro rfl
    rw [keyLt_irrefl] at h2; exact absurd h2 (by decide)
  unfold locate
  simp only [ht, hs, peek_append_succ, Res.bind_ok, hne, Bool.false_eq_true, if_false, Nat.add_one_sub_one,
    Nat.succ_ne_zero, peek_append]

theorem both (hc : (cfg95 s).WF) (hn : n < 2 ^ 28) (h : Reach (cfg95 s) n f ∨ Shrunk n s f) : ShrunkInv (cfg95 s) n f := by
  rcases h with h | h
  · exact ⟨(h.inv hc hn).ok, (h.inv hc hn).cfg, (h.inv hc hn).len, (h.inv hc hn).clean⟩
  · exact h.inv hn

theorem _root_.Verif.BuiltShrunk.state {S : List Key} (h : BuiltShrunk n s f S) :
    (1 ≤ s ∧ s ≤ 46) ∧ (Reach (cfg95 s) n f ∨ Shrunk n s f) := by
  induction h with
  | start h1 h2 h => exact ⟨⟨h1, h2⟩, Or.inl h.toReach⟩
  | shrink _ h1 h2 hg hf ih =>
    refine ⟨⟨h1, by omega⟩, Or.inr ?_⟩
    rcases ih.2 with ih' | ih'
    · exact .first ih' h1 h2 ih.1.2 hg hf
    · exact .again ih' h1 h2 hg hf
  | insert _ hk hfit _ hi ih =>
    refine ⟨ih.1, ?_⟩
    rcases ih.2 with ih' | ih'
    · exact Or.inl (.insert ih' hk hfit hi)
    · exact Or.inr (.insert ih' hk hfit hi)

/-- Every such history ends in one of the states for which the other properties are proved. -/
theorem _root_.Verif.BuiltShrunk.states {S : List Key} (h : BuiltShrunk n s f S) : States (cfg95 s) n f := by
  rcases h.state.2 with h | h
  · exact .reach h
  · exact .shrunk rfl h

section
variable {k l r : Key}

/-- C19 for boundary keys and for keys in regions that are empty or of size grade 55, the grade of a region
filled by bulk loading, also after earlier shrinking: a positive point query stays positive. Missing: regions
of any other grade, where the claim is false (`C19_false`). -/
theorem C19_partial (hc : (cfg95 s).WF) (hn : n < 2 ^ 28) (h : Reach (cfg95 s) n f ∨ Shrunk n s f) (h1 : 1 ≤ s') (h2 : s' ≤ s)
    (hf : shrinkInfixSize f s' = .ok f')
    (hg : k ∉ boundaries f → ∀ i prev st next, locate f.tree k = .ok (i, prev, st, next) →
      st.sizeGrade = growSep ∨ st.elemCount = 0)
    (hq : pointQuery f k = .ok true) : pointQuery f' k = .ok true := by
  obtain ⟨hok, hcfg, _, _⟩ := both hc hn h
  have hw := hok.wf
  have hs : s' ≤ f.cfg.infixSize := by rw [hcfg]; exact h2
  have h8 : f.cfg.size growSep % 8 ≠ 0 := by rw [hcfg]; exact size55 s
  have hpw := shrink_pairwise hok hf
  have hcf : f'.cfg = { f.cfg with infixSize := s' } := by rw [shrink_eq hf]
  by_cases hb : k ∈ boundaries f
  · have hm : k ∈ boundaries f' := by unfold boundaries at hb ⊢; rw [shrink_boundaries hf]; exact hb
    obtain ⟨A, st, B, ht⟩ := mem_boundaries hm
    exact pointQuery_boundary0 hpw ht
  · rcases pointQuery_cases hok.q k with ⟨A, e, B, ht, rfl, _⟩ | ⟨A, p, e, B, ht, k1, k2, _⟩ | hu
    · exact absurd (boundary_of ht) hb
    · obtain ⟨sh, ig, imp, L, R⟩ := hok.region ht
      obtain ⟨b, hb', hbt⟩ := pointQuery_gap hok ht R k1 k2
      rw [hb'] at hq
      injection hq with hq
      have RS := R.shrink hw (hg hb _ _ _ _ (locate_gap hok ht k1 k2)) h8 hs h1
      obtain ⟨A', B', ste, ht'⟩ := shrink_tree hf ht
      rw [← hcf] at RS
      obtain ⟨b', hb', hbt'⟩ := pointQuery_gap0 (by rw [hcf]; exact hw.shrink hs h1) hpw ht' RS k1 k2
      rw [hb', hbt'.2]
      rcases hbt.1 hq with hp | hp
      · exact Or.inl hp
      · right; rw [hcf]; exact R.toRegionBase.hit_shrink hw hs h1 hp
    · rw [hu] at hq; cases hq

/-- The same for range queries of the generic variant. -/
theorem C19_range_partial (hc : (cfg95 s).WF) (hn : n < 2 ^ 28) (h : Reach (cfg95 s) n f ∨ Shrunk n s f) (h1 : 1 ≤ s') (h2 : s' ≤ s)
    (hf : shrinkInfixSize f s' = .ok f') (hlr : keyLe l r = true)
    (hg : l ∉ boundaries f → ∀ i prev st next, locate f.tree l = .ok (i, prev, st, next) →
      st.sizeGrade = growSep ∨ st.elemCount = 0)
    (hq : rangeQuery false f l r = .ok true) : rangeQuery false f' l r = .ok true := by
  obtain ⟨hok, hcfg, _, _⟩ := both hc hn h
  have hw := hok.wf
  have hs : s' ≤ f.cfg.infixSize := by rw [hcfg]; exact h2
  have h8 : f.cfg.size growSep % 8 ≠ 0 := by rw [hcfg]; exact size55 s
  have hpw := shrink_pairwise hok hf
  have hcf : f'.cfg = { f.cfg with infixSize := s' } := by rw [shrink_eq hf]
  have hbd : ∀ {k}, k ∈ boundaries f → keyLe l k = true → keyLe k r = true → rangeQuery false f' l r = .ok true := by
    intro k hb c1 c2
    have hm : k ∈ boundaries f' := by unfold boundaries at hb ⊢; rw [shrink_boundaries hf]; exact hb
    obtain ⟨A, st, B, ht⟩ := mem_boundaries hm
    exact rangeQuery_boundary0 hpw ht c1 c2
  by_cases hb : l ∈ boundaries f
  · exact hbd hb (keyLe_refl _) hlr
  · rcases rangeQuery_cases hok.q hlr false with ⟨A, e, B, ht, c1, c2, _⟩ | ⟨A, p, e, B, ht, k1, k2⟩ | hu
    · exact hbd (boundary_of ht) c1 c2
    · obtain ⟨sh, ig, imp, L, R⟩ := hok.region ht
      obtain ⟨b, hb', hbt⟩ := rangeQuery_gap hok ht R k1 hlr k2
      rw [hb'] at hq
      injection hq with hq
      have RS := R.shrink hw
        (hg hb _ _ _ _ (locate_gap hok ht k1 (keyLt_of_le_of_lt hlr k2))) h8 hs h1
      obtain ⟨A', B', ste, ht'⟩ := shrink_tree hf ht
      rw [← hcf] at RS
      obtain ⟨b', hb', hbt'⟩ := rangeQuery_gap0 (by rw [hcf]; exact hw.shrink hs h1) hpw ht' RS k1 hlr k2
      rw [hb', hbt'.2]
      rcases hbt.1 hq with hp | hp
      · exact Or.inl hp
      · right; rw [hcf]; exact R.toRegionBase.meet_shrink hw hs h1 hp
    · rw [hu] at hq; cases hq

/-- A filter whose regions are empty or of grade 55 is well formed again after shrinking, so later operations behave as on
a filter built with the smaller size. -/
theorem C19_state (hc : (cfg95 s).WF) (hn : n < 2 ^ 28) (h : Reach (cfg95 s) n f ∨ Shrunk n s f) (h1 : 1 ≤ s') (h2 : s' ≤ s)
    (hf : shrinkInfixSize f s' = .ok f') (hg : Shrinkable f) : FilterOK f' :=
  (both hc hn h).ok.shrunk (both hc hn h).cfg h1 h2 hg hf

/-- Loads, inserts and shrinks in any order: every loaded and inserted key is found, as long as each shrink finds
only empty regions and regions of grade 55. -/
theorem C19_keys_partial (hn : n < 2 ^ 28) {S : List Key} (h : BuiltShrunk n s f S) :
    ∀ k ∈ S, pointQuery f k = .ok true := by
  induction h with
  | start h1 h2 h => exact h.pos (cfg95_wf _ h1 h2) hn
  | shrink h h1 h2 hg hf ih =>
    intro k hk
    obtain ⟨⟨a1, a2⟩, hr⟩ := h.state
    refine C19_partial (cfg95_wf _ a1 a2) hn hr h1 h2 hf (fun _ i prev st next hl => ?_) (ih k hk)
    exact hg.1 (prev, st) (mem_of_locate hl)
  | insert h hk hfit hp hi ih =>
    obtain ⟨⟨a1, a2⟩, hr⟩ := h.state
    have b := both (cfg95_wf _ a1 a2) hn hr
    obtain ⟨_, _, _, c1, c2⟩ := insert_spec b.ok hfit hn hk b.len hi
    intro k hk'
    rcases List.mem_cons.1 hk' with rfl | hk'
    · exact c1
    · exact c2 k (fun hs hpre => hp hs k hk' hpre) (ih k hk')

end

/-- Fifty keys between two boundaries; their region has size grade 0. -/
def shrinkKeys : List Key := (0x2000000000000000 ::
  (List.range 50).map (fun i => 0x2000000001234567 + i * 0x0089abcdef123457) ++ [0x4000000000000000]).map encodeInt

/-- C19 is violated: the new block of a region of grade 0 is written with the slot offset of grade 55. After shrinking
from 30 to 25 bits a loaded key is not found. -/
theorem C19_false : ∃ f f' k, Reach (cfg95 30) 8 f ∧ k ∈ shrinkKeys ∧ bulkFixed (cfg95 30) 8 shrinkKeys = .ok f ∧
    shrinkInfixSize f 25 = .ok f' ∧ pointQuery f k = .ok true ∧ pointQuery f' k = .ok false := by
  have h : (bulkFixed (cfg95 30) 8 shrinkKeys).bind (fun f => (shrinkInfixSize f 25).bind fun f' =>
      (pointQuery f (encodeInt 3778379974756993617)).bind fun a =>
      (pointQuery f' (encodeInt 3778379974756993617)).bind fun b => .ok (a, b)) = .ok (true, false) := by decide +kernel
  cases hb : bulkFixed (cfg95 30) 8 shrinkKeys with
  | ub => rw [hb] at h; cases h
  | hang => rw [hb] at h; cases h
  | ok f =>
    rw [hb, Res.bind_ok] at h
    cases hs : shrinkInfixSize f 25 with
    | ub => rw [hs] at h; cases h
    | hang => rw [hs] at h; cases h
    | ok f' =>
      rw [hs, Res.bind_ok] at h
      cases hp : pointQuery f (encodeInt 3778379974756993617) with
      | ub => rw [hp] at h; cases h
      | hang => rw [hp] at h; cases h
      | ok a =>
        rw [hp, Res.bind_ok] at h
        cases hp' : pointQuery f' (encodeInt 3778379974756993617) with
        | ub => rw [hp'] at h; cases h
        | hang => rw [hp'] at h; cases h
        | ok b =>
          rw [hp', Res.bind_ok] at h
          simp only [Res.ok.injEq, Prod.mk.injEq] at h
          obtain ⟨rfl, rfl⟩ := h
          exact ⟨f, f', encodeInt 3778379974756993617, (BuiltFit.load (by decide +kernel) (by decide +kernel) hb).toReach,
            by decide +kernel, rfl, hs, hp, hp'⟩

/-- The hypotheses of `C19_partial` are met by an inserted key below the first loaded key. -/
example : ∃ f f', Reach (cfg95 5) 8 f ∧ shrinkInfixSize f 3 = .ok f' ∧
    pointQuery f (encodeInt 0x1000000000000000) = .ok true ∧ pointQuery f (encodeInt 0x1800000000000000) = .ok false ∧
    ∀ i prev st next, locate f.tree (encodeInt 0x1000000000000000) = .ok (i, prev, st, next) → st.sizeGrade = growSep := by
  have h : (history (cfg95 5) 8 [encodeInt 0x2000000000000000, encodeInt 0x4000000000000000]
      [(encodeInt 0x1000000000000000, false)]).bind (fun f => .ok (f.tree.length,
        pointQuery f (encodeInt 0x1000000000000000), pointQuery f (encodeInt 0x1800000000000000),
        (locate f.tree (encodeInt 0x1000000000000000)).bind fun q => .ok q.2.2.1.sizeGrade)) =
      .ok (4, .ok true, .ok false, .ok 55) := by decide +kernel
  cases hb : history (cfg95 5) 8 [encodeInt 0x2000000000000000, encodeInt 0x4000000000000000]
      [(encodeInt 0x1000000000000000, false)] with
  | ub => rw [hb] at h; cases h
  | hang => rw [hb] at h; cases h
  | ok f =>
    rw [hb, Res.bind_ok] at h
    simp only [Res.ok.injEq, Prod.mk.injEq] at h
    obtain ⟨h1, h2, h3, h4⟩ := h
    refine ⟨f, _, (history_builtFit (by decide +kernel) (by decide +kernel) (by decide +kernel) (by decide +kernel) hb).toReach,
      if_neg (by intro hh; rw [hh] at h1; cases h1), h2, h3, ?_⟩
    intro i prev st next hl
    rw [hl, Res.bind_ok] at h4
    injection h4

/-- Keys of a region that bulk loading and one insert bring to grade 55. -/
def fullKeys : List Nat := 0x2000000000000000 ::
  (List.range 1022).map (fun i => 0x2000000001234567 + i * 0x0007abcdef123457) ++ [0x4000000000000000]

/-- The hypotheses of `C19_state` are met by a filter with 1023 stored items. -/
example : ∃ f, Reach (cfg95 5) 8 f ∧ (∀ e ∈ f.tree, e.2.sizeGrade = growSep ∧ e.2.isPartial = false) ∧
    (f.tree.map fun e => e.2.elemCount) = [0, 1023, 0, 0] := by
  have h : (history (cfg95 5) 8 (fullKeys.map encodeInt) [(encodeInt 0x2500000000000000, false)]).bind (fun f =>
      .ok (f.tree.map fun e => (e.2.sizeGrade, e.2.isPartial, e.2.elemCount))) =
      .ok [(55, false, 0), (55, false, 1023), (55, false, 0), (55, false, 0)] := by decide +kernel
  have hsort : (fullKeys.map encodeInt).Pairwise fun a b => keyLt a b = true := by
    rw [List.pairwise_map]
    have h1 : fullKeys.IsChain (· < ·) := by decide +kernel
    have h2 : ∀ k ∈ fullKeys, k < 2 ^ 64 := by decide +kernel
    refine List.Pairwise.imp_of_mem ?_ h1.pairwise
    intro a b ha hb hab
    exact (encode_lt (h2 a ha) (h2 b hb)).2 hab
  cases hb : history (cfg95 5) 8 (fullKeys.map encodeInt) [(encodeInt 0x2500000000000000, false)] with
  | ub => rw [hb] at h; cases h
  | hang => rw [hb] at h; cases h
  | ok f =>
    rw [hb, Res.bind_ok] at h
    injection h with h
    refine ⟨f, (history_builtFit (by decide +kernel) hsort (by decide +kernel) (by decide +kernel) hb).toReach, ?_, ?_⟩
    · intro e he
      have : (e.2.sizeGrade, e.2.isPartial, e.2.elemCount) ∈ f.tree.map fun e => (e.2.sizeGrade, e.2.isPartial, e.2.elemCount) :=
        List.mem_map_of_mem he
      rw [h] at this
      generalize e.2.sizeGrade = a at *
      generalize e.2.isPartial = b at *
      generalize e.2.elemCount = d at *
      simp only [List.mem_cons, Prod.mk.injEq, List.not_mem_nil, or_false] at this
      rcases this with ⟨rfl, rfl, _⟩ | ⟨rfl, rfl, _⟩ | ⟨rfl, rfl, _⟩ | ⟨rfl, rfl, _⟩ <;> exact ⟨rfl, rfl⟩
    · have := congrArg (List.map fun x : Nat × Bool × Nat => x.2.2) h
      simpa [Function.comp_def] using this

/-- Executable form of `Shrinkable`. -/
def shrinkableB (f : Filter) : Bool :=
  f.tree.all (fun e => decide (e.2.sizeGrade = growSep ∨ e.2.elemCount = 0)) &&
    match f.tree.getLast? with
    | some e => decide (e.2.sizeGrade = growSep)
    | none => true

theorem shrinkableB_sound (h : shrinkableB f = true) : Shrinkable f := by
  unfold shrinkableB at h
  rw [Bool.and_eq_true, List.all_eq_true] at h
  refine ⟨fun e he => by simpa using h.1 e he, fun e he => ?_⟩
  have := h.2
  rw [he] at this
  simpa using this

/-- Two keys are loaded and one inserted, the filter is shrunk from 5 to 3 bits, a key is inserted with a split, and the
filter, whose regions between the loaded keys are empty and of grade 0, is shrunk to 2 bits. -/
theorem shrunk_built : ∃ f, BuiltShrunk 8 2 f [encodeInt 0x3000000000000000, encodeInt 0x1000000000000000,
    encodeInt 0x2000000000000000, encodeInt 0x4000000000000000] ∧ f.tree.length = 5 ∧
    pointQuery f (encodeInt 0x1800000000000000) = .ok false ∧ pointQuery f (encodeInt 0x1000000000000000) = .ok true := by
  have h : (history (cfg95 5) 8 [encodeInt 0x2000000000000000, encodeInt 0x4000000000000000]
      [(encodeInt 0x1000000000000000, false)]).bind (fun f => (shrinkInfixSize f 3).bind fun f1 =>
        (insert f1 (encodeInt 0x3000000000000000) true).bind fun f2 => (shrinkInfixSize f2 2).bind fun f3 =>
        .ok (shrinkableB f, fitsB f1 (encodeInt 0x3000000000000000) true,
          shrinkableB f2, f3.tree.length, pointQuery f3 (encodeInt 0x1800000000000000))) =
      .ok (true, true, true, 5, .ok false) := by decide +kernel
  obtain ⟨f, hb, h⟩ := Res.bind_eq_ok h
  obtain ⟨f1, hb1, h⟩ := Res.bind_eq_ok h
  obtain ⟨f2, hb2, h⟩ := Res.bind_eq_ok h
  obtain ⟨f3, hb3, h⟩ := Res.bind_eq_ok h
  simp only [Res.ok.injEq, Prod.mk.injEq] at h
  obtain ⟨g1, g2, g3, g4, g5⟩ := h
  have b0 := BuiltShrunk.start (by decide) (by decide) (history_builtFit (by decide +kernel) (by decide +kernel)
    (by decide +kernel) (by decide +kernel) hb).toVar.1
  have b1 := BuiltShrunk.insert (b0.shrink (by decide) (by decide) (shrinkableB_sound g1) hb1) (by decide)
    (fitsB_sound g2) (by decide +kernel) hb2
  have b3 := b1.shrink (by decide) (by decide) (shrinkableB_sound g3) hb3
  exact ⟨f3, b3, g4, g5, C19_keys_partial (by decide) b3 _ (by simp)⟩

end Verif.Props
