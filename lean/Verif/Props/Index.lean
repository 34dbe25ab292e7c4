import Verif.Proof.IxFilter
import Verif.Props.IntTree

/-!
# C47: the index over the leaves
-/

namespace Verif.Props

/-! ## The index for any anchors

The index of the tree for strings is the same code, so these theorems hold for both trees. -/

variable {x : Index} {as A B : List Key} {p a : Key}

/-- C47: whatever the tags answer for absent prefixes, the search ends at the leaf where the key belongs. -/
theorem C47_find (h : IndexHist x as) {peek : Key → Bool} (hp : ∀ q, x.get q ≠ none → peek q = true) (key : Key) :
    ∃ r, indexJump peek x key = .ok r ∧ Owns (· ∈ as) key r := by
  obtain ⟨hl, hi⟩ := h.ok
  exact indexJump_spec hi (List.mem_of_mem_head? hl.1) (fun q hq => hp q fun hc => (hi.none_iff.1 hc) hq) key

/-- C47: there is a node for exactly the prefixes of anchors. -/
theorem C47_nodes (h : IndexHist x as) (q : Key) : x.get q ≠ none ↔ ∃ a ∈ as, q <+: a := by
  rw [Ne, h.ok.2.none_iff]
  exact not_not

/-- C47: a split of a leaf always completes. -/
theorem C47_split (h : IndexHist x (A ++ p :: B)) (hl : Ladder (A ++ p :: a :: B)) :
    ∃ x', indexSplit x p a B.head? = .ok x' ∧ IndexHist x' (A ++ p :: a :: B) := by
  obtain ⟨x', e, _⟩ := indexSplit_spec h.ok.2 (ladder_gap hl.2.1) (ladder_fits hl).2
  exact ⟨x', e, .split h hl e⟩

/-- C47: so does a merge. -/
theorem C47_merge (h : IndexHist x (A ++ p :: a :: B)) : ∃ x', indexMerge x p a B.head? = .ok x' ∧ IndexHist x' (A ++ p :: B) := by
  obtain ⟨hl, hi⟩ := h.ok
  rw [← ladder_with] at hi
  obtain ⟨x', e, _⟩ := indexMerge_spec hi (ladder_gap hl.2.1) (ladder_fits hl).1 (ladder_fits hl).2
  exact ⟨x', e, .merge h e⟩

/-- Anchors "b", "bcd", "bd", "f", of which "bd" comes before its left neighbour and "b" is merged away. The second search
has no anchor as a prefix; in the third the tags claim a node that does not exist. -/
example : ∃ x, IndexHist x [[], [98, 99, 100], [98, 100], [102]] ∧
    (∃ r, indexJump (fun _ => true) x [98, 99, 101] = .ok r ∧ Owns (· ∈ [[], [98, 99, 100], [98, 100], [102]]) [98, 99, 101] r) ∧
    indexJump (fun q => (x.get q).isSome) x [101] = .ok [98, 100] ∧ indexJump (fun _ => true) x [98, 99, 97, 97] = .ok [] ∧
    x.get [98, 99] ≠ none ∧ x.get [98, 99, 100, 101] = none := by
  obtain ⟨x1, e1, h1⟩ := C47_split (A := []) (B := []) (a := [98]) .empty (by unfold Ladder; decide)
  obtain ⟨x2, e2, h2⟩ := C47_split (A := [[]]) (B := []) (a := [102]) h1 (by unfold Ladder; decide)
  obtain ⟨x3, e3, h3⟩ := C47_split (A := [[]]) (B := [[102]]) (a := [98, 100]) h2 (by unfold Ladder; decide)
  obtain ⟨x4, e4, h4⟩ := C47_split (A := [[]]) (B := [[98, 100], [102]]) (a := [98, 99, 100]) h3 (by unfold Ladder; decide)
  obtain ⟨x5, e5, h5⟩ := C47_merge (A := []) (B := [[98, 99, 100], [98, 100], [102]]) h4
  have hp : ∀ q, x5.get q ≠ none → (x5.get q).isSome = true := fun q h => Option.isSome_iff_ne_none.2 h
  have own : ∀ {k r r' : Key}, Owns (· ∈ [[], [98, 99, 100], [98, 100], [102]]) k r' → Owns (· ∈ [[], [98, 99, 100], [98, 100], [102]]) k r →
      r' = r := fun h h' => h.unique h'
  obtain ⟨r1, f1, o1⟩ := C47_find h5 hp [101]
  obtain ⟨r2, f2, o2⟩ := C47_find h5 (peek := fun _ => true) (fun _ _ => rfl) [98, 99, 97, 97]
  refine ⟨x5, h5, C47_find h5 (fun _ _ => rfl) _, ?_, ?_, (C47_nodes h5 _).2 ⟨[98, 99, 100], by decide, by decide⟩, ?_⟩
  · rw [f1, own o1 (r := [98, 100]) (by unfold Owns; decide)]
  · rw [f2, own o2 (r := []) (by unfold Owns; decide)]
  · by_contra hc
    obtain ⟨a, ha, hq⟩ := (C47_nodes h5 _).1 hc
    revert hq
    revert a
    decide

/-! ## The filter -/

variable {c : Cfg} {n : Nat} {ins : Bool} {w w0 : WhFilter} {S K : List Key} {tags : Tags} {calls : List Call} {o : List Bool}

theorem ordered (hc : c.WF) (hn : n ≤ 8) (h : IntStates c n w) : Ordered w := (h.sound hc hn).1.ladder

/-- C47: on the tree with the index a history gives the same answers and the same leaves, and then every key is found in
the leaf where it belongs. What is missing is what is missing in C45. -/
theorem C47_runs_partial (hc : c.WF) (hn : n ≤ 8) (ht : tags.Sound) {m : Nat} (hl : whBulkFixed c m K = .ok w0)
    (hs : ∀ i w' o', whRun w0 (calls.take i) = .ok (w', o') → IntStates c n w') (hr : whRun w0 calls = .ok (w, o)) :
    ∃ F0 F, ixBulkFixed tags c m K = .ok F0 ∧ ixRun tags F0 calls = .ok (F, o) ∧ F.cfg = w.cfg ∧ F.tree.leaves = w.tree ∧
      ∀ key, F.tree.jump tags key = .ok (w.tree.jump key) := by
  have hord := fun i w' o' e => ordered hc hn (hs i w' o' e)
  obtain ⟨F0, e0, h0⟩ := bulkFixed_ix ht c m K w0 hl (hord 0 w0 [] rfl)
  obtain ⟨F, e, h⟩ := h0.run ht hord hr
  exact ⟨F0, F, e0, e, h.1, h.2.eq, h.2.jump ht⟩

/-- C47: no false negatives on the tree with the index. -/
theorem C47_answers_partial (hc : c.WF) (hn : n ≤ 8) (ht : tags.Sound) {m : Nat} (hl : whBulkFixed c m K = .ok w0)
    (hs : ∀ i w' o', whRun w0 (calls.take i) = .ok (w', o') → IntStates c n w') (hr : whRun w0 calls = .ok (w, o))
    (hS : IntOps c n ins w S) {l k r : Key} (hk : k ∈ S) (hll : l.length ≤ 8) (hrl : r.length ≤ 8) (h1 : keyLe l k = true)
    (h2 : keyLe k r = true) : ∃ F0 F F1 F2, ixBulkFixed tags c m K = .ok F0 ∧ ixRun tags F0 calls = .ok (F, o) ∧
      ixPointQuery tags F k = .ok (F1, true) ∧ ixRangeQuery tags F l r = .ok (F2, true) := by
  have hord := fun i w' o' e => ordered hc hn (hs i w' o' e)
  obtain ⟨F0, e0, h0⟩ := bulkFixed_ix ht c m K w0 hl (hord 0 w0 [] rfl)
  obtain ⟨F, e, h⟩ := h0.run ht hord hr
  obtain ⟨⟨w1, e1⟩, w2, e2⟩ := C45_answers_partial hc hn hS hk hll hrl h1 h2
  obtain ⟨⟨F1, b1⟩, f1, -, rfl⟩ := h.point ht k _ e1 trivial
  obtain ⟨⟨F2, b2⟩, f2, -, rfl⟩ := h.range ht l r _ e2 trivial
  exact ⟨F0, F, F1, F2, e0, e, f1, f2⟩

/-- The calls of a sample history. -/
def callOf : Op → Call
  | .ins k b => .insert (encodeInt k) b
  | .del k => .delete (encodeInt k)

theorem sample_path (hc : c.WF) : ∀ {l : List Op} {q q' : WhFilter × List Key}, IntOps c 8 true q.1 q.2 →
    runInt (.ok q) l = .ok q' → whRun q.1 (l.map callOf) = .ok (q'.1, []) ∧
      ∀ i w' o, whRun q.1 ((l.map callOf).take i) = .ok (w', o) → ∃ S, IntOps c 8 true w' S
  | [], q, q', h, e => by
    simp only [runInt, Res.ok.injEq] at e
    subst e
    refine ⟨rfl, fun i w' o e => ?_⟩
    rw [List.map_nil, List.take_nil] at e
    cases e
    exact ⟨_, h⟩
  | a :: l, q, q', h, e => by
    have hfst : ∀ {q1}, runInt (.ok q) [a] = .ok q1 → _ := runInt_ops hc (l := [a]) h
    simp only [runInt, Res.bind_ok] at e hfst
    cases hs : a.stepInt q with
    | ub => rw [hs, runInt_ub] at e; cases e
    | hang => rw [hs, runInt_hang] at e; cases e
    | ok q1 =>
      rw [hs] at e
      obtain ⟨r1, r2⟩ := sample_path hc (hfst hs) e
      have step : ∀ m, whRun q.1 (callOf a :: m) = whRun q1.1 m := by
        intro m
        cases a with
        | ins k b =>
          dsimp only [Op.stepInt] at hs
          split_ifs at hs with hc
          obtain ⟨f, hi, hs⟩ := Res.bind_eq_ok hs
          injection hs with hs
          subst hs
          rw [callOf, whRun, hi, Res.bind_ok]
        | del k =>
          dsimp only [Op.stepInt] at hs
          split_ifs at hs with hc
          obtain ⟨f, hi, hs⟩ := Res.bind_eq_ok hs
          injection hs with hs
          subst hs
          rw [callOf, whRun, hi, Res.bind_ok]
      refine ⟨by rw [List.map_cons, step]; exact r1, fun i w' o e => ?_⟩
      cases i with
      | zero => cases e; exact ⟨_, h⟩
      | succ i =>
        rw [List.map_cons, List.take_succ_cons, step] at e
        exact r2 i w' o e

/-- The history of `int_sample` meets the hypotheses: it splits a leaf. The tags say yes to everything, or to nothing
but the nodes. -/
example : ∃ w0 w S, whBulkFixed (cfg95 5) 8 ([0x8000, 0x10000].map encodeInt) = .ok w0 ∧ w.tree.length = 2 ∧
    whRun w0 (intOps.map callOf) = .ok (w, []) ∧ encodeInt 0x4123 ∈ S ∧ IntOps (cfg95 5) 8 true w S ∧
    (∀ i w' o', whRun w0 ((intOps.map callOf).take i) = .ok (w', o') → IntStates (cfg95 5) 8 w') ∧
    Tags.Sound (fun _ _ _ => true) ∧ Tags.Sound (fun _ x p => (x.get p).isSome) := by
  have h : (opsInt 5 [0x8000, 0x10000] intOps).bind (fun q => .ok (decide (q.1.tree.length = 2 ∧ encodeInt 0x4123 ∈ q.2))) =
      .ok true := by decide +kernel
  obtain ⟨q, hq, he⟩ := Res.bind_eq_ok h
  obtain ⟨h1, h2⟩ := of_decide_eq_true (Res.ok.inj he)
  unfold opsInt at hq
  cases hb : whBulkFixed (cfg95 5) 8 ([0x8000, 0x10000].map encodeInt) with
  | ub => rw [hb, show Res.bind Res.ub _ = Res.ub from rfl, runInt_ub] at hq; cases hq
  | hang => rw [hb, show Res.bind Res.hang _ = Res.hang from rfl, runInt_hang] at hq; cases hq
  | ok w0 =>
    rw [hb, Res.bind_ok] at hq
    have hload : IntOps (cfg95 5) 8 true w0 ([0x8000, 0x10000].map encodeInt) := .strict (by decide) (by decide) hb
    obtain ⟨r1, r2⟩ := sample_path cfg95_5 (q := (w0, _)) hload hq
    refine ⟨w0, q.1, q.2, rfl, h1, r1, h2, runInt_ops cfg95_5 (q := (w0, _)) hload hq, fun i w' o' e => ?_, fun _ _ _ _ => rfl,
      fun _ _ _ h => Option.isSome_iff_ne_none.2 h⟩
    obtain ⟨S, hS⟩ := r2 i w' o' e
    exact .ops hS

end Verif.Props
