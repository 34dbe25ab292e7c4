import Verif.Props.SampleInt
import Verif.Props.Tame
import Verif.Props.Queries

/-!
# C45: the leaves of the integer tree
-/

namespace Verif.Props

variable {c : Cfg} {n : Nat} {ins : Bool} {w : WhFilter} {S : List Key}

/-- Splits in descending order, so that the leaves are out of order between the calls; two deletions, the first of a
boundary key; another split. -/
def intOps : List Op := (List.range 29).map (fun i => .ins (0x4000 - 0x100 * i) true) ++
  [.ins 0x5555 false, .ins 0x4123 false, .del 0x4000, .del 0x5555, .ins 0x5000 true]

/-- The state after `intOps`: two leaves, the first one not in order. -/
theorem int_sample : ∃ w S, IntOps (cfg95 5) 8 true w S ∧ w.tree.map (fun l => (l.nr, l.sorted)) = [(32, 31), (1, 1)] ∧
    encodeInt 0x4123 ∈ S ∧ encodeInt 0x5000 ∈ S ∧ InsertFits w.flat (encodeInt 0x6000) true ∧
    DeleteCalm w (encodeInt 0x5000) := by
  have h : (opsInt 5 [0x8000, 0x10000] intOps).bind (fun q => .ok (decide (q.1.tree.map (fun l => (l.nr, l.sorted)) = [(32, 31), (1, 1)] ∧
      encodeInt 0x4123 ∈ q.2 ∧ encodeInt 0x5000 ∈ q.2 ∧ fitsB q.1.flat (encodeInt 0x6000) true = true ∧
      calmB q.1 (encodeInt 0x5000) = true))) = .ok true := by decide +kernel
  obtain ⟨w, S, ho, he⟩ := opsInt_eval cfg95_5 (by decide) (by decide) h
  obtain ⟨h1, h2, h3, h4, h5⟩ := of_decide_eq_true (Res.ok.inj he)
  exact ⟨w, S, ho, h1, h2, h3, fitsB_sound h4, calmB_sound h5⟩

/-- C45: with the leaves forgotten, the states of `Diva<true>` are the states of the ordered list, so every statement
about those applies. What is missing in this and the following theorems: deletions with `mergeHazard` (`C45_false`). -/
theorem C45_states_partial (hc : c.WF) (hn : n ≤ 8) (h : IntStates c n w) : States c n w.flat := (h.sound hc hn).2

theorem C45_ops_partial (hc : c.WF) (hn : n ≤ 8) (h : IntOps c n ins w S) : OpsTame c n ins w.flat S := (h.sound hc hn).2

/-- Without deletions nothing is missing. -/
theorem C45_reach (hc : c.WF) (hn : n ≤ 8) (h : IntReach c n w) : Reach c n w.flat := (h.sound hc hn).2

/-- C45: every boundary key is in exactly one slot, and every leaf has at most 32. -/
theorem C45_slots_partial (hc : c.WF) (hn : n ≤ 8) (h : IntStates c n w) :
    (w.tree.flatMap fun l => l.entries.map Prod.fst).Nodup ∧ (boundaries w.flat).Pairwise (fun a b => keyLt a b = true) ∧
      ∀ l ∈ w.tree, l.nr ≤ 32 := by
  have hr := (h.sound hc hn).1
  refine ⟨?_, ?_, fun l hl => (hr.leaf l hl).nr⟩
  · rw [← List.map_flatMap]
    have := (flat_perm w.tree).map Prod.fst
    rw [this.nodup_iff]
    have h2 := hr.inc.nodup
    rw [hr.eq] at h2
    exact h2
  · exact List.pairwise_map.2 hr.inc

/-- C45: a point query has the outcome it has on the ordered list, and changes only the order inside the leaves. -/
theorem C45_point_partial (hc : c.WF) (hn : n ≤ 8) (h : IntStates c n w) {k : Key} (hk : k.length ≤ 8) :
    (whPointQuery w k).bind (fun q => .ok (q.1.flat, q.2)) = (pointQuery w.flat k).bind fun b => .ok (w.flat, b) := by
  have := (h.sound hc hn).1.point hk
  revert this
  cases whPointQuery w k <;> cases pointQuery w.flat k <;> simp only [RelRes] <;> try intro h
  · rw [Res.bind_ok, Res.bind_ok, h.1.flat, h.2]
  · contradiction
  · contradiction
  · contradiction
  · rfl
  · contradiction
  · contradiction
  · contradiction
  · rfl

/-- C45 for range queries. -/
theorem C45_range_partial (hc : c.WF) (hn : n ≤ 8) (h : IntStates c n w) {l r : Key} (hl : l.length ≤ 8) :
    (whRangeQuery w l r).bind (fun q => .ok (q.1.flat, q.2)) = (rangeQuery true w.flat l r).bind fun b => .ok (w.flat, b) := by
  have := (h.sound hc hn).1.range hl r
  revert this
  cases whRangeQuery w l r <;> cases rangeQuery true w.flat l r <;> simp only [RelRes] <;> try intro h
  · rw [Res.bind_ok, Res.bind_ok, h.1.flat, h.2]
  · contradiction
  · contradiction
  · contradiction
  · rfl
  · contradiction
  · contradiction
  · contradiction
  · rfl

/-- C45 for inserts. -/
theorem C45_insert (hc : c.WF) (hn : n ≤ 8) (h : IntReach c n w) {k : Key} {split : Bool} (hk : k.length ≤ n)
    (hfit : InsertFits w.flat k split) :
    (whInsert w k split).bind (fun w => .ok w.flat) = insert w.flat k split := by
  obtain ⟨ok, r⟩ := h.sound hc hn
  have I := r.inv hc (by omega)
  exact (ok.insert hn hk I.ok I.len hfit).flat

theorem C45_insert_partial (hc : c.WF) (hn : n ≤ 8) (h : IntOps c n true w S) {k : Key} {split : Bool} (hk : k.length ≤ n)
    (hfit : InsertFits w.flat k split) :
    (whInsert w k split).bind (fun w => .ok w.flat) = insert w.flat k split := by
  obtain ⟨ok, r⟩ := h.sound hc hn
  have I := r.inv hc (by omega)
  exact (ok.insert hn hk (I.strong rfl) I.len hfit).flat

/-- C45 for deletions. -/
theorem C45_delete_partial (hc : c.WF) (hn : n ≤ 8) (h : IntStates c n w) {k : Key} (hk : k.length ≤ 8) (hd : DeleteCalm w k) :
    (whDelete w k).bind (fun w => .ok w.flat) = delete w.flat k := ((h.sound hc hn).1.delete hk hd).flat

/-- C45: the bulk load of sorted distinct keys. -/
theorem C45_load (hn : n ≤ 8) {K : List Key} (hk : ∀ k ∈ K, k.length ≤ 8) (hs : Grouped K) :
    (whBulkFixed c n K).bind (fun w => .ok w.flat) = bulkFixed c n K := (bulkFixed_wh hn c hs hk).flat

/-- C45: no false negatives on the leaves. -/
theorem C45_answers_partial (hc : c.WF) (hn : n ≤ 8) (h : IntOps c n ins w S) {l k r : Key} (hk : k ∈ S)
    (hl : l.length ≤ 8) (hr : r.length ≤ 8) (h1 : keyLe l k = true) (h2 : keyLe k r = true) :
    (∃ w', whPointQuery w k = .ok (w', true)) ∧ ∃ w', whRangeQuery w l r = .ok (w', true) := by
  obtain ⟨ok, ops⟩ := h.sound hc hn
  have hlen : k.length = n := (ops.inv hc (by omega)).mem k hk
  have hp := tame_pos hc (by omega) ops k hk
  obtain ⟨q, e, -, e2⟩ := (ok.point (by omega)).okR hp
  obtain ⟨q', e', -, e2'⟩ := (ok.range hl r).okR
    (C03_partial hc (by omega) (.tame ops) (io := true) (fun _ => ⟨hn, hl, hr⟩) h1 h2 hp)
  exact ⟨⟨q.1, by rw [e, ← e2]⟩, q'.1, by rw [e', ← e2']⟩

/-- All of the above in the state of `int_sample`. -/
example : ∃ w S, IntOps (cfg95 5) 8 true w S ∧ w.tree.length = 2 ∧ OpsTame (cfg95 5) 8 true w.flat S ∧
    (∃ w', whPointQuery w (encodeInt 0x4123) = .ok (w', true)) ∧
    (∃ w', whRangeQuery w (encodeInt 0x4100) (encodeInt 0x4200) = .ok (w', true)) ∧
    (whInsert w (encodeInt 0x6000) true).bind (fun w => .ok w.flat) = insert w.flat (encodeInt 0x6000) true ∧
    (whDelete w (encodeInt 0x5000)).bind (fun w => .ok w.flat) = delete w.flat (encodeInt 0x5000) := by
  obtain ⟨w, S, h, h1, h2, h3, h4, h5⟩ := int_sample
  have ha := C45_answers_partial cfg95_5 (by decide) h h2 (l := encodeInt 0x4100) (r := encodeInt 0x4200) (by decide) (by decide)
    (by decide) (by decide)
  exact ⟨w, S, h, by simpa using congrArg List.length h1, C45_ops_partial cfg95_5 (by decide) h, ha.1, ha.2,
    C45_insert_partial cfg95_5 (by decide) h (by decide) h4, C45_delete_partial cfg95_5 (by decide) (.ops h) (by decide) h5⟩

/-! ## Deletions that merge leaves -/

def mergeOps : List Op := (List.range 31).map fun i => .ins (0x200 + 0x100 * i) true

/-- C45 is violated when a deletion merges a leaf that is in order with the next one: `nr_sorted` counts the keys of
the next leaf twice, and the next query sorts memory outside the leaf. On the ordered list the deletion is harmless. -/
theorem C45_false : ∃ w S w' f' k, IntOps (cfg95 5) 8 true w S ∧ encodeInt 0x100 ∈ S ∧ DeleteTame true w.flat (encodeInt 0x100) ∧
    whDelete w (encodeInt 0x100) = .ok w' ∧ delete w.flat (encodeInt 0x100) = .ok f' ∧ k ∈ S.erase (encodeInt 0x100) ∧
    pointQuery f' k = .ok true ∧ whPointQuery w' k = .ub := by
  have h : (opsInt 5 [0x100, 0x6400] mergeOps).bind (fun q =>
      (whDelete q.1 (encodeInt 0x100)).bind fun w' => (delete q.1.flat (encodeInt 0x100)).bind fun f' =>
        .ok (decide (encodeInt 0x100 ∈ q.2 ∧ tameB true q.1.flat (encodeInt 0x100) = true ∧
          encodeInt 0x1000 ∈ q.2.erase (encodeInt 0x100)) &&
          (match pointQuery f' (encodeInt 0x1000) with | .ok b => b | _ => false) &&
          (match whPointQuery w' (encodeInt 0x1000) with | .ub => true | _ => false))) = .ok true := by decide +kernel
  obtain ⟨w, S, ho, he⟩ := opsInt_eval cfg95_5 (by decide) (by decide) h
  obtain ⟨w', e1, he⟩ := Res.bind_eq_ok he
  obtain ⟨f', e2, he⟩ := Res.bind_eq_ok he
  have he := Res.ok.inj he
  simp only [Bool.and_eq_true, decide_eq_true_eq] at he
  obtain ⟨⟨⟨h1, h2, h3⟩, h4⟩, h5⟩ := he
  refine ⟨w, S, w', f', encodeInt 0x1000, ho, h1,
    tameB_sound ((C45_ops_partial cfg95_5 (by decide) ho).inv cfg95_5 (by decide)).weak h2, e1, e2, h3, ?_, ?_⟩
  · split at h4
    · rename_i b hb; rw [hb, h4]
    · cases h4
  · split at h5
    · assumption
    · cases h5

def staleOps : List Op := mergeOps ++ [.ins 15000 false] ++ (List.range 9).map fun i => .del (0x200 + 0x100 * i)

/-- C45 is violated when the right neighbour of the deleted boundary is the last key of its leaf and the leaf is merged:
`right_key` then points to a slot that holds the first key of the next leaf, and the merged region is laid out for the
wrong number of cells. The next insert into it makes both its own key and a stored one disappear. On the ordered list
both are found. -/
theorem C45_false_stale : ∃ w S w1 w2 f1 f2 w3 w4, IntOps (cfg95 5) 8 true w S ∧ encodeInt 0x2000 ∈ S ∧ encodeInt 15000 ∈ S ∧
    DeleteTame true w.flat (encodeInt 0x2000) ∧ whDelete w (encodeInt 0x2000) = .ok w1 ∧
    whInsert w1 (encodeInt 14000) false = .ok w2 ∧ whPointQuery w2 (encodeInt 15000) = .ok (w3, false) ∧
    whPointQuery w2 (encodeInt 14000) = .ok (w4, false) ∧ delete w.flat (encodeInt 0x2000) = .ok f1 ∧
    insert f1 (encodeInt 14000) false = .ok f2 ∧ pointQuery f2 (encodeInt 15000) = .ok true ∧
    pointQuery f2 (encodeInt 14000) = .ok true := by
  have h : (opsInt 5 [0x100, 0x6400] staleOps).bind (fun q =>
      (whDelete q.1 (encodeInt 0x2000)).bind fun w1 => (whInsert w1 (encodeInt 14000) false).bind fun w2 =>
      (whPointQuery w2 (encodeInt 15000)).bind fun a1 => (whPointQuery w2 (encodeInt 14000)).bind fun a2 =>
      (delete q.1.flat (encodeInt 0x2000)).bind fun f1 => (insert f1 (encodeInt 14000) false).bind fun f2 =>
      (pointQuery f2 (encodeInt 15000)).bind fun b1 => (pointQuery f2 (encodeInt 14000)).bind fun b2 =>
        .ok (decide (encodeInt 0x2000 ∈ q.2 ∧ encodeInt 15000 ∈ q.2 ∧ tameB true q.1.flat (encodeInt 0x2000) = true ∧
          a1.2 = false ∧ a2.2 = false ∧ b1 = true ∧ b2 = true))) = .ok true := by decide +kernel
  obtain ⟨w, S, ho, he⟩ := opsInt_eval cfg95_5 (by decide) (by decide) h
  obtain ⟨w1, e1, he⟩ := Res.bind_eq_ok he
  obtain ⟨w2, e2, he⟩ := Res.bind_eq_ok he
  obtain ⟨⟨w3, a1⟩, e3, he⟩ := Res.bind_eq_ok he
  obtain ⟨⟨w4, a2⟩, e4, he⟩ := Res.bind_eq_ok he
  obtain ⟨f1, e5, he⟩ := Res.bind_eq_ok he
  obtain ⟨f2, e6, he⟩ := Res.bind_eq_ok he
  obtain ⟨b1, e7, he⟩ := Res.bind_eq_ok he
  obtain ⟨b2, e8, he⟩ := Res.bind_eq_ok he
  obtain ⟨h1, h2, h3, rfl, rfl, rfl, rfl⟩ := of_decide_eq_true (Res.ok.inj he)
  exact ⟨w, S, w1, w2, f1, f2, w3, w4, ho, h1, h2,
    tameB_sound ((C45_ops_partial cfg95_5 (by decide) ho).inv cfg95_5 (by decide)).weak h3, e1, e2, e3, e4, e5, e6, e7, e8⟩

end Verif.Props
