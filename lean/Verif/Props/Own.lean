import Verif.Proof.OwnRun
import Verif.Proof.States
import Verif.Props.Serial
import Verif.Props.SampleDel

/-!
# C38: the blocks of the regions
-/

namespace Verif.Props

variable {f f' : Filter} {h : Heap} {c : Cfg} {n : Nat}

/-- C38 after a bulk load of any keys and any operations that returned: every next operation that returns, every
query and the destructor use only blocks that are allocated and delete every block at most once. Missing: restored
filters, see `C38_false`. -/
theorem C38_partial (H : HeapRun f h) :
    (∀ key split f', insert f key split = .ok f' → ∃ h', heapInsert f h key split = .ok h') ∧
    (∀ key f', delete f key = .ok f' → ∃ h', heapDelete f h key = .ok h') ∧
    (∃ h', heapShrink (boundaries f) h = .ok h') ∧ heapUsable f h ∧ ∃ h', heapDestroy f h = .ok h' := by
  obtain ⟨n, H⟩ := H.owned
  refine ⟨fun key split f' hi => ?_, fun key f' hi => ?_, ?_, H.usable, ?_⟩
  · obtain ⟨h', _, e, _⟩ := heapInsert_spec H hi; exact ⟨h', e⟩
  · obtain ⟨h', e, _⟩ := heapDelete_spec H hi; exact ⟨h', e⟩
  · obtain ⟨h', e, _⟩ := heapShrink_spec (fun k hk => hk) H; exact ⟨h', e⟩
  · obtain ⟨h', e, _⟩ := H.destroy; exact ⟨h', e⟩

/-- C38, the other half: after the destructor no block is left. Missing: loads whose keys include an extreme key, see
`C38_leak`, and inserts into states that a faulty deletion made. -/
theorem C38_freed_partial (hc : c.WF) (hn : n < 2 ^ 28) (H : HeapTidy c n f h) :
    ∃ h', heapDestroy f h = .ok h' ∧ h'.live = [] := by
  obtain ⟨h', e, hl⟩ := (H.owned hc hn).destroy
  exact ⟨h', e, List.length_eq_zero_iff.1 hl⟩

theorem tidy_run (H : HeapTidy c n f h) : HeapRun f h := by
  induction H with
  | fixed _ _ _ _ hb => exact .fixed hb
  | var _ _ _ hb => exact .var hb
  | stream _ _ _ hb => exact .stream hb
  | insert _ _ _ _ hi hh ih => exact ih.insert hi hh
  | delete _ hi hh ih => exact ih.delete hi hh
  | shrink _ hi hh ih => exact ih.shrink hi hh

theorem runOps_tidy : ∀ {ops : List (Key × Bool)} {f f' : Filter} {h : Heap}, c.WF → n < 2 ^ 28 →
    HeapTidy c n f h → Reach c n f → (∀ o ∈ ops, o.1.length ≤ n) → runFits (.ok f) ops = true → runOps (.ok f) ops = .ok f' →
    ∃ h', HeapTidy c n f' h'
  | [], f, f', h, _, _, H, _, _, _, e => by
    simp only [runOps, Res.ok.injEq] at e; subst e; exact ⟨h, H⟩
  | (k, b) :: ops, f, f', h, hc, hn, H, hr, hl, hf, e => by
    simp only [runOps, Res.bind_ok] at e
    simp only [runFits, Res.bind_ok, Bool.and_eq_true] at hf
    cases hi : insert f k b with
    | ub => rw [hi, runOps_ub] at e; cases e
    | hang => rw [hi, runOps_hang] at e; cases e
    | ok f1 =>
      rw [hi] at e hf
      obtain ⟨h1, _, e1, _⟩ := heapInsert_spec (H.owned hc hn) hi
      exact runOps_tidy hc hn (H.insert (.inl hr) (hl (k, b) (by simp)) (fitsB_sound hf.1) hi e1)
        (hr.insert (hl (k, b) (by simp)) (fitsB_sound hf.1) hi) (fun o ho => hl o (by simp [ho])) hf.2 e

theorem sample_tidy : ∃ h, HeapTidy (cfg95 5) 8 sample h := by
  have e := sample_eq
  unfold history at e
  have hf : runFits (bulkFixed (cfg95 5) 8 sampleKeys) sampleOps = true := by decide +kernel
  cases hb : bulkFixed (cfg95 5) 8 sampleKeys with
  | ub => rw [hb, runOps_ub] at e; cases e
  | hang => rw [hb, runOps_hang] at e; cases e
  | ok f0 =>
    rw [hb] at e hf
    exact runOps_tidy cfg95_5 (by decide) (.fixed (grouped_nodup (by decide +kernel)) (by decide) (by decide +kernel) (by decide +kernel) hb)
      (.fixed (Nat.le_refl _) (by decide +kernel) (by decide +kernel) hb) (by decide +kernel) hf e

/-- The sample has more regions than the load made: two of its inserts split a region. -/
example : ∃ h h', HeapTidy (cfg95 5) 8 sample h ∧ heapDestroy sample h = .ok h' ∧ h'.live = [] ∧
    (boundaries sample).length = 6 := by
  obtain ⟨h, H⟩ := sample_tidy
  obtain ⟨h', e, hl⟩ := C38_freed_partial cfg95_5 (by decide) H
  exact ⟨h, h', H, e, hl, by rw [sample_boundaries]; rfl⟩

/-- Also after a load with a repeated key. -/
example : ∃ f h', bulkFixed (cfg95 5) 8 ([5, 7, 7, 7, 9].map encodeInt) = .ok f ∧
    heapDestroy f (heapFixed 8 ([5, 7, 7, 7, 9].map encodeInt)) = .ok h' ∧ h'.live = [] := by
  have h1 : (bulkFixed (cfg95 5) 8 ([5, 7, 7, 7, 9].map encodeInt)).bind (fun _ => .ok ()) = .ok () := by decide +kernel
  obtain ⟨f, e, _⟩ := Res.bind_eq_ok h1
  obtain ⟨h', e', hl⟩ := C38_freed_partial (n := 8) cfg95_5 (by decide)
    (.fixed (grouped_sorted (by decide +kernel)) (by decide) (by decide +kernel) (by decide +kernel) e)
  exact ⟨f, h', e, e', hl⟩

/-- Deleting a boundary key of the sample merges two regions; the destructor may run afterwards. -/
example : ∃ h f' h' h'', HeapRun sample h ∧ delete sample (encodeInt 0x1000000000000000) = .ok f' ∧
    heapDelete sample h (encodeInt 0x1000000000000000) = .ok h' ∧ heapDestroy f' h' = .ok h'' := by
  obtain ⟨h, H⟩ := sample_tidy
  have hs : ∃ f', delete sample (encodeInt 0x1000000000000000) = .ok f' := by
    have : ((delete sample (encodeInt 0x1000000000000000)).bind fun _ => .ok true) = .ok true :=
      sample_query (q := fun f => (delete f (encodeInt 0x1000000000000000)).bind fun _ => .ok true) (by decide +kernel)
    obtain ⟨f', e, _⟩ := bind_ok_iff.1 this
    exact ⟨f', e⟩
  obtain ⟨f', e⟩ := hs
  obtain ⟨h', e'⟩ := (C38_partial (tidy_run H)).2.1 _ _ e
  obtain ⟨h'', e''⟩ := (C38_partial ((tidy_run H).delete e e')).2.2.2.2
  exact ⟨h, f', h', h'', tidy_run H, e, e', e''⟩

/-- C38 fails for a restored filter: its stores point into the buffer, and the destructor deletes these pointers. So
does every insert that splits a region. -/
theorem C38_false {s : Nat} (hc : (cfg95 s).WF) (hn : n ≤ 20000) (hs : States (cfg95 s) n f) (hne : f.tree ≠ []) (io : Bool)
    (seed : Nat) : ∃ f', deserialize io (serialize io seed lfBits95 f) = .ok f' ∧
      heapDestroy f' (heapRestored f') = .ub ∧
      ∀ key d, planSplit f' key = .ok (some d) → heapInsert f' (heapRestored f') key true = .ub := by
  obtain ⟨f', h1, h2, _⟩ := C17_partial hc hn hs io seed []
  rw [List.append_nil] at h1
  refine ⟨f', h1, heapRestored_destroy (fun e => hne ?_), fun key d hp => ?_⟩
  · unfold boundaries at h2
    rw [e] at h2
    exact List.map_eq_nil_iff.1 h2.symm
  · exact heapRestored_split hp

example : ∃ f' : Filter, deserialize true (serialize true 42 lfBits95 sample) = .ok f' ∧
    heapDestroy f' (heapRestored f') = .ub := by
  obtain ⟨f', h1, h2, _⟩ := C38_false cfg95_5 (by decide) (.reach sample_reach) (by
    intro e
    have := sample_boundaries
    unfold boundaries at this
    rw [e] at this
    cases this) true 42
  exact ⟨f', h1, h2⟩

/-- C38 fails for a bulk load that includes the all-zero key: the block that the constructor gave to the lowest
boundary key is lost when the region of the first key is put into the tree, and is never deleted. -/
theorem C38_leak : ∃ f h', bulkFixed (cfg95 5) 8 [encodeInt 0, encodeInt 5] = .ok f ∧
    heapDestroy f (heapFixed 8 [encodeInt 0, encodeInt 5]) = .ok h' ∧ h'.live = [0] := by
  have : ∃ f l, bulkFixed (cfg95 5) 8 [encodeInt 0, encodeInt 5] = .ok f ∧
      ((heapDestroy f (heapFixed 8 [encodeInt 0, encodeInt 5])).bind fun h => .ok h.live) = .ok l ∧ l = [0] := by
    have : ((bulkFixed (cfg95 5) 8 [encodeInt 0, encodeInt 5]).bind fun f =>
      (heapDestroy f (heapFixed 8 [encodeInt 0, encodeInt 5])).bind fun h => .ok h.live) = .ok [0] := by decide +kernel
    obtain ⟨f, h1, h2⟩ := bind_ok_iff.1 this
    exact ⟨f, [0], h1, h2, rfl⟩
  obtain ⟨f, l, h1, h2, rfl⟩ := this
  obtain ⟨h', h3, h4⟩ := bind_ok_iff.1 h2
  exact ⟨f, h', h1, h3, by injection h4⟩

end Verif.Props
