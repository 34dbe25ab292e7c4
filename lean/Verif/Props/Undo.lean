import Verif.Proof.Undo
import Verif.Proof.Reach2
import Verif.Props.Inserts

/-!
# C42: deleting a key that was just inserted
-/

namespace Verif.Props

section
variable {c : Cfg} {n : Nat} {f f' : Filter}

/-- C42 for inserts that do not split, of a key that is not a (complete) boundary key: deleting the key again returns,
takes out the item that the insert put in, even if other keys share it or shorter items match too, and leaves the
boundaries, the items of every region and all answers as they were before the insert. Missing: boundary keys, see
`C42_false`, and splitting inserts. -/
theorem C42_partial (hc : c.WF) (hn : n < 2 ^ 28) (h : Reach c n f) {key : Key} (hi : insert f key false = .ok f')
    (hfit : InsertFits f key false) (hk : ∀ e ∈ f.tree, e.1 = key → e.2.isPartial = true) :
    ∃ f'', delete f' key = .ok f'' ∧ boundaries f'' = boundaries f ∧ (∀ b, itemsOf f'' b = itemsOf f b) ∧
      (∀ k, pointQuery f'' k = pointQuery f k) ∧
      (∀ l r, keyLe l r = true → rangeQuery false f'' l r = rangeQuery false f l r) ∧
      (n ≤ 8 → ∀ l r, l.length ≤ 8 → r.length ≤ 8 → keyLe l r = true → rangeQuery true f'' l r = rangeQuery true f l r) := by
  have I := h.inv hc hn
  have hins : insert f key false = insertSimple f key := by unfold insert; simp
  rw [hins] at hi
  have hfit' : SimpleFits f key := by unfold InsertFits at hfit; simpa using hfit
  obtain ⟨f'', hd, hw, ha, hit⟩ := insert_delete I.ok I.bits hn I.len hi hfit' hk
  refine ⟨f'', hd, ha.bound, hit, ha.point I.ok.q hw.q, fun l r hlr => ha.range I.ok.q hw.q hlr, fun h8 l r hl hr hlr => ?_⟩
  have hlen : ∀ e ∈ f''.tree, e.1.length ≤ 8 := by
    intro e he
    have : e.1 ∈ boundaries f'' := List.mem_map_of_mem he
    rw [ha.bound] at this
    obtain ⟨e', he', heq⟩ := List.mem_map.1 this
    rw [← heq]
    exact Nat.le_trans (I.len e' he') h8
  rw [rangeQuery_int I.ok.q.wf (fun e he => Nat.le_trans (I.len e he) h8) hl hr, rangeQuery_int hw.q.wf hlen hl hr]
  exact ha.range I.ok.q hw.q hlr

end

/-- In the sample, where the key is positive already. -/
example : ∃ f' f'', insert sample (encodeInt 0x6fffffffffffffff) false = .ok f' ∧
    delete f' (encodeInt 0x6fffffffffffffff) = .ok f'' ∧ ∀ k, pointQuery f'' k = pointQuery sample k := by
  have hd : (history (cfg95 5) 8 sampleKeys sampleOps).bind (fun f => (insert f (encodeInt 0x6fffffffffffffff) false).bind fun _ =>
      .ok (fitsB f (encodeInt 0x6fffffffffffffff) false && f.tree.all fun e => decide (e.1 ≠ encodeInt 0x6fffffffffffffff))) =
        .ok true := by decide +kernel
  rw [sample_eq, Res.bind_ok] at hd
  obtain ⟨f', hi, hd⟩ := Res.bind_eq_ok hd
  simp only [Res.ok.injEq, Bool.and_eq_true, List.all_eq_true, decide_eq_true_eq] at hd
  obtain ⟨f'', h1, _, _, h2, _⟩ := C42_partial cfg95_5 (by decide) sample_reach hi (fitsB_sound hd.1)
    fun e he hk => absurd hk (hd.2 e he)
  exact ⟨f', f'', hi, h1, h2⟩

/-- C42 is violated by boundary keys: inserting one stores it as an item, deleting it removes the boundary. The item stays
and makes keys positive that were negative before. -/
theorem C42_false : ∃ f S k q f' f'', BuiltFit (cfg95 5) 8 f S ∧ k.length = 8 ∧ insert f k false = .ok f' ∧
    delete f' k = .ok f'' ∧ pointQuery f q = .ok false ∧ pointQuery f'' q = .ok true ∧ boundaries f'' ≠ boundaries f := by
  have hd : (history (cfg95 5) 8 sampleKeys []).bind (fun f => (insert f (encodeInt 0x1000000000000000) false).bind fun f' =>
      (delete f' (encodeInt 0x1000000000000000)).bind fun f'' => (pointQuery f (encodeInt 0x1000000000000001)).bind fun a =>
      (pointQuery f'' (encodeInt 0x1000000000000001)).bind fun b => .ok (a, b, (boundaries f).length, (boundaries f'').length)) =
      .ok (false, true, 4, 3) := by decide +kernel
  obtain ⟨f, hf, hd⟩ := Res.bind_eq_ok hd
  obtain ⟨f', hi, hd⟩ := Res.bind_eq_ok hd
  obtain ⟨f'', hdel, hd⟩ := Res.bind_eq_ok hd
  obtain ⟨a, ha, hd⟩ := Res.bind_eq_ok hd
  obtain ⟨b, hb, hd⟩ := Res.bind_eq_ok hd
  simp only [Res.ok.injEq, Prod.mk.injEq] at hd
  obtain ⟨rfl, rfl, l1, l2⟩ := hd
  refine ⟨f, _, encodeInt 0x1000000000000000, encodeInt 0x1000000000000001, f', f'',
    history_builtFit (by decide +kernel) (by decide +kernel) (by decide +kernel) (by decide +kernel) hf, by decide, hi, hdel, ha, hb, ?_⟩
  intro he
  rw [he, l1] at l2
  cases l2

end Verif.Props
