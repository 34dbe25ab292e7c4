import Verif.Spec.Own
import Verif.Proof.Own
import Verif.Proof.Reach2
import Verif.Proof.TameOps
import Verif.Proof.ShrinkState

/-!
# The heap along a history
-/

namespace Verif

variable {f f' : Filter} {h : Heap} {c : Cfg} {n : Nat}

theorem split_new (hok : FilterOK f) {key : Key} {d : SplitPlan} (hp : planSplit f key = .ok (some d)) (hfit : SplitFits f d)
    (hn : n < 2 ^ 28) (hk : key.length ≤ n) (hl : LenLe n f) (ha : applySplit f key d = .ok f') :
    d.boundary key ∉ boundaries f := by
  obtain ⟨A, next, st', B, storeL, storeG, D, sh, ig, imp, L, sp, shL, igL, impL, shG, igG, impG, LG, SL⟩ :=
    applySplit_full hok hp hfit hn hk hl ha
  have he : d.boundary key = d.edited := by
    unfold SplitPlan.boundary
    split_ifs with hz
    · rfl
    · rw [SL.info.edited]
      cases hzz : d.zeroPos with
      | none => rfl
      | some z => rw [hzz] at hz; simp at hz
  rw [he]
  have hs := D.ok.q.pairwise
  rw [D.tree'] at hs
  unfold boundaries
  rw [D.tree]
  intro hm
  have hirr : ∀ {a : Key}, ¬ PadLt a a := fun h => by
    have := keyLt_of_padLt h
    rw [keyLt_irrefl] at this
    cases this
  rw [List.pairwise_append, List.pairwise_cons, List.pairwise_cons] at hs
  obtain ⟨_, ⟨h1, h2, _⟩, h3⟩ := hs
  obtain ⟨x, hx, e⟩ := List.mem_map.1 hm
  rcases List.mem_append.1 hx with hx | hx
  · have := h3 x hx (d.edited, storeG) (by simp)
    rw [e] at this
    exact hirr this
  rcases List.mem_cons.1 hx with rfl | hx
  · have := h1 (d.edited, storeG) (by simp)
    rw [show d.prev = d.edited from e] at this
    exact hirr this
  · have := h2 x hx
    rw [e] at this
    exact hirr this

theorem insertRaw_grows (st : Store) (k T : Nat) :
    insertRaw c st k T = insertPlace c (if growsOn c st then resizeStore c st true T else st) k T := by
  simp only [insertRaw, growsOn, decide_eq_true_eq]

theorem deleteRaw_shrinks (st : Store) (k T : Nat) :
    deleteRaw c st k T = deletePlace c (if shrinksOn c st then resizeStore c st false T else st) k T := by
  simp only [deleteRaw, shrinksOn, decide_eq_true_eq]

theorem HeapRun.owned (H : HeapRun f h) : ∃ n, Owned f h n := by
  induction H with
  | fixed hb => obtain ⟨n, H, _⟩ := heapFixed_spec hb; exact ⟨n, H⟩
  | var hb => obtain ⟨n, H, _⟩ := heapVar_spec hb; exact ⟨n, H⟩
  | stream hb => obtain ⟨n, H, _⟩ := heapStream_spec hb; exact ⟨n, H⟩
  | insert _ hi hh ih =>
    obtain ⟨n, H⟩ := ih
    obtain ⟨h', m, e, H', _⟩ := heapInsert_spec H hi
    rw [hh] at e
    injection e with e
    exact ⟨_, e ▸ H'⟩
  | delete _ hi hh ih =>
    obtain ⟨n, H⟩ := ih
    obtain ⟨h', e, H'⟩ := heapDelete_spec H hi
    rw [hh] at e
    injection e with e
    exact ⟨_, e ▸ H'⟩
  | shrink _ hi hh ih =>
    obtain ⟨n, H⟩ := ih
    obtain ⟨h', e, H'⟩ := heapShrink_spec (fun k hk => hk) H
    rw [show boundaries _ = List.map Prod.fst _ from rfl, hh] at e
    injection e with e
    exact ⟨_, (e ▸ H').same (shrink_boundaries hi)⟩

theorem HeapTidy.owned (hc : c.WF) (hn : n < 2 ^ 28) (H : HeapTidy c n f h) : Owned f h 0 := by
  induction H with
  | fixed h1 h2 h3 h4 hb => obtain ⟨n, H, h0⟩ := heapFixed_spec hb; rwa [h0 h1 h2 h3 h4] at H
  | var h1 h2 h3 hb => obtain ⟨n, H, h0⟩ := heapVar_spec hb; rwa [h0 h1 h2 h3] at H
  | stream h1 h2 h3 hb => obtain ⟨n, H, h0⟩ := heapStream_spec hb; rwa [h0 h1 h2 h3] at H
  | @insert f f' h h' key split _ hr hk hfit hi hh ih =>
    obtain ⟨h'', m, e, H', h0⟩ := heapInsert_spec ih hi
    rw [hh] at e
    injection e with e
    rw [← e, h0 ?_] at H'
    · exact H'
    rintro d rfl hp
    have hok : FilterOK f ∧ LenLe n f := by
      rcases hr with hr | ⟨S, hr⟩ | ⟨s, hr⟩
      · exact ⟨(hr.inv hc hn).ok, (hr.inv hc hn).len⟩
      · exact ⟨(hr.inv hc hn).strong rfl, (hr.inv hc hn).len⟩
      · exact ⟨(hr.inv hn).ok, (hr.inv hn).len⟩
    unfold InsertFits at hfit
    rw [hp] at hfit
    unfold Verif.insert at hi
    rw [if_pos rfl] at hi
    unfold insertSplit at hi
    rw [hp] at hi
    exact split_new hok.1 hp hfit hn hk hok.2 hi
  | delete _ hi hh ih =>
    obtain ⟨h', e, H'⟩ := heapDelete_spec ih hi
    rw [hh] at e
    injection e with e
    exact e ▸ H'
  | shrink _ hi hh ih =>
    obtain ⟨h', e, H'⟩ := heapShrink_spec (fun k hk => hk) ih
    rw [show boundaries _ = List.map Prod.fst _ from rfl, hh] at e
    injection e with e
    exact (e ▸ H').same (shrink_boundaries hi)

end Verif
