import Verif.Proof.SplitServe

/-!
# The extreme boundary keys stay
-/

namespace Verif

/-- The first boundary key is the zero key and not partial, the last one the largest key. -/
structure Ends (n : Nat) (f : Filter) : Prop where
  first : f.tree.head?.map (fun e => (e.1, e.2.isPartial)) = some (List.replicate n 0, false)
  last : f.tree.getLast?.map Prod.fst = some (List.replicate n 255)

theorem getLast?_mid (A C B : Tree) (p e : Key × Store) : (A ++ p :: (C ++ e :: B)).getLast? = (e :: B).getLast? := by
  rw [show A ++ p :: (C ++ e :: B) = (A ++ p :: C) ++ e :: B by simp, List.getLast?_append_cons]

theorem Ends.replace {n : Nat} {f : Filter} (h : Ends n f) {A B C D : Tree} {p e : Key × Store}
    (ht : f.tree = A ++ p :: (D ++ e :: B)) {p' : Key × Store} (h1 : p'.1 = p.1) (h2 : p'.2.isPartial = p.2.isPartial)
    {c : Cfg} : Ends n ⟨c, A ++ p' :: (C ++ e :: B)⟩ := by
  obtain ⟨a, b⟩ := h
  rw [ht] at a b
  refine ⟨?_, ?_⟩
  · cases A with
    | nil => simpa [h1, h2] using a
    | cons x A => simpa using a
  · rw [getLast?_mid] at b ⊢
    exact b

theorem Ends.first_mem {n : Nat} {f : Filter} (h : Ends n f) {p : Key × Store} {B : Tree} (ht : f.tree = p :: B) :
    p.1 = List.replicate n 0 ∧ p.2.isPartial = false := by
  have := h.first
  rw [ht] at this
  simpa using this

theorem Ends.last_mem {n : Nat} {f : Filter} (h : Ends n f) {p : Key × Store} {A : Tree} (ht : f.tree = A ++ [p]) :
    p.1 = List.replicate n 255 := by
  have := h.last
  rw [ht] at this
  simpa using this

theorem insertSimple_ends {n : Nat} {f f' : Filter} {key : Key} (h : FilterOK f) (he : Ends n f)
    (hi : insertSimple f key = .ok f') (hfit : SimpleFits f key) : Ends n f' := by
  obtain ⟨A, prev, st, st2, next, st', B, sh, ig, imp, X, Y, ht, ht', hcfg, h1, h2, e1, e2, R, R2, hok⟩ :=
    insertSimple_spec h hi hfit
  have := he.replace (p' := (prev, st2)) (D := []) (C := []) (c := f'.cfg) ht rfl e1
  rw [List.nil_append, ← ht'] at this
  exact this

theorem insert_ends {f : Filter} (h : FilterOK f) {key : Key} {split : Bool} (hfit : InsertFits f key split) {n : Nat}
    (hn : n < 2 ^ 28) (hkn : key.length ≤ n) (htn : LenLe n f) {f' : Filter} (hi : insert f key split = .ok f')
    (he : Ends n f) : Ends n f' := by
  cases split with
  | false =>
    unfold insert at hi
    simp only [Bool.false_eq_true, if_false] at hi
    exact insertSimple_ends h he hi (by unfold InsertFits at hfit; exact hfit)
  | true =>
    unfold insert at hi
    simp only [if_true] at hi
    unfold insertSplit at hi
    unfold InsertFits at hfit
    cases hp : planSplit f key with
    | ub => rw [hp] at hi; exact absurd hi (by simp)
    | hang => rw [hp] at hi; exact absurd hi (by simp)
    | ok o =>
      rw [hp] at hi hfit
      cases o with
      | none => exact insertSimple_ends h he hi hfit
      | some d =>
        simp only [Res.bind_ok] at hi
        obtain ⟨A, next, st', B, storeL, storeG, D, sh, ig, imp, L, sp, shL, igL, impL, shG, igG, impG, LG, SL⟩ :=
          applySplit_full h hp hfit hn hkn htn hi
        have := he.replace (p' := (d.prev, storeL)) (D := []) (C := [(d.edited, storeG)]) (c := f'.cfg) D.tree rfl SL.part
        rw [List.singleton_append, ← D.tree'] at this
        exact this

theorem pre_zero_rep (n : Nat) : ∀ q, pre q (List.replicate n 0) = 0
  | 0 => rfl
  | q + 1 => by
    have : byteAt (List.replicate n 0) (q / 8) = 0 := by
      unfold byteAt
      rw [List.getD_eq_getElem?_getD, List.getElem?_replicate]
      split_ifs <;> rfl
    unfold pre kbit
    rw [pre_zero_rep n q, this]
    simp

theorem LoadedIn.ends {c : Cfg} (hc : c.WF) {n : Nat} {K : List Key} {f : Filter} (h : LoadedIn c K f) (hs : Spans n f)
    (hlen : ∀ e ∈ f.tree, e.1.length = n) (hn : n ≠ 0) : Ends n f := by
  have hpw := (h.ok hc).pairwise
  have hne : List.replicate n (0 : UInt8) ≠ List.replicate n 255 := by
    intro he
    have := (List.replicate_inj.1 he).2
    exact absurd (this.resolve_left hn) (by decide)
  cases ht : f.tree with
  | nil => have := hs.1; rw [ht] at this; simp at this
  | cons p B =>
    obtain ⟨M, o, hMo⟩ : ∃ M o, f.tree = M ++ [o] := by
      rcases List.eq_nil_or_concat f.tree with h | ⟨M, o, h⟩
      · rw [h] at ht; cases ht
      · exact ⟨M, o, by rw [h, List.concat_eq_append]⟩
    have hp0 : p.1 = List.replicate n 0 := by
      obtain ⟨x, hx, hxe⟩ := List.mem_map.1 hs.1
      rw [ht] at hx
      rcases List.mem_cons.1 hx with rfl | hx
      · exact hxe
      · have := (after_of_pairwise hpw (A := []) (p := p) (B := B) ht hx)
        rw [hxe] at this
        obtain ⟨q, hq⟩ := this
        rw [pre_zero_rep] at hq
        omega
    have ho : o.1 = List.replicate n 255 := by
      obtain ⟨x, hx, hxe⟩ := List.mem_map.1 hs.2
      rw [hMo] at hx
      rcases List.mem_append.1 hx with hx | hx
      · have := keyLt_of_padLt (before_of_pairwise hpw (A := M) (p := o) (B := []) hMo hx)
        have h2 := le_ones o.1
        rw [hlen o (by rw [hMo]; simp), ← hxe] at h2
        exact absurd (keyLt_le_absurd this h2) id
      · rw [List.mem_singleton] at hx
        rw [← hx]; exact hxe
    refine ⟨?_, by rw [hMo]; simpa using ho⟩
    cases B with
    | nil =>
      exfalso
      have h1 := hs.2
      rw [ht] at h1
      simp only [List.map_cons, List.map_nil, List.mem_singleton] at h1
      exact hne (by rw [← hp0, ← h1])
    | cons e B =>
      have hch := h.chain
      rw [ht, List.isChain_cons_cons] at hch
      obtain ⟨_, _, _, _, hpart⟩ := hch.1
      rw [ht]
      simp [hp0, hpart]

end Verif
