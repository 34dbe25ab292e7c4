import Verif.Proof.LoadVar
import Verif.Spec.Tame
import Verif.Proof.Ends
import Verif.Proof.MergeTotal

/-!
# The invariant of tame histories
-/

namespace Verif

section
variable {f : Filter} {A B : Tree} {p e : Key × Store} {k : Key}

/-- The largest boundary key cannot be deleted. -/
theorem delete_last (hpw : f.tree.Pairwise fun e e' => PadLt e.1 e'.1) (ht : f.tree = A ++ [p]) : delete f p.1 = .ub := by
  have hA : ∀ a ∈ A, keyLt a.1 p.1 = true := fun a ha => keyLt_of_padLt (before_of_pairwise hpw ht ha)
  have hs := seek_append (A := A) (B := []) (e := p) (key := p.1) hA (keyLe_refl _)
  have h0 : treePeek f.tree A.length = .ok p := by rw [ht, peek_append]
  have h1 : treePeek f.tree (A.length + 1) = .ub := by
    rw [ht]; unfold treePeek
    rw [List.getElem?_eq_none (by simp)]
  rw [← ht] at hs
  unfold delete
  dsimp only
  rw [hs, h0]
  simp only [Res.bind_ok, beq_self_eq_true, Bool.true_and]
  split_ifs
  · unfold deleteMerge
    dsimp only
    rw [h0, h1]
    rfl
  · unfold locate
    simp only [hs, h0, h1, Res.bind_ok, beq_self_eq_true, if_true]
    rfl

theorem itemLen_eq {s q x : Nat} (h0 : x % 2 ^ s ≠ 0) (hx : x < 2 ^ 64) : itemLen s q x = ilen s q x := by
  have hpos : 0 < x := by
    rcases Nat.eq_zero_or_pos x with rfl | h
    · simp at h0
    · exact h
  unfold itemLen ilen tz
  rw [lowbit_eq hpos hx]

theorem removes_iff (h : FilterW f) (ht : f.tree = A ++ p :: e :: B) {sh ig imp : Nat} {L : List Nat}
    (R : RegionW f.cfg p.1 p.2 e.1 sh ig imp L) : Removes f p (sh + ig + imp) k ↔
      if p.2.isPartial then ∀ z ∈ L, Hits f.cfg.infixSize (sh + ig + imp) p.1 z k →
        ilen f.cfg.infixSize (sh + ig + imp) z < 8 * p.1.length - p.2.invalidBits else p.1 = k := by
  unfold Removes
  rw [itemsOf_at h.pairwise ht, R.list h.wf]
  split_ifs with hp
  · constructor
    · intro g z hz hzk
      obtain ⟨a, b, _⟩ := R.item_lt h.wf hz
      have := g z hz ((prefixItem_iff a b).2 hzk)
      rwa [itemLen_eq a b] at this
    · intro g z hz hzk
      obtain ⟨a, b, _⟩ := R.item_lt h.wf hz
      rw [itemLen_eq a b]
      exact g z hz ((prefixItem_iff a b).1 hzk)
  · exact Iff.rfl

end

/-- The invariant. -/
structure TameInv (c : Cfg) (n : Nat) (ins : Bool) (f : Filter) (S : List Key) : Prop where
  cfg : f.cfg = c
  weak : FilterW f
  strong : ins = true → FilterOK f
  len : LenLe n f
  mem : ∀ k ∈ S, k.length = n
  serve : Serve (holds f.cfg f.tree) S
  ends : Ends n f
  clean : CleanTree f.cfg f.tree

theorem TameInv.delete {c : Cfg} {n : Nat} (hn : n < 2 ^ 28) {ins ins' : Bool} {f f' : Filter} {S : List Key} {k : Key}
    (h : TameInv c n ins f S) (hk : k ∈ S) (hi : ins' = true → ins = true) (ht : DeleteTame ins' f k)
    (hd : delete f k = .ok f') : TameInv c n ins' f' (S.erase k) := by
  have hw := h.weak
  have hwf := hw.wf
  obtain ⟨hd0, hm, hhk⟩ := h.serve.mem hk
  have hmem : ∀ x ∈ S.erase k, x.length = n := fun x hx => h.mem x (List.mem_of_mem_erase hx)
  rcases holds_locate hw.pairwise hm hhk with ⟨A, p, e, B, htr, hr, h1, h2⟩ | ⟨A, p, htr, rfl⟩
  swap
  · rw [delete_last hw.pairwise htr] at hd
    cases hd
  obtain ⟨sh, ig, imp, L, R⟩ := hw.region htr
  have hlev := R.lengths.level R.lt
  have T := ht A p e B _ htr h1 h2 hlev
  have hrem := removes_iff (k := k) hw htr R
  obtain ⟨fr, hf, _, _, _, _, hT⟩ := R.frame hwf
  have hlp : p.1.length ≤ n := h.len p (by rw [htr]; simp)
  have hle : e.1.length ≤ n := h.len e (by rw [htr]; simp)
  have hbt : Between p.1 k e.1 := between_of_le h1 (keyLt_keyLe h2)
  have hde := delete_eq hw.pairwise htr h1 h2 hf
  rw [hd] at hde
  have hcond : ((p.1 = k ∧ p.2.isPartial = false) ∨ (p.2.isPartial = true ∧
      mergesPartial f.cfg fr p.1 p.2 (fr.item f.cfg.infixSize k) = true)) ↔ Removes f p (sh + ig + imp) k := by
    rw [hrem]
    split_ifs with hp
    · rw [R.merges_iff hwf hbt hf hp hn hlp hle, hp]
      simp
    · simp [hp]
  by_cases hrm : Removes f p (sh + ig + imp) k
  · -- a boundary is removed
    rw [if_pos (hcond.2 hrm)] at hde
    rcases List.eq_nil_or_concat A with rfl | ⟨A', a, rfl⟩
    · unfold deleteMerge at hde
      dsimp only at hde
      cases hp0 : treePeek f.tree 0 <;> rw [List.length_nil, hp0] at hde
      · cases hp1 : treePeek f.tree (0 + 1) <;> simp only [Res.bind_ok, hp1] at hde
        · simp at hde
        · cases hde
        · cases hde
      · cases hde
      · cases hde
    rw [List.concat_eq_append] at *
    have ht3 : f.tree = A' ++ a :: p :: e :: B := by rw [htr]; simp
    have hla : a.1.length ≤ n := h.len a (by rw [ht3]; simp)
    obtain ⟨sh1, ig1, imp1, La, Ra⟩ := hw.region ht3
    have hit : itemsOf f p.1 = L := by rw [itemsOf_at hw.pairwise htr, R.list hwf]
    have hita : itemsOf f a.1 = La := by rw [itemsOf_at hw.pairwise ht3, Ra.list hwf]
    have hcnt := T.count hrm A' a rfl
    rw [hit, hita] at hcnt
    have hshort : ∀ N, Level a.1 e.1 N → NoShort f.cfg.infixSize (sh + ig + imp) p.1 L N := by
      intro N hN x hx hxp
      obtain ⟨c1, c2, _⟩ := R.item_lt hwf hx
      have := T.long hrm A' a N rfl hN x (by rw [hit]; exact hx) ((prefixItem_iff c1 c2).2 hxp)
      rwa [itemLen_eq c1 c2] at this
    rw [List.length_append, List.length_singleton] at hde
    obtain ⟨st, sh3, ig3, imp3, Na, Np, M, R'⟩ := deleteMerge_spec hw ht3 Ra R hn hla hlp hle hcnt hshort hde.symm
    have hb : if p.2.isPartial then isPrefixOf p.1 k p.2.invalidBits = true ∧
        ∀ z ∈ L, Hits f.cfg.infixSize (sh + ig + imp) p.1 z k →
          ilen f.cfg.infixSize (sh + ig + imp) z < 8 * p.1.length - p.2.invalidBits else p.1 = k := by
      have hrm' := hrem.1 hrm
      split_ifs with hp
      · rw [if_pos hp] at hrm'
        refine ⟨?_, hrm'⟩
        rw [isPrefixOf_iff (invalidBits_lt _)]
        exact ⟨R.part hp, by rw [h.mem k hk]; exact hlp, (T.prefixed hp hrm).symm⟩
      · rw [if_neg hp] at hrm'
        exact hrm'
    have hserve := hw.serve_merge ht3 Ra R M R' h1 h2 hb hk h.serve
    have chain : ∀ {Q : Key × Store → Key × Store → Prop}, f.tree.IsChain Q → Q (a.1, st) e →
        (∀ x, Q x a → Q x (a.1, st)) → (A' ++ (a.1, st) :: e :: B).IsChain Q := by
      intro Q hc hq hx
      rw [ht3] at hc
      obtain ⟨c1, c2, c3⟩ := List.isChain_append_cons_cons.1 hc
      rw [List.isChain_cons_cons] at c3
      refine List.isChain_append_cons_cons.2 ⟨?_, hq, c3.2⟩
      rw [List.isChain_append] at c1 ⊢
      obtain ⟨d1, d2, d3⟩ := c1
      refine ⟨d1, List.isChain_singleton _, ?_⟩
      intro x hxx y hy
      simp only [List.head?_cons, Option.mem_def, Option.some.injEq] at hy
      subst hy
      exact hx x (d3 x hxx a (by simp))
    have hout := M.out
    subst hout
    refine ⟨h.cfg, ⟨hwf, ?_⟩, ?_, ?_, hmem, hserve, h.ends.replace (D := [p]) (C := []) (p' := (a.1, st)) ht3 rfl M.part,
      CleanTree.replace (D := [p]) (p := a) (B := e :: B) (by have := h.clean; rw [ht3] at this; exact this) M.clean⟩
    · exact chain hw.chain ⟨_, _, _, _, R'.toRegionW⟩ fun x hx => hx
    · intro hi'
      exact ⟨hwf, chain (h.strong (hi hi')).chain ⟨_, _, _, _, R'⟩ fun x hx => hx⟩
    · intro x hx
      dsimp only at hx
      rcases List.mem_append.1 hx with hx | hx
      · exact h.len x (by rw [ht3]; exact List.mem_append_left _ hx)
      · rcases List.mem_cons.1 hx with rfl | hx
        · exact hla
        · exact h.len x (by rw [ht3]; simp only [List.mem_append, List.mem_cons] at hx ⊢; tauto)
  · -- an item is removed
    rw [if_neg (fun hc => hrm (hcond.1 hc))] at hde
    have hrm' := mt hrem.2 hrm
    have hh : HitL f.cfg.infixSize (sh + ig + imp) p.1 L k := by
      by_cases hp : p.2.isPartial = true
      · rw [if_pos hp] at hrm'
        push Not at hrm'
        obtain ⟨z, hz, hzk, _⟩ := hrm'
        exact ⟨z, hz, hzk⟩
      · rw [if_neg hp] at hrm'
        rcases List.mem_cons.1 hr with rfl | hr
        · rcases hhk with rfl | ⟨hc, _⟩
          · exact absurd rfl hrm'
          · exact absurd hc hp
        · obtain ⟨x, hx, rfl⟩ := List.mem_map.1 hr
          rw [R.list hwf] at hx
          exact ⟨x, hx, ((iHold_iff R.toRegionBase).1 hhk).2.2⟩
    obtain ⟨g1, g2, y, X, Y, hL, hy, hmax, hR, hRs, hRc⟩ := R.delete hwf hbt hf hh
    have hb : if p.2.isPartial then 8 * p.1.length - p.2.invalidBits ≤ ilen f.cfg.infixSize (sh + ig + imp) y else p.1 ≠ k := by
      split_ifs with hp
      · rw [if_pos hp] at hrm'
        push Not at hrm'
        obtain ⟨z, hz, hzk, hzl⟩ := hrm'
        exact Nat.le_trans hzl (hmax z hz hzk)
      · rw [if_neg hp] at hrm'
        exact hrm'
    have hserve := hw.serve_raw htr R h1 h2 hL hy hmax hb g2 g1 hR h.mem hlp hk h.serve
    have hde' : f' = { f with tree := A ++ (p.1, deleteRaw f.cfg p.2 (fr.item f.cfg.infixSize k) fr.total) :: e :: B } := by
      injection hde
    have hends : Ends n { f with tree := A ++ (p.1, deleteRaw f.cfg p.2 (fr.item f.cfg.infixSize k) fr.total) :: e :: B } := by
      generalize deleteRaw f.cfg p.2 (fr.item f.cfg.infixSize k) fr.total = st at g2
      exact h.ends.replace (D := []) (C := []) (p' := (p.1, st)) htr rfl g2
    subst hde'
    refine ⟨h.cfg, hw.replace htr ⟨_, _, _, _, hR⟩, ?_, ?_, hmem, hserve, hends,
      CleanTree.replace (D := []) (p := p) (B := e :: B) (by have := h.clean; rw [htr] at this; exact this)
        (hRc (h.clean p (by rw [htr]; simp)))⟩
    · intro hi'
      have hs := h.strong (hi hi')
      refine ⟨hwf, ?_⟩
      have hc := hs.chain
      rw [htr] at hc
      obtain ⟨sh', ig', imp', L', R'⟩ := (List.isChain_append_cons_cons.1 hc).2.1
      have e1 := R'.sii
      rw [R.sii] at e1
      simp only [Option.some.injEq, Prod.mk.injEq] at e1
      obtain ⟨rfl, rfl, rfl⟩ := e1
      have e2 := R'.list hwf
      rw [R.list hwf] at e2
      subst e2
      have hl := T.loose hi' hrm
      have hg : gap p.1 e.1 (sh + ig + imp) + 1 = fr.total := by rw [hT]; rfl
      rw [hg] at hl
      exact chain_replace hc (fun x hx => hx) ⟨_, _, _, _, hRs R' hl⟩
    · intro x hx
      dsimp only at hx
      rcases List.mem_append.1 hx with hx | hx
      · exact h.len x (by rw [htr]; exact List.mem_append_left _ hx)
      · rcases List.mem_cons.1 hx with rfl | hx
        · exact hlp
        · exact h.len x (by rw [htr]; exact List.mem_append_right _ (List.mem_cons_of_mem _ hx))

theorem OpsTame.strict {c : Cfg} {n : Nat} {K : List Key} {f : Filter} (h1 : ∀ k ∈ K, k.length = n)
    (h2 : K.Pairwise fun a b => keyLt a b = true) (h3 : bulkFixed c n K = .ok f) : OpsTame c n true f K :=
  .load h1 (h2.imp fun h => keyLt_keyLe h) (fun _ => Nat.le_refl _) (fun _ h => h) h3
    fun k _ => List.nodup_iff_count_le_one.1 (h2.imp fun hab he => by rw [he, keyLt_irrefl] at hab; cases hab) k

theorem Sampled.ne_zero {K : List Key} (h : Sampled K) {n : Nat} (h1 : ∀ k ∈ K, k.length = n) : n ≠ 0 := by
  rintro rfl
  have hz : ∀ i, K.getD i [] = [] := fun i => by
    rw [List.getD_eq_getElem?_getD]
    cases hi : K[i]? with
    | none => rfl
    | some k => exact List.length_eq_zero_iff.1 (h1 k (List.mem_of_getElem? hi))
  exact h.2 (by rw [hz, hz])

theorem LoadedIn.tame {c : Cfg} (hc : c.WF) {n : Nat} {f : Filter} {K S : List Key} (hl : LoadedIn c K f) (hs : Spans n f)
    (hlen : ∀ e ∈ f.tree, e.1.length = n) (hm : Sampled K) (h1 : ∀ k ∈ K, k.length = n) (hS : ∀ k, S.count k ≤ K.count k)
    (hb : ∀ k ∈ boundaries f, S.count k ≤ 1) : TameInv c n true f S := by
  have hSn : ∀ k ∈ S, k.length = n := fun k hk => h1 k (mem_of_count hk (hS k))
  exact ⟨hl.cfg, (hl.ok hc).weak, fun _ => hl.ok hc, fun e he => Nat.le_of_eq (hlen e he), hSn,
    hl.serve hc hs (fun e he => hb _ (List.mem_map_of_mem he)) hS hSn, hl.ends hc hs hlen (hm.ne_zero h1), hl.cleaned⟩

theorem foldl_max_eq {n : Nat} : ∀ {K : List Key} {a : Nat}, (∀ k ∈ K, k.length = n) → (K ≠ [] ∨ a = n) → a ≤ n →
    K.foldl (fun m k => max m k.length) a = n
  | [], a, _, h, _ => by simpa using h
  | k :: K, a, h, _, ha => by
    rw [List.foldl_cons, h k (by simp), Nat.max_eq_right ha]
    exact foldl_max_eq (fun x hx => h x (List.mem_cons_of_mem _ hx)) (.inr rfl) (Nat.le_refl _)

theorem stream_fixed {c : Cfg} (hc : c.WF) {n : Nat} {K : List Key} {f : Filter} (h1 : ∀ k ∈ K, k.length = n)
    (h2 : K.Pairwise fun a b => keyLe a b = true) (hsam : Sampled K)
    (h0 : K.length ≤ 1024 ∨ K.getD 0 [] ≠ List.replicate n 0) (h3 : streamAll c K = .ok f) :
    LoadedIn c K f ∧ Spans n f ∧ ∀ e ∈ f.tree, e.1.length = n := by
  have hne : K ≠ [] := by rintro rfl; exact hsam.2 rfl
  have hK : K.Pairwise PadLeq := h2.imp_of_mem fun {a b} ha hb hab => by
    by_cases he : a = b
    · exact .inl he
    · exact .inr (padLt_of_keyLt (keyLt_iff.2 ⟨hab, he⟩) (by rw [h1 a ha, h1 b hb]))
  have hZ : ∀ k ∈ K, k = List.replicate n 0 ∨ PadLt (List.replicate n 0) k := fun k hk => by
    by_cases he : k = List.replicate n 0
    · exact .inl he
    · have := zeros_le k
      rw [h1 k hk] at this
      exact .inr (padLt_of_keyLt (keyLt_iff.2 ⟨this, fun e => he e.symm⟩) (by rw [List.length_replicate, h1 k hk]))
  obtain ⟨f', e, hl, hs, _, hmem, _⟩ := stream_dup hc hK hne (foldl_max_eq h1 (.inl hne) (Nat.zero_le _)).symm hZ hsam h0
  rw [e] at h3
  obtain rfl : f' = f := by injection h3
  refine ⟨hl, hs, fun x hx => ?_⟩
  rcases hmem x hx with h | h | h
  · exact h1 _ h
  · rw [h, List.length_replicate]
  · rw [h, List.length_replicate]

theorem OpsTame.inv {c : Cfg} (hc : c.WF) {n : Nat} (hn : n < 2 ^ 28) {ins : Bool} {f : Filter} {S : List Key}
    (h : OpsTame c n ins f S) : TameInv c n ins f S := by
  induction h with
  | @load K S f h1 h2 hS _ h3 hb =>
    by_cases hne : K = []
    · subst hne
      unfold bulkFixed bulkCore at h3
      simp at h3
    · obtain ⟨r1, r2⟩ := bulkFixed_dup hc h1 h2 hne
      by_cases hm : Sampled K
      · obtain ⟨f', e, hl, hs, hlen, _⟩ := r2 hm
        rw [e] at h3
        obtain rfl : f' = f := by injection h3
        exact hl.tame hc hs hlen hm h1 hS hb
      · rw [r1 hm] at h3; cases h3
  | @stream K S f h1 h2 hsam h0 hS _ h3 hb =>
    obtain ⟨hl, hs, hlen⟩ := stream_fixed hc h1 h2 hsam h0 h3
    exact hl.tame hc hs hlen hsam h1 hS hb
  | @insert f f' S key split hb hk hfit hi ih =>
    have hs := ih.strong rfl
    obtain ⟨a1, a2, a3, _, _⟩ := insert_spec hs hfit hn (Nat.le_of_eq hk) ih.len hi
    refine ⟨by rw [a2, ih.cfg], a1.weak, fun _ => a1, a3, ?_, serve_insert hs hfit hn hk ih.len hi ih.mem ih.serve,
      insert_ends hs hfit hn (Nat.le_of_eq hk) ih.len hi ih.ends,
      insert_clean hs hfit hn (Nat.le_of_eq hk) ih.len hi ih.clean⟩
    intro k hk'
    rcases List.mem_cons.1 hk' with rfl | hk'
    · exact hk
    · exact ih.mem k hk'
  | @delete ins ins' f f' S key hb hk hi ht hd ih => exact ih.delete hn hk hi ht hd

/-- `Delete` of a present key other than the two extreme keys returns. -/
theorem TameInv.delete_total {c : Cfg} {n : Nat} {ins : Bool} {f : Filter} {S : List Key} {k : Key} (h : TameInv c n ins f S)
    (hs : c.infixSize ≤ 21) (hk : k ∈ S) (h0 : k ≠ List.replicate n 0) (h1 : k ≠ List.replicate n 255) :
    ∃ f', Verif.delete f k = .ok f' := by
  have hw := h.weak
  obtain ⟨hd0, hm, hhk⟩ := h.serve.mem hk
  rcases holds_locate hw.pairwise hm hhk with ⟨A, p, e, B, htr, hr, k1, k2⟩ | ⟨A, p, htr, rfl⟩
  swap
  · exact absurd (h.ends.last_mem htr) h1
  obtain ⟨sh, ig, imp, L, R⟩ := hw.region htr
  obtain ⟨fr, hf, _⟩ := R.frame hw.wf
  rw [delete_eq hw.pairwise htr k1 k2 hf]
  split_ifs with hc
  · rcases List.eq_nil_or_concat A with rfl | ⟨A', a, rfl⟩
    · obtain ⟨e1, e2⟩ := h.ends.first_mem htr
      rcases hc with ⟨c1, _⟩ | ⟨c1, _⟩
      · exact absurd (by rw [← c1, e1]) h0
      · rw [e2] at c1; cases c1
    · rw [List.concat_eq_append] at *
      have ht3 : f.tree = A' ++ a :: p :: e :: B := by rw [htr]; simp
      rw [List.length_append, List.length_singleton]
      exact deleteMerge_total hw ht3 (by rw [h.cfg]; exact hs)
  · exact ⟨_, rfl⟩

/-- `Delete` of an extreme key does not. -/
theorem TameInv.delete_last {c : Cfg} {n : Nat} {ins : Bool} {f : Filter} {S : List Key} (h : TameInv c n ins f S) :
    Verif.delete f (List.replicate n 255) = .ub := by
  rcases List.eq_nil_or_concat f.tree with ht | ⟨A, p, ht⟩
  · have := h.ends.last
    rw [ht] at this
    cases this
  · rw [List.concat_eq_append] at ht
    rw [← h.ends.last_mem ht]
    exact Verif.delete_last h.weak.pairwise ht

theorem TameInv.delete_first {c : Cfg} {n : Nat} {ins : Bool} {f : Filter} {S : List Key} (h : TameInv c n ins f S) :
    Verif.delete f (List.replicate n 0) = .ub := by
  cases ht : f.tree with
  | nil =>
    have := h.ends.last
    rw [ht] at this
    cases this
  | cons p B =>
    obtain ⟨e1, e2⟩ := h.ends.first_mem ht
    have hs : treeSeek f.tree (List.replicate n 0) = 0 := by
      have := seek_append (A := []) (B := B) (e := p) (key := List.replicate n 0) (by simp) (by rw [e1]; exact keyLe_refl _)
      rw [ht]; exact this
    have h0 : treePeek f.tree 0 = .ok p := by rw [ht]; rfl
    unfold Verif.delete
    dsimp only
    rw [hs, h0, Res.bind_ok, if_pos (by rw [e1, e2]; simp)]
    unfold deleteMerge
    dsimp only
    rw [h0, Res.bind_ok]
    cases hp1 : treePeek f.tree (0 + 1) with
    | ok v => simp
    | ub => rfl
    | hang =>
      unfold treePeek at hp1
      split at hp1 <;> cases hp1

end Verif
