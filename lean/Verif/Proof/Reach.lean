import Verif.Proof.Loaded
import Verif.Spec.History
import Verif.Spec.Level

/-!
# Reachable filters
-/

namespace Verif

theorem Lengths.level {prev next : Key} {sh ig imp : Nat} (L : Lengths prev next sh ig imp) (hlt : PadLt prev next) :
    Level prev next (sh + ig + imp) := by
  obtain ⟨b1, b2⟩ := L.bits hlt
  refine ⟨sh, ig, L.same, b1, b2, fun i h1 h2 => L.skip i h1 h2, L.stop, ?_⟩
  have hs := L.succ hlt
  have e1 := pre_split prev (sh + ig + 1) 9
  have e2 := pre_split next (sh + ig + 1) 9
  rw [show sh + ig + 1 + 9 = sh + ig + 10 by omega] at e1 e2
  have e3 := L.imp_eq
  congr 1
  rw [e3]
  unfold gap
  have e4 : pre (sh + ig + 10) next - pre (sh + ig + 10) prev =
      2 ^ 9 + pre (sh + ig + 10) next % 2 ^ 9 - pre (sh + ig + 10) prev % 2 ^ 9 := by
    omega
  rw [e4]
  split_ifs <;> omega

/-- The level is determined by the boundaries. -/
theorem Level.unique {prev next : Key} {p q : Nat} (h : Level prev next p) (h' : Level prev next q) : p = q := by
  obtain ⟨sh, ig, a1, a2, a3, a4, a5, a6⟩ := h
  obtain ⟨sh', ig', b1, b2, b3, b4, b5, b6⟩ := h'
  have e1 : sh = sh' := by
    rcases Nat.lt_trichotomy sh sh' with h | h | h
    · have := b1 sh h; omega
    · exact h
    · have := a1 sh' h; omega
  subst e1
  have e2 : ig = ig' := by
    rcases Nat.lt_trichotomy ig ig' with h | h | h
    · exact absurd (b4 (sh + 1 + ig) (by omega) (by omega)) a5
    · exact h
    · exact absurd (a4 (sh + 1 + ig') (by omega) (by omega)) b5
  subst e2
  rw [a6, b6]

theorem RegionBase.level {c : Cfg} {prev next : Key} {st : Store} {sh ig imp : Nat} {L : List Nat}
    (R : RegionBase c prev st next sh ig imp L) : Level prev next (sh + ig + imp) := R.lengths.level R.lt

/-- The answers of a filter that was just loaded. -/
theorem Loaded.gap {c : Cfg} (hc : c.WF) {K : List Key} {f : Filter} (h : Loaded c K f) {A B : Tree}
    {p e : Key × Store} (ht : f.tree = A ++ p :: e :: B) {k : Key} (h1 : keyLt p.1 k = true) (h2 : keyLt k e.1 = true) :
    ∃ b q, pointQuery f k = .ok b ∧ Level p.1 e.1 q ∧ (b = true ↔ ∃ k0 ∈ K, keyLt p.1 k0 = true ∧ keyLt k0 e.1 = true ∧
      pre (q + c.infixSize - 1) k = pre (q + c.infixSize - 1) k0) := by
  have hch := h.chain
  rw [ht] at hch
  obtain ⟨sh, ig, imp, R, hpart, _⟩ := (List.isChain_append_cons_cons.1 hch).2.1
  have hok := h.ok hc
  obtain ⟨b, hb, hiff⟩ := pointQuery_gap hok ht (by rw [h.cfg]; exact R) h1 h2
  refine ⟨b, sh + ig + imp, hb, R.level, ?_⟩
  rw [hiff, hpart, h.cfg]
  simp only [Bool.false_eq_true, false_and, false_or]
  unfold HitL
  constructor
  · rintro ⟨x, hx, he⟩
    obtain ⟨k0, hk0, rfl⟩ := List.mem_map.1 hx
    rw [List.mem_filter, Bool.and_eq_true] at hk0
    refine ⟨k0, hk0.1, hk0.2.1, hk0.2.2, ?_⟩
    have := R.item_prefix hc (between_of_le (keyLt_keyLe hk0.2.1) (keyLt_keyLe hk0.2.2))
    unfold itemOf at he
    rw [this.1, this.2] at he
    exact he
  · rintro ⟨k0, hk0, g1, g2, he⟩
    have := R.item_prefix hc (between_of_le (keyLt_keyLe g1) (keyLt_keyLe g2))
    refine ⟨itemOf c.infixSize (sh + ig + imp) p.1 k0, ?_, ?_⟩
    · apply List.mem_map_of_mem
      rw [List.mem_filter, Bool.and_eq_true]
      exact ⟨hk0, g1, g2⟩
    · unfold itemOf
      rw [this.1, this.2]; exact he

theorem Loaded.all_of {c : Cfg} (hc : c.WF) {K : List Key} {f : Filter} (h : Loaded c K f) {a b k : Key}
    (ha : a ∈ f.tree.map Prod.fst) (hb : b ∈ f.tree.map Prod.fst) (hak : keyLe a k = true) (hkb : keyLe k b = true)
    (hk : k ∈ K) : pointQuery f k = .ok true := by
  rcases (h.ok hc).key_cases ha hb hak hkb with ⟨A, e, B, ht, rfl⟩ | ⟨A, p, e, B, ht, h1, h2⟩
  · exact pointQuery_boundary (h.ok hc) ht
  · obtain ⟨b, q, hb, _, hiff⟩ := h.gap hc ht h1 h2
    rw [hb, hiff.2 ⟨k, hk, h1, h2, rfl⟩]

theorem Loaded.all {c : Cfg} (hc : c.WF) {K : List Key} {f : Filter} (h : Loaded c K f) {n : Nat} (hs : Spans n f)
    {k : Key} (hk : k ∈ K) (hn : k.length = n) : pointQuery f k = .ok true := by
  subst hn
  exact h.all_of hc hs.1 hs.2 (zeros_le k) (le_ones k) hk

/-- Every loaded key is reported. -/
theorem LoadedIn.all_of {c : Cfg} (hc : c.WF) {K : List Key} {f : Filter} (h : LoadedIn c K f) {a b k : Key}
    (ha : a ∈ f.tree.map Prod.fst) (hb : b ∈ f.tree.map Prod.fst) (hak : keyLe a k = true) (hkb : keyLe k b = true)
    (hk : k ∈ K) : pointQuery f k = .ok true := by
  rcases (h.ok hc).key_cases ha hb hak hkb with ⟨A, e, B, ht, rfl⟩ | ⟨A, p, e, B, ht, h1, h2⟩
  · exact pointQuery_boundary (h.ok hc) ht
  · have hch := h.chain
    rw [ht] at hch
    obtain ⟨sh, ig, imp, M, R, hpart, _, hM, _⟩ := (List.isChain_append_cons_cons.1 hch).2.1
    obtain ⟨b, hb, hiff⟩ := pointQuery_gap (h.ok hc) ht (by rw [h.cfg]; exact R) h1 h2
    have hp := R.item_prefix hc (between_of_le (keyLt_keyLe h1) (keyLt_keyLe h2))
    have : b = true := by
      rw [hiff, h.cfg]
      refine Or.inr ⟨itemOf c.infixSize (sh + ig + imp) p.1 k, List.mem_map_of_mem (mem_of_count hk (hM k h1 h2)), ?_⟩
      unfold itemOf
      rw [hp.1, hp.2]
    rw [hb, this]

theorem LoadedIn.all {c : Cfg} (hc : c.WF) {K : List Key} {f : Filter} (h : LoadedIn c K f) {n : Nat} (hs : Spans n f)
    {k : Key} (hk : k ∈ K) (hn : k.length = n) : pointQuery f k = .ok true := by
  subst hn
  exact h.all_of hc hs.1 hs.2 (zeros_le k) (le_ones k) hk

/-- Insert keeps the bound on the bits of partial boundary keys. -/
theorem insert_bits {f : Filter} (h : FilterOK f) {key : Key} {split : Bool} (hfit : InsertFits f key split) {n : Nat}
    (hn : n < 2 ^ 28) (hkn : key.length ≤ n) (htn : LenLe n f) {f' : Filter} (hi : insert f key split = .ok f')
    (hb : BitsOK f) : BitsOK f' := by
  have simple : SimpleFits f key → insertSimple f key = .ok f' → BitsOK f' := by
    intro hs hi
    obtain ⟨A, prev, st, st2, next, st', B, sh, ig, imp, X, Y, ht, ht', hc, _, _, e1, e2, _⟩ := insertSimple_spec h hi hs
    unfold BitsOK at hb ⊢
    rw [ht] at hb
    rw [ht', hc]
    obtain ⟨c1, c2, c3⟩ := List.isChain_append_cons_cons.1 hb
    refine List.isChain_append_cons_cons.2 ⟨?_, ?_, c3⟩
    · rw [List.isChain_append] at c1 ⊢
      obtain ⟨a, b, e⟩ := c1
      refine ⟨a, List.isChain_singleton _, ?_⟩
      intro x hx y hy
      simp only [List.head?_cons, Option.mem_def, Option.some.injEq] at hy
      subst hy
      exact e x hx (prev, st) (by simp)
    · intro a b g hs hp
      dsimp only at hp ⊢
      rw [e2]
      exact c2 a b g hs (by rw [← e1]; exact hp)
  cases split with
  | false =>
    unfold insert at hi
    simp only [Bool.false_eq_true, if_false] at hi
    exact simple (by unfold InsertFits at hfit; exact hfit) hi
  | true =>
    unfold insert at hi
    simp only [if_true] at hi
    unfold insertSplit at hi
    unfold InsertFits at hfit
    cases hp : planSplit f key with
    | ub => rw [hp] at hi; exact absurd hi (by simp)
    | hang => rw [hp] at hi; exact absurd hi (by simp)
    | ok o =>
      rw [hp] at hi hfit
      cases o with
      | none => exact simple hfit hi
      | some d =>
        simp only [Res.bind_ok] at hi
        obtain ⟨A, next, st', B, storeL, storeG, D⟩ := applySplit_spec h hp hfit hn hkn htn hi
        exact D.bits hb

/-- Insert keeps all boundary keys. -/
theorem insert_tree_keys {f : Filter} (h : FilterOK f) {key : Key} {split : Bool} (hfit : InsertFits f key split) {n : Nat}
    (hn : n < 2 ^ 28) (hkn : key.length ≤ n) (htn : LenLe n f) {f' : Filter} (hi : insert f key split = .ok f') :
    ∀ k ∈ f.tree.map Prod.fst, k ∈ f'.tree.map Prod.fst := by
  have simple : SimpleFits f key → insertSimple f key = .ok f' → ∀ k ∈ f.tree.map Prod.fst, k ∈ f'.tree.map Prod.fst := by
    intro hs hi
    obtain ⟨_, _, _, A, prev, st, nx, B, q, _, _, _, hk, _⟩ := insertSimple_point h hi hs
    rw [hk]; exact fun k hk => hk
  cases split with
  | false =>
    unfold insert at hi
    simp only [Bool.false_eq_true, if_false] at hi
    exact simple (by unfold InsertFits at hfit; exact hfit) hi
  | true =>
    unfold insert at hi
    simp only [if_true] at hi
    unfold insertSplit at hi
    unfold InsertFits at hfit
    cases hp : planSplit f key with
    | ub => rw [hp] at hi; exact absurd hi (by simp)
    | hang => rw [hp] at hi; exact absurd hi (by simp)
    | ok o =>
      rw [hp] at hi hfit
      cases o with
      | none => exact simple hfit hi
      | some d =>
        simp only [Res.bind_ok] at hi
        obtain ⟨A, next, st', B, storeL, storeG, D⟩ := applySplit_spec h hp hfit hn hkn htn hi
        rw [D.tree, D.tree']
        intro k hk
        simp only [List.map_append, List.map_cons, List.mem_append, List.mem_cons] at hk ⊢
        tauto

/-- What holds in every reachable state. -/
structure ReachOK (c : Cfg) (n : Nat) (f : Filter) (S : List Key) : Prop where
  ok : FilterOK f
  cfg : f.cfg = c
  len : LenLe n f
  spans : Spans n f
  pos : ∀ k ∈ S, pointQuery f k = .ok true
  mem : ∀ k ∈ S, k.length = n

theorem BuiltFit.reach {c : Cfg} (hc : c.WF) {n : Nat} (hn : n < 2 ^ 28) {f : Filter} {S : List Key}
    (h : BuiltFit c n f S) : ReachOK c n f S := by
  induction h with
  | @load K f h1 h2 h3 =>
    by_cases hne : K = []
    · subst hne
      unfold bulkFixed bulkCore at h3
      simp at h3
    · obtain ⟨r1, r2⟩ := bulkFixed_dup hc h1 h2 hne
      by_cases hm : Sampled K
      swap
      · rw [r1 hm] at h3; cases h3
      · obtain ⟨f', e, hl, hs, hlen, _⟩ := r2 hm
        rw [e] at h3
        obtain rfl : f' = f := by injection h3
        exact ⟨hl.ok hc, hl.cfg, fun e he => Nat.le_of_eq (hlen e he), hs, fun k hk => hl.all hc hs hk (h1 k hk), h1⟩
  | @insert f f' S key split hb hk hfit hi ih =>
    obtain ⟨a1, a2, a3, a4, a5⟩ := insert_spec ih.ok hfit hn (Nat.le_of_eq hk) ih.len hi
    have ht := insert_tree_keys ih.ok hfit hn (Nat.le_of_eq hk) ih.len hi
    refine ⟨a1, by rw [a2, ih.cfg], a3, ⟨ht _ ih.spans.1, ht _ ih.spans.2⟩, ?_, ?_⟩
    · intro k hk'
      rcases List.mem_cons.1 hk' with rfl | hk'
      · exact a4
      · exact a5 k (fun _ => not_prefix_of_length (by rw [hk, ih.mem k hk'])) (ih.pos k hk')
    · intro k hk'
      rcases List.mem_cons.1 hk' with rfl | hk'
      · exact hk
      · exact ih.mem k hk'

end Verif
