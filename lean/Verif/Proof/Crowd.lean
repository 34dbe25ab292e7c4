import Verif.Proof.WhLookup
import Verif.Proof.WhStrTree
import Verif.Proof.WhTree
import Verif.Proof.Own
import Verif.Model.Filter

/-!
# Keys that do not fit into one leaf

More than 32 keys with a common prefix make it a prefix of an anchor, however they were inserted.
-/

namespace Verif

theorem crowd {τ : Type} (anchor : τ → Key) (keys : τ → List Key) {N : Nat} {p : Key} {t : List τ} (len : ∀ l ∈ t, (keys l).length ≤ N)
    (low : ∀ l ∈ t, ∀ k ∈ keys l, keyLe (anchor l) k = true)
    (high : t.Pairwise fun a b => ∀ k ∈ keys a, keyLt k (anchor b) = true)
    (h : N < ((t.flatMap keys).filter p.isPrefixOf).length) : ∃ l ∈ t, p <+: anchor l := by
  induction t with
  | nil => exact absurd h (Nat.not_lt_zero _)
  | cons l t ih =>
    rw [List.flatMap_cons, List.filter_append, List.length_append] at h
    obtain ⟨hl, ht⟩ := List.pairwise_cons.1 high
    by_cases hx : ∃ x ∈ keys l, p <+: x
    · obtain ⟨x, hx, hpx⟩ := hx
      by_cases hy : ∃ b ∈ t, ∃ y ∈ keys b, p <+: y
      · obtain ⟨b, hb, y, hy, hpy⟩ := hy
        exact ⟨b, List.mem_cons_of_mem _ hb, prefix_convex hpx hpy (keyLt_keyLe (hl b hb x hx)) (low b (List.mem_cons_of_mem _ hb) y hy)⟩
      · have h0 : (t.flatMap keys).filter p.isPrefixOf = [] := by
          refine List.filter_eq_nil_iff.2 fun y hy' hp => hy ?_
          obtain ⟨b, hb, hy'⟩ := List.mem_flatMap.1 hy'
          exact ⟨b, hb, y, hy', List.isPrefixOf_iff_prefix.1 hp⟩
        rw [h0] at h
        have h1 := List.length_filter_le p.isPrefixOf (keys l)
        have h2 := len l List.mem_cons_self
        exact absurd h (by simp only [List.length_nil]; omega)
    · have h0 : (keys l).filter p.isPrefixOf = [] :=
        List.filter_eq_nil_iff.2 fun x hx' hp => hx ⟨x, hx', List.isPrefixOf_iff_prefix.1 hp⟩
      rw [h0, List.length_nil, Nat.zero_add] at h
      obtain ⟨b, hb, hp⟩ := ih (fun a ha => len a (List.mem_cons_of_mem _ ha)) (fun a ha => low a (List.mem_cons_of_mem _ ha)) ht h
      exact ⟨b, List.mem_cons_of_mem _ hb, hp⟩

theorem filter_fst (m : Tree) (p : Key) : ((m.map Prod.fst).filter p.isPrefixOf).length = (m.filter fun e => p.isPrefixOf e.1).length := by
  rw [List.filter_map, List.length_map]
  rfl

theorem WhRep.crowd {t : Wh} {m : Tree} (R : WhRep t m) {p : Key} (h : 32 < (m.filter fun e => p.isPrefixOf e.1).length) :
    ∃ l ∈ t, p <+: l.anchor := by
  refine Verif.crowd Leaf.anchor (fun l => l.list.map Prod.fst) (N := 32) (fun l hl => ?_) (fun l hl k hk => ?_) (R.high.imp fun hab k hk => ?_) ?_
  · rw [List.length_map, l.list_perm.length_eq, (R.leaf l hl).entries_length]
    exact (R.leaf l hl).nr
  · obtain ⟨e, he, rfl⟩ := List.mem_map.1 hk
    exact R.low l hl e (l.list_perm.mem_iff.1 he)
  · obtain ⟨e, he, rfl⟩ := List.mem_map.1 hk
    exact hab e ((Leaf.list_perm _).mem_iff.1 he)
  · rw [← filter_fst, R.eq, List.map_flatMap] at h
    exact h

theorem Str.SRep.crowd {t : STree} {m : Tree} (R : SRep t m) {p : Key} (h : 32 < (m.filter fun e => p.isPrefixOf e.1).length) :
    ∃ l ∈ t, p <+: l.anchor := by
  refine Verif.crowd SLeaf.anchor (fun l => l.list.map Prod.fst) (N := 32) (fun l hl => ?_) (fun l hl k hk => ?_) (R.high.imp fun hab k hk => ?_) ?_
  · rw [List.length_map, (R.leaf l hl).list_length]
    exact (R.leaf l hl).raw.nr
  · obtain ⟨e, he, rfl⟩ := List.mem_map.1 hk
    exact R.low l hl e (l.list_perm.mem_iff.1 he)
  · obtain ⟨e, he, rfl⟩ := List.mem_map.1 hk
    exact hab e ((SLeaf.list_perm _).mem_iff.1 he)
  · rw [← filter_fst, R.eq, List.map_flatMap] at h
    exact h

/-! ## The boundaries of a load -/

theorem bulkRegion_mem {c : Cfg} {t t' : Tree} {left right : Key} {ks : List Key} {g : Nat} (e : bulkRegion c t left right ks g = .ok t') (x : Key) :
    x ∈ t'.map Prod.fst ↔ x = left ∨ x ∈ t.map Prod.fst := by
  obtain ⟨fr, -, e⟩ := Res.bind_eq_ok e
  cases e
  exact mem_treePut

theorem bulkLoop_mem {c : Cfg} {K : List Key} : ∀ {fuel j last : Nat} {t t' : Tree} {last' : Nat}, 1 ≤ j → last = 1024 * ((j - 1) / 1024) →
    bulkLoop c K fuel j last t = .ok (t', last') → last' = 1024 * ((fuel + j - 1) / 1024) ∧ (∀ x ∈ t.map Prod.fst, x ∈ t'.map Prod.fst) ∧
      ∀ i, last ≤ 1024 * i → 1024 * i < last' → K.getD (1024 * i) [] ∈ t'.map Prod.fst := by
  intro fuel
  induction fuel with
  | zero =>
    intro j last t t' last' hj hl e
    cases e
    exact ⟨by rw [hl]; omega, fun x hx => hx, fun i h1 h2 => by omega⟩
  | succ fuel ih =>
    intro j last t t' last' hj hl e
    unfold bulkLoop at e
    split at e
    · obtain ⟨t1, e1, e⟩ := Res.bind_eq_ok e
      obtain ⟨h1, h2, h3⟩ := ih (by omega) (by omega) e
      refine ⟨by rw [h1]; omega, fun x hx => h2 x ((bulkRegion_mem e1 x).2 (.inr hx)), fun i hi hi' => ?_⟩
      by_cases hi2 : last + 1024 ≤ 1024 * i
      · exact h3 i hi2 hi'
      · have : 1024 * i = last := by omega
        rw [this]
        exact h2 _ ((bulkRegion_mem e1 _).2 (.inl rfl))
    · obtain ⟨h1, h2, h3⟩ := ih (by omega) (by omega) e
      exact ⟨by rw [h1]; omega, h2, h3⟩

/-- Every 1024th key becomes a boundary. -/
theorem bulk_bounds {c : Cfg} {n : Nat} {K : List Key} {f : Filter} (e0 : bulkFixed c n K = .ok f) {i : Nat} (hi : 1024 * i < K.length) :
    K.getD (1024 * i) [] ∈ f.tree.map Prod.fst := by
  obtain ⟨t, e, ef⟩ := Res.bind_eq_ok e0
  clear e0
  cases ef
  unfold bulkCore at e
  rw [if_neg (by omega)] at e
  obtain ⟨⟨t1, last⟩, e1, e⟩ := Res.bind_eq_ok e
  obtain ⟨t2, e2, e⟩ := Res.bind_eq_ok e
  obtain ⟨h1, -, h3⟩ := bulkLoop_mem (Nat.le_refl 1) (by decide) e1
  have h2 : K.getD (1024 * i) [] ∈ t2.map Prod.fst := by
    refine (bulkRegion_mem e2 _).2 ?_
    by_cases hl : 1024 * i < last
    · exact .inr (h3 i (by omega) hl)
    · have : 1024 * i = last := by omega
      rw [this]; exact .inl rfl
  have e := Res.ok.inj e
  rw [← e]
  split
  · exact mem_treePut.2 (.inr h2)
  · exact h2

end Verif
