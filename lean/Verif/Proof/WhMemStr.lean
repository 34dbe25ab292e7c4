import Verif.Proof.WhMem

/-!
# The string tree with its blocks does what the leaves do
-/

namespace Verif.Str

open Verif.Mem

theorem alloc_iff {hp : TreeHeap} (hf : ∀ i, hp.next ≤ i → hp.block i = none) {b c : Block} {i : Nat} :
    (hp.alloc b).block i = some c ↔ (i = hp.next ∧ b = c) ∨ hp.block i = some c := by
  by_cases hi : i = hp.next
  · subst hi
    rw [alloc_at, hf _ (Nat.le_refl _)]
    exact ⟨fun e => .inl ⟨rfl, Option.some.inj e⟩, fun e => e.elim (fun e => by rw [e.2]) (fun e => by cases e)⟩
  · rw [alloc_old hi]
    exact ⟨.inr, fun e => e.elim (fun e => absurd e.1 hi) (fun e => e)⟩

theorem drop_iff {hp : TreeHeap} {c : Block} {i id : Nat} : (hp.put id none).block i = some c ↔ i ≠ id ∧ hp.block i = some c := by
  unfold TreeHeap.put
  dsimp only
  by_cases hi : i = id
  · rw [if_pos hi]; exact ⟨fun e => (by cases e), fun e => absurd hi e.1⟩
  · rw [if_neg hi]; exact ⟨fun e => ⟨hi, e⟩, fun e => e.2⟩

theorem drop_fresh {hp : TreeHeap} {id : Nat} (hf : ∀ i, hp.next ≤ i → hp.block i = none) :
    ∀ i, (hp.put id none).next ≤ i → (hp.put id none).block i = none := by
  intro i hi
  unfold TreeHeap.put
  dsimp only
  rw [hf i hi, ite_self]

theorem _root_.Verif.Mem.Both.alloc {s : Tables} (H : Both s) {b : Block} (hb : ∀ s n, b ≠ .mkey s n) : Both { s with heap := s.heap.alloc b } :=
  ⟨H.cur, H.other, H.same, H.keys.alloc H.fresh hb, alloc_fresh H.fresh⟩

theorem _root_.Verif.Mem.Both.free {s : Tables} (H : Both s) {b : Block} (hb : ∀ s n, b ≠ .mkey s n) {id : Nat} (hi : s.heap.block id = some b) :
    Both { s with heap := s.heap.put id none } :=
  ⟨H.cur, H.other, H.same, H.keys.free hb hi, drop_fresh H.fresh⟩

theorem pair_ne : ∀ s n, Block.pair ≠ .mkey s n := fun _ _ h => by cases h

theorem leaf_ne : ∀ s n, Block.leaf ≠ .mkey s n := fun _ _ h => by cases h

theorem ref_ne : ∀ s n, Block.ref ≠ .mkey s n := fun _ _ h => by cases h

/-- The blocks of the tree; `X` are pairs that no leaf points to. -/
structure Owned (X : List Nat) (s : MemMap) : Prop where
  both : Both s.tabs
  pkeys : (s.pairs.map Prod.fst).Nodup
  pids : (X ++ s.pairs.map Prod.snd).Nodup
  pair : ∀ i, s.tabs.heap.block i = some .pair ↔ i ∈ X ++ s.pairs.map Prod.snd
  nids : s.nodes.Nodup
  node : ∀ i, s.tabs.heap.block i = some .leaf ↔ i ∈ s.nodes
  ref : ∀ i, s.tabs.heap.block i = some .ref ↔ i = s.ref
  len : s.nodes.length = s.leaves.length

/-- The pairs with a block are the pairs in the leaves. -/
def Listed (pairs : List (Key × Nat)) (t : STree) : Prop := ∃ m, SRep t m ∧ ∀ k, k ∈ pairs.map Prod.fst ↔ k ∈ keysOf m

/-- `s` holds the leaves `t`, their index twice, and their blocks. -/
structure Mx (P : Key → Prop) (s : MemMap) (t : STree) : Prop where
  own : Owned [] s
  ix : Ix P ⟨s.leaves, s.tabs.cur.index, 0⟩ t
  keys : Listed s.pairs t

variable {tags : Tags} {P : Key → Prop} {s : MemMap} {t t' : STree} {k : Key} {X : List Nat}

theorem Owned.jump (H : Owned X s) (ht : tags.Sound) (h : Ix P ⟨s.leaves, s.tabs.cur.index, 0⟩ t) (k : Key) : s.jump tags k = .ok (t.jump k) := by
  unfold MemMap.jump
  rw [if_pos H.both.keys.readable]
  exact h.jump ht k

theorem Owned.with (H : Owned X s) (hl : t'.length = s.leaves.length) : Owned X (s.with t') :=
  ⟨H.both, H.pkeys, H.pids, H.pair, H.nids, H.node, H.ref, H.len.trans hl.symm⟩

theorem rungs_length (e : rungs t' = rungs t) : t'.length = t.length := by
  have := congrArg List.length e
  simpa [rungs] using this

theorem Mx.with (H : Mx P s t) {m : Tree} (hm : SRep t m) {m' : Tree} (h' : SRep t' m') (hk : ∀ k, k ∈ keysOf m' ↔ k ∈ keysOf m)
    (e : rungs t' = rungs t) (hf : Fits P m') : Mx P (s.with t') t' := by
  refine ⟨H.own.with (by rw [show s.leaves = t from H.ix.eq]; exact rungs_length e), (let q := H.ix.with ⟨m', h', hf⟩ e; ⟨q.eq, q.rep, q.fits, q.idx⟩), ?_⟩
  obtain ⟨m0, h0, hk0⟩ := H.keys
  refine ⟨m', h', fun k => ?_⟩
  rw [hk k, hm.eq, ← h0.eq]
  exact hk0 k

/-- The new pair. -/
theorem Owned.alloc (H : Owned [] s) :
    Owned [s.tabs.heap.next] { s with tabs := { s.tabs with heap := s.tabs.heap.alloc .pair } } := by
  have hn : s.tabs.heap.next ∉ s.pairs.map Prod.snd := fun hc => by
    have := (H.pair _).2 hc
    rw [H.both.fresh _ (Nat.le_refl _)] at this
    cases this
  refine ⟨H.both.alloc pair_ne, H.pkeys, List.nodup_cons.2 ⟨hn, H.pids⟩, fun i => ?_, H.nids, fun i => ?_, fun i => ?_, H.len⟩
  · dsimp only
    rw [alloc_iff H.both.fresh, H.pair, List.nil_append, List.singleton_append, List.mem_cons]
    exact ⟨fun h => h.elim (fun h => .inl h.1) .inr, fun h => h.elim (fun h => .inl ⟨h, rfl⟩) .inr⟩
  · dsimp only
    rw [alloc_iff H.both.fresh, H.node]
    exact ⟨fun h => h.elim (fun h => by cases h.2) id, .inr⟩
  · dsimp only
    rw [alloc_iff H.both.fresh, H.ref]
    exact ⟨fun h => h.elim (fun h => by cases h.2) id, .inr⟩

/-- A pair that no leaf points to is freed. -/
theorem Owned.free {id : Nat} (H : Owned (id :: X) s) :
    s.tabs.heap.free id .pair = .ok (s.tabs.heap.put id none) ∧ Owned X { s with tabs := { s.tabs with heap := s.tabs.heap.put id none } } := by
  have hb : s.tabs.heap.block id = some .pair := (H.pair id).2 List.mem_cons_self
  obtain ⟨h1, h2⟩ := List.nodup_cons.1 (show (id :: (X ++ s.pairs.map Prod.snd)).Nodup from H.pids)
  refine ⟨by unfold TreeHeap.free; rw [if_pos hb], H.both.free pair_ne hb, H.pkeys, h2, fun i => ?_, H.nids, fun i => ?_, fun i => ?_, H.len⟩
  · dsimp only
    rw [drop_iff, H.pair, List.cons_append, List.mem_cons]
    exact ⟨fun h => h.2.resolve_left h.1, fun h => ⟨fun e => h1 (e ▸ h), .inr h⟩⟩
  · dsimp only
    rw [drop_iff, H.node]
    exact ⟨fun h => h.2, fun h => ⟨fun e => (by rw [e, ← H.node, hb] at h; cases h), h⟩⟩
  · dsimp only
    rw [drop_iff, H.ref]
    exact ⟨fun h => h.2, fun h => ⟨fun e => (by rw [e, ← H.ref, hb] at h; cases h), h⟩⟩

/-- The leaves point to a pair. -/
theorem Owned.take {id : Nat} (H : Owned (id :: X) s) (hk : k ∉ s.pairs.map Prod.fst) : Owned X { s with pairs := (k, id) :: s.pairs } :=
  ⟨H.both, List.nodup_cons.2 ⟨hk, H.pkeys⟩, List.perm_middle.symm.nodup_iff.1 (by simpa using H.pids), fun i => by
    dsimp only
    rw [H.pair, List.map_cons]
    exact List.perm_middle.symm.mem_iff, H.nids, H.node, H.ref, H.len⟩

/-- The leaves do not point to a pair any more. -/
theorem Owned.give (H : Owned X s) (hk : k ∈ s.pairs.map Prod.fst) : ∃ id, s.pairOf k = .ok id ∧
    Owned (id :: X) { s with pairs := s.pairs.filter (·.1 != k) } := by
  obtain ⟨id, h1, h2⟩ := find_split H.pkeys hk
  have hp : (X ++ s.pairs.map Prod.snd).Perm (id :: X ++ (s.pairs.filter (·.1 != k)).map Prod.snd) :=
    ((h2.map Prod.snd).append_left X).trans List.perm_middle
  refine ⟨id, by unfold MemMap.pairOf; rw [h1], H.both, H.pkeys.sublist (List.filter_sublist.map _), hp.nodup_iff.1 H.pids, fun i => ?_,
    H.nids, H.node, H.ref, H.len⟩
  dsimp only
  rw [H.pair]
  exact hp.mem_iff

theorem filter_keys {pairs : List (Key × Nat)} {j : Key} : j ∈ (pairs.filter (·.1 != k)).map Prod.fst ↔ j ≠ k ∧ j ∈ pairs.map Prod.fst := by
  simp only [List.mem_map, List.mem_filter, bne_iff_ne]
  constructor
  · rintro ⟨e, ⟨he, hk⟩, rfl⟩; exact ⟨hk, e, he, rfl⟩
  · rintro ⟨hk, e, he, rfl⟩; exact ⟨e, ⟨he, hk⟩, rfl⟩

theorem put_keys {m : Tree} {pairs : List (Key × Nat)} {id : Nat} {st : Store} (h : ∀ j, j ∈ pairs.map Prod.fst ↔ j ∈ keysOf m) (j : Key) :
    j ∈ ((k, id) :: pairs).map Prod.fst ↔ j ∈ keysOf (treePut m k st) := by
  show j ∈ k :: pairs.map Prod.fst ↔ j ∈ (treePut m k st).map Prod.fst
  rw [mem_treePut, List.mem_cons, h j]

theorem match_mem {A B : STree} {l : SLeaf} {m : Tree} (h : SRep t m) (z : Zip t k A l B) {ih : Nat} (hm : l.matchHs k = some ih) : k ∈ keysOf m := by
  obtain ⟨x, h1, h2⟩ := match_some hm
  obtain ⟨a, b, h3, h4⟩ := (h.ok z).raw.place h1
  rw [h.mem z, h4, ← h2]
  simp

/-- What a call of `put` that returned leaves behind. -/
theorem put_listed {m : Tree} (hm : SRep t m) {st : Store} {b : Bool} (e : t.put k st = .ok (t', b)) : SRep t' (if b then treePut m k st else m) := by
  rcases put_spec hm k st with ⟨-, t1, e1, h1⟩ | ⟨-, t1, e1, h1⟩
  · rw [e1] at e; cases e; exact h1
  · rw [e1] at e; cases e; exact h1

/-- A new leaf behind leaf `i`, and a split of the index. -/
theorem Owned.split (H : Owned X s) (i : Nat) {prev a : Key} {next : Option Key} {y : Index}
    (e : indexSplit s.tabs.cur.index prev a next = .ok y) (hl : t'.length = s.leaves.length + 1) :
    ∃ ts, Tables.split { s.tabs with heap := s.tabs.heap.alloc .leaf } prev a next = .ok ts ∧ ts.cur.index = y ∧
      Owned X { s with leaves := t', tabs := ts, nodes := s.nodes.take (i + 1) ++ s.tabs.heap.next :: s.nodes.drop (i + 1) } := by
  obtain ⟨ts, e1, h1, h2, g⟩ := Both.split (H.both.alloc leaf_ne) e
  have hn : s.tabs.heap.next ∉ s.nodes := fun hc => by
    have := (H.node _).2 hc
    rw [H.both.fresh _ (Nat.le_refl _)] at this
    cases this
  have hp : (s.nodes.take (i + 1) ++ s.tabs.heap.next :: s.nodes.drop (i + 1)).Perm (s.tabs.heap.next :: s.nodes) := by
    have := List.perm_middle (a := s.tabs.heap.next) (l₁ := s.nodes.take (i + 1)) (l₂ := s.nodes.drop (i + 1))
    rwa [List.take_append_drop] at this
  refine ⟨ts, e1, h2, h1, H.pkeys, H.pids, fun j => ?_, hp.symm.nodup_iff.1 (List.nodup_cons.2 ⟨hn, H.nids⟩), fun j => ?_, fun j => ?_, ?_⟩
  · dsimp only
    rw [g.block j _ pair_ne, alloc_iff H.both.fresh, H.pair]
    exact ⟨fun h => h.elim (fun h => by cases h.2) id, .inr⟩
  · dsimp only
    rw [g.block j _ leaf_ne, alloc_iff H.both.fresh, H.node, hp.mem_iff, List.mem_cons]
    exact ⟨fun h => h.elim (fun h => .inl h.1) .inr, fun h => h.elim (fun h => .inl ⟨h, rfl⟩) .inr⟩
  · dsimp only
    rw [g.block j _ ref_ne, alloc_iff H.both.fresh, H.ref]
    exact ⟨fun h => h.elim (fun h => by cases h.2) id, .inr⟩
  · dsimp only
    rw [hp.length_eq, List.length_cons, H.len, hl]

theorem Mx.put (ht : tags.Sound) (hP : Closed P) (hb : ∀ k, P k → k.length ≤ pbufRoom) (H : Mx P s t) (hk : P k) (st : Store) :
    ∃ s' t' b, s.put tags k st = .ok (s', b) ∧ t.put k st = .ok (t', b) ∧ Mx P s' t' := by
  obtain ⟨s', t', b, e1, e2, h'⟩ := H.ix.put ht hP hb hk st
  obtain ⟨m, hm, hkeys⟩ := H.keys
  have hm' := put_listed hm e1
  obtain ⟨A, l0, B, z⟩ := hm.zip k
  have HA := H.own.alloc
  suffices hs : ∃ s'', s.put tags k st = .ok (s'', b) ∧ Mx P s'' t' by
    obtain ⟨s'', q1, q2⟩ := hs
    exact ⟨s'', t', b, q1, e1, q2⟩
  unfold StrMap.put at e2
  unfold MemMap.put
  dsimp only
  rw [HA.jump ht H.ix, Res.bind_ok]
  rw [H.ix.jump ht, Res.bind_ok] at e2
  have hget : s.leaves[t.jump k]? = some l0 := by rw [show s.leaves = t from H.ix.eq]; exact z.get
  have hlt : t.jump k < s.leaves.length := (List.getElem?_eq_some_iff.1 hget).1
  dsimp only at e2 ⊢
  rw [hget] at e2 ⊢
  dsimp only at e2 ⊢
  cases hmt : l0.matchHs k with
  | some ih =>
    rw [hmt] at e2
    dsimp only at e2 ⊢
    obtain ⟨l', el, e2⟩ := Res.bind_eq_ok e2
    cases e2
    rw [el, Res.bind_ok]
    have hin : k ∈ s.pairs.map Prod.fst := (hkeys k).2 (match_mem hm z hmt)
    obtain ⟨id, f1, H1⟩ := HA.give (k := k) hin
    rw [f1, Res.bind_ok]
    obtain ⟨f2, H2⟩ := H1.free
    dsimp only at f2
    rw [f2, Res.bind_ok]
    have H3 := H2.take (k := k) (fun hc => (filter_keys.1 hc).1 rfl)
    refine ⟨_, rfl, ?_, h'.calls, ?_⟩
    · exact H3.with (by simp)
    · refine ⟨_, hm', fun j => ?_⟩
      show j ∈ ((k, _) :: s.pairs.filter _).map Prod.fst ↔ j ∈ (treePut m k st).map Prod.fst
      rw [List.map_cons, mem_treePut, List.mem_cons, filter_keys, hkeys j]
      by_cases hj : j = k <;> simp [hj, keysOf]
  | none =>
    rw [hmt] at e2
    dsimp only at e2 ⊢
    have hnin : k ∉ s.pairs.map Prod.fst := fun hc => match_none (hm.ok z).raw hmt ((hm.mem z).1 ((hkeys k).1 hc))
    by_cases hn : l0.nr < 32
    · rw [if_pos hn] at e2 ⊢
      obtain ⟨l', el, e2⟩ := Res.bind_eq_ok e2
      cases e2
      rw [el, Res.bind_ok]
      refine ⟨_, rfl, ?_, h'.calls, ?_⟩
      · exact (HA.take (k := k) hnin).with (by simp)
      · exact ⟨_, hm', put_keys hkeys⟩
    · rw [if_neg hn] at e2 ⊢
      obtain ⟨o, eo, e2⟩ := Res.bind_eq_ok e2
      rw [eo, Res.bind_ok]
      cases o with
      | none =>
        dsimp only at e2 ⊢
        obtain ⟨l', el, e2⟩ := Res.bind_eq_ok e2
        cases e2
        rw [el, Res.bind_ok]
        obtain ⟨f2, H2⟩ := HA.free
        dsimp only at f2
        rw [f2, Res.bind_ok]
        refine ⟨_, rfl, ?_, h'.calls, ?_⟩
        · exact H2.with (by simp)
        · exact ⟨_, hm', hkeys⟩
      | some ab =>
        obtain ⟨a, b'⟩ := ab
        dsimp only at e2 ⊢
        obtain ⟨x', ex, e2⟩ := Res.bind_eq_ok e2
        cases e2
        obtain ⟨ts, f1, rfl, H1⟩ := HA.split (t.jump k) (t' := s.leaves.take (t.jump k) ++ a :: b' :: s.leaves.drop (t.jump k + 1)) ex
          (by simp only [List.length_append, List.length_take, List.length_cons, List.length_drop]; omega)
        dsimp only at f1
        rw [f1, Res.bind_ok]
        refine ⟨_, rfl, ?_, h'.calls, ?_⟩
        · exact H1.take (k := k) hnin
        · exact ⟨_, hm', put_keys hkeys⟩

/-! ## Deletions -/

/-- A leaf and its part of the index go away. -/
theorem Owned.merge (H : Owned X s) {i : Nat} (hi : i + 1 < s.leaves.length) {prev a : Key} {next : Option Key} {y : Index}
    (e : indexMerge s.tabs.cur.index prev a next = .ok y) (hl : t'.length + 1 = s.leaves.length) :
    ∃ ts id, s.tabs.merge prev a next = .ok ts ∧ ts.cur.index = y ∧ s.nodes[i + 1]? = some id ∧ ts.heap.free id .leaf = .ok (ts.heap.put id none) ∧
      Owned X { s with leaves := t', tabs := { ts with heap := ts.heap.put id none }, nodes := s.nodes.eraseIdx (i + 1) } := by
  obtain ⟨ts, e1, h1, h2, g⟩ := H.both.merge e
  have hlt : i + 1 < s.nodes.length := by rw [H.len]; exact hi
  have hp : s.nodes.Perm (s.nodes[i + 1] :: s.nodes.eraseIdx (i + 1)) := (List.getElem_cons_eraseIdx_perm hlt).symm
  have hb : ts.heap.block s.nodes[i + 1] = some .leaf := (g.block _ _ leaf_ne).2 ((H.node _).2 (List.getElem_mem hlt))
  obtain ⟨n1, n2⟩ := List.nodup_cons.1 (hp.nodup_iff.1 H.nids)
  refine ⟨ts, s.nodes[i + 1], e1, h2, List.getElem?_eq_getElem hlt, by unfold TreeHeap.free; rw [if_pos hb], h1.free leaf_ne hb, H.pkeys, H.pids,
    fun j => ?_, n2, fun j => ?_, fun j => ?_, ?_⟩
  · dsimp only
    rw [drop_iff, g.block j _ pair_ne, H.pair]
    refine ⟨fun h => h.2, fun h => ⟨fun e => ?_, h⟩⟩
    rw [← H.pair, ← g.block j _ pair_ne, e, hb] at h
    cases h
  · dsimp only
    rw [drop_iff, g.block j _ leaf_ne, H.node, hp.mem_iff, List.mem_cons]
    exact ⟨fun h => h.2.resolve_left h.1, fun h => ⟨fun e => n1 (e ▸ h), .inr h⟩⟩
  · dsimp only
    rw [drop_iff, g.block j _ ref_ne, H.ref]
    refine ⟨fun h => h.2, fun h => ⟨fun e => ?_, h⟩⟩
    rw [← H.ref, ← g.block j _ ref_ne, e, hb] at h
    cases h
  · dsimp only
    have := hp.length_eq
    rw [List.length_cons] at this
    rw [H.len] at this
    omega

theorem Owned.drop {id : Nat} (H : Owned [] s) (e : s.pairOf k = .ok id) :
    s.tabs.heap.free id .pair = .ok (s.tabs.heap.put id none) ∧
      Owned [] { s with tabs := { s.tabs with heap := s.tabs.heap.put id none }, pairs := s.pairs.filter (·.1 != k) } := by
  have hk : k ∈ s.pairs.map Prod.fst := by
    unfold MemMap.pairOf at e
    cases hf : s.pairs.find? (·.1 == k) with
    | none => rw [hf] at e; cases e
    | some x =>
      have := List.find?_some hf
      rw [beq_iff_eq] at this
      exact this ▸ List.mem_map_of_mem (List.mem_of_find?_eq_some hf)
  obtain ⟨id', e', H1⟩ := H.give hk
  obtain rfl : id' = id := by rw [e'] at e; exact Res.ok.inj e
  exact H1.free

theorem Mx.del (ht : tags.Sound) (hb : ∀ k, P k → k.length ≤ pbufRoom) (H : Mx P s t) (k : Key) :
    ∃ s' t', s.del tags k = .ok s' ∧ t.del k = .ok t' ∧ Mx P s' t' := by
  obtain ⟨s', t', e1, e2, h'⟩ := H.ix.del ht hb k
  obtain ⟨m, hm, hkeys⟩ := H.keys
  have hm' : SRep t' (treeDel m k) := by
    obtain ⟨t1, f1, h1⟩ := del_spec hm k
    rw [f1] at e1
    cases e1
    exact h1
  obtain ⟨A, l0, B, z⟩ := hm.zip k
  suffices hs : ∃ s'', s.del tags k = .ok s'' ∧ Mx P s'' t' by
    obtain ⟨s'', q1, q2⟩ := hs
    exact ⟨s'', t', q1, e1, q2⟩
  unfold StrMap.del at e2
  unfold MemMap.del
  rw [H.own.jump ht H.ix, Res.bind_ok]
  rw [H.ix.jump ht, Res.bind_ok] at e2
  have hget : s.leaves[t.jump k]? = some l0 := by rw [show s.leaves = t from H.ix.eq]; exact z.get
  dsimp only at e2
  rw [hget] at e2 ⊢
  dsimp only at e2 ⊢
  cases hmt : l0.matchHs k with
  | none =>
    rw [hmt] at e2
    cases e2
    refine ⟨_, rfl, H.own, h', ?_⟩
    rw [show t' = t from h'.eq.symm.trans H.ix.eq]
    exact ⟨m, hm, hkeys⟩
  | some ih =>
    rw [hmt] at e2
    dsimp only at e2 ⊢
    obtain ⟨l', el, e2⟩ := Res.bind_eq_ok e2
    rw [el, Res.bind_ok]
    obtain ⟨id, f1, -⟩ := H.own.give ((hkeys k).2 (match_mem hm z hmt))
    rw [f1, Res.bind_ok]
    have hkeys' : ∀ j, j ∈ (s.pairs.filter (·.1 != k)).map Prod.fst ↔ j ∈ keysOf (treeDel m k) := by
      intro j
      rw [filter_keys, hkeys j]
      simp only [keysOf, treeDel, List.mem_map, List.mem_filter, bne_iff_ne]
      constructor
      · rintro ⟨hj, e, he, rfl⟩; exact ⟨e, ⟨he, hj⟩, rfl⟩
      · rintro ⟨e, ⟨he, hj⟩, rfl⟩; exact ⟨hj, e, he, rfl⟩
    -- what remains after the leaves are done
    have fin : ∀ s1 : MemMap, s1.pairs = s.pairs → Owned [] s1 → Ix P ⟨s1.leaves, s1.tabs.cur.index, 0⟩ t' →
        ∃ s'', ((s1.tabs.heap.free id .pair).bind fun hp =>
          Res.ok { s1 with tabs := { s1.tabs with heap := hp }, pairs := s1.pairs.filter (·.1 != k) }) = .ok s'' ∧ Mx P s'' t' := by
      intro s1 hp1 H1 h1
      obtain ⟨g1, G1⟩ := H1.drop (k := k) (id := id) (by unfold MemMap.pairOf at f1 ⊢; rw [hp1]; exact f1)
      rw [g1]
      exact ⟨_, rfl, G1, h1, _, hm', by rw [hp1]; exact hkeys'⟩
    unfold StrMap.tryMerge at e2
    unfold MemMap.tryMerge
    dsimp only at e2
    have hul : (s.leaves.set (t.jump k) l').length = s.leaves.length := by simp
    generalize s.leaves.set (t.jump k) l' = u at *
    have same : s' = StrMap.with ⟨s.leaves, s.tabs.cur.index, 0⟩ u → ∃ s'', ((Res.ok (s.with u)).bind fun s => (s.tabs.heap.free id .pair).bind fun hp =>
        Res.ok { s with tabs := { s.tabs with heap := hp }, pairs := s.pairs.filter (·.1 != k) }) = .ok s'' ∧ Mx P s'' t' := by
      rintro rfl
      rw [Res.bind_ok]
      exact fin (s.with u) rfl (H.own.with hul) h'.calls
    cases h1 : u[t.jump k]? with
    | none => rw [h1] at e2; cases e2; exact same rfl
    | some a =>
      cases h2 : u[t.jump k + 1]? with
      | none => rw [h1, h2] at e2; cases e2; exact same rfl
      | some b =>
        rw [h1, h2] at e2
        dsimp only at e2 ⊢
        by_cases c1 : a.nr = 0 ∨ a.nr + b.nr < 24
        · rw [if_pos c1] at e2 ⊢
          by_cases c2 : a.nr + b.nr ≤ 32
          · rw [if_pos c2] at e2 ⊢
            obtain ⟨lm, em, e2⟩ := Res.bind_eq_ok e2
            rw [em, Res.bind_ok]
            obtain ⟨x', ex, e2⟩ := Res.bind_eq_ok e2
            cases e2
            have hlt : t.jump k + 1 < s.leaves.length := by rw [← hul]; exact (List.getElem?_eq_some_iff.1 h2).1
            obtain ⟨ts, nid, g1, rfl, g2, g3, G⟩ := H.own.merge hlt (t' := u.take (t.jump k) ++ lm :: u.drop (t.jump k + 2)) ex
              (by simp only [List.length_append, List.length_take, List.length_cons, List.length_drop]; omega)
            rw [g1, Res.bind_ok, g2]
            dsimp only
            rw [g3, Res.bind_ok]
            exact fin _ rfl G h'.calls
          · rw [if_neg c2] at e2 ⊢; cases e2; exact same rfl
        · rw [if_neg c1] at e2 ⊢; cases e2; exact same rfl

/-! ## Clients -/

theorem Mx.seek (ht : tags.Sound) (H : Mx P s t) (k : Key) :
    ∃ s' t' cur, s.seek tags k = .ok (s', cur) ∧ t.seek k = .ok (t', cur) ∧ Mx P s' t' := by
  obtain ⟨m, hm, hf⟩ := H.ix.rep
  obtain ⟨t', cur, e, h', hs, -⟩ := seek_spec hm k
  refine ⟨s.with t', t', cur, ?_, e, H.with hm h' (fun _ => Iff.rfl) hs.rungs hf⟩
  unfold STree.seek at e
  unfold MemMap.seek
  rw [H.own.jump ht H.ix, Res.bind_ok, show s.leaves = t from H.ix.eq]
  dsimp only at e
  cases hl : t[t.jump k]? with
  | none => rw [hl] at e; cases e
  | some l =>
    rw [hl] at e
    dsimp only at e ⊢
    obtain ⟨l', e1, e2⟩ := Res.bind_eq_ok e
    obtain ⟨is, e3, e4⟩ := Res.bind_eq_ok e2
    rw [e1, Res.bind_ok, e3, Res.bind_ok, e4, Res.bind_ok]

theorem Mx.peek (H : Mx P s t) (cur : Cursor) : s.peek cur = t.peek cur := by
  unfold MemMap.peek
  rw [show s.leaves = t from H.ix.eq]
  cases e : t.peek cur with
  | ub => rfl
  | hang => rfl
  | ok x =>
    obtain ⟨m, hm, hk⟩ := H.keys
    obtain ⟨id, e1, -⟩ := H.own.give ((hk x.1).2 (List.mem_map_of_mem (peek_mem hm e)))
    rw [Res.bind_ok, e1, Res.bind_ok, if_pos]
    unfold MemMap.pairOf at e1
    rw [H.own.pair]
    cases hf : s.pairs.find? (·.1 == x.1) with
    | none => rw [hf] at e1; cases e1
    | some y =>
      rw [hf] at e1
      cases e1
      exact List.mem_map_of_mem (List.mem_of_find?_eq_some hf)

/-- The same outcome and result. -/
abbrev SameRun {β : Type} (P : Key → Prop) (r : Res (MemMap × β)) (s : Res (STree × β)) : Prop :=
  RelRes (fun a b => Mx P a.1 b.1 ∧ a.2 = b.2) r s

theorem Mx.client (ht : tags.Sound) (hP : Closed P) (hb : ∀ k, P k → k.length ≤ pbufRoom) {α : Type} : ∀ (p : Client α), p.KeysIn P →
    ∀ {s : MemMap} {t : STree}, Mx P s t → SameRun P (p.onHeap tags s) (p.onLeaves t) := by
  intro p
  induction p with
  | ret r =>
    intro hp s t H
    rw [Client.onHeap, Client.onLeaves]
    cases r with
    | ok a => exact ⟨H, rfl⟩
    | ub => exact trivial
    | hang => exact trivial
  | put k st next ih =>
    intro hp s t H
    rw [Client.onHeap, Client.onLeaves]
    obtain ⟨s', t', b, e1, e2, H'⟩ := H.put ht hP hb hp.1 st
    rw [e1, e2]
    exact ih b (hp.2 b) H'
  | del k next ih =>
    intro hp s t H
    rw [Client.onHeap, Client.onLeaves]
    obtain ⟨s', t', e1, e2, H'⟩ := H.del ht hb k
    rw [e1, e2]
    exact ih hp H'
  | delRead k c1 c2 next ih =>
    intro hp s t H
    rw [Client.onHeap, Client.onLeaves, H.peek, H.peek]
    obtain ⟨m, hm, hf⟩ := H.ix.rep
    cases he1 : t.peek c1 with
    | ok e1 =>
      cases he2 : t.peek c2 with
      | ok e2 =>
        obtain ⟨s', t', e1', e2', H'⟩ := H.del ht hb k
        rw [Res.bind_ok, Res.bind_ok, Res.bind_ok, Res.bind_ok, e1', e2']
        exact ih e1 e2 (hp e1 e2 (hf e1 (peek_mem hm he1)) (hf e2 (peek_mem hm he2))) H'
      | ub => exact trivial
      | hang => exact trivial
    | ub => exact trivial
    | hang => exact trivial
  | seek k next ih =>
    intro hp s t H
    rw [Client.onHeap, Client.onLeaves]
    obtain ⟨s', t', cur, e1, e2, H'⟩ := H.seek ht k
    rw [e1, e2]
    exact ih cur (hp cur) H'
  | skip cur next ih =>
    intro hp s t H
    rw [Client.onHeap, Client.onLeaves, show s.leaves = t from H.ix.eq]
    cases e : t.skip1 cur with
    | ok q =>
      obtain ⟨m, hm, hf⟩ := H.ix.rep
      refine ih _ (hp _) ?_
      obtain ⟨t', c⟩ := q
      cases cur with
      | none => cases e; exact H.with hm hm (fun _ => Iff.rfl) rfl hf
      | some p =>
        obtain ⟨h', hs⟩ := siterFix_ok hm e
        exact H.with hm h' (fun _ => Iff.rfl) hs.rungs hf
    | ub => exact trivial
    | hang => exact trivial
  | back cur next ih =>
    intro hp s t H
    rw [Client.onHeap, Client.onLeaves, show s.leaves = t from H.ix.eq]
    cases e : t.skip1Rev cur with
    | ok q =>
      obtain ⟨m, hm, hf⟩ := H.ix.rep
      refine ih _ (hp _) ?_
      obtain ⟨t', c⟩ := q
      cases cur with
      | none => cases e; exact H.with hm hm (fun _ => Iff.rfl) rfl hf
      | some p =>
        unfold STree.skip1Rev at e
        dsimp only at e
        by_cases hz : p.2 = 0
        · rw [if_pos hz] at e
          obtain ⟨h', hs⟩ := siterFixRev_ok hm e
          exact H.with hm h' (fun _ => Iff.rfl) hs.rungs hf
        · rw [if_neg hz] at e; cases e; exact H.with hm hm (fun _ => Iff.rfl) rfl hf
    | ub => exact trivial
    | hang => exact trivial
  | peek cur next ih =>
    intro hp s t H
    rw [Client.onHeap, Client.onLeaves, H.peek]
    cases he : t.peek cur with
    | ok e =>
      obtain ⟨m, hm, hf⟩ := H.ix.rep
      exact ih e (hp e (hf e (peek_mem hm he))) H
    | ub => exact trivial
    | hang => exact trivial
  | write cur st next ih =>
    intro hp s t H
    rw [Client.onHeap, Client.onLeaves, show s.leaves = t from H.ix.eq]
    obtain ⟨m, hm, hf⟩ := H.ix.rep
    obtain ⟨⟨m', h1, h2, h3⟩, h4⟩ := write_keys hm hf cur st
    exact ih hp (H.with hm h1 h3 h4 h2)
  | release cur next ih =>
    intro hp s t H
    rw [Client.onHeap, Client.onLeaves]
    exact ih hp H
  | fuel next ih =>
    intro hp s t H
    rw [Client.onHeap, Client.onLeaves, show s.leaves = t from H.ix.eq]
    exact ih _ (hp _) H

theorem Mx.create (hP : P []) : ∃ s, MemMap.create = .ok s ∧ Mx P s STree.empty := by
  unfold MemMap.create
  have f0 : ∀ i, TreeHeap.empty.next ≤ i → TreeHeap.empty.block i = none := fun _ _ => rfl
  have hne : ∀ i b n, (TreeHeap.empty.alloc .leaf).block i ≠ some (.mkey b n) := by
    intro i b n e
    rcases (alloc_iff f0).1 e with ⟨-, e⟩ | e <;> cases e
  obtain ⟨ts, e1, h1, h2, g⟩ := Both.create (alloc_fresh (b := .leaf) f0) hne
  dsimp only
  rw [e1]
  refine ⟨_, rfl, ⟨h1.alloc ref_ne, by simp, by simp, fun i => ?_, by simp, fun i => ?_, fun i => ?_, rfl⟩, ?_, ⟨[], SRep.empty, by simp [keysOf]⟩⟩
  · dsimp only
    rw [alloc_iff h1.fresh, g.block i _ pair_ne, alloc_iff f0]
    simp [TreeHeap.empty]
  · dsimp only
    rw [alloc_iff h1.fresh, g.block i _ leaf_ne, alloc_iff f0]
    simp [TreeHeap.empty]
  · dsimp only
    rw [alloc_iff h1.fresh, g.block i _ ref_ne, alloc_iff f0]
    simp [TreeHeap.empty]
  · dsimp only
    rw [h2]
    exact (Ix.empty hP).calls

/-! ## Destruction -/

/-- On the way: the pairs of the keys `D` are freed, the leaves `N` are left. -/
structure Undone (pairs : List (Key × Nat)) (ref : Nat) (D : Key → Prop) (N : List Nat) (hp : TreeHeap) : Prop where
  pkeys : (pairs.map Prod.fst).Nodup
  pids : (pairs.map Prod.snd).Nodup
  pair : ∀ i, hp.block i = some .pair ↔ ∃ k, (k, i) ∈ pairs ∧ ¬ D k
  nids : N.Nodup
  node : ∀ i, hp.block i = some .leaf ↔ i ∈ N
  ref : ∀ i, hp.block i = some .ref ↔ i = ref
  mkey : ∀ i b n, hp.block i ≠ some (.mkey b n)

variable {pairs : List (Key × Nat)} {ref : Nat} {D : Key → Prop} {N : List Nat} {hp : TreeHeap}

theorem Undone.congr {D' : Key → Prop} (H : Undone pairs ref D N hp) (h : ∀ k, D' k ↔ D k) : Undone pairs ref D' N hp := by
  obtain rfl : D' = D := funext fun k => propext (h k)
  exact H

theorem Undone.one (H : Undone pairs ref D N hp) {k : Key} (hk : k ∈ pairs.map Prod.fst) (hd : ¬ D k) :
    ∃ id, pairs.find? (·.1 == k) = some (k, id) ∧ hp.free id .pair = .ok (hp.put id none) ∧
      Undone pairs ref (fun j => j = k ∨ D j) N (hp.put id none) := by
  obtain ⟨id, h1, h2⟩ := find_split H.pkeys hk
  have hin : (k, id) ∈ pairs := h2.mem_iff.2 List.mem_cons_self
  have hb : hp.block id = some .pair := (H.pair id).2 ⟨k, hin, hd⟩
  refine ⟨id, h1, by unfold TreeHeap.free; rw [if_pos hb], H.pkeys, H.pids, fun i => ?_, H.nids, fun i => ?_, fun i => ?_, fun i b n e => ?_⟩
  · rw [drop_iff, H.pair]
    constructor
    · rintro ⟨hi, j, hj, hdj⟩
      refine ⟨j, hj, fun hc => hc.elim (fun hc => hi ?_) hdj⟩
      have := List.inj_on_of_nodup_map H.pkeys hj hin hc
      exact congrArg Prod.snd this
    · rintro ⟨j, hj, hdj⟩
      refine ⟨fun hi => hdj (.inl ?_), j, hj, fun h => hdj (.inr h)⟩
      have := List.inj_on_of_nodup_map H.pids hj hin hi
      exact congrArg Prod.fst this
  · rw [drop_iff, H.node]
    exact ⟨fun h => h.2, fun h => ⟨fun e => (by rw [e, ← H.node, hb] at h; cases h), h⟩⟩
  · rw [drop_iff, H.ref]
    exact ⟨fun h => h.2, fun h => ⟨fun e => (by rw [e, ← H.ref, hb] at h; cases h), h⟩⟩
  · exact H.mkey i b n (drop_iff.1 e).2

theorem Undone.leaf {l : SLeaf} : ∀ {js : List Nat} {es : List Entry} {D : Key → Prop} {hp : TreeHeap}, Undone pairs ref D N hp →
    js.map l.kvAt = es.map Res.ok → (keysOf es).Nodup → (∀ k ∈ keysOf es, k ∈ pairs.map Prod.fst ∧ ¬ D k) →
    ∃ hp', freePairs pairs l js hp = .ok hp' ∧ Undone pairs ref (fun k => k ∈ keysOf es ∨ D k) N hp'
  | [], [], D, hp, H, _, _, _ => ⟨hp, rfl, H.congr fun k => by simp [keysOf]⟩
  | [], _ :: _, _, _, _, e, _, _ => by simp at e
  | _ :: _, [], _, _, _, e, _, _ => by simp at e
  | j :: js, x :: es, D, hp, H, e, hn, hk => by
    rw [List.map_cons, List.map_cons, List.cons.injEq] at e
    obtain ⟨n1, n2⟩ := List.nodup_cons.1 (show (x.1 :: keysOf es).Nodup from hn)
    obtain ⟨h1, h2⟩ := hk x.1 List.mem_cons_self
    obtain ⟨id, f1, f2, H1⟩ := H.one h1 h2
    obtain ⟨hp', f3, H3⟩ := Undone.leaf H1 e.2 n2 fun k hk' => by
      obtain ⟨q1, q2⟩ := hk k (List.mem_cons_of_mem _ hk')
      exact ⟨q1, fun hc => hc.elim (fun hc => n1 (hc ▸ hk')) q2⟩
    refine ⟨hp', ?_, H3.congr fun k => ?_⟩
    · rw [freePairs, e.1, Res.bind_ok, f1]
      dsimp only
      rw [f2, Res.bind_ok, f3]
    · show (k ∈ x.1 :: keysOf es ∨ D k) ↔ _
      rw [List.mem_cons]
      tauto

theorem kvAt_entries {l : SLeaf} (h : RawOK l) : (List.range l.nr).map l.kvAt = l.entries.map Res.ok := by
  refine List.ext_getElem? fun i => ?_
  rw [List.getElem?_map, List.getElem?_map]
  by_cases hi : i < l.nr
  · have hi' : i < l.entries.length := by rw [h.entries_length]; exact hi
    rw [List.getElem?_range hi, List.getElem?_eq_getElem hi', Option.map_some, Option.map_some,
      kvAt_spec h (List.getElem?_eq_getElem hi')]
  · rw [List.getElem?_eq_none (by simpa using hi), List.getElem?_eq_none (by rw [h.entries_length]; omega)]
    rfl

theorem Undone.leaves : ∀ {t : STree} {N : List Nat} {D : Key → Prop} {hp : TreeHeap}, Undone pairs ref D N hp → N.length = t.length →
    (∀ l ∈ t, RawOK l) → (keysOf (t.flatMap SLeaf.entries)).Nodup → (∀ k ∈ keysOf (t.flatMap SLeaf.entries), k ∈ pairs.map Prod.fst ∧ ¬ D k) →
    ∃ hp', freeLeaves pairs t N hp = .ok hp' ∧ Undone pairs ref (fun k => k ∈ keysOf (t.flatMap SLeaf.entries) ∨ D k) [] hp'
  | [], [], D, hp, H, _, _, _, _ => ⟨hp, rfl, H.congr fun k => by simp [keysOf]⟩
  | [], _ :: _, _, _, _, e, _, _, _ => by simp at e
  | _ :: _, [], _, _, _, e, _, _, _ => by simp at e
  | l :: t, id :: N, D, hp, H, e, hraw, hn, hk => by
    have hc : keysOf ((l :: t).flatMap SLeaf.entries) = keysOf l.entries ++ keysOf (t.flatMap SLeaf.entries) := by simp [keysOf]
    rw [hc] at hn hk
    obtain ⟨n1, n2, n3⟩ := List.nodup_append.1 hn
    obtain ⟨hp1, f1, H1⟩ := H.leaf (kvAt_entries (hraw l List.mem_cons_self)) n1 fun k hk' => hk k (List.mem_append_left _ hk')
    have hb : hp1.block id = some .leaf := (H1.node id).2 List.mem_cons_self
    obtain ⟨m1, m2⟩ := List.nodup_cons.1 H1.nids
    have H2 : Undone pairs ref (fun k => k ∈ keysOf l.entries ∨ D k) N (hp1.put id none) := by
      refine ⟨H1.pkeys, H1.pids, fun i => ?_, m2, fun i => ?_, fun i => ?_, fun i b n e => H1.mkey i b n (drop_iff.1 e).2⟩
      · rw [drop_iff, H1.pair]
        exact ⟨fun h => h.2, fun h => ⟨fun e => (by rw [e, ← H1.pair, hb] at h; cases h), h⟩⟩
      · rw [drop_iff, H1.node, List.mem_cons]
        exact ⟨fun h => h.2.resolve_left h.1, fun h => ⟨fun e => m1 (e ▸ h), .inr h⟩⟩
      · rw [drop_iff, H1.ref]
        exact ⟨fun h => h.2, fun h => ⟨fun e => (by rw [e, ← H1.ref, hb] at h; cases h), h⟩⟩
    obtain ⟨hp3, f3, H3⟩ := Undone.leaves H2 (by simpa using e) (fun x hx => hraw x (List.mem_cons_of_mem _ hx)) n2 fun k hk' => by
      obtain ⟨q1, q2⟩ := hk k (List.mem_append_right _ hk')
      exact ⟨q1, fun hc => hc.elim (fun hc => n3 k hc k hk' rfl) q2⟩
    refine ⟨hp3, ?_, H3.congr fun k => ?_⟩
    · rw [freeLeaves, f1, Res.bind_ok]
      unfold TreeHeap.free
      rw [if_pos hb, Res.bind_ok, f3]
    · rw [hc, List.mem_append]
      tauto

theorem flat_perm : ∀ (t : STree), (t.flatMap SLeaf.list).Perm (t.flatMap SLeaf.entries)
  | [] => .refl _
  | l :: t => by
    rw [List.flatMap_cons, List.flatMap_cons]
    exact (l.list_perm).append (flat_perm t)

/-- Destruction leaves the reference. -/
theorem Mx.destroy (H : Mx P s t) : ∃ hp, s.destroy = .ok hp ∧ ∀ i b, hp.block i = some b ↔ i = s.ref ∧ b = .ref := by
  obtain ⟨hp1, f1, h1, S1⟩ := Counted.releaseAll H.own.both.keys
  obtain ⟨hp2, f2, h2, S2⟩ := Counted.releaseAll (L := []) (by rw [List.append_nil]; exact h1)
  have S := S1.trans S2
  have U : Undone s.pairs s.ref (fun _ => False) s.nodes hp2 := by
    refine ⟨H.own.pkeys, H.own.pids, fun i => ?_, H.own.nids, fun i => ?_, fun i => ?_, fun i b n e => ?_⟩
    · rw [S.block i _ pair_ne, H.own.pair]
      simp
    · rw [S.block i _ leaf_ne, H.own.node]
    · rw [S.block i _ ref_ne, H.own.ref]
    · obtain ⟨q1, q2⟩ := h2.count i b n e
      obtain ⟨_, hc⟩ := q2 (by rw [q1]; rfl)
      cases hc
  obtain ⟨m, hm, hk⟩ := H.keys
  have hperm : (keysOf m).Perm (keysOf (t.flatMap SLeaf.entries)) := by
    rw [hm.eq]
    exact (flat_perm t).map _
  obtain ⟨hp3, f3, H3⟩ := U.leaves (t := t) (by rw [H.own.len, show s.leaves = t from H.ix.eq]) (fun l hl => (hm.leaf l hl).raw)
    (hperm.nodup_iff.1 hm.inc.nodup) fun k hk' => ⟨(hk k).2 (hperm.mem_iff.2 hk'), id⟩
  refine ⟨hp3, ?_, fun i b => ?_⟩
  · unfold MemMap.destroy
    rw [f1, Res.bind_ok, f2, Res.bind_ok, show s.leaves = t from H.ix.eq, f3]
  · cases b with
    | pair =>
      rw [H3.pair]
      refine ⟨?_, fun h => by cases h.2⟩
      rintro ⟨k, hk1, hk2⟩
      exact absurd (.inl (hperm.mem_iff.1 ((hk k).1 (List.mem_map_of_mem hk1)))) hk2
    | leaf => rw [H3.node]; exact ⟨fun h => (by cases h), fun h => (by cases h.2)⟩
    | ref => rw [H3.ref]; exact ⟨fun h => ⟨h, rfl⟩, fun h => h.1⟩
    | mkey b n => exact ⟨fun h => absurd h (H3.mkey i b n), fun h => by cases h.2⟩

/-! ## Blocks of other pairs -/

theorem put_stay {s s' : MemMap} {st : Store} {b : Bool} {j k : Key} {id : Nat} (hj : j ≠ k) (hid : (j, id) ∈ s.pairs)
    (e : s.put tags k st = .ok (s', b)) : (j, id) ∈ s'.pairs := by
  have hf : (j, id) ∈ s.pairs.filter (·.1 != k) := List.mem_filter.2 ⟨hid, by simpa using hj⟩
  unfold MemMap.put at e
  obtain ⟨i, -, e⟩ := Res.bind_eq_ok e
  dsimp only at e
  split at e
  · cases e
  · split at e
    · obtain ⟨_, -, e⟩ := Res.bind_eq_ok e
      obtain ⟨_, -, e⟩ := Res.bind_eq_ok e
      obtain ⟨_, -, e⟩ := Res.bind_eq_ok e
      cases e
      exact List.mem_cons_of_mem _ hf
    · split at e
      · obtain ⟨_, -, e⟩ := Res.bind_eq_ok e
        cases e
        exact List.mem_cons_of_mem _ hid
      · obtain ⟨o, -, e⟩ := Res.bind_eq_ok e
        cases o with
        | none =>
          obtain ⟨_, -, e⟩ := Res.bind_eq_ok e
          obtain ⟨_, -, e⟩ := Res.bind_eq_ok e
          cases e
          exact hid
        | some ab =>
          obtain ⟨_, -, e⟩ := Res.bind_eq_ok e
          cases e
          exact List.mem_cons_of_mem _ hid

theorem tryMerge_pairs {s s' : MemMap} {t : STree} {i : Nat} (e : s.tryMerge t i = .ok s') : s'.pairs = s.pairs := by
  unfold MemMap.tryMerge at e
  split at e
  · split at e
    · split at e
      · obtain ⟨_, -, e⟩ := Res.bind_eq_ok e
        obtain ⟨_, -, e⟩ := Res.bind_eq_ok e
        split at e
        · cases e
        · obtain ⟨_, -, e⟩ := Res.bind_eq_ok e
          cases e
          rfl
      · cases e; rfl
    · cases e; rfl
  · cases e; rfl

theorem del_stay {s s' : MemMap} {j k : Key} {id : Nat} (hj : j ≠ k) (hid : (j, id) ∈ s.pairs) (e : s.del tags k = .ok s') : (j, id) ∈ s'.pairs := by
  unfold MemMap.del at e
  obtain ⟨i, -, e⟩ := Res.bind_eq_ok e
  split at e
  · cases e
  · split at e
    · obtain ⟨_, -, e⟩ := Res.bind_eq_ok e
      obtain ⟨_, -, e⟩ := Res.bind_eq_ok e
      obtain ⟨s1, e1, e⟩ := Res.bind_eq_ok e
      obtain ⟨_, -, e⟩ := Res.bind_eq_ok e
      cases e
      exact List.mem_filter.2 ⟨by rw [tryMerge_pairs e1]; exact hid, by simpa using hj⟩
    · cases e; exact hid

end Verif.Str
