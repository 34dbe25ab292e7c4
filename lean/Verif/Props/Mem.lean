import Verif.Proof.WhMemStr
import Verif.Spec.WhMem
import Verif.Props.Index
import Verif.Props.StrIndex

/-!
# C56: memory of the trees
-/

namespace Verif.Props

open Str Mem

variable {tags : Tags} {α : Type}

/-! ## The keys of the index -/

section
variable {s : Tables} {A B : List Key} {p a : Key} {as : List Key}

theorem PairHist.both (h : PairHist s as) : Both s ∧ IndexHist s.cur.index as := by
  induction h with
  | create hf hk e =>
    obtain ⟨s', e', h, hi, -⟩ := Both.create hf hk
    rw [e] at e'
    cases e'
    exact ⟨h, hi ▸ .empty⟩
  | split _ hl e ih =>
    obtain ⟨x, e1, h1⟩ := C47_split ih.2 hl
    obtain ⟨s', e', h, hi, -⟩ := ih.1.split e1
    rw [e] at e'
    cases e'
    exact ⟨h, hi ▸ h1⟩
  | merge _ e ih =>
    obtain ⟨x, e1, h1⟩ := C47_merge ih.2
    obtain ⟨s', e', h, hi, -⟩ := ih.1.merge e1
    rw [e] at e'
    cases e'
    exact ⟨h, hi ▸ h1⟩

theorem Both.held (h : Both s) : KeysHeld s := by
  have mem : ∀ x ∈ [s.cur, s.other], Dom x ∧ ∀ e ∈ x.keys, e ∈ s.cur.keys ++ s.other.keys := by
    intro x hx
    rcases List.mem_cons.1 hx with rfl | hx
    · exact ⟨h.cur, fun e he => List.mem_append_left _ he⟩
    · rcases List.mem_cons.1 hx with rfl | hx
      · exact ⟨h.other, fun e he => List.mem_append_right _ he⟩
      · cases hx
  refine ⟨fun x hx p hp => ?_, fun x hx => (mem x hx).1.nodup, fun x hx e he => ?_, fun id b n hb => ?_⟩
  · obtain ⟨e, he, rfl⟩ := List.mem_map.1 (((mem x hx).1.mem p).1 hp)
    obtain ⟨b, n, h1, h2⟩ := h.keys.live e ((mem x hx).2 e he)
    exact ⟨e.2, b, n, he, h1, h2⟩
  · exact ((mem x hx).1.mem e.1).2 (List.mem_map.2 ⟨e, he, rfl⟩)
  · obtain ⟨h1, h2⟩ := h.keys.count id b n hb
    refine ⟨h1, Nat.pos_of_ne_zero fun h0 => ?_⟩
    obtain ⟨a, e⟩ := h2 h0
    cases e

/-- C56: a split of a leaf never uses a key of the index that was freed, and both tables change alike. -/
theorem C56_index_split (h : PairHist s (A ++ p :: B)) (hl : Ladder (A ++ p :: a :: B)) :
    ∃ s', s.split p a B.head? = .ok s' ∧ PairHist s' (A ++ p :: a :: B) ∧ indexSplit s.cur.index p a B.head? = .ok s'.cur.index := by
  obtain ⟨hb, hi⟩ := PairHist.both h
  obtain ⟨x, e1, -⟩ := C47_split hi hl
  obtain ⟨s', e', -, rfl, -⟩ := hb.split e1
  exact ⟨s', e', .split h hl e', e1⟩

/-- C56: neither does a merge. -/
theorem C56_index_merge (h : PairHist s (A ++ p :: a :: B)) :
    ∃ s', s.merge p a B.head? = .ok s' ∧ PairHist s' (A ++ p :: B) ∧ indexMerge s.cur.index p a B.head? = .ok s'.cur.index := by
  obtain ⟨hb, hi⟩ := PairHist.both h
  obtain ⟨x, e1, -⟩ := C47_merge hi
  obtain ⟨s', e', -, rfl, -⟩ := hb.merge e1
  exact ⟨s', e', .merge h e', e1⟩

/-- C56: between two calls both tables are the same, every key counts its users, and no key is without users. -/
theorem C56_index_keys (h : PairHist s as) : s.other.index = s.cur.index ∧ KeysHeld s :=
  ⟨(PairHist.both h).1.same.symm, Both.held (PairHist.both h).1⟩

/-- C56: when both tables are cleared, every key is freed exactly once, and nothing else is. -/
theorem C56_index_release (h : PairHist s as) : ∃ hp hp', releaseAll s.cur.keys s.heap = .ok hp ∧ releaseAll s.other.keys hp = .ok hp' ∧
    (∀ i b n, hp'.block i ≠ some (.mkey b n)) ∧
    ∀ i b, (∀ s n, b ≠ .mkey s n) → (hp'.block i = some b ↔ s.heap.block i = some b) := by
  obtain ⟨hp1, f1, h1, S1⟩ := Counted.releaseAll (PairHist.both h).1.keys
  obtain ⟨hp2, f2, h2, S2⟩ := Counted.releaseAll (L := []) (by rw [List.append_nil]; exact h1)
  refine ⟨hp1, hp2, f1, f2, fun i b n e => ?_, fun i b hb => (S1.trans S2).block i b hb⟩
  obtain ⟨e1, e2⟩ := h2.count i b n e
  obtain ⟨_, e3⟩ := e2 e1
  cases e3

/-- C56: nodes come from two slabs, one for nodes with a bitmap. A node has one exactly if it has two children, so the size of the node of which
`wormmeta_expand`, `wormmeta_shrink` and `wormmeta_free` dispose is the one they assume. -/
theorem C56_index_slab {x : Index} (h : IndexHist x as) {q : Key} {m : Meta} (hg : x.get q = some m) :
    m.bitmap ≠ none ↔ ∃ c d : UInt8, c ≠ d ∧ (∃ a ∈ as, q ++ [c] <+: a) ∧ ∃ a ∈ as, q ++ [d] <+: a := by
  obtain ⟨-, ok⟩ := h.ok.2.get hg
  constructor
  · intro hb
    rcases ok.kids.out with ⟨h1, h2, -⟩ | ⟨⟨c, h1, hc⟩, ⟨d, h2, hd⟩, -, -⟩
    · exact absurd (ok.kids.slim (h1.trans h2.symm)) hb
    · exact ⟨c, d, fun e => hb (ok.kids.slim (by rw [← h1, ← h2, e])), hc, hd⟩
  · rintro ⟨c, d, hne, hc, hd⟩ hb
    have h1 : Child (· ∈ as) q c.toNat := ⟨c, rfl, hc⟩
    have h2 : Child (· ∈ as) q d.toNat := ⟨d, rfl, hd⟩
    rcases ok.kids.out with ⟨-, -, h3⟩ | ⟨-, -, h3, h4⟩
    · exact h3 _ h1
    · have g1 := h3 _ h1
      have g2 := h3 _ h2
      have g3 : c.toNat ≠ d.toNat := fun e => hne (UInt8.toNat_inj.1 e)
      obtain ⟨B, e, -⟩ := h4 (by omega)
      rw [hb] at e
      cases e

/-- The prefixes of one key are no more than its length and one. -/
theorem prefix_count {K : List (Key × Nat)} (hn : (K.map Prod.fst).Nodup) {b : Key} {id : Nat} (h : ∀ e ∈ K, e.2 = id → e.1 <+: b) :
    users K id ≤ b.length + 1 := by
  unfold users
  rw [List.countP_eq_length_filter]
  have hs : ((K.filter fun e => e.2 == id).map Prod.fst).Nodup := hn.sublist (List.filter_sublist.map _)
  have hm : (K.filter fun e => e.2 == id).map Prod.fst ⊆ b.inits := by
    intro q hq
    obtain ⟨e, he, rfl⟩ := List.mem_map.1 hq
    obtain ⟨h1, h2⟩ := List.mem_filter.1 he
    exact List.mem_inits _ _ |>.2 (h e h1 (by simpa using h2))
  have := (hs.subperm hm).length_le
  rw [List.length_map, List.length_inits] at this
  exact this

/-- C56: the counter of a key, which has 32 bits (kv.h:41), never exceeds twice the bytes of the key and two. -/
theorem C56_index_small (h : PairHist s as) {id : Nat} {b : Key} {n : Nat} (hb : s.heap.block id = some (.mkey b n)) : n ≤ 2 * (b.length + 1) := by
  obtain ⟨H, -⟩ := PairHist.both h
  obtain ⟨h1, -⟩ := H.keys.count id b n hb
  have pre : ∀ e ∈ s.cur.keys ++ s.other.keys, e.2 = id → e.1 <+: b := by
    intro e he hid
    obtain ⟨b', n', e1, e2⟩ := H.keys.live e he
    rw [hid, hb] at e1
    cases e1
    exact e2
  have h2 := prefix_count H.cur.nodup (b := b) (id := id) fun e he => pre e (List.mem_append_left _ he)
  have h3 := prefix_count H.other.nodup (b := b) (id := id) fun e he => pre e (List.mem_append_right _ he)
  have h4 : n = users s.cur.keys id + users s.other.keys id := by rw [h1]; exact List.countP_append
  omega

end

/-! ## The tree -/

section
variable {p : Client α} {s : MemMap} {a : α}

theorem onNewHeap_same (ht : tags.Sound) (hk : p.KeysLe 65520) : SameRun (Upto 65520) (p.onNewHeap tags) (p.onLeaves STree.empty) := by
  obtain ⟨s, e, h⟩ := Mx.create (P := Upto 65520) (Nat.zero_le _)
  unfold Client.onNewHeap
  rw [e, Res.bind_ok]
  exact Mx.client ht upto_closed (fun _ hk => hk) p hk h

theorem onNewHeap_mx (ht : tags.Sound) (hk : p.KeysLe 65520) (h : p.onNewHeap tags = .ok (s, a)) : Mx (Upto 65520) s s.leaves := by
  obtain ⟨⟨t, a'⟩, _, hm, -⟩ := (onNewHeap_same ht hk).okL h
  have : s.leaves = t := hm.ix.eq
  rw [this]
  exact hm

/-- C56: no program with keys of at most 65520 bytes makes the tree use or free a block that is not there: it has the outcome it has on the leaves
alone, where there are no blocks. -/
theorem C56_client (ht : tags.Sound) (hk : p.KeysLe 65520) :
    (p.onNewHeap tags).bind (fun q => .ok (q.1.leaves, q.2)) = p.onLeaves STree.empty := by
  have h := onNewHeap_same ht hk
  cases h1 : p.onNewHeap tags with
  | ok q =>
    obtain ⟨q', e, hi, h2⟩ := (h1 ▸ h).okL rfl
    rw [e, Res.bind_ok, show q.1.leaves = q'.1 from hi.ix.eq, h2]
  | ub => rw [h1] at h; cases h2 : p.onLeaves STree.empty <;> rw [h2] at h <;> first | rfl | exact h.elim
  | hang => rw [h1] at h; cases h2 : p.onLeaves STree.empty <;> rw [h2] at h <;> first | rfl | exact h.elim

theorem Mx.held {t : STree} (h : Mx (Upto 65520) s t) : BlocksHeld s := by
  obtain ⟨m, hm, hk⟩ := h.keys
  have he : s.leaves = t := h.ix.eq
  refine ⟨fun k => ?_, ⟨h.own.pkeys, h.own.pids⟩, fun i => ?_, ⟨h.own.nids, h.own.len⟩, h.own.node⟩
  · rw [he]
    have := hk k
    simp only [keysOf, List.mem_map] at this
    constructor
    · rintro ⟨id, hid⟩
      obtain ⟨e, h1, h2⟩ := this.1 ⟨_, hid, rfl⟩
      exact ⟨e, hm.pairs.mem_iff.2 h1, h2⟩
    · rintro ⟨e, h1, h2⟩
      obtain ⟨⟨k', id⟩, h3, rfl⟩ := this.2 ⟨e, hm.pairs.mem_iff.1 h1, h2⟩
      exact ⟨id, h3⟩
  · rw [h.own.pair i, List.nil_append, List.mem_map]
    constructor
    · rintro ⟨⟨k, j⟩, h1, rfl⟩; exact ⟨k, h1⟩
    · rintro ⟨k, h1⟩; exact ⟨_, h1, rfl⟩

/-- C56: between two calls the pairs and leaves on the heap are those of the tree, one block each, and the keys of the index are held by its
nodes. -/
theorem C56_blocks (ht : tags.Sound) (hk : p.KeysLe 65520) (h : p.onNewHeap tags = .ok (s, a)) :
    BlocksHeld s ∧ KeysHeld s.tabs ∧ s.tabs.other.index = s.tabs.cur.index ∧
    ∀ q, s.tabs.cur.index.get q ≠ none ↔ ∃ l ∈ s.leaves, q <+: l.anchor := by
  have H := onNewHeap_mx ht hk h
  refine ⟨Mx.held H, Both.held H.own.both, H.own.both.same.symm, fun q => ?_⟩
  rw [ne_eq, H.ix.idx.none_iff, not_not]
  constructor
  · rintro ⟨a, ha, hq⟩
    obtain ⟨l, hl, rfl⟩ := List.mem_map.1 ha
    exact ⟨l, hl, hq⟩
  · rintro ⟨l, hl, hq⟩
    exact ⟨_, List.mem_map.2 ⟨l, hl, rfl⟩, hq⟩

/-- C56: the block of a pair stays as long as no other call has its key: pointers into it (diva.hpp:898-940, 1600-1643) remain good across insertions
and deletions of other keys. -/
theorem C56_stay (ht : tags.Sound) (hk : p.KeysLe 65520) (h : p.onNewHeap tags = .ok (s, a)) {j k : Key} (hj : j ≠ k) {id : Nat}
    (hid : (j, id) ∈ s.pairs) :
    (∀ st s' b, k.length ≤ 65520 → s.put tags k st = .ok (s', b) → (j, id) ∈ s'.pairs ∧ s'.tabs.heap.block id = some .pair) ∧
    ∀ s', s.del tags k = .ok s' → (j, id) ∈ s'.pairs ∧ s'.tabs.heap.block id = some .pair := by
  have H := onNewHeap_mx ht hk h
  refine ⟨fun st s' b hl e => ?_, fun s' e => ?_⟩
  · obtain ⟨s1, t1, b1, e1, -, H1⟩ := H.put ht upto_closed (fun _ hk => hk) (k := k) hl st
    rw [e] at e1
    cases e1
    have : (j, id) ∈ s'.pairs := put_stay hj hid e
    exact ⟨this, ((Mx.held H1).pair id).2 ⟨j, this⟩⟩
  · obtain ⟨s1, t1, e1, -, H1⟩ := H.del ht (fun _ hk => hk) k
    rw [e] at e1
    cases e1
    have : (j, id) ∈ s'.pairs := del_stay hj hid e
    exact ⟨this, ((Mx.held H1).pair id).2 ⟨j, this⟩⟩

/-! ## The end of a tree -/

/-- C56, without "no block is left": destruction frees every block of the tree once, all but the reference. -/
theorem C56_destroy_partial (ht : tags.Sound) (hk : p.KeysLe 65520) (h : p.onNewHeap tags = .ok (s, a)) :
    ∃ hp, s.destroy = .ok hp ∧ ∀ i b, hp.block i = some b ↔ i = s.ref ∧ b = .ref :=
  (onNewHeap_mx ht hk h).destroy

/-- C56 is violated: after whatever calls, the block that `wh_ref` allocated is left when the tree is destroyed. -/
theorem C56_false (ht : tags.Sound) (hk : p.KeysLe 65520) (h : p.onNewHeap tags = .ok (s, a)) :
    ∃ hp, s.destroy = .ok hp ∧ hp.block s.ref = some .ref := by
  obtain ⟨hp, e, h⟩ := C56_destroy_partial ht hk h
  exact ⟨hp, e, (h _ _).2 ⟨rfl, rfl⟩⟩

/-- C56: with a call of `wh_unref` nothing would be left. -/
theorem C56_unref (ht : tags.Sound) (hk : p.KeysLe 65520) (h : p.onNewHeap tags = .ok (s, a)) :
    ∃ hp hp', s.destroy = .ok hp ∧ s.unref hp = .ok hp' ∧ ∀ i, hp'.block i = none := by
  obtain ⟨hp, e, h⟩ := C56_destroy_partial ht hk h
  refine ⟨hp, hp.put s.ref none, e, by unfold MemMap.unref TreeHeap.free; rw [if_pos ((h _ _).2 ⟨rfl, rfl⟩)], fun i => ?_⟩
  cases hb : (hp.put s.ref none).block i with
  | none => rfl
  | some b =>
    obtain ⟨h1, h2⟩ := drop_iff.1 hb
    exact absurd ((h i b).1 h2).1 h1

end

/-! ## The filter -/

/-- C56: `Diva<false>` on a tree with its blocks has the outcome it has on the leaves, for keys of at most 65520 bytes. -/
theorem C56_filter (ht : tags.Sound) (c : Cfg) {ld : Load} {calls : List FilterCall} (h1 : ld.KeysLe 65520) (h2 : InsertsLe 65520 calls) :
    (runHeap tags c ld calls).bind (fun q => .ok (⟨q.2.1, q.1.leaves⟩, q.2.2)) = runTree c ld calls := by
  rw [run_client, ← C56_client ht (short_run (by decide) c h1 h2).keysIn, runHeap]
  generalize (runClient c ld calls).onNewHeap tags = X
  cases X <;> rfl

/-- C56, without "no block is left": the destructor of a `Diva<false>` frees every block of its tree once, all but the reference. -/
theorem C56_filter_destroy_partial (ht : tags.Sound) (c : Cfg) {ld : Load} {calls : List FilterCall} (h1 : ld.KeysLe 65520)
    (h2 : InsertsLe 65520 calls) {s : MemMap} {q : Cfg × List Answer} (h : runHeap tags c ld calls = .ok (s, q)) :
    ∃ hp, s.destroy = .ok hp ∧ ∀ i b, hp.block i = some b ↔ i = s.ref ∧ b = .ref :=
  C56_destroy_partial ht (short_run (by decide) c h1 h2).keysIn h

/-! ## Cases -/

/-- The index keys on the heap: block, bytes, number of users. -/
def keyBlocks (hp : TreeHeap) : List (Nat × Key × Nat) :=
  (List.range hp.next).filterMap fun i => match hp.block i with
    | some (.mkey b n) => some (i, b, n)
    | _ => none

/-- Anchors "bcd" and "bd" come and "bcd" goes: the nodes "bc" and "bcd" go with it, but the node "b" still has its key in the copy of "bcd",
which therefore stays with two users. -/
example : ∃ s, PairHist s [[], [98, 100]] ∧ keyBlocks s.heap = [(0, [], 2), (1, [98, 99, 100], 2), (2, [98, 100], 2)] ∧
    s.cur.keys = [([98, 100], 2), ([98], 1), ([], 0)] := by
  obtain ⟨s0, e0, -⟩ := Both.create (hp := TreeHeap.empty) (fun _ _ => rfl) (fun _ _ _ e => by cases e)
  have h0 := PairHist.create (hp := TreeHeap.empty) (fun _ _ => rfl) (fun _ _ _ e => by cases e) e0
  obtain ⟨s1, e1, h1, -⟩ := C56_index_split (A := []) (B := []) (p := []) (a := [98, 99, 100]) h0 ⟨rfl, by decide, by decide⟩
  obtain ⟨s2, e2, h2, -⟩ := C56_index_split (A := [[]]) (B := []) (p := [98, 99, 100]) (a := [98, 100]) h1 ⟨rfl, by decide, by decide⟩
  obtain ⟨s3, e3, h3, -⟩ := C56_index_merge (A := []) (B := [[98, 100]]) (p := []) (a := [98, 99, 100]) h2
  have h : ((((Tables.create TreeHeap.empty).bind fun s => s.split [] [98, 99, 100] none).bind fun s => s.split [98, 99, 100] [98, 100] none).bind fun s =>
    s.merge [] [98, 99, 100] (some [98, 100])).bind (fun s => .ok (keyBlocks s.heap, s.cur.keys)) =
      .ok ([(0, [], 2), (1, [98, 99, 100], 2), (2, [98, 100], 2)], [([98, 100], 2), ([98], 1), ([], 0)]) := by decide +kernel
  rw [e0, Res.bind_ok, show s0.split [] [98, 99, 100] none = .ok s1 from e1, Res.bind_ok,
    show s1.split [98, 99, 100] [98, 100] none = .ok s2 from e2, Res.bind_ok, show s2.merge [] [98, 99, 100] (some [98, 100]) = .ok s3 from e3,
    Res.bind_ok] at h
  obtain ⟨g1, g2⟩ := Prod.mk.inj (Res.ok.inj h)
  exact ⟨s3, h3, g1, g2⟩

/-- The node "b" gets its bitmap with "bd" and loses it when "bcd" goes. -/
example : ∃ x x' m m', IndexHist x [[], [98, 99, 100], [98, 100]] ∧ x.get [98] = some m ∧ m.bitmap ≠ none ∧
    IndexHist x' [[], [98, 100]] ∧ x'.get [98] = some m' ∧ m'.bitmap = none := by
  obtain ⟨x1, e1, h1⟩ := C47_split (A := []) (B := []) (p := []) (a := [98, 99, 100]) .empty ⟨rfl, by decide, by decide⟩
  obtain ⟨x2, e2, h2⟩ := C47_split (A := [[]]) (B := []) (p := [98, 99, 100]) (a := [98, 100]) h1 ⟨rfl, by decide, by decide⟩
  obtain ⟨x3, e3, h3⟩ := C47_merge (A := []) (B := [[98, 100]]) (p := []) (a := [98, 99, 100]) h2
  have node : ∀ {x : Index} {as : List Key}, IndexHist x as → [98, 100] ∈ as → ∃ m, x.get [98] = some m := by
    intro x as h ha
    exact Option.ne_none_iff_exists'.1 ((C47_nodes h [98]).2 ⟨_, ha, by decide⟩)
  obtain ⟨m, hm⟩ := node h2 (by decide)
  obtain ⟨m', hm'⟩ := node h3 (by decide)
  refine ⟨x2, x3, m, m', h2, hm, (C56_index_slab h2 hm).2 ⟨99, 100, by decide, ⟨[98, 99, 100], by decide, by decide⟩,
    ⟨[98, 100], by decide, by decide⟩⟩, h3, hm', ?_⟩
  by_contra hc
  obtain ⟨c, d, hne, ⟨a, ha, hpa⟩, b, hb, hpb⟩ := (C56_index_slab h3 hm').1 hc
  have one : ∀ (c : UInt8) (a : Key), a ∈ ([[], [98, 100]] : List Key) → [98] ++ [c] <+: a → c = 100 := by
    intro c a ha hp
    rcases List.mem_cons.1 ha with rfl | ha
    · have := hp.length_le
      simp at this
    · rw [List.mem_singleton.1 ha] at hp
      simpa using hp
  exact hne ((one c a ha hpa).trans (one d b hb hpb).symm)

/-- Two leaves after two splits and a merge; the key of the second counts four users. The destruction leaves one block. -/
example : ∃ s, (treeClient treeCalls true).onNewHeap looseTags = .ok (s, true) ∧ s.leaves.length = 2 ∧ s.pairs.length = 27 ∧
    s.nodes = [0, 36] ∧ (keyBlocks s.tabs.heap).map (fun e => (e.1, e.2.2)) = [(1, 2), (37, 4)] ∧
    ∃ hp, s.destroy = .ok hp ∧ ∀ i b, hp.block i = some b ↔ i = s.ref ∧ b = .ref := by
  set_option synthInstance.maxSize 512 in
  have h : ((treeClient treeCalls true).onNewHeap looseTags).bind (fun q => .ok (q.1.leaves.length, q.1.pairs.length, q.1.nodes,
    (keyBlocks q.1.tabs.heap).map (fun e => (e.1, e.2.2)), q.2)) = .ok (2, 27, [0, 36], [(1, 2), (37, 4)], true) := by decide +kernel
  obtain ⟨⟨s, b⟩, e, h⟩ := Res.bind_eq_ok h
  have h := Res.ok.inj h
  simp only [Prod.mk.injEq] at h
  obtain ⟨h1, h2, h3, h4, rfl⟩ := h
  exact ⟨s, e, h1, h2, h3, h4, C56_destroy_partial looseTags_sound (short_tree (treeCalls_le (by decide)) true).keysIn e⟩

/-- The filter of C49 and C50: 39 pairs in three leaves. -/
example : ∃ s q, runHeap looseTags (cfg95 5) (.var varKeys) strCalls = .ok (s, q) ∧ s.pairs.length = 39 ∧ s.nodes = [0, 71, 77] ∧
    q.2 = strAnswers := by
  have h : (runHeap looseTags (cfg95 5) (.var varKeys) strCalls).bind (fun q => .ok (q.1.pairs.length, q.1.nodes, q.2.2)) =
    .ok (39, [0, 71, 77], strAnswers) := by decide +kernel
  obtain ⟨⟨s, q⟩, e, h⟩ := Res.bind_eq_ok h
  have h := Res.ok.inj h
  simp only [Prod.mk.injEq] at h
  exact ⟨s, q, e, h⟩

end Verif.Props
