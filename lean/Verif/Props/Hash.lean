import Verif.Proof.WhHashLoop
import Verif.Props.Index

/-!
# C48: the hash table under the index
-/

namespace Verif.Props

variable {h : Key → Nat} {t : HTab} {S as : List Key} {k : Key}

/-- C48: a lookup finds the node of a prefix exactly if it was inserted and not deleted since. -/
theorem C48_get (H : HashHist h t S) (k : Key) : (t.get h k).map Ent.key = if k ∈ S then some k else none := by
  obtain ⟨T, hp, -⟩ := H.ok
  rw [T.get, if_congr hp.mem_iff rfl rfl]

/-- C48: the comparison of tags alone never misses a node. -/
theorem C48_peek (H : HashHist h t S) (hk : k ∈ S) : t.peek h k = true := by
  obtain ⟨T, hp, -⟩ := H.ok
  exact T.peek (hp.mem_iff.2 hk)

/-- C48: a deletion finds the node and takes away nothing else. -/
theorem C48_del (H : HashHist h t S) (hk : k ∈ S) : ∃ t', t.del h k = some t' ∧ ∀ q, (t'.get h q).map Ent.key =
    if q ∈ S ∧ q ≠ k then some q else none := by
  obtain ⟨T, hp, hn⟩ := H.ok
  obtain ⟨t', e⟩ := T.del (hp.mem_iff.2 hk)
  refine ⟨t', e, fun q => ?_⟩
  rw [C48_get (.del H hk e), if_congr (hn.mem_erase_iff.trans and_comm) rfl rfl]

/-- C48: an insertion never writes outside a bucket, and if it returns, the new node and all others are found, whatever was
moved and however often the table grew. -/
theorem C48_set (H : HashHist h t S) (hk : k ∉ S) (fuel : Nat) : t.set h fuel k ≠ .ub ∧ ∀ t', t.set h fuel k = .ok t' →
    ∀ q, (t'.get h q).map Ent.key = if q = k ∨ q ∈ S then some q else none :=
  ⟨(set_ok H.ok.1).1, fun t' e q => by rw [C48_get (.set H hk e), if_congr List.mem_cons rfl rfl]⟩

/-- C48: the tags fit their 16 bits and are not zero, so the first zero tag of a bucket ends it. -/
theorem C48_tags (H : HashHist h t S) {b : Nat} {e : Ent} (he : e ∈ t.bkt b) : 0 < e.tag ∧ e.tag < 65536 := by
  rw [(H.ok.1.loc b e he).1]
  exact pkey16_range _

/-- C48: with the nodes of the index in the table, the search by tags ends at the leaf where the key belongs. -/
theorem C48_jump {x : Index} (hx : IndexHist x as) (H : HashHist h t S) (hS : NodesOf as S) (key : Key) :
    ∃ r, indexJump (t.peek h) x key = .ok r ∧ Owns (· ∈ as) key r :=
  C47_find hx (fun q hq => C48_peek H ((hS q).2 ((C47_nodes hx q).1 hq))) key

/-- C48: without deletions and until the table first grows, the recursion of an insertion ends: it stores the node, or
finds no place and the table grows. Missing: tables with deletions (see `C48_false`), and tables that have grown. -/
theorem C48_returns_partial (H : HashGrow h t S) (hk : k ∉ S) : ∃ n, (∃ t', t.set h (n + 1) k = .ok t' ∧ HashGrow h t' (k :: S)) ∨
    ∀ m, n ≤ m → t.set h (m + 1) k = (t.expand h).bind fun t => t.set h m k := by
  obtain ⟨n, ⟨t', e, hm, -⟩ | e⟩ := set_tidy (k := k) H.hist.ok.1 H.tidy
  · exact ⟨n, Or.inl ⟨t', e, .set H hk e hm⟩⟩
  · exact ⟨n, Or.inr e⟩

/-- C48: at most sixteen prefixes with the same hash fit, however large the table. -/
theorem C48_room (H : HashHist h t S) (x : Nat) : (S.filter fun k => h k == x).length ≤ 16 := H.room x

/-! ## Runs -/

/-- Insert the missing ones of the given prefixes. -/
def addAll (h : Key → Nat) : List Key → HTab × List Key → Option (HTab × List Key)
  | [], q => some q
  | p :: ps, q =>
    if p ∈ q.2 then addAll h ps q
    else match q.1.set h 8 p with
      | .ok t => addAll h ps (t, p :: q.2)
      | _ => none

/-- Insert (`true`) all prefixes of an anchor, or delete (`false`) a node. -/
def hashRun (h : Key → Nat) : List (Bool × Key) → HTab × List Key → Option (HTab × List Key)
  | [], q => some q
  | (true, a) :: l, q => (addAll h a.inits q).bind (hashRun h l)
  | (false, k) :: l, q => if k ∈ q.2 then (q.1.del h k).bind fun t => hashRun h l (t, q.2.erase k) else none

theorem addAll_hist : ∀ {ps : List Key} {q q' : HTab × List Key}, HashHist h q.1 q.2 → addAll h ps q = some q' →
    HashHist h q'.1 q'.2
  | [], q, q', H, e => by cases e; exact H
  | p :: ps, q, q', H, e => by
    rw [addAll] at e
    by_cases hp : p ∈ q.2
    · rw [if_pos hp] at e; exact addAll_hist H e
    · rw [if_neg hp] at e
      cases hs : q.1.set h 8 p with
      | ub => rw [hs] at e; cases e
      | hang => rw [hs] at e; cases e
      | ok t => rw [hs] at e; exact addAll_hist (q := (t, p :: q.2)) (.set H hp hs) e

theorem hashRun_hist : ∀ {l : List (Bool × Key)} {q q' : HTab × List Key}, HashHist h q.1 q.2 → hashRun h l q = some q' →
    HashHist h q'.1 q'.2
  | [], q, q', H, e => by cases e; exact H
  | (true, a) :: l, q, q', H, e => by
    obtain ⟨q1, e1, e⟩ := Option.bind_eq_some_iff.1 e
    exact hashRun_hist (addAll_hist H e1) e
  | (false, k) :: l, q, q', H, e => by
    rw [hashRun] at e
    by_cases hk : k ∈ q.2
    · rw [if_pos hk] at e
      obtain ⟨t, e1, e⟩ := Option.bind_eq_some_iff.1 e
      exact hashRun_hist (q := (t, _)) (.del H hk e1) e
    · rw [if_neg hk] at e; cases e

/-- Whether `S` lists the prefixes of `as`. -/
def nodesOf (as S : List Key) : Bool := (as.all fun a => a.inits.all fun q => S.contains q) && S.all fun q => as.any fun a => q.isPrefixOf a

theorem nodesOf_sound (e : nodesOf as S = true) : NodesOf as S := by
  unfold nodesOf at e
  simp only [Bool.and_eq_true, List.all_eq_true, List.any_eq_true, List.contains_iff_mem, List.mem_inits,
    List.isPrefixOf_iff_prefix] at e
  exact fun q => ⟨e.2 q, fun ⟨a, ha, hq⟩ => e.1 a ha q hq⟩

/-- The usual check value of this checksum (with all bits inverted at the start and the end). -/
example : ([49, 50, 51, 52, 53, 54, 55, 56, 57] : List UInt8).foldl crc32cByte 0xFFFFFFFF ^^^ 0xFFFFFFFF = 0xE3069283 := by decide +kernel

/-! ## A recursion without end -/

/-- Anchors whose hashes lead to the buckets 5 and 9, in this order. -/
def loopX : List Key := [[174, 55, 32, 157], [161, 3, 115, 73], [65, 41, 106, 48], [78, 29, 57, 228], [129, 124, 88, 194],
  [142, 72, 11, 22], [110, 98, 18, 111]]

/-- Anchors whose hashes lead to the buckets 9 and 5. -/
def loopA : List Key := [[89, 23, 125, 190], [86, 35, 46, 106], [182, 9, 55, 19], [185, 61, 100, 199], [118, 92, 5, 225],
  [121, 104, 86, 53], [153, 66, 79, 76], [150, 118, 28, 152], [7, 129, 141, 0]]

/-- Sixteen leaves are split off, one is merged away, one more is split off, and the next one begun. -/
def loopRun : List (Bool × Key) :=
  (loopX.take 1 ++ loopA ++ loopX.drop 1).map (true, ·) ++
    [(false, [150]), (false, [150, 118]), (false, [150, 118, 28]), (false, [150, 118, 28, 152]), (true, [97, 86, 65, 187]),
     (true, [240, 161, 208])]

/-- The anchors in the end, the last one but for its last byte. -/
def loopAnchors : List Key := loopX ++ loopA.eraseIdx 7 ++ [[97, 86, 65, 187], [240, 161, 208]]

/-- A test for `Stuck`. -/
def stuck (h : Key → Nat) (t : HTab) (V : List Nat) : Bool := V.all fun v => (t.bkt v).length == 8 &&
  (t.bkt v).all (fun f => V.contains (t.other h v f)) && (t.bkt v).any fun f => t.first h f.key != v

theorem stuck_sound {V : List Nat} (e : stuck h t V = true) : Stuck h t (· ∈ V) := by
  unfold stuck at e
  simp only [List.all_eq_true, Bool.and_eq_true, List.any_eq_true, List.contains_iff_mem, beq_iff_eq, bne_iff_ne] at e
  exact ⟨fun v hv => (e v hv).1.1, fun v hv => (e v hv).1.2, fun v hv => (e v hv).2⟩

/-- The last prefix of the next anchor. -/
def loopNext : Key := [240, 161, 208, 35]

theorem loop_sample : ((hashRun crc32c loopRun (HTab.init, [])).map fun q => nodesOf loopAnchors q.2 &&
    nodesOf (loopNext :: loopAnchors) (loopNext :: q.2) && stuck crc32c q.1 [5, 9] &&
    decide (q.1.first crc32c loopNext ∈ [5, 9]) && decide (loopNext ∉ q.2)) = some true := by
  decide +kernel

/-- C48: with the hash function of the code, the recursion of an insertion may never end. The table has the nodes of
sixteen anchors, and came from splits and one merge of leaves; the node is the last one of the next anchor. -/
theorem C48_false : ∃ t S as k, HashHist crc32c t S ∧ NodesOf as S ∧ k ∉ S ∧ NodesOf (k :: as) (k :: S) ∧
    ∀ fuel, t.set crc32c fuel k = .hang := by
  obtain ⟨q, e, hq⟩ := Option.map_eq_some_iff.1 loop_sample
  simp only [Bool.and_eq_true, decide_eq_true_eq] at hq
  obtain ⟨⟨⟨⟨h1, h2⟩, h3⟩, h4⟩, h5⟩ := hq
  exact ⟨q.1, q.2, _, loopNext, hashRun_hist .init e, nodesOf_sound h1, h5, nodesOf_sound h2, set_stuck (stuck_sound h3) h4⟩

/-! ## Seventeen equal hashes -/

/-- Anchors with the same hash. -/
def twins : List Key := [[0, 32, 162, 74, 99], [1, 35, 33, 33, 145], [2, 215, 210, 113, 130], [3, 212, 81, 26, 112],
  [4, 63, 53, 208, 164], [5, 60, 182, 187, 86], [6, 200, 69, 235, 69], [7, 203, 198, 128, 183], [8, 239, 250, 147, 233],
  [9, 236, 121, 248, 27], [10, 24, 138, 168, 8], [11, 27, 9, 195, 250], [12, 240, 109, 9, 46], [13, 243, 238, 98, 220],
  [14, 7, 29, 50, 207], [15, 4, 158, 89, 61], [16, 79, 101, 20]]

/-- One more. -/
def twinNext : Key := [16, 79, 101, 20, 115]

theorem twin_sample : ((hashRun crc32c (twins.map (true, ·)) (HTab.init, [])).map fun q => nodesOf twins q.2 &&
    nodesOf (twinNext :: twins) (twinNext :: q.2) && decide (twinNext ∉ q.2) &&
    decide (((twinNext :: q.2).filter fun k => crc32c k == 0x12345678).length = 17)) = some true := by
  decide +kernel

/-- C48: even without merges the insertion of some node never returns: with seventeen equal hashes the table grows until the
process is ended. -/
theorem C48_false_room : ∃ t S as k, HashHist crc32c t S ∧ NodesOf as S ∧ k ∉ S ∧ NodesOf (k :: as) (k :: S) ∧
    ∀ fuel, t.set crc32c fuel k = .hang := by
  obtain ⟨q, e, hq⟩ := Option.map_eq_some_iff.1 twin_sample
  simp only [Bool.and_eq_true, decide_eq_true_eq] at hq
  obtain ⟨⟨⟨h1, h2⟩, h3⟩, h4⟩ := hq
  have H : HashHist crc32c q.1 q.2 := hashRun_hist .init e
  refine ⟨q.1, q.2, _, twinNext, H, nodesOf_sound h1, h3, nodesOf_sound h2, fun fuel => ?_⟩
  cases hs : q.1.set crc32c fuel twinNext with
  | ub => exact absurd hs (C48_set H h3 fuel).1
  | hang => rfl
  | ok t' =>
    have := C48_room (.set H h3 hs) 0x12345678
    omega

/-! ## Cases -/

theorem addAll_mask : ∀ {ps : List Key} {q q' : HTab × List Key}, HashHist h q.1 q.2 → addAll h ps q = some q' →
    q.1.mask ≤ q'.1.mask
  | [], q, q', _, e => by cases e; exact Nat.le_refl _
  | p :: ps, q, q', H, e => by
    rw [addAll] at e
    by_cases hp : p ∈ q.2
    · rw [if_pos hp] at e; exact addAll_mask H e
    · rw [if_neg hp] at e
      cases hs : q.1.set h 8 p with
      | ub => rw [hs] at e; cases e
      | hang => rw [hs] at e; cases e
      | ok t =>
        rw [hs] at e
        exact Nat.le_trans ((set_ok H.ok.1).2 t hs).2.2 (addAll_mask (q := (t, p :: q.2)) (.set H hp hs) e)

theorem addAll_grow : ∀ {ps : List Key} {q q' : HTab × List Key}, HashGrow h q.1 q.2 → addAll h ps q = some q' →
    q'.1.mask = q.1.mask → HashGrow h q'.1 q'.2
  | [], q, q', H, e, _ => by cases e; exact H
  | p :: ps, q, q', H, e, hm => by
    rw [addAll] at e
    by_cases hp : p ∈ q.2
    · rw [if_pos hp] at e; exact addAll_grow H e hm
    · rw [if_neg hp] at e
      cases hs : q.1.set h 8 p with
      | ub => rw [hs] at e; cases e
      | hang => rw [hs] at e; cases e
      | ok t =>
        rw [hs] at e
        have h1 := addAll_mask (q := (t, p :: q.2)) (.set H.hist hp hs) e
        have h2 := ((set_ok H.hist.ok.1).2 t hs).2.2
        dsimp only at h1
        have h3 : t.mask = q.1.mask := by omega
        exact addAll_grow (q := (t, p :: q.2)) (.set H hp hs h3) e (by dsimp only; omega)

theorem full_sample : ((addAll crc32c ((loopX.take 1 ++ loopA ++ loopX.drop 1).flatMap List.inits) (HTab.init, [])).map fun q =>
    nodesOf (loopX ++ loopA) q.2 && decide (q.1.mask = 4095) && decide ((q.1.bkt 5).length = 8 ∧ (q.1.bkt 9).length = 8) &&
    decide ((q.1.bkt 5).map Ent.key = loopX.take 1 ++ loopA.take 1 ++ loopX.drop 1) && decide ([97, 86, 65, 187] ∉ q.2)) =
      some true := by
  decide +kernel

/-- Two full buckets after a node was moved from its first bucket 9 to bucket 5: it is found and can be deleted; the next
node is stored or the table grows. -/
example : ∃ t S, HashGrow crc32c t S ∧ NodesOf (loopX ++ loopA) S ∧ (t.bkt 5).length = 8 ∧ (t.bkt 9).length = 8 ∧
    [89, 23, 125, 190] ∈ (t.bkt 5).map Ent.key ∧ t.first crc32c [89, 23, 125, 190] ≠ 5 ∧
    (t.get crc32c [89, 23, 125, 190]).map Ent.key = some [89, 23, 125, 190] ∧ t.peek crc32c [89, 23, 125, 190] = true ∧
    (∃ t', t.del crc32c [89, 23, 125, 190] = some t') ∧ [97, 86, 65, 187] ∉ S ∧
    (t.get crc32c [97, 86, 65, 187]).map Ent.key = none ∧ t.set crc32c 8 [97, 86, 65, 187] ≠ .ub := by
  obtain ⟨q, e, hq⟩ := Option.map_eq_some_iff.1 full_sample
  simp only [Bool.and_eq_true, decide_eq_true_eq] at hq
  obtain ⟨⟨⟨⟨h1, h2⟩, h3⟩, h4⟩, h5⟩ := hq
  have G : HashGrow crc32c q.1 q.2 := addAll_grow .init e h2
  have hS := nodesOf_sound h1
  have hm : [89, 23, 125, 190] ∈ q.2 := (hS _).2 ⟨[89, 23, 125, 190], by decide, by decide⟩
  obtain ⟨t', hd, -⟩ := C48_del G.hist hm
  exact ⟨q.1, q.2, G, hS, h3.1, h3.2, by rw [h4]; decide, by unfold HTab.first; rw [h2]; decide +kernel,
    by rw [C48_get G.hist, if_pos hm], C48_peek G.hist hm, ⟨t', hd⟩, h5, by rw [C48_get G.hist, if_neg h5], (C48_set G.hist h5 8).1⟩

theorem jump_sample : ((addAll crc32c [[], [98], [102], [102, 103]] (HTab.init, [])).map fun q => nodesOf [[], [98], [102, 103]] q.2) =
    some true := by
  decide +kernel

/-- A table with the nodes of the anchors "", "b", "fg". -/
example : ∃ x t S, IndexHist x [[], [98], [102, 103]] ∧ HashHist crc32c t S ∧ NodesOf [[], [98], [102, 103]] S ∧
    indexJump (t.peek crc32c) x [102, 97] = .ok [98] := by
  obtain ⟨x1, e1, h1⟩ := C47_split (A := []) (B := []) (a := [98]) .empty (by unfold Ladder; decide)
  obtain ⟨x2, e2, h2⟩ := C47_split (A := [[]]) (B := []) (a := [102, 103]) h1 (by unfold Ladder; decide)
  obtain ⟨q, e, hq⟩ := Option.map_eq_some_iff.1 jump_sample
  have H : HashHist crc32c q.1 q.2 := addAll_hist .init e
  obtain ⟨r, hr, ho⟩ := C48_jump h2 H (nodesOf_sound hq) [102, 97]
  refine ⟨x2, q.1, q.2, h2, H, nodesOf_sound hq, ?_⟩
  rw [hr, ho.unique (r' := [98]) (by unfold Owns; decide)]

end Verif.Props
