import Verif.Proof.IntRuns
import Verif.Proof.StreamLost

/-!
# The last streamed key can be in the integer tree twice
-/

namespace Verif

section
variable {a z f x k : Key} {st : Store}

/-- A key is looked for in the sorted slot and the one behind it; then it is appended. -/
theorem put_behind {e y : Key × Store} {rest : List (Key × Store)} {nr : Nat} (h2 : 2 ≤ nr) (h32 : nr < 32)
    (h1 : ¬ compareKeys k e.1 ≤ 0) (hy : ¬ compareKeys k y.1 = 0) :
    Wh.put [⟨[], e :: y :: rest, nr, 1⟩] k st = .ok [⟨[], (e :: y :: rest).set nr (k, st), nr + 1, 1⟩] := by
  have hj : Wh.jump [(⟨[], e :: y :: rest, nr, 1⟩ : Leaf)] k = 0 := by
    unfold Wh.jump
    rw [List.findIdx_cons]
    cases keyLt k [] <;> simp
  unfold Wh.put
  rw [hj]
  dsimp only [List.getElem?_cons_zero]
  unfold Leaf.searchEq Leaf.search
  simp only [leafLoop]
  rw [if_pos (by norm_num), show (((-1 : Int) + ((1 : Nat) : Int)) / 2).toNat = 0 by decide]
  simp only [List.getElem?_cons_zero]
  rw [if_neg h1, if_neg (by norm_num), Res.bind_ok, show ((1 : Nat) : Int).toNat = 1 by decide, if_pos (by omega)]
  simp only [List.getElem?_cons_succ, List.getElem?_cons_zero]
  rw [if_neg hy, Res.bind_ok]
  dsimp only
  rw [if_pos h32]
  unfold Leaf.append
  rw [if_neg (by dsimp only; omega), Res.bind_ok, if_neg (by dsimp only; omega)]
  rfl

theorem put_before {sa : Store} {rest : List (Key × Store)} (h : compareKeys k a < 0) (h' : ¬ compareKeys a k ≤ 0) :
    Wh.put [⟨[], (a, sa) :: rest, 1, 1⟩] k st = .ok [⟨[], ((a, sa) :: rest).set 1 (k, st), 2, 1⟩] := by
  have hj : Wh.jump [(⟨[], (a, sa) :: rest, 1, 1⟩ : Leaf)] k = 0 := by
    unfold Wh.jump
    rw [List.findIdx_cons]
    cases keyLt k [] <;> simp
  unfold Wh.put
  rw [hj]
  dsimp only [List.getElem?_cons_zero]
  unfold Leaf.searchEq Leaf.search
  simp only [leafLoop]
  rw [if_pos (by norm_num), show (((-1 : Int) + ((1 : Nat) : Int)) / 2).toNat = 0 by decide]
  simp only [List.getElem?_cons_zero]
  rw [if_pos (by omega), if_neg (by norm_num), Res.bind_ok, if_pos (by norm_num)]
  simp only [List.getElem?_cons_zero]
  rw [if_neg (by omega), Res.bind_ok]
  dsimp only
  rw [if_pos (by norm_num)]
  unfold Leaf.append
  rw [if_neg (by norm_num), Res.bind_ok, if_pos rfl, if_pos (by norm_num)]
  simp only [Nat.sub_self, List.getD_cons_zero]
  rw [if_neg h']
  rfl

/-- The leaf after the last call. -/
def twiceLeaf (a z f x : Key) (sa s sx : Store) : Leaf :=
  ⟨[], (a, sa) :: (z, s) :: (f, s) :: (x, sx) :: (f, s) :: List.replicate 27 ([], Store.zero), 5, 1⟩

theorem twice_puts (sa s sx : Store) (hza : keyLt z a = true) (hax : keyLt a x = true) (hxf : keyLt x f = true)
    (ha : a.length ≤ 8) (hz : z.length ≤ 8) (hx : x.length ≤ 8) (hf : f.length ≤ 8) :
    ((Wh.empty.put a sa).bind fun t => (t.put z s).bind fun t => (t.put f s).bind fun t => (t.put x sx).bind fun t => t.put f s) =
      .ok [twiceLeaf a z f x sa s sx] := by
  have p : ∀ {k k' : Key}, k.length ≤ 8 → k'.length ≤ 8 → keyLt k k' = true → ¬ compareKeys k' k ≤ 0 := fun h1 h2 h =>
    by have := (compareKeys_pos h2 h1).2 h; omega
  have q : ∀ {k k' : Key}, k.length ≤ 8 → k'.length ≤ 8 → keyLt k k' = true → ¬ compareKeys k' k = 0 := fun h1 h2 h =>
    by have := p h1 h2 h; omega
  have haf := keyLt_trans' hax hxf
  rw [put_empty, Res.bind_ok]
  have e1 : (Leaf.new []).slots.set 0 (a, sa) = (a, sa) :: List.replicate 31 ([], Store.zero) := rfl
  rw [e1, put_before ((compareKeys_neg hz ha).2 hza) (p hz ha hza), Res.bind_ok]
  have e2 : ((a, sa) :: List.replicate 31 (([] : Key), Store.zero)).set 1 (z, s) =
    (a, sa) :: (z, s) :: List.replicate 30 ([], Store.zero) := rfl
  rw [e2, put_behind (by omega) (by omega) (p ha hf haf) (q hz hf (keyLt_trans' hza haf)), Res.bind_ok,
    show ((a, sa) :: (z, s) :: List.replicate 30 (([] : Key), Store.zero)).set 2 (f, s) =
      (a, sa) :: (z, s) :: (f, s) :: List.replicate 29 ([], Store.zero) from rfl,
    put_behind (by omega) (by omega) (p ha hx hax) (q hz hx (keyLt_trans' hza hax)), Res.bind_ok,
    show ((a, sa) :: (z, s) :: (f, s) :: List.replicate 29 (([] : Key), Store.zero)).set 3 (x, sx) =
      (a, sa) :: (z, s) :: (f, s) :: (x, sx) :: List.replicate 28 ([], Store.zero) from rfl,
    put_behind (by omega) (by omega) (p ha hf haf) (q hz hf (keyLt_trans' hza haf))]
  rfl

/-- Visiting the tree shows the key twice. -/
theorem twice_scan {α : Type} (g : α → Key × Store → α) (acc : α) (sa s sx : Store) (hza : keyLt z a = true)
    (hax : keyLt a x = true) (hxf : keyLt x f = true) (ha : a.length ≤ 8) (hz : z.length ≤ 8) (hx : x.length ≤ 8) (hf : f.length ≤ 8) :
    ∃ t, Wh.scan g [twiceLeaf a z f x sa s sx] acc =
      .ok (t, g (g (g (g (g acc (z, s)) (a, sa)) (x, sx)) (f, s)) (f, s)) := by
  have cp : ∀ {k k' : Key}, k.length ≤ 8 → k'.length ≤ 8 → keyLt k k' = true → 0 < compareKeys k' k := fun h1 h2 h =>
    (compareKeys_pos h2 h1).2 h
  have cn : ∀ {k k' : Key}, k.length ≤ 8 → k'.length ≤ 8 → keyLt k k' = true → compareKeys k k' < 0 := fun h1 h2 h =>
    (compareKeys_neg h1 h2).2 h
  have hzx := keyLt_trans' hza hax
  have hzf := keyLt_trans' hzx hxf
  have haf := keyLt_trans' hax hxf
  have hff : compareKeys f f = 0 := (compareKeys_zero hf hf).2 rfl
  have hsort : slotSort [(z, s), (f, s), (x, sx), (f, s)] = [(z, s), (x, sx), (f, s), (f, s)] := by
    simp only [slotSort, slotInsert]
    rw [if_pos (by have := cn hx hf hxf; omega)]
    simp only [slotInsert]
    rw [if_neg (by have := cp hx hf hxf; omega), if_pos (by omega)]
    simp only [slotInsert]
    rw [if_pos (by have := cn hz hx hzx; omega)]
  have hmerge : mergeSlots 64 [(a, sa)] [(z, s), (x, sx), (f, s), (f, s)] =
      .ok [(z, s), (a, sa), (x, sx), (f, s), (f, s)] := by
    rw [mergeSlots, if_neg (by have := cp hz ha hza; dsimp only; omega), if_pos (cp hz ha hza), mergeSlots,
      if_pos (cn ha hx hax), mergeSlots, Res.bind_ok, Res.bind_ok]
  have hsync : (twiceLeaf a z f x sa s sx).sync =
      .ok ⟨[], (z, s) :: (a, sa) :: (x, sx) :: (f, s) :: (f, s) :: List.replicate 27 ([], Store.zero), 5, 5⟩ := by
    unfold Leaf.sync
    rw [if_neg (by simp [twiceLeaf]), if_neg (by simp [twiceLeaf])]
    have e1 : List.take (twiceLeaf a z f x sa s sx).sorted (twiceLeaf a z f x sa s sx).entries = [(a, sa)] := rfl
    have e2 : List.drop (twiceLeaf a z f x sa s sx).sorted (twiceLeaf a z f x sa s sx).entries =
      [(z, s), (f, s), (x, sx), (f, s)] := rfl
    rw [e1, e2, hsort, hmerge, Res.bind_ok]
    rfl
  have hnil : ∀ k : Key, k.length ≤ 8 → compareKeys [] k ≤ 0 := fun k hk => (compareKeys_le (by simp) hk).2 rfl
  refine ⟨[⟨[], (z, s) :: (a, sa) :: (x, sx) :: (f, s) :: (f, s) :: List.replicate 27 ([], Store.zero), 5, 5⟩], ?_⟩
  have hseek : Wh.seek [twiceLeaf a z f x sa s sx] [] =
      .ok ([⟨[], (z, s) :: (a, sa) :: (x, sx) :: (f, s) :: (f, s) :: List.replicate 27 ([], Store.zero), 5, 5⟩], some (0, 0)) := by
    unfold Wh.seek
    have hj : Wh.jump [twiceLeaf a z f x sa s sx] [] = 0 := rfl
    rw [hj]
    dsimp only [List.getElem?_cons_zero]
    rw [hsync, Res.bind_ok]
    unfold Leaf.search
    simp only [leafLoop]
    rw [if_pos (by norm_num), show (((-1 : Int) + ((5 : Nat) : Int)) / 2).toNat = 2 by decide]
    simp only [List.getElem?_cons_zero, List.getElem?_cons_succ]
    rw [if_pos (hnil x hx), if_pos (by norm_num),
      show (((-1 : Int) + ((-1 : Int) + ((5 : Nat) : Int)) / 2) / 2).toNat = 0 by decide]
    simp only [List.getElem?_cons_zero]
    rw [if_pos (hnil z hz), if_neg (by norm_num), Res.bind_ok]
    rfl
  unfold Wh.scan
  rw [hseek, Res.bind_ok]
  rfl

theorem whStream_collect (w : WhFilter) (left : Key) : ∀ (L keys : List Key) (mx : Nat), keys.length + L.length ≤ 1023 →
    L.foldl (fun r k => Res.bind r fun (f, b) => whStreamKey f b k) (Res.ok (w, ⟨some left, keys, mx⟩)) =
      .ok (w, ⟨some left, keys ++ L, L.foldl (fun m k => max m k.length) mx⟩) := by
  intro L
  induction L with
  | nil => intro keys mx _; simp
  | cons k L ih =>
    intro keys mx h
    simp only [List.length_cons] at h
    simp only [List.foldl_cons, Res.bind_ok]
    have : whStreamKey w ⟨some left, keys, mx⟩ k = .ok (w, ⟨some left, keys ++ [k], max mx k.length⟩) := by
      unfold whStreamKey
      dsimp only
      rw [if_pos (by omega)]
    rw [this, ih _ _ (by simp; omega)]
    simp

theorem getFrame_some {s : Nat} {a b : Key} (h : keyLt a b = true) (hl : a.length = b.length) : ∃ fr, getFrame s a b = .ok fr := by
  unfold getFrame
  cases e : sharedIgnoreImplicit a b with
  | none =>
    rw [padEq_length (sii_none.1 e) hl, keyLt_irrefl] at h
    cases h
  | some v => exact ⟨_, rfl⟩

/-- Both trees after streaming 1026 to 2048 keys. -/
theorem stream_twice {n : Nat} (c : Cfg) (hn : n ≤ 8) {A B : List Key} (hA : A.length = 1023) (hB : B.length ≤ 1022)
    (hlen : ∀ k ∈ a :: (A ++ x :: B), k.length = n) (hza : keyLt (List.replicate n 0) a = true) (hax : keyLt a x = true)
    (hxf : keyLt x (List.replicate n 255) = true) : ∃ sa sx,
    whStreamAll c (a :: (A ++ x :: (B ++ [List.replicate n 255]))) =
      .ok ⟨c, [twiceLeaf a (List.replicate n 0) (List.replicate n 255) x sa (Store.new growSep) sx]⟩ ∧
    streamAll c (a :: (A ++ x :: (B ++ [List.replicate n 255]))) =
      .ok ⟨c, [(List.replicate n 0, Store.new growSep), (a, sa), (x, sx), (List.replicate n 255, Store.new growSep)]⟩ := by
  have ha : a.length = n := hlen a (by simp)
  have hx : x.length = n := hlen x (by simp)
  have hAn : ∀ k ∈ A, k.length = n := fun k hk => hlen k (by simp [hk])
  have hBn : ∀ k ∈ B ++ [List.replicate n 255], k.length = n := by
    intro k hk
    rcases List.mem_append.1 hk with hk | hk
    · exact hlen k (by simp [hk])
    · rw [List.mem_singleton.1 hk]; exact List.length_replicate
  obtain ⟨fr1, e1⟩ := getFrame_some (s := c.infixSize) hax (ha.trans hx.symm)
  obtain ⟨fr2, e2⟩ := getFrame_some (s := c.infixSize) hxf (by rw [hx, List.length_replicate])
  generalize hsa : loadList c (Store.new growSep) (bulkItems c.infixSize fr1 A) fr1.total false = sa
  generalize hsx : loadList c (Store.new (findGrade c B.length 500 0)) (bulkItems c.infixSize fr2 B) fr2.total false = sx
  refine ⟨sa, sx, ?_, ?_⟩
  · unfold whStreamAll
    have f1 : whStreamKey ⟨c, Wh.empty⟩ ⟨none, [], 0⟩ a = .ok (⟨c, Wh.empty⟩, ⟨some a, [], n⟩) := by
      unfold whStreamKey; simp [ha]
    have f2 : ∀ t, Wh.empty.put a sa = .ok t → whStreamKey ⟨c, Wh.empty⟩ ⟨some a, A, n⟩ x = .ok (⟨c, t⟩, ⟨some x, [], n⟩) := by
      intro t ht
      unfold whStreamKey
      dsimp only
      unfold whBulkRegion
      rw [if_neg (by omega), e1, Res.bind_ok, hsa, ht, Res.bind_ok, hx, Nat.max_self]
    have hp := twice_puts sa (Store.new growSep) sx hza hax hxf (by omega) (by simpa using hn) (by omega) (by simpa using hn)
    obtain ⟨t, ht, hp⟩ := Res.bind_eq_ok hp
    rw [List.foldl_cons, List.foldl_append, List.foldl_cons, Res.bind_ok]
    dsimp only
    rw [f1, whStream_collect _ _ _ _ _ (by simp; omega), foldl_max_const hAn, List.nil_append, Res.bind_ok]
    dsimp only
    rw [f2 t ht, whStream_collect _ _ _ _ _ (by simp; omega), foldl_max_const hBn, Res.bind_ok, List.nil_append]
    dsimp only
    unfold whStreamFinish whAddTreeKey whBulkRegion
    rw [if_neg (by simp)]
    simp only [List.getLastD_concat, List.dropLast_concat, Option.getD_some]
    obtain ⟨t1, ht1, hp⟩ := Res.bind_eq_ok hp
    obtain ⟨t2, ht2, hp⟩ := Res.bind_eq_ok hp
    obtain ⟨t3, ht3, hp⟩ := Res.bind_eq_ok hp
    rw [e2, ht1, Res.bind_ok, ht2, Res.bind_ok, if_pos (by simp), Res.bind_ok, hsx, ht3, Res.bind_ok, hp]
    rfl
  · unfold streamAll
    have f1 : streamKey ⟨c, []⟩ ⟨none, [], 0⟩ a = .ok (⟨c, []⟩, ⟨some a, [], n⟩) := by
      unfold streamKey; simp [ha]
    have f2 : streamKey ⟨c, []⟩ ⟨some a, A, n⟩ x = .ok (⟨c, [(a, sa)]⟩, ⟨some x, [], n⟩) := by
      unfold streamKey
      dsimp only
      unfold bulkRegion
      rw [if_neg (by omega), e1, Res.bind_ok, hsa, Res.bind_ok, hx, Nat.max_self]
      rfl
    rw [List.foldl_cons, List.foldl_append, List.foldl_cons, Res.bind_ok]
    dsimp only
    rw [f1, stream_collect _ _ _ _ _ (by simp; omega), foldl_max_const hAn, List.nil_append, Res.bind_ok]
    dsimp only
    rw [f2, stream_collect _ _ _ _ _ (by simp; omega), foldl_max_const hBn, Res.bind_ok, List.nil_append]
    dsimp only
    unfold streamFinish addTreeKey bulkRegion
    rw [if_neg (by simp)]
    simp only [List.getLastD_concat, List.dropLast_concat, Option.getD_some]
    rw [e2, if_pos (by simp)]
    simp only [Res.bind_ok]
    rw [hsx]
    have haf := keyLt_trans' hax hxf
    have hzf := keyLt_trans' hza haf
    have hzx := keyLt_trans' hza hax
    have ne : ∀ {k k' : Key}, keyLt k k' = true → (k' == k) = false := fun h => by
      rw [beq_eq_false_iff_ne]
      rintro rfl
      rw [keyLt_irrefl] at h
      cases h
    have g1 : treePut [(a, sa)] (List.replicate n 0) (Store.new growSep) = [(List.replicate n 0, Store.new growSep), (a, sa)] := by
      rw [treePut, if_pos hza]
    have g2 : ∀ {k1 k2 k : Key} {s1 s2 s : Store}, keyLt k1 k = true → keyLt k2 k = true →
        treePut [(k1, s1), (k2, s2)] k s = [(k1, s1), (k2, s2), (k, s)] := by
      intro k1 k2 k s1 s2 s h1 h2
      simp only [treePut, keyLt_asymm h1, keyLt_asymm h2, ne h1, ne h2]
      simp
    have g3 : ∀ {k1 k2 k3 k : Key} {s1 s2 s3 s : Store}, keyLt k1 k = true → keyLt k2 k = true → keyLt k k3 = true →
        treePut [(k1, s1), (k2, s2), (k3, s3)] k s = [(k1, s1), (k2, s2), (k, s), (k3, s3)] := by
      intro k1 k2 k3 k s1 s2 s3 s h1 h2 h3
      simp only [treePut, keyLt_asymm h1, keyLt_asymm h2, ne h1, ne h2, h3]
      simp
    have g4 : ∀ {k1 k2 k3 k : Key} {s1 s2 s3 s4 s : Store}, keyLt k1 k = true → keyLt k2 k = true → keyLt k3 k = true →
        treePut [(k1, s1), (k2, s2), (k3, s3), (k, s4)] k s = [(k1, s1), (k2, s2), (k3, s3), (k, s)] := by
      intro k1 k2 k3 k s1 s2 s3 s4 s h1 h2 h3
      simp only [treePut, keyLt_asymm h1, keyLt_asymm h2, keyLt_asymm h3, ne h1, ne h2, ne h3, keyLt_irrefl]
      simp
    rw [g1, g2 hzf haf, g3 hzx hax hxf, g4 hzf haf hxf]

end

end Verif
