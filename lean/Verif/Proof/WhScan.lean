import Verif.Proof.IntStates
import Verif.Spec.IntRuns

/-!
# Visits of the whole tree
-/

namespace Verif

variable {t : Wh} {m : Tree}

theorem count_eq (h : WhRep t m) : t.count = m.length := by
  unfold Wh.count
  rw [(flat_perm t).length_eq, ← h.eq]

theorem scanLoop_spec {α : Type} (g : α → Key × Store → α) : ∀ (fuel : Nat) {t : Wh} {cur : Cursor} {n : Nat} (acc : α),
    WhRep t m → CurAt t m cur n → m.length - n < fuel →
    ∃ t', Wh.scanLoop g fuel t cur acc = .ok (t', (m.drop n).foldl g acc) ∧ WhRep t' m
  | 0, _, _, _, _, _, _, hf => by omega
  | fuel + 1, t, none, n, acc, h, hc, _ => by
    refine ⟨t, ?_, h⟩
    have : n = m.length := hc
    rw [Wh.scanLoop, this, List.drop_length]
    rfl
  | fuel + 1, t, some (i, is), n, acc, h, hc, hf => by
    obtain ⟨_, _, _, x, _, _, _, _, _, _, hx, _⟩ := CurAt.entry h hc
    have hn : n < m.length := (List.getElem?_eq_some_iff.1 hx).1
    obtain ⟨t1, c1, e1, h1, _, hc1⟩ := skip1_spec h hc
    obtain ⟨t2, e2, h2⟩ := scanLoop_spec g fuel (g acc x) h1 hc1 (by omega)
    refine ⟨t2, ?_, h2⟩
    rw [Wh.scanLoop]
    dsimp only
    rw [peek_spec h hc, treePeek, hx]
    dsimp only
    rw [Res.bind_ok, e1, Res.bind_ok]
    dsimp only
    rw [e2, List.drop_eq_getElem_cons hn, List.foldl_cons, (List.getElem?_eq_some_iff.1 hx).2]

theorem treeSeek_nil (m : Tree) : treeSeek m [] = 0 := by
  unfold treeSeek
  cases m with
  | nil => rfl
  | cons e m => rw [List.findIdx_cons]; simp [keyLe]

theorem scan_spec {α : Type} (g : α → Key × Store → α) (acc : α) (h : WhRep t m) :
    ∃ t', t.scan g acc = .ok (t', m.foldl g acc) ∧ WhRep t' m := by
  obtain ⟨t1, c1, e1, h1, _, hc1⟩ := seek_spec h (k := []) (Nat.zero_le _)
  rw [treeSeek_nil] at hc1
  obtain ⟨t2, e2, h2⟩ := scanLoop_spec g (t1.count + 1) acc h1 hc1 (by rw [count_eq h1]; omega)
  refine ⟨t2, ?_, h2⟩
  unfold Wh.scan
  rw [e1, Res.bind_ok]
  dsimp only
  rw [e2, List.drop_zero]

theorem write_cur {i is n : Nat} (hc : CurAt t m (some (i, is)) n) (st : Store) {m' : Tree} :
    CurAt (t.write (some (i, is)) st) m' (some (i, is)) n := by
  obtain ⟨l, hl, hs, hi, hn⟩ := hc
  unfold Wh.write
  dsimp only
  rw [hl]
  dsimp only
  have hlt : i < t.length := (List.getElem?_eq_some_iff.1 hl).1
  refine ⟨_, List.getElem?_set_self hlt, hs, hi, ?_⟩
  rw [hn]
  unfold off
  rw [List.take_set_of_le (Nat.le_refl _)]

theorem whShrinkLoop_spec (c : Cfg) (s' : Nat) : ∀ (fuel : Nat) {t : Wh} {m : Tree} {i is n : Nat},
    WhRep t m → CurAt t m (some (i, is)) n → m.length - n < fuel →
    ∃ t', whShrinkLoop c s' fuel t (some (i, is)) = .ok t' ∧
      WhRep t' (m.take n ++ (m.drop n).map fun e => (e.1, shrinkStore c e.2 s'))
  | 0, _, _, _, _, _, _, _, hf => by omega
  | fuel + 1, t, m, i, is, n, h, hc, hf => by
    obtain ⟨_, _, _, x, _, _, _, _, _, _, hx, _⟩ := CurAt.entry h hc
    have hn : n < m.length := (List.getElem?_eq_some_iff.1 hx).1
    have hx' : m[n] = x := (List.getElem?_eq_some_iff.1 hx).2
    have hw := write_spec h hc hx (shrinkStore c x.2 s')
    have hwc := write_cur hc (shrinkStore c x.2 s') (m' := m.set n (x.1, shrinkStore c x.2 s'))
    obtain ⟨t1, c1, e1, h1, _, hc1⟩ := skip1_spec hw hwc
    have hset : (m.set n (x.1, shrinkStore c x.2 s')).take (n + 1) = m.take n ++ [(x.1, shrinkStore c x.2 s')] := by
      have hlen : (m.take n).length = n := by rw [List.length_take]; omega
      rw [List.take_set, List.take_succ_eq_append_getElem hn, List.set_append_right n _ (Nat.le_of_eq hlen), hlen, Nat.sub_self]
      rfl
    have hdr : (m.set n (x.1, shrinkStore c x.2 s')).drop (n + 1) = m.drop (n + 1) := List.drop_set_of_lt (by omega)
    have hgoal : m.take n ++ (m.drop n).map (fun e => (e.1, shrinkStore c e.2 s')) =
        (m.set n (x.1, shrinkStore c x.2 s')).take (n + 1) ++
          ((m.set n (x.1, shrinkStore c x.2 s')).drop (n + 1)).map (fun e => (e.1, shrinkStore c e.2 s')) := by
      rw [hset, hdr, List.drop_eq_getElem_cons hn, List.map_cons, hx']
      simp
    rw [whShrinkLoop, peek_spec h hc, treePeek, hx]
    dsimp only
    rw [Res.bind_ok, e1, Res.bind_ok]
    dsimp only
    rw [hgoal]
    cases c1 with
    | none =>
      have hl : n + 1 = m.length := by
        have : n + 1 = (m.set n (x.1, shrinkStore c x.2 s')).length := hc1
        rw [this, List.length_set]
      refine ⟨t1, rfl, ?_⟩
      rw [hdr, hl, List.drop_length, List.take_of_length_le (by rw [List.length_set])]
      simpa using h1
    | some q =>
      obtain ⟨j, js⟩ := q
      exact whShrinkLoop_spec c s' fuel h1 hc1 (by rw [List.length_set]; omega)

theorem shrink_wh (c : Cfg) (s' : Nat) (h : WhRep t m) :
    RelRes Twin (whShrink ⟨c, t⟩ s') (shrinkInfixSize ⟨c, m⟩ s') := by
  obtain ⟨t1, c1, e1, h1, _, hc1⟩ := seek_spec h (k := []) (Nat.zero_le _)
  rw [treeSeek_nil] at hc1
  unfold whShrink shrinkInfixSize
  dsimp only
  rw [e1, Res.bind_ok]
  dsimp only
  by_cases hm : m = []
  · rw [if_pos hm]
    subst hm
    cases c1 with
    | none => trivial
    | some q =>
      obtain ⟨_, _, _, x, _, _, _, _, _, _, hx, _⟩ := CurAt.entry h1 hc1
      simp at hx
  · rw [if_neg hm]
    cases c1 with
    | none =>
      have : 0 = m.length := hc1
      exact absurd (List.length_eq_zero_iff.1 this.symm) hm
    | some q =>
      obtain ⟨t2, e2, h2⟩ := whShrinkLoop_spec c s' (t1.count + 1) h1 hc1 (by rw [count_eq h1]; omega)
      rw [e2, Res.bind_ok]
      exact ⟨rfl, by simpa using h2⟩

theorem size_wh (c : Cfg) (h : WhRep t m) : ∃ t', whSize ⟨c, t⟩ = .ok (⟨c, t'⟩, sizeOf true ⟨c, m⟩) ∧ WhRep t' m := by
  obtain ⟨t', e, h'⟩ := scan_spec (fun res e => res + sizeEntry true c e) (1 + 12 * 4) h
  refine ⟨t', ?_, h'⟩
  unfold whSize
  dsimp only
  rw [e, Res.bind_ok]
  rfl

theorem foldl_bytes (g : Key × Store → List UInt8) : ∀ (m : Tree) (acc : List UInt8),
    m.foldl (fun out e => out ++ g e) acc = acc ++ m.flatMap g
  | [], acc => by simp
  | e :: m, acc => by rw [List.foldl_cons, foldl_bytes g m, List.flatMap_cons, List.append_assoc]

theorem serialize_wh (c : Cfg) (seed lf : Nat) (h : WhRep t m) :
    ∃ t', whSerialize seed lf ⟨c, t⟩ = .ok (⟨c, t'⟩, serialize true seed lf ⟨c, m⟩) ∧ WhRep t' m := by
  obtain ⟨t', e, h'⟩ := scan_spec (fun out e => out ++ serializeEntry c e) (serializeMetadata true c.infixSize seed lf) h
  refine ⟨t', ?_, h'⟩
  unfold whSerialize serialize
  dsimp only
  rw [e, Res.bind_ok, foldl_bytes]

theorem deserLoop_wh (c : Cfg) : ∀ (fuel : Nat) {t : Wh} {m : Tree} {buf : List UInt8}, WhRep t m →
    (∀ k ∈ bufKeys c fuel buf, k.length ≤ 8) → (keysOf m ++ bufKeys c fuel buf).Nodup →
    RelRes WhRep (whDeserLoop c fuel t buf) (deserLoop c fuel m buf)
  | 0, _, _, _, _, _, _ => trivial
  | fuel + 1, t, m, buf, h, hs, hd => by
    rw [whDeserLoop, deserLoop]
    rw [bufKeys] at hs hd
    cases hr : readLe 4 buf with
    | ub => trivial
    | hang => trivial
    | ok q =>
      obtain ⟨len, buf⟩ := q
      rw [hr] at hs hd
      dsimp only at hs hd
      rw [Res.bind_ok, Res.bind_ok]
      dsimp only
      by_cases hl : len = 2 ^ 32 - 1
      · rw [if_pos hl, if_pos hl]; exact h
      · rw [if_neg hl] at hs hd
        rw [if_neg hl, if_neg hl]
        by_cases hg : len > 20000 ∨ buf.length < roundKeyLen len
        · rw [if_pos hg, if_pos hg]; trivial
        · rw [if_neg hg] at hs hd
          rw [if_neg hg, if_neg hg]
          cases hst : deserializeStore c (buf.drop (roundKeyLen len)) with
          | ub => trivial
          | hang => trivial
          | ok q =>
            obtain ⟨st, rest⟩ := q
            rw [hst] at hs hd
            dsimp only at hs hd
            rw [Res.bind_ok, Res.bind_ok]
            dsimp only
            have hnew : buf.take len ∉ keysOf m := fun hm =>
              (List.nodup_append.1 hd).2.2 _ hm _ List.mem_cons_self rfl
            obtain ⟨t1, e1, h1, _⟩ := put_spec h (hs _ List.mem_cons_self) (findable_of_not_mem h hnew) st
            rw [e1, Res.bind_ok]
            refine deserLoop_wh c fuel h1 (fun k hk => hs k (List.mem_cons_of_mem _ hk)) ?_
            rw [List.nodup_append] at hd ⊢
            refine ⟨h1.inc.nodup, (List.nodup_cons.1 hd.2.1).2, fun a ha b hb => ?_⟩
            rcases mem_treePut.1 ha with rfl | ha
            · rintro rfl; exact (List.nodup_cons.1 hd.2.1).1 hb
            · exact hd.2.2 a ha b (List.mem_cons_of_mem _ hb)

theorem deserialize_wh {buf : List UInt8} (hk : RestoreOK buf) : RelRes Twin (whDeserialize buf) (deserialize true buf) := by
  unfold whDeserialize deserialize
  cases hm : deserializeMetadata true buf with
  | ub => trivial
  | hang => trivial
  | ok q =>
    obtain ⟨s, x, rest⟩ := q
    rw [Res.bind_ok, Res.bind_ok]
    dsimp only
    obtain ⟨h1, h2⟩ := hk s x rest hm
    have := deserLoop_wh (cfg95 s) (rest.length + 1) (buf := rest) whEmpty_rep h1 (by simpa [keysOf] using h2)
    revert this
    generalize whDeserLoop (cfg95 s) (rest.length + 1) Wh.empty rest = X
    generalize deserLoop (cfg95 s) (rest.length + 1) [] rest = Y
    cases X <;> cases Y <;> intro hr <;> first | exact hr.elim | trivial

end Verif
