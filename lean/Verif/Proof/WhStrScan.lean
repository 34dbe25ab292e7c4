import Verif.Proof.WhStrMap
import Verif.Model.WhStrScan

/-!
# Visits of the whole tree
-/

namespace Verif.Str

variable {t : STree} {m : Tree}

theorem slotCount_eq (h : SRep t m) : slotCount t = m.length := by
  rw [← h.pairs.length_eq]
  unfold slotCount STree.pairs SLeaf.pairs
  rw [← List.map_flatMap, List.length_map]

theorem scanLoop_spec {α : Type} (g : α → Key × Store → α) : ∀ (fuel : Nat) {t : STree} {cur : Cursor} {n : Nat} (acc : α),
    SRep t m → CurAt t m cur n → m.length - n < fuel →
    ∃ t', STree.scanLoop g fuel t cur acc = .ok (t', (m.drop n).foldl g acc) ∧ SRep t' m
  | 0, _, _, _, _, _, _, hf => by omega
  | fuel + 1, t, none, n, acc, h, hc, _ => by
    refine ⟨t, ?_, h⟩
    have : n = m.length := hc
    rw [STree.scanLoop, this, List.drop_length]
    rfl
  | fuel + 1, t, some (i, is), n, acc, h, hc, hf => by
    obtain ⟨_, _, _, x, _, _, _, _, _, hx, _⟩ := CurAt.entry h hc
    have hn : n < m.length := (List.getElem?_eq_some_iff.1 hx).1
    obtain ⟨t1, c1, e1, h1, _, hc1⟩ := skip1_spec h hc
    obtain ⟨t2, e2, h2⟩ := scanLoop_spec g fuel (g acc x) h1 hc1 (by omega)
    refine ⟨t2, ?_, h2⟩
    rw [STree.scanLoop]
    dsimp only
    rw [peek_spec h hc, treePeek, hx]
    dsimp only
    rw [Res.bind_ok, e1, Res.bind_ok]
    dsimp only
    rw [e2, List.drop_eq_getElem_cons hn, List.foldl_cons, (List.getElem?_eq_some_iff.1 hx).2]

theorem treeSeek_nil (m : Tree) : treeSeek m [] = 0 := by
  unfold treeSeek
  cases m with
  | nil => rfl
  | cons e m => rw [List.findIdx_cons]; simp [keyLe]

theorem scan_spec {α : Type} (g : α → Key × Store → α) (acc : α) (h : SRep t m) :
    ∃ t', t.scan g acc = .ok (t', m.foldl g acc) ∧ SRep t' m := by
  obtain ⟨t1, c1, e1, h1, _, hc1⟩ := seek_spec h []
  rw [treeSeek_nil] at hc1
  obtain ⟨t2, e2, h2⟩ := scanLoop_spec g (slotCount t1 + 1) acc h1 hc1 (by rw [slotCount_eq h1]; omega)
  refine ⟨t2, ?_, h2⟩
  unfold STree.scan
  rw [e1, Res.bind_ok]
  dsimp only
  rw [e2, List.drop_zero]

theorem write_cur {i is n : Nat} (hc : CurAt t m (some (i, is)) n) (st : Store) {m' : Tree} :
    CurAt (t.write (some (i, is)) st) m' (some (i, is)) n := by
  obtain ⟨l, hl, hs, hi, hn⟩ := hc
  unfold STree.write
  dsimp only
  rw [hl]
  dsimp only
  have hlt : i < t.length := (List.getElem?_eq_some_iff.1 hl).1
  refine ⟨_, List.getElem?_set_self hlt, hs, hi, ?_⟩
  rw [hn]
  unfold off
  rw [List.take_set_of_le (Nat.le_refl _)]

theorem shrinkLoop_spec (c : Cfg) (s' : Nat) : ∀ (fuel : Nat) {t : STree} {m : Tree} {i is n : Nat},
    SRep t m → CurAt t m (some (i, is)) n → m.length - n < fuel →
    ∃ t', strShrinkLoop c s' fuel t (some (i, is)) = .ok t' ∧
      SRep t' (m.take n ++ (m.drop n).map fun e => (e.1, shrinkStore c e.2 s'))
  | 0, _, _, _, _, _, _, _, hf => by omega
  | fuel + 1, t, m, i, is, n, h, hc, hf => by
    obtain ⟨_, _, _, x, _, _, _, _, _, hx, _⟩ := CurAt.entry h hc
    have hn : n < m.length := (List.getElem?_eq_some_iff.1 hx).1
    have hx' : m[n] = x := (List.getElem?_eq_some_iff.1 hx).2
    have hw := write_spec h hc hx (shrinkStore c x.2 s')
    have hwc := write_cur hc (shrinkStore c x.2 s') (m' := m.set n (x.1, shrinkStore c x.2 s'))
    obtain ⟨t1, c1, e1, h1, _, hc1⟩ := skip1_spec hw hwc
    have hset : (m.set n (x.1, shrinkStore c x.2 s')).take (n + 1) = m.take n ++ [(x.1, shrinkStore c x.2 s')] := by
      have hlen : (m.take n).length = n := by rw [List.length_take]; omega
      rw [List.take_set, List.take_succ_eq_append_getElem hn, List.set_append_right n _ (Nat.le_of_eq hlen), hlen, Nat.sub_self]
      rfl
    have hdr : (m.set n (x.1, shrinkStore c x.2 s')).drop (n + 1) = m.drop (n + 1) := List.drop_set_of_lt (by omega)
    have hgoal : m.take n ++ (m.drop n).map (fun e => (e.1, shrinkStore c e.2 s')) =
        (m.set n (x.1, shrinkStore c x.2 s')).take (n + 1) ++
          ((m.set n (x.1, shrinkStore c x.2 s')).drop (n + 1)).map (fun e => (e.1, shrinkStore c e.2 s')) := by
      rw [hset, hdr, List.drop_eq_getElem_cons hn, List.map_cons, hx']
      simp
    rw [strShrinkLoop, peek_spec h hc, treePeek, hx]
    dsimp only
    rw [Res.bind_ok, e1, Res.bind_ok]
    dsimp only
    rw [hgoal]
    cases c1 with
    | none =>
      have hl : n + 1 = m.length := by
        have : n + 1 = (m.set n (x.1, shrinkStore c x.2 s')).length := hc1
        rw [this, List.length_set]
      refine ⟨t1, rfl, ?_⟩
      rw [hdr, hl, List.drop_length, List.take_of_length_le (by rw [List.length_set])]
      simpa using h1
    | some q =>
      obtain ⟨j, js⟩ := q
      exact shrinkLoop_spec c s' fuel h1 hc1 (by rw [List.length_set]; omega)

theorem shrink_str (c : Cfg) (s' : Nat) (h : SRep t m) (hb : Bounded m) :
    RelRes Twin (strShrink ⟨c, t⟩ s') (shrinkInfixSize ⟨c, m⟩ s') := by
  obtain ⟨t1, c1, e1, h1, _, hc1⟩ := seek_spec h []
  rw [treeSeek_nil] at hc1
  unfold strShrink shrinkInfixSize
  dsimp only
  rw [e1, Res.bind_ok]
  dsimp only
  by_cases hm : m = []
  · rw [if_pos hm]
    subst hm
    cases c1 with
    | none => trivial
    | some q =>
      obtain ⟨_, _, _, x, _, _, _, _, _, hx, _⟩ := CurAt.entry h1 hc1
      simp at hx
  · rw [if_neg hm]
    cases c1 with
    | none =>
      have : 0 = m.length := hc1
      exact absurd (List.length_eq_zero_iff.1 this.symm) hm
    | some q =>
      obtain ⟨t2, e2, h2⟩ := shrinkLoop_spec c s' (slotCount t1 + 1) h1 hc1 (by rw [slotCount_eq h1]; omega)
      rw [e2, Res.bind_ok]
      refine ⟨rfl, by simpa using h2, ?_⟩
      intro k hk
      refine hb k ?_
      rw [keysOf, List.map_map] at hk
      exact hk

theorem size_str (c : Cfg) (h : SRep t m) : ∃ t', strSize ⟨c, t⟩ = .ok (⟨c, t'⟩, sizeOf false ⟨c, m⟩) ∧ SRep t' m := by
  obtain ⟨t', e, h'⟩ := scan_spec (fun res e => res + sizeEntry false c e) (1 + 12 * 4) h
  refine ⟨t', ?_, h'⟩
  unfold strSize
  dsimp only
  rw [e, Res.bind_ok]
  rfl

theorem foldl_bytes (g : Key × Store → List UInt8) : ∀ (m : Tree) (acc : List UInt8),
    m.foldl (fun out e => out ++ g e) acc = acc ++ m.flatMap g
  | [], acc => by simp
  | e :: m, acc => by rw [List.foldl_cons, foldl_bytes g m, List.flatMap_cons, List.append_assoc]

theorem serialize_str (c : Cfg) (seed lf : Nat) (h : SRep t m) :
    ∃ t', strSerialize seed lf ⟨c, t⟩ = .ok (⟨c, t'⟩, serialize false seed lf ⟨c, m⟩) ∧ SRep t' m := by
  obtain ⟨t', e, h'⟩ := scan_spec (fun out e => out ++ serializeEntry c e) (serializeMetadata false c.infixSize seed lf) h
  refine ⟨t', ?_, h'⟩
  unfold strSerialize serialize
  dsimp only
  rw [e, Res.bind_ok, foldl_bytes]

theorem deserLoop_str (c : Cfg) : ∀ (fuel : Nat) {t : STree} {m : Tree} {buf : List UInt8}, SRep t m → Bounded m →
    RelRes (fun t m => SRep t m ∧ Bounded m) (strDeserLoop c fuel t buf) (deserLoop c fuel m buf)
  | 0, _, _, _, _, _ => trivial
  | fuel + 1, t, m, buf, h, hb => by
    rw [strDeserLoop, deserLoop]
    cases readLe 4 buf with
    | ub => trivial
    | hang => trivial
    | ok q =>
      obtain ⟨len, buf⟩ := q
      rw [Res.bind_ok, Res.bind_ok]
      dsimp only
      by_cases hl : len = 2 ^ 32 - 1
      · rw [if_pos hl, if_pos hl]; exact ⟨h, hb⟩
      · rw [if_neg hl, if_neg hl]
        by_cases hg : len > 20000 ∨ buf.length < roundKeyLen len
        · rw [if_pos hg, if_pos hg]; trivial
        · rw [if_neg hg, if_neg hg]
          cases deserializeStore c (buf.drop (roundKeyLen len)) with
          | ub => trivial
          | hang => trivial
          | ok q =>
            obtain ⟨st, rest⟩ := q
            rw [Res.bind_ok, Res.bind_ok]
            dsimp only
            have hk : (buf.take len).length ≤ 65535 := by rw [List.length_take]; omega
            obtain ⟨t1, e1, h1⟩ := wput_spec h hb hk st
            rw [e1, Res.bind_ok]
            exact deserLoop_str c fuel h1 (hb.put hk st)

theorem deserialize_str (buf : List UInt8) : RelRes Twin (strDeserialize buf) (deserialize false buf) := by
  unfold strDeserialize deserialize
  cases deserializeMetadata false buf with
  | ub => trivial
  | hang => trivial
  | ok q =>
    obtain ⟨s, x, rest⟩ := q
    rw [Res.bind_ok, Res.bind_ok]
    dsimp only
    have h0 : Bounded [] := fun k hk => by simp [keysOf] at hk
    have := deserLoop_str (cfg95 s) (rest.length + 1) (buf := rest) SRep.empty h0
    revert this
    generalize strDeserLoop (cfg95 s) (rest.length + 1) STree.empty rest = X
    generalize deserLoop (cfg95 s) (rest.length + 1) [] rest = Y
    cases X <;> cases Y <;> intro hr <;> first | exact hr.elim | trivial

end Verif.Str
