import Verif.Model.WhFull
import Verif.Proof.WhDrop
import Verif.Proof.IntStates

/-!
# The tree with the index does what the leaves do
-/

namespace Verif

/-- The anchors, in the order of the leaves. -/
def Wh.anchors (t : Wh) : List Key := t.map Leaf.anchor

/-- `s` holds the leaves `t` and their index. -/
structure Ix (s : WhMap) (t : Wh) : Prop where
  eq : s.leaves = t
  ladder : Ladder t.anchors
  idx : IdxOK s.index (· ∈ t.anchors)

theorem WhRep.ladder {t : Wh} {m : Tree} (h : WhRep t m) : Ladder t.anchors := by
  obtain ⟨l, t', rfl, e⟩ := h.first
  refine ⟨by simp [Wh.anchors, e], List.pairwise_map.2 h.anchors, fun a ha => ?_⟩
  obtain ⟨b, hb, rfl⟩ := List.mem_map.1 ha
  exact Nat.le_trans (h.alen b hb) (by decide)

theorem rising_sub {as bs : List Key} (s : as.Sublist bs) (h : Rising bs) : Rising as :=
  ⟨h.1.sublist s, fun a ha => h.2 a (s.subset ha)⟩

variable {tags : Tags} {s : WhMap} {t t' : Wh} {k : Key}

theorem Ladder.zip (h : Ladder t.anchors) (k : Key) : ∃ A l B, Zip t k A l B := by
  obtain ⟨l0, t', ht, ha⟩ : ∃ l0 t', t = l0 :: t' ∧ l0.anchor = [] := by
    cases t with
    | nil => simp [Ladder, Wh.anchors] at h
    | cons l0 t' => exact ⟨l0, t', rfl, by simpa [Wh.anchors] using h.1⟩
  have hanch := List.pairwise_map.1 h.2.1
  have hpos : 0 < t.findIdx (fun l => keyLt k l.anchor) := by
    rw [ht, List.findIdx_cons, ha]
    have : keyLt k [] = false := by cases k <;> rfl
    rw [this]
    simp
  have hle : t.findIdx (fun l => keyLt k l.anchor) ≤ t.length := List.findIdx_le_length
  have hj : t.jump k < t.length := by unfold Wh.jump; omega
  refine ⟨t.take (t.jump k), t[t.jump k], t.drop (t.jump k + 1), ?_, ?_, ?_, ?_⟩
  · rw [← List.drop_eq_getElem_cons hj, List.take_append_drop]
  · rw [List.length_take]; omega
  · have := List.not_of_lt_findIdx (p := fun l : Leaf => keyLt k l.anchor) (xs := t) (i := t.jump k)
      (by unfold Wh.jump; omega)
    rw [keyLe_iff_not_lt]
    simpa using this
  · intro b hb
    obtain ⟨i, hi, rfl⟩ := List.mem_iff_getElem.1 hb
    rw [List.length_drop] at hi
    rw [List.getElem_drop]
    have hjj : t.jump k + 1 = t.findIdx (fun l => keyLt k l.anchor) := by unfold Wh.jump; omega
    have hlt : t.findIdx (fun l => keyLt k l.anchor) < t.length := by omega
    have h1 : keyLt k t[t.findIdx (fun l => keyLt k l.anchor)].anchor = true :=
      List.findIdx_getElem (p := fun l : Leaf => keyLt k l.anchor) (xs := t) (w := hlt)
    by_cases hz : i = 0
    · subst hz
      simp only [Nat.add_zero, hjj]
      exact h1
    · exact keyLt_trans' h1 (List.pairwise_iff_getElem.1 hanch _ (t.jump k + 1 + i) hlt (by omega) (by omega))

/-- The leaf of the key owns it. -/
theorem Zip.owns (h : Ladder t.anchors) {A B : Wh} {l : Leaf} (z : Zip t k A l B) : Owns (· ∈ t.anchors) k l.anchor := by
  have hp := List.pairwise_map.1 h.2.1
  rw [z.eq] at hp
  refine ⟨List.mem_map_of_mem (by rw [z.eq]; simp), z.le, ?_⟩
  intro a ha hle
  obtain ⟨b, hb, rfl⟩ := List.mem_map.1 ha
  rw [z.eq, List.mem_append, List.mem_cons] at hb
  rcases hb with hb | rfl | hb
  · exact keyLt_keyLe ((List.pairwise_append.1 hp).2.2 b hb l (by simp))
  · exact keyLe_refl _
  · exact (keyLt_le_absurd (z.gt b hb) hle).elim

theorem Owns.unique {A : Key → Prop} {r r' : Key} (h : Owns A k r) (h' : Owns A k r') : r = r' :=
  keyLe_antisymm (h'.2.2 r h.1 h.2.1) (h.2.2 r' h'.1 h'.2.1)

theorem Ladder.nil_mem (h : Ladder t.anchors) : [] ∈ t.anchors := List.mem_of_mem_head? h.1

/-- The anchor that the index finds. -/
theorem Ix.find (ht : tags.Sound) (h : Ix s t) {A B : Wh} {l : Leaf} (z : Zip t k A l B) (n : Nat) :
    indexJump (tags n s.index) s.index k = .ok l.anchor := by
  obtain ⟨r, e, ho⟩ := indexJump_spec h.idx h.ladder.nil_mem (peek := tags n s.index)
    (fun p hp => ht n s.index p fun hc => (h.idx.none_iff.1 hc) hp) k
  rw [e, ho.unique (z.owns h.ladder)]

theorem Ladder.findIdx {A B : Wh} {l : Leaf} (h : Ladder (A ++ l :: B).anchors) :
    (A ++ l :: B).findIdx? (fun x => x.anchor == l.anchor) = some A.length := by
  rw [List.findIdx?_eq_some_iff_getElem]
  refine ⟨by simp, by simp, ?_⟩
  intro j hj
  have hp := List.pairwise_map.1 h.2.1
  have hlt := (List.pairwise_append.1 hp).2.2 A[j] (List.getElem_mem hj) l (by simp)
  have hne : A[j].anchor ≠ l.anchor := fun e => by rw [e, keyLt_irrefl] at hlt; cases hlt
  rw [List.getElem_append_left hj]
  simpa using hne

/-- The index leads to the leaf where the key belongs. -/
theorem Ix.jump (ht : tags.Sound) (h : Ix s t) (k : Key) : s.jump tags k = .ok (t.jump k) := by
  obtain ⟨A, l, B, z⟩ := h.ladder.zip k
  unfold WhMap.jump
  rw [h.find ht z, Res.bind_ok, h.eq]
  have hf : t.findIdx? (fun x => x.anchor == l.anchor) = some (t.jump k) := by
    have hl := h.ladder
    rw [z.jump]
    rw [z.eq] at hl ⊢
    exact hl.findIdx
  rw [hf]

/-! ## Anchors do not change -/

theorem sync_anchor {l l' : Leaf} (h : l.sync = .ok l') : l'.anchor = l.anchor := by
  unfold Leaf.sync at h
  by_cases h1 : l.sorted = l.nr
  · rw [if_pos h1] at h; cases h; rfl
  · rw [if_neg h1] at h
    by_cases h2 : l.nr < l.sorted
    · rw [if_pos h2] at h; cases h
    · rw [if_neg h2] at h
      obtain ⟨r, _, e⟩ := Res.bind_eq_ok h
      cases e; rfl

theorem append_anchor {l l' : Leaf} {e : Key × Store} (h : l.append e = .ok l') : l'.anchor = l.anchor := by
  unfold Leaf.append at h
  by_cases h1 : l.nr ≥ 32
  · rw [if_pos h1] at h; cases h
  · rw [if_neg h1] at h; cases h; rfl

theorem fold_ne_ok {es : List (Key × Store)} {r : Res Leaf} (h : r = .ub ∨ r = .hang) :
    es.foldl (fun r e => Res.bind r fun l => l.append e) r = r := by
  induction es generalizing r with
  | nil => rfl
  | cons e es ih =>
    rcases h with rfl | rfl
    · exact ih (Or.inl rfl)
    · exact ih (Or.inr rfl)

theorem appends_anchor : ∀ {es : List (Key × Store)} {l l' : Leaf},
    es.foldl (fun r e => Res.bind r fun l => l.append e) (Res.ok l) = .ok l' → l'.anchor = l.anchor
  | [], _, _, h => by cases h; rfl
  | e :: es, l, l', h => by
    rw [List.foldl_cons, Res.bind_ok] at h
    cases e1 : l.append e with
    | ok l1 =>
      rw [e1] at h
      rw [appends_anchor h, append_anchor e1]
    | ub => rw [e1, fold_ne_ok (Or.inl rfl)] at h; cases h
    | hang => rw [e1, fold_ne_ok (Or.inr rfl)] at h; cases h

theorem merge_anchor {l n l' : Leaf} (h : l.merge n = .ok l') : l'.anchor = l.anchor := by
  unfold Leaf.merge at h
  obtain ⟨l1, h1, e⟩ := Res.bind_eq_ok h
  have := appends_anchor h1
  by_cases hc : l.nr = l.sorted
  · rw [if_pos hc] at e; cases e; exact this
  · rw [if_neg hc] at e; cases e; exact this

theorem split_anchor {l a b : Leaf} {hn : Bool} {e : Key × Store} (h : l.split hn e = .ok (a, b)) : a.anchor = l.anchor := by
  unfold Leaf.split at h
  obtain ⟨l1, h1, e1⟩ := Res.bind_eq_ok h
  obtain ⟨is, _, e2⟩ := Res.bind_eq_ok e1
  cases e2
  exact (sync_anchor h1 : l1.anchor = l.anchor)

theorem set_anchors {i : Nat} {l l' : Leaf} (hl : t[i]? = some l) (ha : l'.anchor = l.anchor) :
    Wh.anchors (t.set i l') = t.anchors := by
  unfold Wh.anchors
  rw [List.map_set, ha]
  refine List.ext_getElem? fun j => ?_
  by_cases hj : i = j
  · subst hj
    obtain ⟨hi, e⟩ := List.getElem?_eq_some_iff.1 hl
    rw [List.getElem?_set_self (by simpa using hi), List.getElem?_map, hl]
    rfl
  · rw [List.getElem?_set_ne hj]

theorem iterFix_anchors : ∀ {fuel : Nat} {t t' : Wh} {i is : Nat} {cur : Cursor}, iterFix fuel t i is = .ok (t', cur) →
    t'.anchors = t.anchors
  | 0, _, _, _, _, _, h => by cases h
  | fuel + 1, t, t', i, is, cur, h => by
    rw [iterFix] at h
    cases hl : t[i]? with
    | none => rw [hl] at h; cases h
    | some l =>
      rw [hl] at h
      dsimp only at h
      by_cases hc : is ≥ l.sorted
      · rw [if_pos hc] at h
        cases hn : t[i + 1]? with
        | none => rw [hn] at h; cases h; rfl
        | some n =>
          rw [hn] at h
          dsimp only at h
          obtain ⟨n', h1, h2⟩ := Res.bind_eq_ok h
          rw [iterFix_anchors h2, set_anchors hn (sync_anchor h1)]
      · rw [if_neg hc] at h; cases h; rfl

theorem iterFixRev_anchors : ∀ {i : Nat} {t t' : Wh} {cur : Cursor}, iterFixRev t i = .ok (t', cur) →
    t'.anchors = t.anchors
  | 0, _, _, _, h => by rw [iterFixRev] at h; cases h; rfl
  | i + 1, t, t', cur, h => by
    rw [iterFixRev] at h
    cases hp : t[i]? with
    | none => rw [hp] at h; cases h
    | some p =>
      rw [hp] at h
      dsimp only at h
      obtain ⟨p', h1, h2⟩ := Res.bind_eq_ok h
      have hs := set_anchors hp (sync_anchor h1)
      by_cases hz : p'.nr = 0
      · rw [if_pos hz] at h2
        rw [iterFixRev_anchors h2, hs]
      · rw [if_neg hz] at h2; cases h2; exact hs

theorem write_anchors (cur : Cursor) (st : Store) : Wh.anchors (t.write cur st) = t.anchors := by
  unfold Wh.write
  cases cur with
  | none => rfl
  | some p =>
    dsimp only
    cases hl : t[p.1]? with
    | none => rfl
    | some l => exact set_anchors hl rfl

theorem Ix.with (h : Ix s t) (e : t'.anchors = t.anchors) : Ix (s.with t') t' :=
  ⟨rfl, by rw [e]; exact h.ladder, by rw [e]; exact h.idx⟩

/-! ## Calls that read -/

theorem Ix.seek (ht : tags.Sound) (h : Ix s t) {cur : Cursor} (e : t.seek k = .ok (t', cur)) :
    ∃ s', s.seek tags k = .ok (s', cur) ∧ Ix s' t' := by
  unfold Wh.seek at e
  unfold WhMap.seek
  rw [h.jump ht, Res.bind_ok, h.eq]
  dsimp only at e
  cases hl : t[t.jump k]? with
  | none => rw [hl] at e; cases e
  | some l =>
    rw [hl] at e
    dsimp only at e ⊢
    obtain ⟨l', e1, e2⟩ := Res.bind_eq_ok e
    obtain ⟨is, e3, e4⟩ := Res.bind_eq_ok e2
    rw [e1, Res.bind_ok, e3, Res.bind_ok, e4, Res.bind_ok]
    refine ⟨_, rfl, h.with ?_⟩
    rw [iterFix_anchors e4, set_anchors hl (sync_anchor e1)]

theorem Ix.skip1 (h : Ix s t) {cur cur' : Cursor} (e : t.skip1 cur = .ok (t', cur')) :
    ∃ s', s.skip1 cur = .ok (s', cur') ∧ Ix s' t' := by
  unfold WhMap.skip1
  rw [h.eq, e, Res.bind_ok]
  refine ⟨_, rfl, h.with ?_⟩
  cases cur with
  | none => cases e; rfl
  | some p => exact iterFix_anchors e

theorem Ix.skip1Rev (h : Ix s t) {cur cur' : Cursor} (e : t.skip1Rev cur = .ok (t', cur')) :
    ∃ s', s.skip1Rev cur = .ok (s', cur') ∧ Ix s' t' := by
  unfold WhMap.skip1Rev
  rw [h.eq, e, Res.bind_ok]
  refine ⟨_, rfl, h.with ?_⟩
  cases cur with
  | none => cases e; rfl
  | some p =>
    unfold Wh.skip1Rev at e
    dsimp only at e
    by_cases hz : p.2 = 0
    · rw [if_pos hz] at e; exact iterFixRev_anchors e
    · rw [if_neg hz] at e; cases e; rfl

theorem Ix.peek (h : Ix s t) (cur : Cursor) : s.peek cur = t.peek cur := by unfold WhMap.peek; rw [h.eq]

theorem Ix.write (h : Ix s t) (cur : Cursor) (st : Store) : Ix (s.write cur st) (t.write cur st) := by
  unfold WhMap.write
  rw [h.eq]
  exact h.with (write_anchors cur st)

/-! ## Calls that change leaves -/

theorem anchorAt_mid {A B : Wh} {l : Leaf} : Wh.anchorAt (A ++ l :: B) (A.length + 1) = B.head?.map Leaf.anchor := by
  unfold Wh.anchorAt
  rw [List.getElem?_append_right (by omega), show A.length + 1 - A.length = 1 by omega]
  cases B <;> simp

theorem ladder_fits {A B : List Key} {p a : Key} (h : Ladder (A ++ p :: a :: B)) :
    a.length ≤ pbufRoom ∧ ∀ n ∈ B.head?, n.length ≤ pbufRoom :=
  ⟨h.2.2 a (by simp), fun n hn => h.2.2 n (by simp [List.mem_of_mem_head? hn])⟩

/-- Neighbours in a ladder. -/
theorem ladder_gap {A B : List Key} {p a : Key} (h : (A ++ p :: a :: B).Pairwise fun a b => keyLt a b = true) :
    Gap (· ∈ A ++ p :: B) p a B.head? := by
  have hp := List.pairwise_append.1 h
  have h1 := List.pairwise_cons.1 hp.2.1
  have h2 := List.pairwise_cons.1 h1.2
  refine ⟨by simp, h1.1 a (by simp), ?_, ?_⟩
  · intro n hn
    have hm : n ∈ B := List.mem_of_mem_head? hn
    exact ⟨by simp [hm], h2.1 n hm⟩
  · intro b hb
    rw [List.mem_append, List.mem_cons] at hb
    rcases hb with hb | rfl | hb
    · exact Or.inl (keyLt_keyLe (hp.2.2 b hb p (by simp)))
    · exact Or.inl (keyLe_refl _)
    · right
      cases B with
      | nil => cases hb
      | cons n B =>
        refine ⟨n, rfl, ?_⟩
        rcases List.mem_cons.1 hb with rfl | hb
        · exact keyLe_refl _
        · exact keyLt_keyLe ((List.pairwise_cons.1 h2.2).1 b hb)

theorem ladder_with {A B : List Key} {p a : Key} : With (· ∈ A ++ p :: B) a = (· ∈ A ++ p :: a :: B) := by
  funext b
  simp only [With, List.mem_append, List.mem_cons, eq_iff_iff]
  tauto

theorem put_sublist {st : Store} (e : t.put k st = .ok t') : t.anchors.Sublist t'.anchors := by
  unfold Wh.put at e
  dsimp only at e
  cases hl : t[t.jump k]? with
  | none => rw [hl] at e; cases e
  | some l =>
    rw [hl] at e
    dsimp only at e
    obtain ⟨o, _, e⟩ := Res.bind_eq_ok e
    cases o with
    | some pos => cases e; rw [set_anchors (l' := l.update pos (k, st)) hl rfl]
    | none =>
      dsimp only at e
      by_cases hn : l.nr < 32
      · rw [if_pos hn] at e
        obtain ⟨l', e1, e⟩ := Res.bind_eq_ok e
        cases e
        rw [set_anchors hl (append_anchor e1)]
      · rw [if_neg hn] at e
        obtain ⟨⟨a, b⟩, e1, e⟩ := Res.bind_eq_ok e
        cases e
        obtain ⟨hi, hg⟩ := List.getElem?_eq_some_iff.1 hl
        have ht : t = t.take (t.jump k) ++ l :: t.drop (t.jump k + 1) := by
          conv_lhs => rw [← List.take_append_drop (t.jump k) t, List.drop_eq_getElem_cons hi, hg]
        conv_lhs => rw [ht]
        unfold Wh.anchors
        rw [List.map_append, List.map_append, List.map_cons, List.map_cons, List.map_cons, split_anchor e1]
        exact List.Sublist.append_left (List.Sublist.cons_cons _ (List.sublist_cons_self _ _)) _

/-- A tree with the right first anchor was in order before an insert if it is now. -/
theorem ladder_back {st : Store} (h0 : t.anchors.head? = some []) (h' : Ladder t'.anchors) (e : t.put k st = .ok t') :
    Ladder t.anchors := ⟨h0, rising_sub (put_sublist e) h'.2⟩

theorem put_head {st : Store} (h0 : t.anchors.head? = some []) (e : t.put k st = .ok t') : t'.anchors.head? = some [] := by
  unfold Wh.put at e
  dsimp only at e
  cases hl : t[t.jump k]? with
  | none => rw [hl] at e; cases e
  | some l =>
    rw [hl] at e
    dsimp only at e
    obtain ⟨o, _, e⟩ := Res.bind_eq_ok e
    cases o with
    | some pos => cases e; rw [set_anchors (l' := l.update pos (k, st)) hl rfl]; exact h0
    | none =>
      dsimp only at e
      by_cases hn : l.nr < 32
      · rw [if_pos hn] at e
        obtain ⟨l', e1, e⟩ := Res.bind_eq_ok e
        cases e
        rw [set_anchors hl (append_anchor e1)]; exact h0
      · rw [if_neg hn] at e
        obtain ⟨⟨a, b⟩, e1, e⟩ := Res.bind_eq_ok e
        cases e
        obtain ⟨hi, hg⟩ := List.getElem?_eq_some_iff.1 hl
        have ht : t = t.take (t.jump k) ++ l :: t.drop (t.jump k + 1) := by
          conv_lhs => rw [← List.take_append_drop (t.jump k) t, List.drop_eq_getElem_cons hi, hg]
        rw [ht] at h0
        unfold Wh.anchors at h0 ⊢
        rw [List.map_append, List.map_cons] at h0
        rw [List.map_append, List.map_cons, split_anchor e1]
        cases hm : (t.take (t.jump k)).map Leaf.anchor with
        | nil => rw [hm] at h0; simpa using h0
        | cons x xs => rw [hm] at h0; simpa using h0

theorem Ix.put (ht : tags.Sound) (h : Ix s t) {st : Store} (e : t.put k st = .ok t') (h' : Ladder t'.anchors) :
    ∃ s', s.put tags k st = .ok s' ∧ Ix s' t' := by
  obtain ⟨A, l, B, z⟩ := h.ladder.zip k
  unfold Wh.put at e
  unfold WhMap.put
  rw [h.jump ht, Res.bind_ok, h.eq]
  dsimp only at e
  rw [z.get] at e ⊢
  dsimp only at e ⊢
  obtain ⟨o, e1, e⟩ := Res.bind_eq_ok e
  rw [e1, Res.bind_ok]
  cases o with
  | some pos =>
    cases e
    exact ⟨_, rfl, h.with (set_anchors z.get rfl)⟩
  | none =>
    dsimp only at e ⊢
    by_cases hn : l.nr < 32
    · rw [if_pos hn] at e ⊢
      obtain ⟨l', e2, e⟩ := Res.bind_eq_ok e
      cases e
      rw [e2, Res.bind_ok]
      exact ⟨_, rfl, h.with (set_anchors z.get (append_anchor e2))⟩
    · rw [if_neg hn] at e ⊢
      obtain ⟨⟨a, b⟩, e2, e⟩ := Res.bind_eq_ok e
      cases e
      rw [e2, Res.bind_ok]
      have ha := split_anchor e2
      have ht' : t.take (t.jump k) ++ a :: b :: t.drop (t.jump k + 1) = A ++ a :: b :: B := by
        rw [z.jump, z.eq]; simp
      have hat : t.anchorAt (t.jump k + 1) = (B.map Leaf.anchor).head? := by
        rw [z.jump, z.eq, anchorAt_mid, List.head?_map]
      rw [ht'] at h' ⊢
      rw [hat]
      dsimp only
      have hA : (A ++ a :: b :: B : Wh).anchors = A.map Leaf.anchor ++ l.anchor :: b.anchor :: B.map Leaf.anchor := by
        simp [Wh.anchors, ha]
      rw [hA] at h'
      have hB : t.anchors = A.map Leaf.anchor ++ l.anchor :: B.map Leaf.anchor := by rw [z.eq]; simp [Wh.anchors]
      have hi := h.idx
      rw [hB] at hi
      obtain ⟨x', e3, ok⟩ := indexSplit_spec hi (ladder_gap h'.2.1) (ladder_fits h').2
      rw [ha, e3, Res.bind_ok]
      refine ⟨_, rfl, rfl, by rw [hA]; exact h', ?_⟩
      rw [hA, ← ladder_with]
      exact ok

theorem Ix.del (ht : tags.Sound) (h : Ix s t) (e : t.del k = .ok t') :
    ∃ s', s.del tags k = .ok s' ∧ Ix s' t' := by
  obtain ⟨A, l, B, z⟩ := h.ladder.zip k
  unfold Wh.del at e
  unfold WhMap.del
  rw [h.jump ht, Res.bind_ok, h.eq]
  dsimp only at e
  rw [z.get] at e ⊢
  dsimp only at e ⊢
  obtain ⟨o, e1, e⟩ := Res.bind_eq_ok e
  rw [e1, Res.bind_ok]
  cases o with
  | none => cases e; exact ⟨_, rfl, h⟩
  | some pos =>
    dsimp only at e ⊢
    rw [z.set] at e ⊢
    rw [z.jump] at e ⊢
    have hanc : (A ++ l.remove pos :: B : Wh).anchors = t.anchors := by rw [z.eq]; simp [Wh.anchors, Leaf.remove]
    have stay : Ix (s.with (A ++ l.remove pos :: B)) (A ++ l.remove pos :: B) := h.with hanc
    unfold Wh.tryMerge at e
    unfold WhMap.tryMerge
    have g1 : (A ++ l.remove pos :: B)[A.length]? = some (l.remove pos) := by simp
    have g2 : (A ++ l.remove pos :: B)[A.length + 1]? = B.head? := by
      rw [List.getElem?_append_right (by omega), show A.length + 1 - A.length = 1 by omega]
      cases B <;> simp
    rw [g1, g2] at e ⊢
    cases B with
    | nil => cases e; exact ⟨_, rfl, stay⟩
    | cons n B =>
      dsimp only [List.head?_cons] at e ⊢
      by_cases c1 : (l.remove pos).nr = 0 ∨ (l.remove pos).nr + n.nr < 24
      · rw [if_pos c1] at e ⊢
        by_cases c2 : (l.remove pos).nr + n.nr ≤ 32
        · rw [if_pos c2] at e ⊢
          obtain ⟨l', e2, e⟩ := Res.bind_eq_ok e
          cases e
          rw [e2, Res.bind_ok]
          have ha : l'.anchor = (l.remove pos).anchor := merge_anchor e2
          replace ha : l'.anchor = l.anchor := ha
          have hat : Wh.anchorAt (A ++ l.remove pos :: n :: B) (A.length + 2) = (B.map Leaf.anchor).head? := by
            unfold Wh.anchorAt
            rw [List.getElem?_append_right (by omega), show A.length + 2 - A.length = 2 by omega]
            cases B <;> simp
          have ht' : (A ++ l.remove pos :: n :: B).take A.length ++ l' :: (A ++ l.remove pos :: n :: B).drop (A.length + 2) =
              A ++ l' :: B := by
            rw [List.take_left, List.drop_append, show A.length + 2 - A.length = 2 by omega,
              List.drop_eq_nil_of_le (by omega)]
            rfl
          rw [ht', hat]
          have hB : t.anchors = A.map Leaf.anchor ++ l.anchor :: n.anchor :: B.map Leaf.anchor := by
            rw [z.eq]; simp [Wh.anchors]
          have hA : (A ++ l' :: B : Wh).anchors = A.map Leaf.anchor ++ l.anchor :: B.map Leaf.anchor := by
            simp [Wh.anchors, ha]
          have hl := h.ladder
          have hi := h.idx
          rw [hB] at hl hi
          rw [← ladder_with] at hi
          obtain ⟨x', e3, ok⟩ := indexMerge_spec hi (ladder_gap hl.2.1) (ladder_fits hl).1 (ladder_fits hl).2
          rw [show (l.remove pos).anchor = l.anchor from rfl, e3, Res.bind_ok]
          refine ⟨_, rfl, rfl, ?_, by rw [hA]; exact ok⟩
          rw [hA]
          refine ⟨?_, rising_sub (List.Sublist.append_left (List.Sublist.cons_cons _ (List.sublist_cons_self _ _)) _) hl.2⟩
          have := hl.1
          cases hm : A.map Leaf.anchor with
          | nil => rw [hm] at this; simpa using this
          | cons x xs => rw [hm] at this; simpa using this
        · rw [if_neg c2] at e ⊢; cases e; exact ⟨_, rfl, stay⟩
      · rw [if_neg c1] at e ⊢; cases e; exact ⟨_, rfl, stay⟩

end Verif
