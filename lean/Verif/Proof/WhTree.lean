import Verif.Proof.WhSplit
import Verif.Proof.Defined
import Verif.Spec.WhTree

/-!
# The integer tree represents an ordered list
-/

namespace Verif

/-- The leaves hold the ordered list `m`. -/
structure WhRep (t : Wh) (m : Tree) : Prop where
  leaf : ∀ l ∈ t, LeafOK l
  first : ∃ l t', t = l :: t' ∧ l.anchor = []
  alen : ∀ l ∈ t, l.anchor.length ≤ 8
  anchors : t.Pairwise fun a b => keyLt a.anchor b.anchor = true
  low : ∀ l ∈ t, ∀ e ∈ l.entries, keyLe l.anchor e.1 = true
  high : t.Pairwise fun a b => ∀ e ∈ a.entries, keyLt e.1 b.anchor = true
  eq : m = t.flatMap Leaf.list

/-- No leaf hides the key behind its sorted part. -/
def Findable (t : Wh) (k : Key) : Prop := ∀ l ∈ t, l.Sees k

/-! ## Lists -/

theorem treePut_before {X Y : Tree} {k : Key} {st : Store} (h : ∀ e ∈ X, keyLt e.1 k = true) :
    treePut (X ++ Y) k st = X ++ treePut Y k st := by
  induction X with
  | nil => rfl
  | cons x X ih =>
    have hx := h x (by simp)
    rw [List.cons_append, treePut, if_neg (by rw [keyLt_asymm hx]; simp), if_neg, ih fun e he => h e (by simp [he])]
    · rfl
    · simpa using keyLt_ne hx

theorem treePut_after {Y Z : Tree} {k : Key} {st : Store} (h : ∀ e ∈ Z, keyLt k e.1 = true) :
    treePut (Y ++ Z) k st = treePut Y k st ++ Z := by
  induction Y with
  | nil =>
    cases Z with
    | nil => rfl
    | cons z Z => simp [treePut, h z (by simp)]
  | cons y Y ih =>
    rw [List.cons_append, treePut, treePut, ih]
    split_ifs <;> rfl

theorem treeDel_inner {X Y Z : Tree} {k : Key} (hX : ∀ e ∈ X, keyLt e.1 k = true) (hZ : ∀ e ∈ Z, keyLt k e.1 = true) :
    treeDel (X ++ Y ++ Z) k = X ++ treeDel Y k ++ Z := by
  unfold treeDel
  rw [List.filter_append, List.filter_append, filter_ne_of_gt hX, filter_ne_of_lt hZ]

theorem seek_mid {X Y Z : Tree} {k : Key} (hX : ∀ e ∈ X, keyLt e.1 k = true) (hZ : ∀ e ∈ Z, keyLt k e.1 = true) :
    treeSeek (X ++ Y ++ Z) k = X.length + treeSeek Y k := by
  unfold treeSeek
  have h1 : X.findIdx (fun e => keyLe k e.1) = X.length := by
    rw [List.findIdx_eq_length]
    intro e he
    rw [keyLe_iff_not_lt, hX e he]; rfl
  rw [List.append_assoc, List.findIdx_append, h1, if_neg (by omega), List.findIdx_append]
  split_ifs with h2
  · omega
  · have h3 : Y.findIdx (fun e => keyLe k e.1) = Y.length := by
      have := List.findIdx_le_length (xs := Y) (p := fun e => keyLe k e.1)
      omega
    rw [h3]
    cases Z with
    | nil => simp; omega
    | cons z Z =>
      rw [List.findIdx_cons, keyLt_keyLe (hZ z (by simp))]
      simp; omega

/-! ## The leaf of a key -/

/-- The leaf `l` is the one of the key. -/
structure Zip (t : Wh) (k : Key) (A : Wh) (l : Leaf) (B : Wh) : Prop where
  eq : t = A ++ l :: B
  jump : t.jump k = A.length
  le : keyLe l.anchor k = true
  gt : ∀ b ∈ B, keyLt k b.anchor = true

theorem WhRep.zip {t : Wh} {m : Tree} (h : WhRep t m) (k : Key) : ∃ A l B, Zip t k A l B := by
  obtain ⟨l0, t', ht, ha⟩ := h.first
  have hpos : 0 < t.findIdx (fun l => keyLt k l.anchor) := by
    rw [ht, List.findIdx_cons, ha]
    have : keyLt k [] = false := by cases k <;> rfl
    rw [this]
    simp
  have hle : t.findIdx (fun l => keyLt k l.anchor) ≤ t.length := List.findIdx_le_length
  have hj : t.jump k < t.length := by unfold Wh.jump; omega
  refine ⟨t.take (t.jump k), t[t.jump k], t.drop (t.jump k + 1), ?_, ?_, ?_, ?_⟩
  · rw [← List.drop_eq_getElem_cons hj, List.take_append_drop]
  · rw [List.length_take]; omega
  · have := List.not_of_lt_findIdx (p := fun l : Leaf => keyLt k l.anchor) (xs := t) (i := t.jump k)
      (by unfold Wh.jump; omega)
    rw [keyLe_iff_not_lt]
    simpa using this
  · intro b hb
    obtain ⟨i, hi, rfl⟩ := List.mem_iff_getElem.1 hb
    rw [List.length_drop] at hi
    rw [List.getElem_drop]
    have hjj : t.jump k + 1 = t.findIdx (fun l => keyLt k l.anchor) := by unfold Wh.jump; omega
    have hlt : t.findIdx (fun l => keyLt k l.anchor) < t.length := by omega
    have h1 : keyLt k t[t.findIdx (fun l => keyLt k l.anchor)].anchor = true :=
      List.findIdx_getElem (p := fun l : Leaf => keyLt k l.anchor) (xs := t) (w := hlt)
    by_cases hz : i = 0
    · subst hz
      simp only [Nat.add_zero, hjj]
      exact h1
    · exact keyLt_trans' h1 (List.pairwise_iff_getElem.1 h.anchors _ (t.jump k + 1 + i) hlt (by omega) (by omega))

section
variable {t : Wh} {m : Tree} {k : Key} {A B : Wh} {l : Leaf}

theorem WhRep.ok (h : WhRep t m) (z : Zip t k A l B) : LeafOK l := h.leaf l (by rw [z.eq]; simp)

theorem mem_flat {A : Wh} {e : Entry} : e ∈ A.flatMap Leaf.list ↔ ∃ a ∈ A, e ∈ a.entries := by
  rw [List.mem_flatMap]
  constructor
  · rintro ⟨a, ha, he⟩; exact ⟨a, ha, a.list_perm.mem_iff.1 he⟩
  · rintro ⟨a, ha, he⟩; exact ⟨a, ha, a.list_perm.mem_iff.2 he⟩

theorem WhRep.before (h : WhRep t m) (z : Zip t k A l B) : ∀ e ∈ A.flatMap Leaf.list, keyLt e.1 k = true := by
  intro e he
  obtain ⟨a, ha, hea⟩ := mem_flat.1 he
  have := h.high
  rw [z.eq, List.pairwise_append] at this
  exact keyLt_of_lt_of_le (this.2.2 a ha l (by simp) e hea) z.le

theorem WhRep.after (h : WhRep t m) (z : Zip t k A l B) : ∀ e ∈ B.flatMap Leaf.list, keyLt k e.1 = true := by
  intro e he
  obtain ⟨b, hb, heb⟩ := mem_flat.1 he
  exact keyLt_of_lt_of_le (z.gt b hb) (h.low b (by rw [z.eq]; simp [hb]) e heb)

theorem WhRep.list (h : WhRep t m) (z : Zip t k A l B) : m = A.flatMap Leaf.list ++ l.list ++ B.flatMap Leaf.list := by
  rw [h.eq, z.eq]; simp

theorem WhRep.mem (h : WhRep t m) (z : Zip t k A l B) : k ∈ keysOf m ↔ k ∈ keysOf l.entries := by
  rw [h.list z, keysOf, List.map_append, List.map_append]
  constructor
  · intro hh
    rcases List.mem_append.1 hh with hh | hh
    · rcases List.mem_append.1 hh with hh | hh
      · obtain ⟨e, he, e1⟩ := List.mem_map.1 hh
        exact absurd e1 (keyLt_ne (h.before z e he)).symm
      · exact (l.list_perm.map _).mem_iff.1 hh
    · obtain ⟨e, he, e1⟩ := List.mem_map.1 hh
      exact absurd e1 (keyLt_ne (h.after z e he))
  · intro hh
    exact List.mem_append.2 (Or.inl (List.mem_append.2 (Or.inr ((l.list_perm.map _).mem_iff.2 hh))))

theorem Zip.get (z : Zip t k A l B) : t[t.jump k]? = some l := by rw [z.jump, z.eq]; simp

theorem Zip.set (z : Zip t k A l B) (l' : Leaf) : t.set (t.jump k) l' = A ++ l' :: B := by rw [z.jump, z.eq]; simp

end

theorem flat_inc {t : Wh} (h1 : ∀ l ∈ t, LeafOK l) (h2 : t.Pairwise fun a b => ∀ e ∈ a.entries, keyLt e.1 b.anchor = true)
    (h3 : ∀ l ∈ t, ∀ e ∈ l.entries, keyLe l.anchor e.1 = true) : Inc (t.flatMap Leaf.list) := by
  induction t with
  | nil => exact List.Pairwise.nil
  | cons l t ih =>
    rw [List.flatMap_cons]
    have h2' := List.pairwise_cons.1 h2
    refine List.pairwise_append.2 ⟨(h1 l (by simp)).inc, ih (fun x hx => h1 x (by simp [hx])) h2'.2
      (fun x hx => h3 x (by simp [hx])), fun x hx y hy => ?_⟩
    obtain ⟨b, hb, hyb⟩ := mem_flat.1 hy
    exact keyLt_of_lt_of_le (h2'.1 b hb x (l.list_perm.mem_iff.1 hx)) (h3 b (by simp [hb]) y hyb)

theorem WhRep.inc {t : Wh} {m : Tree} (h : WhRep t m) : Inc m := by rw [h.eq]; exact flat_inc h.leaf h.high h.low

theorem WhRep.short {t : Wh} {m : Tree} (h : WhRep t m) : Short m := by
  intro e he
  rw [h.eq] at he
  obtain ⟨l, hl, hel⟩ := mem_flat.1 he
  exact (h.leaf l hl).short e hel

/-- Replace one leaf. -/
theorem WhRep.set {A B : Wh} {l l' : Leaf} {m : Tree} (h : WhRep (A ++ l :: B) m) (ok : LeafOK l')
    (ha : l'.anchor = l.anchor) (h1 : ∀ e ∈ l'.entries, keyLe l.anchor e.1 = true)
    (h2 : ∀ e ∈ l'.entries, ∀ b ∈ B, keyLt e.1 b.anchor = true) :
    WhRep (A ++ l' :: B) (A.flatMap Leaf.list ++ l'.list ++ B.flatMap Leaf.list) := by
  obtain ⟨l0, t', ht, ha0⟩ := h.first
  have han := h.anchors
  have hhi := h.high
  rw [List.pairwise_append, List.pairwise_cons] at han hhi
  refine ⟨?_, ?_, ?_, ?_, ?_, ?_, by simp⟩
  · intro x hx
    rcases List.mem_append.1 hx with hx | hx
    · exact h.leaf x (by simp [hx])
    · rcases List.mem_cons.1 hx with rfl | hx
      · exact ok
      · exact h.leaf x (by simp [hx])
  · cases A with
    | nil =>
      have : l = l0 := by simp at ht; exact ht.1
      exact ⟨l', B, rfl, by rw [ha, this, ha0]⟩
    | cons a A =>
      have : a = l0 := by simp at ht; exact ht.1
      exact ⟨a, A ++ l' :: B, rfl, by rw [this, ha0]⟩
  · intro x hx
    rcases List.mem_append.1 hx with hx | hx
    · exact h.alen x (by simp [hx])
    · rcases List.mem_cons.1 hx with rfl | hx
      · rw [ha]; exact h.alen l (by simp)
      · exact h.alen x (by simp [hx])
  · rw [List.pairwise_append, List.pairwise_cons]
    refine ⟨han.1, ⟨by rw [ha]; exact han.2.1.1, han.2.1.2⟩, fun a ha' b hb => ?_⟩
    rcases List.mem_cons.1 hb with rfl | hb
    · rw [ha]; exact han.2.2 a ha' l (by simp)
    · exact han.2.2 a ha' b (by simp [hb])
  · intro x hx
    rcases List.mem_append.1 hx with hx | hx
    · exact h.low x (by simp [hx])
    · rcases List.mem_cons.1 hx with rfl | hx
      · rw [ha]; exact h1
      · exact h.low x (by simp [hx])
  · rw [List.pairwise_append, List.pairwise_cons]
    refine ⟨hhi.1, ⟨fun b hb e he => h2 e he b hb, hhi.2.1.2⟩, fun a ha' b hb => ?_⟩
    rcases List.mem_cons.1 hb with rfl | hb
    · rw [ha]; exact hhi.2.2 a ha' l (by simp)
    · exact hhi.2.2 a ha' b (by simp [hb])

theorem WhRep.bounds {A B : Wh} {l : Leaf} {m : Tree} (h : WhRep (A ++ l :: B) m) :
    (∀ e ∈ l.entries, keyLe l.anchor e.1 = true) ∧ ∀ e ∈ l.entries, ∀ b ∈ B, keyLt e.1 b.anchor = true := by
  have hhi := h.high
  rw [List.pairwise_append, List.pairwise_cons] at hhi
  exact ⟨h.low l (by simp), fun e he b hb => hhi.2.1.1 b hb e he⟩

theorem mem_filter_sub {l : List Entry} {k : Key} {st : Store} {e : Entry}
    (h : e ∈ (k, st) :: l.filter fun e => e.1 != k) : e = (k, st) ∨ e ∈ l := by
  rcases List.mem_cons.1 h with h | h
  · exact Or.inl h
  · exact Or.inr (List.mem_of_mem_filter h)

/-- Replacing the leaf by one that differs by a `put`. -/
theorem WhRep.putLeaf {t : Wh} {m : Tree} {k : Key} {A B : Wh} {l l' : Leaf} (h : WhRep t m) (z : Zip t k A l B)
    (ok : LeafOK l') (ha : l'.anchor = l.anchor) {st : Store}
    (hp : l'.entries.Perm ((k, st) :: l.entries.filter fun e => e.1 != k)) :
    WhRep (A ++ l' :: B) (treePut m k st) := by
  have hb := h.before z
  have haf := h.after z
  rw [h.list z, treePut_after haf, treePut_before hb, ← list_put (h.ok z) ok hp]
  have h' := h
  rw [z.eq] at h'
  refine h'.set ok ha (fun e he => ?_) (fun e he b hbm => ?_)
  · rcases mem_filter_sub (hp.mem_iff.1 he) with rfl | he
    · exact z.le
    · exact h'.bounds.1 e he
  · rcases mem_filter_sub (hp.mem_iff.1 he) with rfl | he
    · exact z.gt b hbm
    · exact h'.bounds.2 e he b hbm

theorem WhRep.delLeaf {t : Wh} {m : Tree} {k : Key} {A B : Wh} {l l' : Leaf} (h : WhRep t m) (z : Zip t k A l B)
    (ok : LeafOK l') (ha : l'.anchor = l.anchor) (hp : l'.entries.Perm (l.entries.filter fun e => e.1 != k)) :
    WhRep (A ++ l' :: B) (treeDel m k) := by
  rw [h.list z, treeDel_inner (h.before z) (h.after z), ← list_del (h.ok z) ok hp]
  have h' := h
  rw [z.eq] at h'
  exact h'.set ok ha (fun e he => h'.bounds.1 e (List.mem_of_mem_filter (hp.mem_iff.1 he)))
    (fun e he b hbm => h'.bounds.2 e (List.mem_of_mem_filter (hp.mem_iff.1 he)) b hbm)

/-- Replace one leaf by two. -/
theorem WhRep.split {A B : Wh} {l a b : Leaf} {m : Tree} (h : WhRep (A ++ l :: B) m) (oka : LeafOK a) (okb : LeafOK b)
    (ha : a.anchor = l.anchor) (hal : b.anchor.length ≤ 8) (hne : a.entries ≠ [])
    (h1 : ∀ e ∈ a.entries, keyLe l.anchor e.1 = true) (h2 : ∀ e ∈ a.entries, keyLt e.1 b.anchor = true)
    (h3 : ∀ e ∈ b.entries, keyLe b.anchor e.1 = true) (h4 : ∀ e ∈ b.entries, ∀ x ∈ B, keyLt e.1 x.anchor = true)
    (hneb : b.entries ≠ []) :
    WhRep (A ++ a :: b :: B) (A.flatMap Leaf.list ++ (a.list ++ b.list) ++ B.flatMap Leaf.list) := by
  obtain ⟨x, hx⟩ := List.exists_mem_of_ne_nil _ hne
  obtain ⟨y, hy⟩ := List.exists_mem_of_ne_nil _ hneb
  have hab : keyLt l.anchor b.anchor = true := keyLt_of_le_of_lt (h1 x hx) (h2 x hx)
  have hbB : ∀ z ∈ B, keyLt b.anchor z.anchor = true := fun z hz => keyLt_of_le_of_lt (h3 y hy) (h4 y hy z hz)
  have h' := h.set (l' := a) oka ha h1 (fun e he z hz => keyLt_trans' (h2 e he) (hbB z hz))
  have han := h'.anchors
  have hhi := h'.high
  rw [List.pairwise_append, List.pairwise_cons] at han hhi
  refine ⟨?_, ?_, ?_, ?_, ?_, ?_, by simp⟩
  · intro z hz
    simp only [List.mem_append, List.mem_cons] at hz
    rcases hz with hz | hz | hz | hz
    · exact h.leaf z (by simp [hz])
    · rw [hz]; exact oka
    · rw [hz]; exact okb
    · exact h.leaf z (by simp [hz])
  · obtain ⟨l0, t', ht, ha0⟩ := h'.first
    cases A with
    | nil => exact ⟨a, b :: B, rfl, by simp at ht; rw [ht.1, ha0]⟩
    | cons a' A => exact ⟨a', A ++ a :: b :: B, rfl, by simp at ht; rw [ht.1, ha0]⟩
  · intro z hz
    simp only [List.mem_append, List.mem_cons] at hz
    rcases hz with hz | hz | hz | hz
    · exact h.alen z (by simp [hz])
    · rw [hz, ha]; exact h.alen l (by simp)
    · rw [hz]; exact hal
    · exact h.alen z (by simp [hz])
  · rw [List.pairwise_append, List.pairwise_cons, List.pairwise_cons]
    have hlb : keyLt a.anchor b.anchor = true := by rw [ha]; exact hab
    refine ⟨han.1, ⟨fun z hz => ?_, hbB, han.2.1.2⟩, fun z hz w hw => ?_⟩
    · rcases List.mem_cons.1 hz with rfl | hz
      · exact hlb
      · exact han.2.1.1 z hz
    · have hza := han.2.2 z hz a (by simp)
      simp only [List.mem_cons] at hw
      rcases hw with rfl | rfl | hw
      · exact hza
      · exact keyLt_trans' hza hlb
      · exact han.2.2 z hz w (by simp [hw])
  · intro z hz
    simp only [List.mem_append, List.mem_cons] at hz
    rcases hz with hz | hz | hz | hz
    · exact h.low z (by simp [hz])
    · rw [hz, ha]; exact h1
    · rw [hz]; exact h3
    · exact h.low z (by simp [hz])
  · rw [List.pairwise_append, List.pairwise_cons, List.pairwise_cons]
    refine ⟨hhi.1, ⟨fun z hz => ?_, fun z hz e he => h4 e he z hz, hhi.2.1.2⟩, fun z hz w hw => ?_⟩
    · rcases List.mem_cons.1 hz with rfl | hz
      · exact h2
      · exact hhi.2.1.1 z hz
    · have hza := hhi.2.2 z hz a (by simp)
      simp only [List.mem_cons] at hw
      rcases hw with rfl | rfl | hw
      · exact hza
      · exact fun e he => keyLt_trans' (hza e he) (by rw [ha]; exact hab)
      · exact hhi.2.2 z hz w (by simp [hw])

/-! ## Put -/

theorem sees_of_sorted {l : Leaf} (h : LeafOK l) (hs : l.sorted = l.nr) (k : Key) : l.Sees k := by
  intro hk
  rwa [hs, ← h.entries_length, List.take_length]

theorem sees_append {l l' : Leaf} (h : LeafOK l) {e : Entry} (he : l'.entries = l.entries ++ [e])
    (hs : l.sorted ≤ l'.sorted) {k : Key} (hk : k ≠ e.1) (h' : l.Sees k) : l'.Sees k := by
  intro hh
  rw [he, keysOf, List.map_append] at hh
  rcases List.mem_append.1 hh with hh | hh
  · obtain ⟨x, hx, e1⟩ := List.mem_map.1 (h' hh)
    rw [← e1]
    refine List.mem_map_of_mem ?_
    rw [he]
    have h1 := h.sorted
    have h2 := h.entries_length
    have h3 : x ∈ (l.entries ++ [e]).take l.sorted := by
      rw [List.take_append_of_le_length (by omega)]; exact hx
    obtain ⟨i, hi, rfl⟩ := List.mem_take_iff_getElem.1 h3
    exact List.mem_take_iff_getElem.2 ⟨i, by omega, rfl⟩
  · simp at hh; exact absurd hh hk

theorem Findable.set {A B : Wh} {l l' : Leaf} {k : Key} (h : Findable (A ++ l :: B) k) (h' : l'.Sees k) :
    Findable (A ++ l' :: B) k := by
  intro x hx
  rcases List.mem_append.1 hx with hx | hx
  · exact h x (by simp [hx])
  · rcases List.mem_cons.1 hx with rfl | hx
    · exact h'
    · exact h x (by simp [hx])

theorem put_spec {t : Wh} {m : Tree} (h : WhRep t m) {k : Key} (hk : k.length ≤ 8) (hf : Findable t k) (st : Store) :
    ∃ t', t.put k st = .ok t' ∧ WhRep t' (treePut m k st) ∧
      ∀ k', Findable t k' → (k' ≠ k ∨ k ∈ keysOf m) → Findable t' k' := by
  obtain ⟨A, l, B, z⟩ := h.zip k
  have ok := h.ok z
  unfold Wh.put
  dsimp only
  rw [z.get]
  dsimp only
  by_cases hin : k ∈ keysOf l.entries
  · obtain ⟨pos, st0, e1, hpos, hen, _⟩ := searchEq_some ok hk hin (hf l (by rw [z.eq]; simp))
    rw [e1, Res.bind_ok]
    dsimp only
    obtain ⟨ok', _, hke, hkt, hp⟩ := update_spec ok (st' := st) hen
    refine ⟨_, rfl, ?_, ?_⟩
    · rw [z.set]; exact h.putLeaf z ok' rfl hp
    · intro k' hk' _
      rw [z.set]
      rw [z.eq] at hk'
      refine hk'.set fun hh => ?_
      rw [hke] at hh
      show k' ∈ keysOf ((l.update pos (k, st)).entries.take l.sorted)
      rw [hkt]
      exact hk' l (by simp) hh
  · rw [searchEq_none ok hk hin, Res.bind_ok]
    dsimp only
    have hnm : k ∉ keysOf m := fun hh => hin ((h.mem z).1 hh)
    have hfilt : (l.entries.filter fun e => e.1 != k) = l.entries := by
      rw [List.filter_eq_self]
      intro x hx
      exact bne_iff_ne.2 fun e => hin (e ▸ List.mem_map_of_mem hx)
    by_cases hn : l.nr < 32
    · rw [if_pos hn]
      obtain ⟨l', e2, ok', a', n', en', s', _, _⟩ := append_spec ok hn (e := (k, st)) hk hin
      rw [e2, Res.bind_ok]
      refine ⟨_, rfl, ?_, ?_⟩
      · rw [z.set]
        refine h.putLeaf z ok' a' ?_
        rw [en', hfilt]
        exact List.perm_append_singleton _ _
      · intro k' hk' hor
        rw [z.set]
        rw [z.eq] at hk'
        rcases hor with hor | hor
        · exact hk'.set (sees_append ok en' s' hor (hk' l (by simp)))
        · exact absurd hor hnm
    · rw [if_neg hn]
      obtain ⟨a, b, e2, oka, okb, aa, sa, sb, hall, nea, neb, hlt, hle, hal, _⟩ :=
        split_spec ok (by have := ok.nr; omega) (e := (k, st)) hk hin (decide (t.jump k + 1 < t.length))
      rw [e2, Res.bind_ok]
      have h' := h
      rw [z.eq] at h'
      have hmem : ∀ e ∈ a.entries ++ b.entries, e = (k, st) ∨ e ∈ l.entries := by
        intro e he
        rw [hall] at he
        rcases treePut_mem he with he | he
        · exact Or.inl he
        · exact Or.inr (l.list_perm.mem_iff.1 he)
      have ht' : t.take (t.jump k) ++ a :: b :: t.drop (t.jump k + 1) = A ++ a :: b :: B := by
        rw [z.jump, z.eq]; simp
      refine ⟨_, rfl, ?_, ?_⟩
      · rw [ht']
        have := h'.split oka okb aa hal nea (fun e he => ?_) hlt hle (fun e he x hx => ?_) neb
        · rw [h.list z, treePut_after (h.after z), treePut_before (h.before z), ← hall,
            ← oka.list_of_sorted sa, ← okb.list_of_sorted sb]
          exact this
        · rcases hmem e (by simp [he]) with rfl | he
          · exact z.le
          · exact h'.bounds.1 e he
        · rcases hmem e (by simp [he]) with rfl | he
          · exact z.gt x hx
          · exact h'.bounds.2 e he x hx
      · intro k' hk' _
        rw [ht']
        intro x hx
        simp only [List.mem_append, List.mem_cons] at hx
        rcases hx with hx | rfl | rfl | hx
        · exact hk' x (by rw [z.eq]; simp [hx])
        · exact sees_of_sorted oka sa k'
        · exact sees_of_sorted okb sb k'
        · exact hk' x (by rw [z.eq]; simp [hx])

/-! ## Delete -/

/-- Join two neighbours. -/
theorem WhRep.join {A B : Wh} {l n l' : Leaf} {m : Tree} (h : WhRep (A ++ l :: n :: B) m) (ok : LeafOK l')
    (ha : l'.anchor = l.anchor) (he : l'.entries = l.entries ++ n.entries) : WhRep (A ++ l' :: B) m := by
  have okl := h.leaf l (by simp)
  have okn := h.leaf n (by simp)
  have hhi := h.high
  have han := h.anchors
  simp only [List.pairwise_append, List.pairwise_cons] at hhi han
  have hln : ∀ x ∈ l.entries, ∀ y ∈ n.entries, keyLt x.1 y.1 = true := fun x hx y hy =>
    keyLt_of_lt_of_le (hhi.2.1.1 n (by simp) x hx) (h.low n (by simp) y hy)
  have hlist : l'.list = l.list ++ n.list := by
    refine Inc.eq_of_perm ?_ ok.inc ?_
    · refine l'.list_perm.trans ?_
      rw [he]
      exact l.list_perm.symm.append n.list_perm.symm
    · exact List.pairwise_append.2 ⟨okl.inc, okn.inc, fun x hx y hy =>
        hln x (l.list_perm.mem_iff.1 hx) y (n.list_perm.mem_iff.1 hy)⟩
  refine ⟨?_, ?_, ?_, ?_, ?_, ?_, ?_⟩
  · intro z hz
    simp only [List.mem_append, List.mem_cons] at hz
    rcases hz with hz | hz | hz
    · exact h.leaf z (by simp [hz])
    · rw [hz]; exact ok
    · exact h.leaf z (by simp [hz])
  · obtain ⟨l0, t', ht, ha0⟩ := h.first
    cases A with
    | nil => exact ⟨l', B, rfl, by simp at ht; rw [ha, ht.1, ha0]⟩
    | cons a' A => exact ⟨a', A ++ l' :: B, rfl, by simp at ht; rw [ht.1, ha0]⟩
  · intro z hz
    simp only [List.mem_append, List.mem_cons] at hz
    rcases hz with hz | hz | hz
    · exact h.alen z (by simp [hz])
    · rw [hz, ha]; exact h.alen l (by simp)
    · exact h.alen z (by simp [hz])
  · rw [List.pairwise_append, List.pairwise_cons]
    refine ⟨han.1, ⟨fun b hb => by rw [ha]; exact han.2.1.1 b (by simp [hb]), han.2.1.2.2⟩, fun z hz w hw => ?_⟩
    rcases List.mem_cons.1 hw with rfl | hw
    · rw [ha]; exact han.2.2 z hz l (by simp)
    · exact han.2.2 z hz w (by simp [hw])
  · intro z hz
    simp only [List.mem_append, List.mem_cons] at hz
    rcases hz with hz | hz | hz
    · exact h.low z (by simp [hz])
    · rw [hz, ha, he]
      intro e hee
      rcases List.mem_append.1 hee with hee | hee
      · exact h.low l (by simp) e hee
      · exact keyLt_keyLe (keyLt_of_lt_of_le (han.2.1.1 n (by simp)) (h.low n (by simp) e hee))
    · exact h.low z (by simp [hz])
  · rw [List.pairwise_append, List.pairwise_cons]
    refine ⟨hhi.1, ⟨fun b hb e hee => ?_, hhi.2.1.2.2⟩, fun z hz w hw => ?_⟩
    · rw [he] at hee
      rcases List.mem_append.1 hee with hee | hee
      · exact hhi.2.1.1 b (by simp [hb]) e hee
      · exact hhi.2.1.2.1 b hb e hee
    · rcases List.mem_cons.1 hw with rfl | hw
      · rw [ha]; exact hhi.2.2 z hz l (by simp)
      · exact hhi.2.2 z hz w (by simp [hw])
  · rw [h.eq]; simp [hlist]

theorem hazard_mid {A B : Wh} {l n : Leaf} {k : Key} (h : mergeHazard (A ++ l :: n :: B) k = false)
    (hk : k ∈ keysOf l.entries) (hn : n.nr ≠ 0) (hm : l.nr = 1 ∨ l.nr - 1 + n.nr < 24) :
    2 ≤ (l.entries.filter fun e => keyLt k e.1).length := by
  induction A with
  | nil =>
    rw [List.nil_append, mergeHazard, Bool.or_eq_false_iff] at h
    by_contra hc
    have : (l.entries.any fun e => e.1 == k) = true := by
      obtain ⟨e, he, e1⟩ := List.mem_map.1 hk
      exact List.any_eq_true.2 ⟨e, he, by simpa using e1⟩
    have h' := h.1
    rw [this, Bool.true_and] at h'
    simp only [decide_eq_false_iff_not] at h'
    omega
  | cons a A ih =>
    cases A with
    | nil => rw [List.cons_append, List.nil_append, mergeHazard, Bool.or_eq_false_iff] at h; exact ih h.2
    | cons a' A => rw [List.cons_append, List.cons_append, mergeHazard, Bool.or_eq_false_iff] at h; exact ih h.2

theorem del_spec {t : Wh} {m : Tree} (h : WhRep t m) {k : Key} (hk : k.length ≤ 8) {A B : Wh} {l : Leaf}
    (z : Zip t k A l B) {a b : List Entry} {st : Store} (hab : l.entries = a ++ (k, st) :: b) (hs : a.length < l.sorted)
    (hz : mergeHazard t k = false) :
    ∃ t', t.del k = .ok t' ∧ WhRep t' (treeDel m k) ∧ (∀ k', keyLt k' k = true → Findable t k' → Findable t' k') ∧
      ∀ j, j < a.length ∨ (j = a.length + 1 ∧ j < l.nr) → t'.peek (some (A.length, j)) = t.peek (some (A.length, j)) := by
  have ok := h.ok z
  have hlen := ok.entries_length
  have hin : k ∈ keysOf l.entries := by rw [hab]; simp
  have hsees : l.Sees k := by
    intro _
    rw [hab]
    refine List.mem_map.2 ⟨(k, st), ?_, rfl⟩
    exact List.mem_take_iff_getElem.2 ⟨a.length, by simp; omega, by simp⟩
  obtain ⟨pos, st', e1, hpos, hen, hlt⟩ := searchEq_some ok hk hin hsees
  have hpa : pos = a.length := by
    have h1 : (keysOf l.entries)[pos]? = some k := by rw [List.getElem?_map, hen]; rfl
    have h2 : (keysOf l.entries)[a.length]? = some k := by rw [List.getElem?_map, hab]; simp
    obtain ⟨i1, g1⟩ := List.getElem?_eq_some_iff.1 h1
    obtain ⟨i2, g2⟩ := List.getElem?_eq_some_iff.1 h2
    exact (List.Nodup.getElem_inj_iff ok.nodup).1 (g1.trans g2.symm)
  subst hpa
  have hamem : ∀ e ∈ a, keyLt e.1 k = true := by
    intro e he
    obtain ⟨i, hi, rfl⟩ := List.mem_iff_getElem.1 he
    exact hlt i hi _ (by rw [hab, List.getElem?_append_left hi]; simp)
  obtain ⟨ok', n', s', p1, p2, tk, sl⟩ := remove_spec ok hab hs
  have hp := p1.trans p2
  have hrep := h.delLeaf z ok' rfl hp
  have hseesR : ∀ k', keyLt k' k = true → l.Sees k' → (l.remove a.length).Sees k' := by
    intro k' hlt' hs' hmem
    rw [s', tk]
    have h1 : k' ∈ keysOf (a ++ b) := (p1.map Prod.fst).mem_iff.1 hmem
    have h2 : k' ∈ keysOf l.entries := by
      rw [hab]
      simp only [keysOf, List.map_append, List.map_cons, List.mem_append, List.mem_cons] at h1 ⊢
      rcases h1 with h1 | h1
      · exact Or.inl h1
      · exact Or.inr (Or.inr h1)
    have h3 := hs' h2
    obtain ⟨e, he, e1⟩ := List.mem_map.1 h3
    obtain ⟨i, hi, hie⟩ := List.mem_take_iff_getElem.1 he
    by_cases hia : i < a.length
    · refine List.mem_map.2 ⟨e, ?_, e1⟩
      have : l.entries[i]? = a[i]? := by rw [hab, List.getElem?_append_left hia]
      rw [List.getElem?_eq_getElem (by omega), List.getElem?_eq_getElem hia] at this
      have h4 := Option.some.inj this
      rw [← hie, h4]
      exact List.getElem_mem hia
    · exfalso
      have hle : keyLe k k' = true := by
        rcases Nat.lt_or_ge a.length i with hgt | hge
        · have hpw := List.pairwise_iff_getElem.1 ok.pref a.length i (by rw [List.length_take]; omega) (by rw [List.length_take]; omega) hgt
          rw [List.getElem_take, List.getElem_take] at hpw
          have h5 : l.entries[a.length] = (k, st) := by
            have : l.entries[a.length]? = some (k, st) := by rw [hab]; simp
            exact (List.getElem?_eq_some_iff.1 this).2
          rw [h5, hie, e1] at hpw
          exact keyLt_keyLe hpw
        · have hi' : i = a.length := by omega
          subst hi'
          have : l.entries[a.length]? = some (k, st) := by rw [hab]; simp
          have h5 := (List.getElem?_eq_some_iff.1 this).2
          rw [h5] at hie
          rw [← e1, ← hie]
          exact keyLe_refl _
      rw [keyLe_iff_not_lt, hlt'] at hle
      simp at hle
  have hpk : ∀ (t' : Wh) (l' : Leaf), t'[A.length]? = some l' → ∀ j, l'.slots[j]? = l.slots[j]? →
      t'.peek (some (A.length, j)) = t.peek (some (A.length, j)) := by
    intro t' l' h1 j h2
    have h3 : t[A.length]? = some l := by rw [z.eq]; simp
    unfold Wh.peek
    simp only [h1, h3, h2]
  unfold Wh.del
  dsimp only
  rw [z.get]
  dsimp only
  rw [e1, Res.bind_ok]
  dsimp only
  rw [z.set, z.jump]
  unfold Wh.tryMerge
  have hnomerge : ∃ t', Res.ok (A ++ l.remove a.length :: B) = .ok t' ∧ WhRep t' (treeDel m k) ∧
      (∀ k', keyLt k' k = true → Findable t k' → Findable t' k') ∧
      ∀ j, j < a.length ∨ (j = a.length + 1 ∧ j < l.nr) → t'.peek (some (A.length, j)) = t.peek (some (A.length, j)) := by
    refine ⟨_, rfl, hrep, fun k' h1 h2 => ?_, fun j hj => hpk _ (l.remove a.length) (by simp) j (sl j (by omega))⟩
    rw [z.eq] at h2
    exact h2.set (hseesR k' h1 (h2 l (by simp)))
  have hg : (A ++ l.remove a.length :: B)[A.length]? = some (l.remove a.length) := by simp
  rw [hg]
  cases B with
  | nil =>
    have hg2 : (A ++ [l.remove a.length])[A.length + 1]? = none := by
      rw [List.getElem?_eq_none_iff]; simp
    rw [hg2]
    exact hnomerge
  | cons n B =>
    have hg2 : (A ++ l.remove a.length :: n :: B)[A.length + 1]? = some n := by
      rw [List.getElem?_append_right (by omega)]; simp
    rw [hg2]
    dsimp only
    by_cases hc : (l.remove a.length).nr = 0 ∨ (l.remove a.length).nr + n.nr < 24
    · rw [if_pos hc]
      by_cases hc2 : (l.remove a.length).nr + n.nr ≤ 32
      · rw [if_pos hc2]
        have okn : LeafOK n := h.leaf n (by rw [z.eq]; simp)
        have hgap : n.nr ≠ 0 → a.length + 3 ≤ l.nr := by
          intro hn0
          have := hazard_mid (by rw [← z.eq]; exact hz) hin hn0 (by
            have : a.length < l.nr := by rw [← hlen, hab]; simp
            omega)
          rw [hab, List.filter_append, List.filter_cons, if_neg (by rw [keyLt_irrefl]; simp)] at this
          have ha0 : (a.filter fun e => keyLt k e.1) = [] := by
            rw [List.filter_eq_nil_iff]
            intro e he
            rw [keyLt_asymm (hamem e he)]; simp
          rw [ha0, List.nil_append] at this
          have h2 := List.length_filter_le (fun e : Entry => keyLt k e.1) b
          have h3 : 2 ≤ b.length := Nat.le_trans this h2
          have h4 : a.length + (b.length + 1) = l.nr := by rw [← hlen, hab]; simp
          clear h2 this
          omega
        have hnd : (keysOf ((l.remove a.length).entries ++ n.entries)).Nodup := by
          have h1 := hrep.inc.nodup
          rw [hrep.eq] at h1
          simp only [keysOf, List.flatMap_append, List.flatMap_cons, List.map_append] at h1
          rw [List.nodup_append] at h1
          have h2 := h1.2.1
          rw [← List.append_assoc, List.nodup_append] at h2
          have h3 := h2.1
          rw [← List.map_append] at h3
          exact (((l.remove a.length).list_perm.append n.list_perm).map _).nodup_iff.1 h3
        obtain ⟨l', em, okm, am, nm, enm, sm, slm⟩ := merge_spec ok' okn hc2 hnd (by
          by_cases hn0 : n.nr = 0
          · exact Or.inr hn0
          · have := hgap hn0
            exact Or.inl (by omega))
        rw [em, Res.bind_ok]
        have ht' : (A ++ l.remove a.length :: n :: B).take A.length ++ l' ::
            (A ++ l.remove a.length :: n :: B).drop (A.length + 2) = A ++ l' :: B := by
          rw [List.take_left, List.drop_append, List.drop_of_length_le (by omega)]
          have : A.length + 2 - A.length = 2 := by omega
          rw [this]
          simp
        refine ⟨_, rfl, ?_, ?_, ?_⟩
        · rw [ht']; exact hrep.join okm am enm
        · intro k' h1 h2
          rw [ht']
          rw [z.eq] at h2
          intro x hx
          simp only [List.mem_append, List.mem_cons] at hx
          rcases hx with hx | rfl | hx
          · exact h2 x (by simp [hx])
          · intro hmem
            rw [enm] at hmem ⊢
            rw [keysOf, List.map_append, List.mem_append] at hmem
            rcases hmem with hmem | hmem
            · have := hseesR k' h1 (h2 l (by simp)) hmem
              obtain ⟨e, he, e1⟩ := List.mem_map.1 this
              refine List.mem_map.2 ⟨e, ?_, e1⟩
              obtain ⟨i, hi, hie⟩ := List.mem_take_iff_getElem.1 he
              refine List.mem_take_iff_getElem.2 ⟨i, by rw [List.length_append]; omega, ?_⟩
              rw [List.getElem_append_left (by omega)]
              exact hie
            · exfalso
              obtain ⟨e, he, e1⟩ := List.mem_map.1 hmem
              have h3 := h.after z e (mem_flat.2 ⟨n, by simp, he⟩)
              rw [e1] at h3
              rw [keyLt_asymm h3] at h1
              simp at h1
          · exact h2 x (by simp [hx])
        · intro j hj
          rw [ht']
          refine hpk _ l' (by simp) j ?_
          rw [slm j ?_, sl j (by omega)]
          by_cases hn0 : n.nr = 0
          · exact Or.inr hn0
          · have := hgap hn0
            exact Or.inl (by omega)
      · rw [if_neg hc2]
        exact hnomerge
    · rw [if_neg hc]
      exact hnomerge

end Verif
