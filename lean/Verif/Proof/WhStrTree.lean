import Verif.Proof.WhStrOps
import Verif.Proof.WhIter

/-!
# The string tree represents an ordered list
-/

namespace Verif.Str

/-- The leaves hold the ordered list `m`. -/
structure SRep (t : STree) (m : Tree) : Prop where
  leaf : ∀ l ∈ t, SLeafOK l
  first : ∃ l t', t = l :: t' ∧ l.anchor = []
  anchors : t.Pairwise fun a b => keyLt a.anchor b.anchor = true
  low : ∀ l ∈ t, ∀ e ∈ l.entries, keyLe l.anchor e.1 = true
  high : t.Pairwise fun a b => ∀ e ∈ a.entries, keyLt e.1 b.anchor = true
  eq : m = t.flatMap SLeaf.list

/-! ## The leaf of a key -/

/-- The leaf `l` is the one of the key. -/
structure Zip (t : STree) (k : Key) (A : STree) (l : SLeaf) (B : STree) : Prop where
  eq : t = A ++ l :: B
  jump : t.jump k = A.length
  le : keyLe l.anchor k = true
  gt : ∀ b ∈ B, keyLt k b.anchor = true

theorem SRep.zip {t : STree} {m : Tree} (h : SRep t m) (k : Key) : ∃ A l B, Zip t k A l B := by
  obtain ⟨l0, t', ht, ha⟩ := h.first
  have hpos : 0 < t.findIdx (fun l => keyLt k l.anchor) := by
    rw [ht, List.findIdx_cons, ha]
    have : keyLt k [] = false := by cases k <;> rfl
    rw [this]
    simp
  have hle : t.findIdx (fun l => keyLt k l.anchor) ≤ t.length := List.findIdx_le_length
  have hj : t.jump k < t.length := by unfold STree.jump; omega
  refine ⟨t.take (t.jump k), t[t.jump k], t.drop (t.jump k + 1), ?_, ?_, ?_, ?_⟩
  · rw [← List.drop_eq_getElem_cons hj, List.take_append_drop]
  · rw [List.length_take]; omega
  · have := List.not_of_lt_findIdx (p := fun l : SLeaf => keyLt k l.anchor) (xs := t) (i := t.jump k)
      (by unfold STree.jump; omega)
    rw [keyLe_iff_not_lt]
    simpa using this
  · intro b hb
    obtain ⟨i, hi, rfl⟩ := List.mem_iff_getElem.1 hb
    rw [List.length_drop] at hi
    rw [List.getElem_drop]
    have hjj : t.jump k + 1 = t.findIdx (fun l => keyLt k l.anchor) := by unfold STree.jump; omega
    have hlt : t.findIdx (fun l => keyLt k l.anchor) < t.length := by omega
    have h1 : keyLt k t[t.findIdx (fun l => keyLt k l.anchor)].anchor = true :=
      List.findIdx_getElem (p := fun l : SLeaf => keyLt k l.anchor) (xs := t) (w := hlt)
    by_cases hz : i = 0
    · subst hz
      simp only [Nat.add_zero, hjj]
      exact h1
    · exact keyLt_trans' h1 (List.pairwise_iff_getElem.1 h.anchors _ (t.jump k + 1 + i) hlt (by omega) (by omega))

section
variable {t : STree} {m : Tree} {k : Key} {A B : STree} {l : SLeaf}

theorem SRep.ok (h : SRep t m) (z : Zip t k A l B) : SLeafOK l := h.leaf l (by rw [z.eq]; simp)

theorem mem_flat {A : STree} {e : Entry} : e ∈ A.flatMap SLeaf.list ↔ ∃ a ∈ A, e ∈ a.entries := by
  rw [List.mem_flatMap]
  constructor
  · rintro ⟨a, ha, he⟩; exact ⟨a, ha, a.list_perm.mem_iff.1 he⟩
  · rintro ⟨a, ha, he⟩; exact ⟨a, ha, a.list_perm.mem_iff.2 he⟩

theorem SRep.before (h : SRep t m) (z : Zip t k A l B) : ∀ e ∈ A.flatMap SLeaf.list, keyLt e.1 k = true := by
  intro e he
  obtain ⟨a, ha, hea⟩ := mem_flat.1 he
  have := h.high
  rw [z.eq, List.pairwise_append] at this
  exact keyLt_of_lt_of_le (this.2.2 a ha l (by simp) e hea) z.le

theorem SRep.after (h : SRep t m) (z : Zip t k A l B) : ∀ e ∈ B.flatMap SLeaf.list, keyLt k e.1 = true := by
  intro e he
  obtain ⟨b, hb, heb⟩ := mem_flat.1 he
  exact keyLt_of_lt_of_le (z.gt b hb) (h.low b (by rw [z.eq]; simp [hb]) e heb)

theorem SRep.list (h : SRep t m) (z : Zip t k A l B) : m = A.flatMap SLeaf.list ++ l.list ++ B.flatMap SLeaf.list := by
  rw [h.eq, z.eq]; simp

theorem SRep.mem (h : SRep t m) (z : Zip t k A l B) : k ∈ keysOf m ↔ k ∈ keysOf l.entries := by
  rw [h.list z, keysOf, List.map_append, List.map_append]
  constructor
  · intro hh
    rcases List.mem_append.1 hh with hh | hh
    · rcases List.mem_append.1 hh with hh | hh
      · obtain ⟨e, he, e1⟩ := List.mem_map.1 hh
        exact absurd e1 (keyLt_ne (h.before z e he)).symm
      · exact (l.list_perm.map _).mem_iff.1 hh
    · obtain ⟨e, he, e1⟩ := List.mem_map.1 hh
      exact absurd e1 (keyLt_ne (h.after z e he))
  · intro hh
    exact List.mem_append.2 (Or.inl (List.mem_append.2 (Or.inr ((l.list_perm.map _).mem_iff.2 hh))))

theorem Zip.get (z : Zip t k A l B) : t[t.jump k]? = some l := by rw [z.jump, z.eq]; simp

theorem Zip.set (z : Zip t k A l B) (l' : SLeaf) : t.set (t.jump k) l' = A ++ l' :: B := by rw [z.jump, z.eq]; simp

end

theorem flat_inc {t : STree} (h1 : ∀ l ∈ t, SLeafOK l) (h2 : t.Pairwise fun a b => ∀ e ∈ a.entries, keyLt e.1 b.anchor = true)
    (h3 : ∀ l ∈ t, ∀ e ∈ l.entries, keyLe l.anchor e.1 = true) : Inc (t.flatMap SLeaf.list) := by
  induction t with
  | nil => exact List.Pairwise.nil
  | cons l t ih =>
    rw [List.flatMap_cons]
    have h2' := List.pairwise_cons.1 h2
    refine List.pairwise_append.2 ⟨(h1 l (by simp)).inc, ih (fun x hx => h1 x (by simp [hx])) h2'.2
      (fun x hx => h3 x (by simp [hx])), fun x hx y hy => ?_⟩
    obtain ⟨b, hb, hyb⟩ := mem_flat.1 hy
    exact keyLt_of_lt_of_le (h2'.1 b hb x (l.list_perm.mem_iff.1 hx)) (h3 b (by simp [hb]) y hyb)

theorem SRep.inc {t : STree} {m : Tree} (h : SRep t m) : Inc m := by rw [h.eq]; exact flat_inc h.leaf h.high h.low

/-- Replace one leaf. -/
theorem SRep.set {A B : STree} {l l' : SLeaf} {m : Tree} (h : SRep (A ++ l :: B) m) (ok : SLeafOK l')
    (ha : l'.anchor = l.anchor) (h1 : ∀ e ∈ l'.entries, keyLe l.anchor e.1 = true)
    (h2 : ∀ e ∈ l'.entries, ∀ b ∈ B, keyLt e.1 b.anchor = true) :
    SRep (A ++ l' :: B) (A.flatMap SLeaf.list ++ l'.list ++ B.flatMap SLeaf.list) := by
  obtain ⟨l0, t', ht, ha0⟩ := h.first
  have han := h.anchors
  have hhi := h.high
  rw [List.pairwise_append, List.pairwise_cons] at han hhi
  refine ⟨?_, ?_, ?_, ?_, ?_, by simp⟩
  · intro x hx
    rcases List.mem_append.1 hx with hx | hx
    · exact h.leaf x (by simp [hx])
    · rcases List.mem_cons.1 hx with rfl | hx
      · exact ok
      · exact h.leaf x (by simp [hx])
  · cases A with
    | nil =>
      have : l = l0 := by simp at ht; exact ht.1
      exact ⟨l', B, rfl, by rw [ha, this, ha0]⟩
    | cons a A =>
      have : a = l0 := by simp at ht; exact ht.1
      exact ⟨a, A ++ l' :: B, rfl, by rw [this, ha0]⟩
  · rw [List.pairwise_append, List.pairwise_cons]
    refine ⟨han.1, ⟨by rw [ha]; exact han.2.1.1, han.2.1.2⟩, fun a ha' b hb => ?_⟩
    rcases List.mem_cons.1 hb with rfl | hb
    · rw [ha]; exact han.2.2 a ha' l (by simp)
    · exact han.2.2 a ha' b (by simp [hb])
  · intro x hx
    rcases List.mem_append.1 hx with hx | hx
    · exact h.low x (by simp [hx])
    · rcases List.mem_cons.1 hx with rfl | hx
      · rw [ha]; exact h1
      · exact h.low x (by simp [hx])
  · rw [List.pairwise_append, List.pairwise_cons]
    refine ⟨hhi.1, ⟨fun b hb e he => h2 e he b hb, hhi.2.1.2⟩, fun a ha' b hb => ?_⟩
    rcases List.mem_cons.1 hb with rfl | hb
    · rw [ha]; exact hhi.2.2 a ha' l (by simp)
    · exact hhi.2.2 a ha' b (by simp [hb])

theorem SRep.bounds {A B : STree} {l : SLeaf} {m : Tree} (h : SRep (A ++ l :: B) m) :
    (∀ e ∈ l.entries, keyLe l.anchor e.1 = true) ∧ ∀ e ∈ l.entries, ∀ b ∈ B, keyLt e.1 b.anchor = true := by
  have hhi := h.high
  rw [List.pairwise_append, List.pairwise_cons] at hhi
  exact ⟨h.low l (by simp), fun e he b hb => hhi.2.1.1 b hb e he⟩

/-- Replacing the leaf by one that differs by a `put`. -/
theorem SRep.putLeaf {t : STree} {m : Tree} {k : Key} {A B : STree} {l l' : SLeaf} (h : SRep t m) (z : Zip t k A l B)
    (ok : SLeafOK l') (ha : l'.anchor = l.anchor) {st : Store}
    (hp : l'.entries.Perm ((k, st) :: l.entries.filter fun e => e.1 != k)) :
    SRep (A ++ l' :: B) (treePut m k st) := by
  have hb := h.before z
  have haf := h.after z
  rw [h.list z, treePut_after haf, treePut_before hb, ← slist_put (h.ok z) ok hp]
  have h' := h
  rw [z.eq] at h'
  refine h'.set ok ha (fun e he => ?_) (fun e he b hbm => ?_)
  · rcases mem_filter_sub (hp.mem_iff.1 he) with rfl | he
    · exact z.le
    · exact h'.bounds.1 e he
  · rcases mem_filter_sub (hp.mem_iff.1 he) with rfl | he
    · exact z.gt b hbm
    · exact h'.bounds.2 e he b hbm

theorem SRep.delLeaf {t : STree} {m : Tree} {k : Key} {A B : STree} {l l' : SLeaf} (h : SRep t m) (z : Zip t k A l B)
    (ok : SLeafOK l') (ha : l'.anchor = l.anchor) (hp : l'.entries.Perm (l.entries.filter fun e => e.1 != k)) :
    SRep (A ++ l' :: B) (treeDel m k) := by
  rw [h.list z, treeDel_inner (h.before z) (h.after z), ← slist_del (h.ok z) ok hp]
  have h' := h
  rw [z.eq] at h'
  exact h'.set ok ha (fun e he => h'.bounds.1 e (List.mem_of_mem_filter (hp.mem_iff.1 he)))
    (fun e he b hbm => h'.bounds.2 e (List.mem_of_mem_filter (hp.mem_iff.1 he)) b hbm)

/-- Replace one leaf by two. -/
theorem SRep.split {A B : STree} {l a b : SLeaf} {m : Tree} (h : SRep (A ++ l :: B) m) (oka : SLeafOK a) (okb : SLeafOK b)
    (ha : a.anchor = l.anchor) (hne : a.entries ≠ [])
    (h1 : ∀ e ∈ a.entries, keyLe l.anchor e.1 = true) (h2 : ∀ e ∈ a.entries, keyLt e.1 b.anchor = true)
    (h3 : ∀ e ∈ b.entries, keyLe b.anchor e.1 = true) (h4 : ∀ e ∈ b.entries, ∀ x ∈ B, keyLt e.1 x.anchor = true)
    (hneb : b.entries ≠ []) :
    SRep (A ++ a :: b :: B) (A.flatMap SLeaf.list ++ (a.list ++ b.list) ++ B.flatMap SLeaf.list) := by
  obtain ⟨x, hx⟩ := List.exists_mem_of_ne_nil _ hne
  obtain ⟨y, hy⟩ := List.exists_mem_of_ne_nil _ hneb
  have hab : keyLt l.anchor b.anchor = true := keyLt_of_le_of_lt (h1 x hx) (h2 x hx)
  have hbB : ∀ z ∈ B, keyLt b.anchor z.anchor = true := fun z hz => keyLt_of_le_of_lt (h3 y hy) (h4 y hy z hz)
  have h' := h.set (l' := a) oka ha h1 (fun e he z hz => keyLt_trans' (h2 e he) (hbB z hz))
  have han := h'.anchors
  have hhi := h'.high
  rw [List.pairwise_append, List.pairwise_cons] at han hhi
  refine ⟨?_, ?_, ?_, ?_, ?_, by simp⟩
  · intro z hz
    simp only [List.mem_append, List.mem_cons] at hz
    rcases hz with hz | hz | hz | hz
    · exact h.leaf z (by simp [hz])
    · rw [hz]; exact oka
    · rw [hz]; exact okb
    · exact h.leaf z (by simp [hz])
  · obtain ⟨l0, t', ht, ha0⟩ := h'.first
    cases A with
    | nil => exact ⟨a, b :: B, rfl, by simp at ht; rw [ht.1, ha0]⟩
    | cons a' A => exact ⟨a', A ++ a :: b :: B, rfl, by simp at ht; rw [ht.1, ha0]⟩
  · rw [List.pairwise_append, List.pairwise_cons, List.pairwise_cons]
    have hlb : keyLt a.anchor b.anchor = true := by rw [ha]; exact hab
    refine ⟨han.1, ⟨fun z hz => ?_, hbB, han.2.1.2⟩, fun z hz w hw => ?_⟩
    · rcases List.mem_cons.1 hz with rfl | hz
      · exact hlb
      · exact han.2.1.1 z hz
    · have hza := han.2.2 z hz a (by simp)
      simp only [List.mem_cons] at hw
      rcases hw with rfl | rfl | hw
      · exact hza
      · exact keyLt_trans' hza hlb
      · exact han.2.2 z hz w (by simp [hw])
  · intro z hz
    simp only [List.mem_append, List.mem_cons] at hz
    rcases hz with hz | hz | hz | hz
    · exact h.low z (by simp [hz])
    · rw [hz, ha]; exact h1
    · rw [hz]; exact h3
    · exact h.low z (by simp [hz])
  · rw [List.pairwise_append, List.pairwise_cons, List.pairwise_cons]
    refine ⟨hhi.1, ⟨fun z hz => ?_, fun z hz e he => h4 e he z hz, hhi.2.1.2⟩, fun z hz w hw => ?_⟩
    · rcases List.mem_cons.1 hz with rfl | hz
      · exact h2
      · exact hhi.2.1.1 z hz
    · have hza := hhi.2.2 z hz a (by simp)
      simp only [List.mem_cons] at hw
      rcases hw with rfl | rfl | hw
      · exact hza
      · exact fun e he => keyLt_trans' (hza e he) (by rw [ha]; exact hab)
      · exact hhi.2.2 z hz w (by simp [hw])

/-! ## Put -/

/-- The keys of the leaf of `k` agree, together with `k`, in 65535 bytes or more. -/
def Crowded (t : STree) (k : Key) : Prop := ∃ l, t[t.jump k]? = some l ∧ l.nr = 32 ∧ k ∉ keysOf l.entries ∧ l.Full k

theorem SRep.sync {A B : STree} {l l' : SLeaf} {m : Tree} (h : SRep (A ++ l :: B) m) (ok : SLeafOK l')
    (ha : l'.anchor = l.anchor) (hl : l'.list = l.list) : SRep (A ++ l' :: B) m := by
  have hp : ∀ e, e ∈ l'.entries ↔ e ∈ l.entries := fun e => by rw [← l'.list_perm.mem_iff, hl, l.list_perm.mem_iff]
  have := h.set ok ha (fun e he => h.bounds.1 e ((hp e).1 he)) (fun e he => h.bounds.2 e ((hp e).1 he))
  rwa [hl, show A.flatMap SLeaf.list ++ l.list ++ B.flatMap SLeaf.list = m by rw [h.eq]; simp] at this

theorem put_spec {t : STree} {m : Tree} (h : SRep t m) (k : Key) (st : Store) :
    (¬ Crowded t k ∧ ∃ t', t.put k st = .ok (t', true) ∧ SRep t' (treePut m k st)) ∨
    (Crowded t k ∧ ∃ t', t.put k st = .ok (t', false) ∧ SRep t' m) := by
  obtain ⟨A, l, B, z⟩ := h.zip k
  have ok := h.ok z
  unfold STree.put
  dsimp only
  rw [z.get]
  dsimp only
  have hcr : Crowded t k ↔ l.nr = 32 ∧ k ∉ keysOf l.entries ∧ l.Full k := by
    unfold Crowded
    rw [z.get]
    constructor
    · rintro ⟨l', e, h'⟩
      obtain rfl := Option.some.inj e
      exact h'
    · intro h'; exact ⟨l, rfl, h'⟩
  rw [hcr]
  cases hm : l.matchHs k with
  | some ih =>
    obtain ⟨l', e1, ok', a', hp⟩ := supdate_spec ok (st := st) hm
    dsimp only
    rw [e1, Res.bind_ok]
    obtain ⟨s, h1, h2⟩ := match_some hm
    obtain ⟨a, b, h3, h4⟩ := ok.raw.place h1
    refine Or.inl ⟨fun hc => hc.2.1 ?_, _, rfl, ?_⟩
    · rw [h4, ← h2]; simp
    · rw [z.set]; exact h.putLeaf z ok' a' hp
  | none =>
    dsimp only
    have hin := match_none ok.raw hm
    have hfilt : (l.entries.filter fun e => e.1 != k) = l.entries := by
      rw [List.filter_eq_self]
      intro x hx
      exact bne_iff_ne.2 fun e => hin (e ▸ List.mem_map_of_mem hx)
    by_cases hn : l.nr < 32
    · rw [if_pos hn]
      obtain ⟨l', e2, ok', a', n', en'⟩ := sinsert_spec ok hn (e := (k, st)) hin
      rw [e2, Res.bind_ok]
      refine Or.inl ⟨by omega, _, rfl, ?_⟩
      rw [z.set]
      refine h.putLeaf z ok' a' ?_
      rw [en', hfilt]
      exact List.perm_append_singleton _ _
    · rw [if_neg hn]
      have hn' : l.nr = 32 := by have := ok.raw.nr; omega
      have h' := h
      rw [z.eq] at h'
      rcases ssplit_spec ok hn' (e := (k, st)) hin (decide (t.jump k + 1 < t.length)) with ⟨hf, e2⟩ |
          ⟨hf, a, b, e2, oka, okb, aa, sa, sb, hall, nea, neb, hlt, hle, _⟩
      · right
        rw [e2, Res.bind_ok]
        dsimp only
        obtain ⟨l', e3, ok', a', n', s', en'⟩ := ssync_spec ok
        rw [e3, Res.bind_ok]
        refine ⟨⟨hn', hin, hf⟩, _, rfl, ?_⟩
        rw [z.set]
        exact h'.sync ok' a' (by rw [ok'.list_of_sorted (by omega), en'])
      · left
        rw [e2, Res.bind_ok]
        have hmem : ∀ e ∈ a.entries ++ b.entries, e = (k, st) ∨ e ∈ l.entries := by
          intro e he
          rw [hall] at he
          rcases treePut_mem he with he | he
          · exact Or.inl he
          · exact Or.inr (l.list_perm.mem_iff.1 he)
        have ht' : t.take (t.jump k) ++ a :: b :: t.drop (t.jump k + 1) = A ++ a :: b :: B := by
          rw [z.jump, z.eq]; simp
        refine ⟨fun hc => hf hc.2.2, _, rfl, ?_⟩
        rw [ht']
        have := h'.split oka okb aa nea (fun e he => ?_) hlt hle (fun e he x hx => ?_) neb
        · rw [h.list z, treePut_after (h.after z), treePut_before (h.before z), ← hall,
            ← oka.list_of_sorted sa, ← okb.list_of_sorted sb]
          exact this
        · rcases hmem e (by simp [he]) with rfl | he
          · exact z.le
          · exact h'.bounds.1 e he
        · rcases hmem e (by simp [he]) with rfl | he
          · exact z.gt x hx
          · exact h'.bounds.2 e he x hx

theorem lcp_lt : ∀ {x y : Key}, keyLt x y = true → keyLcp x y + 1 ≤ y.length := fun h => lcp_between h (keyLe_refl _)

/-- Keys of at most 65535 bytes never crowd a leaf. -/
theorem not_crowded {t : STree} {m : Tree} (h : SRep t m) {k : Key} (hk : k.length ≤ 65535)
    (hm : ∀ e ∈ m, e.1.length ≤ 65535) : ¬ Crowded t k := by
  rintro ⟨l, hl, hn, hin, hf⟩
  have hlt : l ∈ t := List.mem_of_getElem? hl
  have ok := h.leaf l hlt
  have hinc : Inc (treePut l.list k Store.zero) := treePut_inc ok.inc
  have hne : k ∉ keysOf l.list := fun hh => hin ((l.list_perm.map _).mem_iff.1 hh)
  have hlen : (treePut l.list k Store.zero).length = 33 := by
    rw [← treePut_new ok.inc hne]
    have : (l.list.take (treeSeek l.list k) ++ l.list.drop (treeSeek l.list k)).length = 32 := by
      rw [List.take_append_drop, l.list_perm.length_eq, ok.entries_length, hn]
    simp only [List.length_append, List.length_cons] at this ⊢
    omega
  unfold SLeaf.Full at hf
  have g0 : (treePut l.list k Store.zero).getD 0 ([], Store.zero) = (treePut l.list k Store.zero)[0] := by
    rw [List.getD_eq_getElem?_getD, List.getElem?_eq_getElem]; rfl
  have g1 : (treePut l.list k Store.zero).getD 32 ([], Store.zero) = (treePut l.list k Store.zero)[32] := by
    rw [List.getD_eq_getElem?_getD, List.getElem?_eq_getElem]; rfl
  rw [g0, g1] at hf
  have h1 := lcp_lt (List.pairwise_iff_getElem.1 hinc 0 32 (by omega) (by omega) (by omega))
  have h2 : (treePut l.list k Store.zero)[32].1.length ≤ 65535 := by
    rcases treePut_mem (List.getElem_mem (l := treePut l.list k Store.zero) (n := 32) (by omega)) with e | e
    · rw [e]; exact hk
    · refine hm _ ?_
      rw [h.eq]
      exact List.mem_flatMap.2 ⟨l, hlt, e⟩
  omega

/-! ## Delete -/

/-- Join two neighbours. -/
theorem SRep.join {A B : STree} {l n l' : SLeaf} {m : Tree} (h : SRep (A ++ l :: n :: B) m) (ok : SLeafOK l')
    (ha : l'.anchor = l.anchor) (he : l'.entries = l.entries ++ n.entries) : SRep (A ++ l' :: B) m := by
  have okl := h.leaf l (by simp)
  have okn := h.leaf n (by simp)
  have hhi := h.high
  have han := h.anchors
  simp only [List.pairwise_append, List.pairwise_cons] at hhi han
  have hln : ∀ x ∈ l.entries, ∀ y ∈ n.entries, keyLt x.1 y.1 = true := fun x hx y hy =>
    keyLt_of_lt_of_le (hhi.2.1.1 n (by simp) x hx) (h.low n (by simp) y hy)
  have hlist : l'.list = l.list ++ n.list := by
    refine Inc.eq_of_perm ?_ ok.inc ?_
    · refine l'.list_perm.trans ?_
      rw [he]
      exact l.list_perm.symm.append n.list_perm.symm
    · exact List.pairwise_append.2 ⟨okl.inc, okn.inc, fun x hx y hy =>
        hln x (l.list_perm.mem_iff.1 hx) y (n.list_perm.mem_iff.1 hy)⟩
  refine ⟨?_, ?_, ?_, ?_, ?_, ?_⟩
  · intro z hz
    simp only [List.mem_append, List.mem_cons] at hz
    rcases hz with hz | hz | hz
    · exact h.leaf z (by simp [hz])
    · rw [hz]; exact ok
    · exact h.leaf z (by simp [hz])
  · obtain ⟨l0, t', ht, ha0⟩ := h.first
    cases A with
    | nil => exact ⟨l', B, rfl, by simp at ht; rw [ha, ht.1, ha0]⟩
    | cons a' A => exact ⟨a', A ++ l' :: B, rfl, by simp at ht; rw [ht.1, ha0]⟩
  · rw [List.pairwise_append, List.pairwise_cons]
    refine ⟨han.1, ⟨fun b hb => by rw [ha]; exact han.2.1.1 b (by simp [hb]), han.2.1.2.2⟩, fun z hz w hw => ?_⟩
    rcases List.mem_cons.1 hw with rfl | hw
    · rw [ha]; exact han.2.2 z hz l (by simp)
    · exact han.2.2 z hz w (by simp [hw])
  · intro z hz
    simp only [List.mem_append, List.mem_cons] at hz
    rcases hz with hz | hz | hz
    · exact h.low z (by simp [hz])
    · rw [hz, ha, he]
      intro e hee
      rcases List.mem_append.1 hee with hee | hee
      · exact h.low l (by simp) e hee
      · exact keyLt_keyLe (keyLt_of_lt_of_le (han.2.1.1 n (by simp)) (h.low n (by simp) e hee))
    · exact h.low z (by simp [hz])
  · rw [List.pairwise_append, List.pairwise_cons]
    refine ⟨hhi.1, ⟨fun b hb e hee => ?_, hhi.2.1.2.2⟩, fun z hz w hw => ?_⟩
    · rw [he] at hee
      rcases List.mem_append.1 hee with hee | hee
      · exact hhi.2.1.1 b (by simp [hb]) e hee
      · exact hhi.2.1.2.1 b hb e hee
    · rcases List.mem_cons.1 hw with rfl | hw
      · rw [ha]; exact hhi.2.2 z hz l (by simp)
      · exact hhi.2.2 z hz w (by simp [hw])
  · rw [h.eq]; simp [hlist]

theorem del_spec {t : STree} {m : Tree} (h : SRep t m) (k : Key) :
    ∃ t', t.del k = .ok t' ∧ SRep t' (treeDel m k) := by
  obtain ⟨A, l, B, z⟩ := h.zip k
  have ok := h.ok z
  unfold STree.del
  dsimp only
  rw [z.get]
  dsimp only
  cases hm : l.matchHs k with
  | none =>
    refine ⟨t, rfl, ?_⟩
    have : treeDel m k = m := by
      unfold treeDel
      rw [List.filter_eq_self]
      intro e he
      exact bne_iff_ne.2 fun e' => match_none ok.raw hm ((h.mem z).1 (e' ▸ List.mem_map_of_mem he))
    rw [this]; exact h
  | some ih =>
    dsimp only
    obtain ⟨l', e1, ok', a', n', hp⟩ := sremove_spec ok hm
    rw [e1, Res.bind_ok, z.set, z.jump]
    have hrep := h.delLeaf z ok' a' hp
    unfold STree.tryMerge
    have hg : (A ++ l' :: B)[A.length]? = some l' := by simp
    rw [hg]
    cases B with
    | nil =>
      have hg2 : (A ++ [l'])[A.length + 1]? = none := by
        rw [List.getElem?_eq_none_iff]; simp
      rw [hg2]
      exact ⟨_, rfl, hrep⟩
    | cons n B =>
      have hg2 : (A ++ l' :: n :: B)[A.length + 1]? = some n := by
        rw [List.getElem?_append_right (by omega)]; simp
      rw [hg2]
      dsimp only
      split_ifs with hc hc2
      · have okn : SLeafOK n := h.leaf n (by rw [z.eq]; simp)
        have hhi := hrep.high
        simp only [List.pairwise_append, List.pairwise_cons] at hhi
        obtain ⟨l2, em, okm, am, nm, enm⟩ := smerge_spec ok' okn hc2 fun x hx y hy =>
          keyLt_of_lt_of_le (hhi.2.1.1 n (by simp) x hx) (hrep.low n (by simp) y hy)
        rw [em, Res.bind_ok]
        have ht' : (A ++ l' :: n :: B).take A.length ++ l2 :: (A ++ l' :: n :: B).drop (A.length + 2) = A ++ l2 :: B := by
          rw [List.take_left, List.drop_append, List.drop_of_length_le (by omega)]
          have : A.length + 2 - A.length = 2 := by omega
          rw [this]
          simp
        refine ⟨_, rfl, ?_⟩
        rw [ht']; exact hrep.join okm am enm
      · exact ⟨_, rfl, hrep⟩
      · exact ⟨_, rfl, hrep⟩

theorem SRep.empty : SRep STree.empty [] := by
  obtain ⟨h1, h2⟩ := RawOK.blank (l := SLeaf.new []) rfl rfl (by simp [SLeaf.new])
  have ok : SLeafOK (SLeaf.new []) := SLeafOK.make h1 rfl (by rw [h2]; exact List.Pairwise.nil)
  refine ⟨?_, ⟨_, _, rfl, rfl⟩, List.pairwise_singleton _ _, ?_, List.pairwise_singleton _ _, ?_⟩
  · intro l hl; rw [List.mem_singleton.1 hl]; exact ok
  · intro l hl e he; rw [List.mem_singleton.1 hl, h2] at he; cases he
  · have : (SLeaf.new []).list = [] := by
      have := (SLeaf.new []).list_perm
      rw [h2] at this; exact this.eq_nil
    show [] = (SLeaf.new []).list ++ []
    rw [this]; rfl

end Verif.Str
