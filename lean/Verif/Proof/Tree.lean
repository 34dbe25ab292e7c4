import Verif.Model.Filter
import Verif.Proof.Item
import Mathlib.Data.List.Chain

/-!
# The tree invariant and the meaning of queries
-/

namespace Verif

@[simp] theorem Res.bind_ok {α β : Type} (a : α) (f : α → Res β) : (Res.ok a).bind f = f a := rfl
@[simp] theorem Res.bind_ub {α β : Type} (f : α → Res β) : (Res.ub).bind f = .ub := rfl
@[simp] theorem Res.bind_hang {α β : Type} (f : α → Res β) : (Res.hang).bind f = .hang := rfl

/-! ## Seek -/

theorem seek_append {A B : Tree} {e : Key × Store} {key : Key} (hA : ∀ a ∈ A, keyLt a.1 key = true)
    (he : keyLe key e.1 = true) : treeSeek (A ++ e :: B) key = A.length := by
  unfold treeSeek
  rw [List.findIdx_append]
  have h1 : A.findIdx (fun e => keyLe key e.1) = A.length := by
    rw [List.findIdx_eq_length]
    intro a ha
    rw [keyLe_iff_not_lt, hA a ha]; rfl
  rw [h1, if_neg (by omega), List.findIdx_cons, he]
  simp

theorem seek_split {t : Tree} {key : Key} {e : Key × Store} (h : treePeek t (treeSeek t key) = .ok e) :
    ∃ A B, t = A ++ e :: B ∧ A.length = treeSeek t key ∧ (∀ a ∈ A, keyLt a.1 key = true) ∧
      keyLe key e.1 = true := by
  unfold treePeek at h
  cases hg : t[treeSeek t key]? with
  | none => rw [hg] at h; simp at h
  | some x =>
    rw [hg] at h
    obtain rfl : x = e := by simpa using h
    obtain ⟨hi, hx⟩ := List.getElem?_eq_some_iff.1 hg
    refine ⟨t.take (treeSeek t key), t.drop (treeSeek t key + 1), ?_, ?_, ?_, ?_⟩
    · rw [← hx, ← List.drop_eq_getElem_cons hi, List.take_append_drop]
    · rw [List.length_take]; omega
    · intro a ha
      obtain ⟨j, hj, rfl⟩ := List.mem_iff_getElem.1 ha
      rw [List.length_take] at hj
      have h1 := List.not_of_lt_findIdx (p := fun e : Key × Store => keyLe key e.1) (xs := t) (i := j)
        (show j < t.findIdx _ from by unfold treeSeek at hj; omega)
      rw [List.getElem_take]
      rw [keyLe_iff_not_lt] at h1
      cases hh : keyLt t[j].1 key
      · rw [hh] at h1; simp at h1
      · rfl
    · have := List.findIdx_getElem (p := fun e : Key × Store => keyLe key e.1) (xs := t) (w := hi)
      rw [← hx]; exact this

theorem peek_append {A B : Tree} {e : Key × Store} : treePeek (A ++ e :: B) A.length = .ok e := by
  unfold treePeek; simp

theorem peek_append_succ {A B : Tree} {p e : Key × Store} :
    treePeek (A ++ p :: e :: B) (A.length + 1) = .ok e := by
  unfold treePeek
  rw [List.getElem?_append_right (by omega)]
  simp

theorem seek_gap {A B : Tree} {p e : Key × Store} {key : Key} (hA : ∀ a ∈ A, keyLt a.1 key = true)
    (hp : keyLt p.1 key = true) (he : keyLe key e.1 = true) :
    treeSeek (A ++ p :: e :: B) key = A.length + 1 := by
  have := seek_append (A := A ++ [p]) (B := B) (e := e) (key := key)
    (by intro a ha; rcases List.mem_append.1 ha with h | h
        · exact hA a h
        · simp at h; subst h; exact hp) he
  simpa using this

/-! ## Regions -/

/-- The prefix of an item lies between the boundaries. -/
def Inside (s p : Nat) (prev next : Key) (x : Nat) : Prop :=
  pre (ilen s p x) prev ≤ ival s (pre p prev) x ∧ ival s (pre p prev) x ≤ pre (ilen s p x) next

/-- The part of a region's state that the store queries depend on. -/
structure RegionBase (c : Cfg) (prev : Key) (st : Store) (next : Key) (sh ig imp : Nat) (L : List Nat) : Prop where
  lt : PadLt prev next
  sii : sharedIgnoreImplicit prev next = some (sh, ig, imp)
  has : StoreHasW c (pre (sh + ig + imp) next - pre (sh + ig + imp) prev + 1) st L

/-- The state of one region, also after deletions. -/
structure RegionW (c : Cfg) (prev : Key) (st : Store) (next : Key) (sh ig imp : Nat) (L : List Nat) : Prop
    extends RegionBase c prev st next sh ig imp L where
  inside : ∀ x ∈ L, Inside c.infixSize (sh + ig + imp) prev next x
  part : st.isPartial = true → prev ≠ []

/-- The state of one region in which every item is placed by its home slot. -/
structure RegionHas (c : Cfg) (prev : Key) (st : Store) (next : Key) (sh ig imp : Nat) (L : List Nat) : Prop
    extends RegionW c prev st next sh ig imp L where
  strong : StoreHas c (pre (sh + ig + imp) next - pre (sh + ig + imp) prev + 1) st L

theorem RegionHas.make {c : Cfg} {prev next : Key} {st : Store} {sh ig imp : Nat} {L : List Nat} (lt : PadLt prev next)
    (sii : sharedIgnoreImplicit prev next = some (sh, ig, imp))
    (has : StoreHas c (pre (sh + ig + imp) next - pre (sh + ig + imp) prev + 1) st L)
    (inside : ∀ x ∈ L, Inside c.infixSize (sh + ig + imp) prev next x) (part : st.isPartial = true → prev ≠ []) :
    RegionHas c prev st next sh ig imp L := ⟨⟨⟨lt, sii, has.weak⟩, inside, part⟩, has⟩

def RegionOK (c : Cfg) (prev : Key) (st : Store) (next : Key) : Prop :=
  ∃ sh ig imp L, RegionHas c prev st next sh ig imp L

/-- The filter invariant. -/
structure FilterOK (f : Filter) : Prop where
  wf : f.cfg.WF
  chain : f.tree.IsChain fun e e' => RegionOK f.cfg e.1 e.2 e'.1

/-- The part of the invariant on which the queries rely. -/
structure FilterQ (f : Filter) : Prop where
  wf : f.cfg.WF
  chain : f.tree.IsChain fun e e' => (∃ sh ig imp L, RegionBase f.cfg e.1 e.2 e'.1 sh ig imp L) ∧
    (e.2.isPartial = true → e.1 ≠ [])

theorem FilterOK.q {f : Filter} (h : FilterOK f) : FilterQ f :=
  ⟨h.wf, h.chain.imp fun _ _ ⟨sh, ig, imp, L, R⟩ => ⟨⟨sh, ig, imp, L, R.toRegionBase⟩, R.part⟩⟩

theorem FilterQ.region {f : Filter} (h : FilterQ f) {A B : Tree} {p e : Key × Store}
    (ht : f.tree = A ++ p :: e :: B) : ∃ sh ig imp L, RegionBase f.cfg p.1 p.2 e.1 sh ig imp L := by
  have := h.chain
  rw [ht] at this
  exact (List.isChain_append_cons_cons.1 this).2.1.1

theorem FilterQ.part {f : Filter} (h : FilterQ f) {A B : Tree} {p e : Key × Store}
    (ht : f.tree = A ++ p :: e :: B) : p.2.isPartial = true → p.1 ≠ [] := by
  have := h.chain
  rw [ht] at this
  exact (List.isChain_append_cons_cons.1 this).2.1.2

theorem FilterQ.pairwise {f : Filter} (h : FilterQ f) : f.tree.Pairwise fun e e' => PadLt e.1 e'.1 := by
  have h1 : f.tree.IsChain fun e e' => PadLt e.1 e'.1 :=
    h.chain.imp fun a b hab => by obtain ⟨⟨_, _, _, _, hr⟩, _⟩ := hab; exact hr.lt
  have : IsTrans (Key × Store) (fun e e' => PadLt e.1 e'.1) := ⟨fun _ _ _ => PadLt.trans⟩
  exact h1.pairwise

/-- A partial boundary key keeps at most as many bits as the items of its region. -/
def BitsAt (c : Cfg) (e e' : Key × Store) : Prop :=
  ∀ sh ig imp, sharedIgnoreImplicit e.1 e'.1 = some (sh, ig, imp) → e.2.isPartial = true →
    8 * e.1.length ≤ sh + ig + imp + c.infixSize - 1 + e.2.invalidBits

/-- Holds as long as no region was merged. -/
def BitsOK (f : Filter) : Prop := f.tree.IsChain (BitsAt f.cfg)

theorem FilterOK.region {f : Filter} (h : FilterOK f) {A B : Tree} {p e : Key × Store}
    (ht : f.tree = A ++ p :: e :: B) : RegionOK f.cfg p.1 p.2 e.1 := by
  have := h.chain
  rw [ht] at this
  exact (List.isChain_append_cons_cons.1 this).2.1

theorem FilterOK.pairwise {f : Filter} (h : FilterOK f) : f.tree.Pairwise fun e e' => PadLt e.1 e'.1 := by
  have h1 : f.tree.IsChain fun e e' => PadLt e.1 e'.1 :=
    h.chain.imp fun a b hab => by obtain ⟨_, _, _, _, hr⟩ := hab; exact hr.lt
  have : IsTrans (Key × Store) (fun e e' => PadLt e.1 e'.1) := ⟨fun _ _ _ => PadLt.trans⟩
  exact h1.pairwise

theorem before_of_pairwise {t : Tree} (h : t.Pairwise fun e e' => PadLt e.1 e'.1) {A B : Tree} {p : Key × Store}
    (ht : t = A ++ p :: B) {a : Key × Store} (ha : a ∈ A) : PadLt a.1 p.1 := by
  rw [ht, List.pairwise_append] at h
  exact h.2.2 a ha p (by simp)

theorem after_of_pairwise {t : Tree} (h : t.Pairwise fun e e' => PadLt e.1 e'.1) {A B : Tree} {p : Key × Store}
    (ht : t = A ++ p :: B) {a : Key × Store} (ha : a ∈ B) : PadLt p.1 a.1 := by
  rw [ht, List.pairwise_append, List.pairwise_cons] at h
  exact h.2.1.1 a ha

/-- Everything before an entry is smaller. -/
theorem FilterOK.before {f : Filter} (h : FilterOK f) {A B : Tree} {p : Key × Store}
    (ht : f.tree = A ++ p :: B) {a : Key × Store} (ha : a ∈ A) : PadLt a.1 p.1 := by
  have := h.pairwise
  rw [ht, List.pairwise_append] at this
  exact this.2.2 a ha p (by simp)

/-- Everything after an entry is larger. -/
theorem FilterOK.after {f : Filter} (h : FilterOK f) {A B : Tree} {p : Key × Store}
    (ht : f.tree = A ++ p :: B) {a : Key × Store} (ha : a ∈ B) : PadLt p.1 a.1 := by
  have := h.pairwise
  rw [ht, List.pairwise_append, List.pairwise_cons] at this
  exact this.2.1.1 a ha

theorem between_of_le {a k b : Key} (h1 : keyLe a k = true) (h2 : keyLe k b = true) : Between a k b :=
  fun p => ⟨keyLe_pre h1 p, keyLe_pre h2 p⟩

section
variable {c : Cfg} {prev next : Key} {st : Store} {sh ig imp : Nat} {L : List Nat}

theorem RegionBase.lengths (R : RegionBase c prev st next sh ig imp L) : Lengths prev next sh ig imp :=
  sii_spec R.sii

theorem RegionBase.T_le (R : RegionBase c prev st next sh ig imp L) :
    pre (sh + ig + imp) next - pre (sh + ig + imp) prev + 1 ≤ 1024 := by
  obtain ⟨_, h⟩ := R.lengths.total R.lt
  omega

theorem RegionBase.list (R : RegionBase c prev st next sh ig imp L) (hc : c.WF) : getInfixList c st = L :=
  R.has.list hc R.T_le

theorem RegionBase.frame (R : RegionBase c prev st next sh ig imp L) (hc : c.WF) :
    ∃ fr, getFrame c.infixSize prev next = .ok fr ∧ fr.shared = sh ∧ fr.ignore = ig ∧ fr.implicitSize = imp ∧
      fr.prevImplicit = extractPartialKey c.infixSize prev sh ig imp 0 >>> c.infixSize ∧
      fr.total = pre (sh + ig + imp) next - pre (sh + ig + imp) prev + 1 := by
  unfold getFrame
  rw [R.sii]
  exact ⟨_, rfl, rfl, rfl, rfl, rfl, R.lengths.totalImplicit R.lt hc.s2⟩

theorem RegionBase.item_lt (R : RegionBase c prev st next sh ig imp L) (hc : c.WF) {x : Nat} (hx : x ∈ L) :
    x % 2 ^ c.infixSize ≠ 0 ∧ x < 2 ^ 64 ∧
      x / 2 ^ c.infixSize < pre (sh + ig + imp) next - pre (sh + ig + imp) prev + 1 := by
  obtain ⟨h1, h2⟩ := R.has.loadable.item x hx
  have h3 := R.T_le
  refine ⟨h1, ?_, h2⟩
  have h4 : x < 1024 * 2 ^ c.infixSize := by
    rw [← Nat.div_lt_iff_lt_mul (Nat.two_pow_pos _)]; omega
  have h5 : 1024 * 2 ^ c.infixSize ≤ 1024 * 2 ^ 46 := Nat.mul_le_mul_left _ (Nat.pow_le_pow_right (by decide) hc.s2)
  omega

/-- A stored prefix of the region matches the key. -/
def HitL (s p : Nat) (prev : Key) (L : List Nat) (k : Key) : Prop :=
  ∃ x ∈ L, pre (ilen s p x) k = ival s (pre p prev) x

/-- A stored prefix of the region meets the key range. -/
def MeetL (s p : Nat) (prev : Key) (L : List Nat) (l r : Key) : Prop :=
  ∃ x ∈ L, pre (ilen s p x) l ≤ ival s (pre p prev) x ∧ ival s (pre p prev) x ≤ pre (ilen s p x) r

theorem RegionBase.value (R : RegionBase c prev st next sh ig imp L) (hc : c.WF) {k : Key} (hk : Between prev k next)
    {fr : RFrame} (hf : getFrame c.infixSize prev next = .ok fr) :
    sub64 (fr.extract c.infixSize k) (shl64 fr.prevImplicit c.infixSize) =
      relVal c.infixSize (sh + ig + imp) prev k ∧
    fr.item c.infixSize k = (relVal c.infixSize (sh + ig + imp) prev k ||| 1) ∧
    relVal c.infixSize (sh + ig + imp) prev k / 2 ^ c.infixSize < 1024 ∧
    (relVal c.infixSize (sh + ig + imp) prev k ||| 1) / 2 ^ c.infixSize <
      pre (sh + ig + imp) next - pre (sh + ig + imp) prev + 1 := by
  obtain ⟨fr', h1, h2, h3, h4, h5, h6⟩ := R.frame hc
  rw [hf] at h1
  obtain rfl : fr = fr' := by injection h1
  have hk' := hk (sh + ig + imp)
  have e := relVal_div (s := c.infixSize) hk'.1
  have hT := R.T_le
  unfold RFrame.extract RFrame.item RFrame.extract
  rw [h2, h3, h4, h5]
  refine ⟨(R.lengths.value R.lt hk hc.s2).1, R.lengths.itemVal R.lt hk hc.s1 hc.s2, by omega, ?_⟩
  rw [relVal_quot hk'.1 hc.s1]
  omega

theorem RegionBase.point (R : RegionBase c prev st next sh ig imp L) (hc : c.WF) {k : Key} (hk : Between prev k next)
    {fr : RFrame} (hf : getFrame c.infixSize prev next = .ok fr) :
    pointQueryStore c st (sub64 (fr.extract c.infixSize k) (shl64 fr.prevImplicit c.infixSize)) = true ↔
      HitL c.infixSize (sh + ig + imp) prev L k := by
  obtain ⟨h1, h2, h3, h4⟩ := R.value hc hk hf
  rw [h1, R.has.point hc R.T_le h3]
  unfold HitL
  constructor
  · rintro ⟨x, hx, h⟩
    obtain ⟨a, b, d⟩ := R.item_lt hc hx
    exact ⟨x, hx, (covers_relVal a b (hk _).1).1 h⟩
  · rintro ⟨x, hx, h⟩
    obtain ⟨a, b, d⟩ := R.item_lt hc hx
    exact ⟨x, hx, (covers_relVal a b (hk _).1).2 h⟩

theorem relVal_mono {s p : Nat} {prev l r : Key} (h : pre (p + s) l ≤ pre (p + s) r) :
    (relVal s p prev l ||| 1) ≤ (relVal s p prev r ||| 1) := by
  rw [or_one, or_one]
  unfold relVal
  omega

theorem RegionBase.range (R : RegionBase c prev st next sh ig imp L) (hc : c.WF) {l r : Key} (hl : Between prev l next)
    (hr : Between prev r next) (hlr : ∀ p, pre p l ≤ pre p r)
    {fr : RFrame} (hf : getFrame c.infixSize prev next = .ok fr) :
    rangeTail c st fr l r = true ↔ MeetL c.infixSize (sh + ig + imp) prev L l r := by
  obtain ⟨_, h1, _, h2⟩ := R.value hc hl hf
  obtain ⟨_, h3, _, h4⟩ := R.value hc hr hf
  have hT := R.T_le
  unfold rangeTail
  rw [h1, h3, R.has.range hc R.T_le (relVal_mono (hlr _)) (by omega)]
  unfold MeetL
  constructor
  · rintro ⟨x, hx, h⟩
    obtain ⟨a, b, d⟩ := R.item_lt hc hx
    exact ⟨x, hx, (meets_relVal a b (hl _).1 (hr _).1).1 h⟩
  · rintro ⟨x, hx, h⟩
    obtain ⟨a, b, d⟩ := R.item_lt hc hx
    exact ⟨x, hx, (meets_relVal a b (hl _).1 (hr _).1).2 h⟩

end

/-! ## Queries on the tree -/

section
variable {f : Filter} {A B : Tree} {p e : Key × Store} {sh ig imp : Nat} {L : List Nat}

/-- The point query on a key strictly between two neighbouring boundaries. -/
theorem pointQuery_gap0 (hw : f.cfg.WF) (hpw : f.tree.Pairwise fun e e' => PadLt e.1 e'.1) (ht : f.tree = A ++ p :: e :: B)
    (R : RegionBase f.cfg p.1 p.2 e.1 sh ig imp L) {k : Key} (h1 : keyLt p.1 k = true) (h2 : keyLt k e.1 = true) :
    ∃ b, pointQuery f k = .ok b ∧ (b = true ↔
      (p.2.isPartial = true ∧ isPrefixOf p.1 k p.2.invalidBits = true) ∨
        HitL f.cfg.infixSize (sh + ig + imp) p.1 L k) := by
  have hA : ∀ a ∈ A, keyLt a.1 k = true := by
    intro a ha
    have := (before_of_pairwise hpw ht ha).trans_le (keyLe_pre (keyLt_keyLe h1))
    exact keyLt_of_padLt this
  have hs := seek_gap (B := B) (e := e) hA h1 (keyLt_keyLe h2)
  have hne : (e.1 == k) = false := by
    rw [beq_eq_false_iff_ne]
    rintro rfl
    rw [keyLt_irrefl] at h2; exact absurd h2 (by decide)
  obtain ⟨fr, hf, _⟩ := R.frame hw
  have hk := between_of_le (keyLt_keyLe h1) (keyLt_keyLe h2)
  unfold pointQuery
  simp only [ht, hs, peek_append_succ, Res.bind_ok, hne, Bool.false_eq_true, if_false, Nat.add_one_sub_one,
    Nat.succ_ne_zero, peek_append, hf]
  by_cases hp : p.2.isPartial && isPrefixOf p.1 k p.2.invalidBits
  · rw [if_pos hp]
    exact ⟨true, rfl, by simpa using Or.inl (by simpa using hp)⟩
  · rw [if_neg hp]
    refine ⟨_, rfl, ?_⟩
    rw [R.point hw hk hf]
    rw [Bool.and_eq_true] at hp
    simp [hp]

/-- The point query on a key strictly between two neighbouring boundaries. -/
theorem pointQuery_gap (h : FilterOK f) (ht : f.tree = A ++ p :: e :: B)
    (R : RegionHas f.cfg p.1 p.2 e.1 sh ig imp L) {k : Key} (h1 : keyLt p.1 k = true) (h2 : keyLt k e.1 = true) :
    ∃ b, pointQuery f k = .ok b ∧ (b = true ↔
      (p.2.isPartial = true ∧ isPrefixOf p.1 k p.2.invalidBits = true) ∨
        HitL f.cfg.infixSize (sh + ig + imp) p.1 L k) :=
  pointQuery_gap0 h.wf h.pairwise ht R.toRegionBase h1 h2

/-- The point query on a boundary key. -/
theorem pointQuery_boundary0 (hpw : f.tree.Pairwise fun e e' => PadLt e.1 e'.1) (ht : f.tree = A ++ e :: B) :
    pointQuery f e.1 = .ok true := by
  have hA : ∀ a ∈ A, keyLt a.1 e.1 = true := fun a ha => keyLt_of_padLt (before_of_pairwise hpw ht ha)
  have hs := seek_append (B := B) (e := e) hA (keyLe_refl _)
  unfold pointQuery
  simp only [ht, hs, peek_append, Res.bind_ok, beq_self_eq_true, if_true]

theorem pointQuery_boundary (h : FilterOK f) (ht : f.tree = A ++ e :: B) : pointQuery f e.1 = .ok true :=
  pointQuery_boundary0 h.pairwise ht

/-- The generic range query without a boundary in the range. -/
theorem rangeQuery_gap0 (hw : f.cfg.WF) (hpw : f.tree.Pairwise fun e e' => PadLt e.1 e'.1) (ht : f.tree = A ++ p :: e :: B)
    (R : RegionBase f.cfg p.1 p.2 e.1 sh ig imp L) {l r : Key} (h1 : keyLt p.1 l = true)
    (hlr : keyLe l r = true) (h2 : keyLt r e.1 = true) :
    ∃ b, rangeQuery false f l r = .ok b ∧ (b = true ↔
      (p.2.isPartial = true ∧ isPrefixOf p.1 l p.2.invalidBits = true) ∨
        MeetL f.cfg.infixSize (sh + ig + imp) p.1 L l r) := by
  have hle : keyLe l e.1 = true := keyLe_trans hlr (keyLt_keyLe h2)
  have hA : ∀ a ∈ A, keyLt a.1 l = true := by
    intro a ha
    have := (before_of_pairwise hpw ht ha).trans_le (keyLe_pre (keyLt_keyLe h1))
    exact keyLt_of_padLt this
  have hs := seek_gap (B := B) (e := e) hA h1 hle
  have hne : keyLe e.1 r = false := by rw [keyLe_iff_not_lt, h2]; rfl
  obtain ⟨fr, hf, _⟩ := R.frame hw
  have hl := between_of_le (keyLt_keyLe h1) hle
  have hr := between_of_le (keyLe_trans (keyLt_keyLe h1) hlr) (keyLt_keyLe h2)
  unfold rangeQuery
  simp only [ht, hs, peek_append_succ, Res.bind_ok, hne, Bool.false_eq_true, if_false, Nat.add_one_sub_one,
    Nat.succ_ne_zero, peek_append, hf]
  by_cases hp : p.2.isPartial && isPrefixOf p.1 l p.2.invalidBits
  · rw [if_pos hp]
    exact ⟨true, rfl, by simpa using Or.inl (by simpa using hp)⟩
  · rw [if_neg hp]
    refine ⟨_, rfl, ?_⟩
    rw [R.range hw hl hr (keyLe_pre hlr) hf]
    rw [Bool.and_eq_true] at hp
    simp [hp]

/-- The generic range query without a boundary in the range. -/
theorem rangeQuery_gap (h : FilterOK f) (ht : f.tree = A ++ p :: e :: B)
    (R : RegionHas f.cfg p.1 p.2 e.1 sh ig imp L) {l r : Key} (h1 : keyLt p.1 l = true)
    (hlr : keyLe l r = true) (h2 : keyLt r e.1 = true) :
    ∃ b, rangeQuery false f l r = .ok b ∧ (b = true ↔
      (p.2.isPartial = true ∧ isPrefixOf p.1 l p.2.invalidBits = true) ∨
        MeetL f.cfg.infixSize (sh + ig + imp) p.1 L l r) :=
  rangeQuery_gap0 h.wf h.pairwise ht R.toRegionBase h1 hlr h2

/-- A range query with a boundary key in the range. -/
theorem rangeQuery_boundary0 (hpw : f.tree.Pairwise fun e e' => PadLt e.1 e'.1) (ht : f.tree = A ++ e :: B) {io : Bool} {l r : Key}
    (h1 : keyLe l e.1 = true) (h2 : keyLe e.1 r = true) : rangeQuery io f l r = .ok true := by
  have hex : ∃ e', treePeek f.tree (treeSeek f.tree l) = .ok e' := by
    unfold treePeek treeSeek
    have : f.tree.findIdx (fun e => keyLe l e.1) < f.tree.length :=
      List.findIdx_lt_length_of_exists ⟨e, by rw [ht]; simp, h1⟩
    rw [List.getElem?_eq_getElem this]
    exact ⟨_, rfl⟩
  obtain ⟨e', he⟩ := hex
  obtain ⟨A', B', ht', _, hA', hle⟩ := seek_split he
  have hle' : keyLe e'.1 e.1 = true := by
    rcases keyLe_total e'.1 e.1 with hh | hh
    · exact hh
    · by_cases heq : e = e'
      · subst heq; exact hh
      · have hmem : e ∈ A' ++ e' :: B' := by rw [← ht', ht]; simp
        rcases List.mem_append.1 hmem with hm | hm
        · have := hA' e hm
          rw [keyLe_iff_not_lt, this] at h1
          exact absurd h1 (by decide)
        · rcases List.mem_cons.1 hm with hm | hm
          · exact absurd hm heq
          · exact keyLt_keyLe (keyLt_of_padLt (after_of_pairwise hpw ht' hm))
  unfold rangeQuery
  simp only [he, Res.bind_ok, keyLe_trans hle' h2, if_true]

theorem rangeQuery_boundary (h : FilterOK f) (ht : f.tree = A ++ e :: B) {io : Bool} {l r : Key}
    (h1 : keyLe l e.1 = true) (h2 : keyLe e.1 r = true) : rangeQuery io f l r = .ok true :=
  rangeQuery_boundary0 h.pairwise ht h1 h2

end

/-- Where a key falls in the tree. -/
theorem tree_cases (f : Filter) (k : Key) :
    (∃ A e B, f.tree = A ++ e :: B ∧ e.1 = k) ∨
    (∃ A p e B, f.tree = A ++ p :: e :: B ∧ keyLt p.1 k = true ∧ keyLt k e.1 = true) ∨
    (∃ e B, f.tree = e :: B ∧ keyLt k e.1 = true) ∨ (∀ e ∈ f.tree, keyLt e.1 k = true) := by
  by_cases hall : ∀ e ∈ f.tree, keyLt e.1 k = true
  · exact Or.inr (Or.inr (Or.inr hall))
  · have hex : ∃ e', treePeek f.tree (treeSeek f.tree k) = .ok e' := by
      unfold treePeek treeSeek
      have : f.tree.findIdx (fun e => keyLe k e.1) < f.tree.length := by
        apply List.findIdx_lt_length_of_exists
        by_contra hc
        apply hall
        intro e he
        by_contra hl
        apply hc
        refine ⟨e, he, ?_⟩
        rw [keyLe_iff_not_lt]; simpa using hl
      rw [List.getElem?_eq_getElem this]
      exact ⟨_, rfl⟩
    obtain ⟨e, he⟩ := hex
    obtain ⟨A, B, ht, _, hA, hle⟩ := seek_split he
    by_cases heq : e.1 = k
    · exact Or.inl ⟨A, e, B, ht, heq⟩
    · have hlt : keyLt k e.1 = true := keyLt_iff.2 ⟨hle, fun hh => heq hh.symm⟩
      rcases List.eq_nil_or_concat A with rfl | ⟨A', p, rfl⟩
      · exact Or.inr (Or.inr (Or.inl ⟨e, B, by simpa using ht, hlt⟩))
      · exact Or.inr (Or.inl ⟨A', p, e, B, by simpa using ht, hA p (by simp), hlt⟩)

/-- Seek in a tree whose keys are all smaller. -/
theorem seek_none {t : Tree} {k : Key} (h : ∀ e ∈ t, keyLt e.1 k = true) : treePeek t (treeSeek t k) = .ub := by
  have : treeSeek t k = t.length := by
    unfold treeSeek
    rw [List.findIdx_eq_length]
    intro e he
    rw [keyLe_iff_not_lt, h e he]; rfl
  unfold treePeek
  rw [this]; simp

theorem seek_first {e : Key × Store} {B : Tree} {k : Key} (h : keyLe k e.1 = true) : treeSeek (e :: B) k = 0 :=
  seek_append (A := []) (by simp) h

/-- A point query returns exactly for keys from the first to the last boundary. -/
theorem pointQuery_cases {f : Filter} (h : FilterQ f) (k : Key) :
    (∃ A e B, f.tree = A ++ e :: B ∧ e.1 = k ∧ pointQuery f k = .ok true) ∨
    (∃ A p e B, f.tree = A ++ p :: e :: B ∧ keyLt p.1 k = true ∧ keyLt k e.1 = true ∧
      ∃ b, pointQuery f k = .ok b) ∨ pointQuery f k = .ub := by
  rcases tree_cases f k with ⟨A, e, B, ht, he⟩ | ⟨A, p, e, B, ht, h1, h2⟩ | ⟨e, B, ht, h1⟩ | hall
  · subst he
    exact Or.inl ⟨A, e, B, ht, rfl, pointQuery_boundary0 h.pairwise ht⟩
  · obtain ⟨sh, ig, imp, L, R⟩ := h.region ht
    obtain ⟨b, hb, _⟩ := pointQuery_gap0 h.wf h.pairwise ht R h1 h2
    exact Or.inr (Or.inl ⟨A, p, e, B, ht, h1, h2, b, hb⟩)
  · right; right
    have hne : (e.1 == k) = false := by
      rw [beq_eq_false_iff_ne]
      rintro rfl
      rw [keyLt_irrefl] at h1; exact absurd h1 (by decide)
    have hp : treePeek (e :: B) 0 = .ok e := rfl
    unfold pointQuery
    simp only [ht, seek_first (keyLt_keyLe h1), hp, Res.bind_ok, hne, Bool.false_eq_true, if_false, if_true]
  · right; right
    unfold pointQuery
    simp only [seek_none hall, Res.bind_ub]

end Verif
