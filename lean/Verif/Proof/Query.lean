import Verif.Proof.Tree

/-!
# Relations between the two queries
-/

namespace Verif

/-- Equal bytes from equal prefixes. -/
theorem byteAt_of_pre {a b : Key} {i p : Nat} (h : pre p a = pre p b) (hi : 8 * i + 8 ≤ p) :
    byteAt a i = byteAt b i := by
  have h1 := pre_eq_len (show 8 * i + 8 ≤ p from hi) h
  have h2 := pre_eq_len (show 8 * i ≤ p by omega) h
  rw [pre_byte, pre_byte, h2] at h1
  omega

theorem take_eq_of_pre {a b : Key} {n p : Nat} (h : pre p a = pre p b) (hp : 8 * n ≤ p) (ha : n ≤ a.length)
    (hb : n ≤ b.length) : a.take n = b.take n := by
  apply List.ext_getElem
  · rw [List.length_take, List.length_take]; omega
  · intro i h1 h2
    rw [List.length_take] at h1 h2
    have := byteAt_of_pre (i := i) h (by omega)
    unfold byteAt at this
    rw [List.getD_eq_getElem?_getD, List.getD_eq_getElem?_getD, List.getElem?_eq_getElem (by omega),
      List.getElem?_eq_getElem (by omega)] at this
    simp only [Option.getD_some] at this
    rw [List.getElem_take, List.getElem_take]
    exact UInt8.toNat_inj.1 this

theorem pre_take {a b : Key} : ∀ {n : Nat}, a.take n = b.take n → pre (8 * n) a = pre (8 * n) b := by
  intro n h
  rw [pre_eq_iff]
  intro i hi
  have hb : byteAt a (i / 8) = byteAt b (i / 8) := by
    unfold byteAt
    have e1 : a.getD (i / 8) 0 = (a.take n).getD (i / 8) 0 := by
      rw [List.getD_eq_getElem?_getD, List.getD_eq_getElem?_getD, List.getElem?_take_of_lt (by omega)]
    have e2 : b.getD (i / 8) 0 = (b.take n).getD (i / 8) 0 := by
      rw [List.getD_eq_getElem?_getD, List.getD_eq_getElem?_getD, List.getElem?_take_of_lt (by omega)]
    rw [e1, e2, h]
  unfold kbit
  rw [hb]

theorem or_mask_eq {a b w : Nat} (hw : w ≤ 64) : (a ||| bitmask w) = (b ||| bitmask w) ↔ a / 2 ^ w = b / 2 ^ w := by
  constructor
  · intro h
    apply Nat.eq_of_testBit_eq
    intro i
    have := congrArg (fun z => z.testBit (i + w)) h
    simp only [Nat.testBit_or, testBit_bitmask _ _ hw] at this
    rw [Nat.testBit_div_two_pow, Nat.testBit_div_two_pow]
    simpa using this
  · intro h
    apply Nat.eq_of_testBit_eq
    intro i
    rw [Nat.testBit_or, Nat.testBit_or, testBit_bitmask _ _ hw]
    by_cases hi : i < w
    · simp [hi]
    · have := congrArg (fun z => z.testBit (i - w)) h
      simp only [Nat.testBit_div_two_pow] at this
      rw [Nat.sub_add_cancel (by omega)] at this
      rw [this]

/-- `IsPrefixOf` compares all but the last `ib` bits. -/
theorem isPrefixOf_iff {a b : Key} {ib : Nat} (hib : ib < 8) :
    isPrefixOf a b ib = true ↔ a ≠ [] ∧ a.length ≤ b.length ∧ pre (8 * a.length - ib) a = pre (8 * a.length - ib) b := by
  unfold isPrefixOf
  rw [Bool.and_eq_true, Bool.and_eq_true, Bool.and_eq_true, bne_iff_ne, decide_eq_true_iff, beq_iff_eq, beq_iff_eq,
    or_mask_eq (by omega)]
  have hnil : a.length ≠ 0 ↔ a ≠ [] := by rw [Ne, List.length_eq_zero_iff]
  rw [hnil]
  by_cases ha : a = []
  · simp [ha]
  have hl : 1 ≤ a.length := by
    rcases Nat.eq_zero_or_pos a.length with h | h
    · exact absurd (List.length_eq_zero_iff.1 h) ha
    · exact h
  have key : ∀ k : Key, pre (8 * a.length - ib) k =
      pre (8 * (a.length - 1)) k * 2 ^ (8 - ib) + byteAt k (a.length - 1) / 2 ^ ib := by
    intro k
    have h1 := pre_byte k (a.length - 1)
    rw [show 8 * (a.length - 1) + 8 = (8 * a.length - ib) + ib by omega] at h1
    rw [← pre_add k (8 * a.length - ib) ib, h1]
    have e : (256 : Nat) = 2 ^ (8 - ib) * 2 ^ ib := by
      rw [← pow_add, show 8 - ib + ib = 8 by omega]; rfl
    rw [e, ← Nat.mul_assoc, Nat.add_comm, Nat.add_mul_div_right _ _ (Nat.two_pow_pos ib), Nat.add_comm]
  have hb : ∀ k : Key, byteAt k (a.length - 1) / 2 ^ ib < 2 ^ (8 - ib) := by
    intro k
    rw [Nat.div_lt_iff_lt_mul (Nat.two_pow_pos _), ← pow_add, show 8 - ib + ib = 8 by omega]
    exact byteAt_lt _ _
  constructor
  · rintro ⟨⟨⟨_, h1⟩, h2⟩, h3⟩
    refine ⟨ha, h1, ?_⟩
    rw [key a, key b, pre_take h2, h3]
  · rintro ⟨_, h1, h2⟩
    have h3 := pre_eq_len (show 8 * (a.length - 1) ≤ 8 * a.length - ib by omega) h2
    refine ⟨⟨⟨ha, h1⟩, take_eq_of_pre h2 (by omega) (by omega) (by omega)⟩, ?_⟩
    rw [key a, key b, h3] at h2
    omega

theorem invalidBits_lt (st : Store) : st.invalidBits < 8 := by
  rw [invalidBits_eq]; omega

/-- A key above `a` that agrees with it on all but its last seven bits is not shorter. -/
theorem length_le_of_prefix {a l : Key} {q : Nat} (hlt : keyLt a l = true) (hq : 8 * a.length ≤ q + 7)
    (h : pre q a = pre q l) : a.length ≤ l.length := by
  by_contra hc
  have h1 := pre_eq_len (show 8 * l.length ≤ q by omega) h
  have h2 : a.take l.length = l := by
    have := take_eq_of_pre h1 (Nat.le_refl _) (by omega) (Nat.le_refl _)
    rwa [List.take_length] at this
  have h3 : keyLe l a = true := by
    rw [← h2]
    clear h1 h2 hc hq h hlt
    generalize l.length = n
    induction a generalizing n with
    | nil => simp [keyLe]
    | cons x xs ih =>
      cases n with
      | zero => simp [keyLe]
      | succ n => simp [keyLe, ih]
  rw [keyLe_iff_not_lt, hlt] at h3
  exact absurd h3 (by decide)

/-- The set of keys with a given partial boundary as prefix has no gap at its start. -/
theorem isPrefixOf_convex {a l k : Key} {ib : Nat} (hib : ib < 8) (hal : keyLt a l = true) (hlk : keyLe l k = true)
    (h : isPrefixOf a k ib = true) : isPrefixOf a l ib = true := by
  rw [isPrefixOf_iff hib] at h ⊢
  obtain ⟨h1, h2, h3⟩ := h
  have e1 := keyLe_pre (keyLt_keyLe hal) (8 * a.length - ib)
  have e2 := keyLe_pre hlk (8 * a.length - ib)
  have e3 : pre (8 * a.length - ib) a = pre (8 * a.length - ib) l := by omega
  exact ⟨h1, length_le_of_prefix hal (by omega) e3, e3⟩

theorem HitL.meet {s p : Nat} {prev : Key} {L : List Nat} {k l r : Key} (h : HitL s p prev L k)
    (h1 : ∀ p, pre p l ≤ pre p k) (h2 : ∀ p, pre p k ≤ pre p r) : MeetL s p prev L l r := by
  obtain ⟨x, hx, e⟩ := h
  exact ⟨x, hx, by rw [← e]; exact ⟨h1 _, h2 _⟩⟩

theorem MeetL.mono {s p : Nat} {prev : Key} {L : List Nat} {l r l' r' : Key} (h : MeetL s p prev L l r)
    (h1 : ∀ p, pre p l' ≤ pre p l) (h2 : ∀ p, pre p r ≤ pre p r') : MeetL s p prev L l' r' := by
  obtain ⟨x, hx, e1, e2⟩ := h
  exact ⟨x, hx, Nat.le_trans (h1 _) e1, Nat.le_trans e2 (h2 _)⟩

theorem meetL_self {s p : Nat} {prev : Key} {L : List Nat} {k : Key} : MeetL s p prev L k k ↔ HitL s p prev L k := by
  unfold MeetL HitL
  constructor
  · rintro ⟨x, hx, e1, e2⟩; exact ⟨x, hx, by omega⟩
  · rintro ⟨x, hx, e⟩; exact ⟨x, hx, by omega, by omega⟩

theorem keyLe_or_lt (a b : Key) : keyLe a b = true ∨ keyLt b a = true := by
  rw [keyLe_iff_not_lt]; cases keyLt b a <;> simp

section
variable {f : Filter}

/-- A point hit implies the hit of every enclosing range. -/
theorem range_of_point (h : FilterQ f) {l k r : Key} (h1 : keyLe l k = true) (h2 : keyLe k r = true)
    (hk : pointQuery f k = .ok true) : rangeQuery false f l r = .ok true := by
  rcases pointQuery_cases h k with ⟨A, e, B, ht, rfl, _⟩ | ⟨A, p, e, B, ht, hp, he, _⟩ | hu
  · exact rangeQuery_boundary0 h.pairwise ht h1 h2
  · rcases keyLe_or_lt l p.1 with hl | hl
    · exact rangeQuery_boundary0 h.pairwise ht hl (keyLe_trans (keyLt_keyLe hp) h2)
    rcases keyLe_or_lt e.1 r with hr | hr
    · exact rangeQuery_boundary0 h.pairwise (A := A ++ [p]) (by simpa using ht) (keyLe_trans h1 (keyLt_keyLe he)) hr
    obtain ⟨sh, ig, imp, L, R⟩ := h.region ht
    obtain ⟨b, hb, hbt⟩ := pointQuery_gap0 h.wf h.pairwise ht R hp he
    obtain ⟨b', hb', hbt'⟩ := rangeQuery_gap0 h.wf h.pairwise ht R hl (keyLe_trans h1 h2) hr
    rw [hk] at hb
    obtain rfl : b = true := by injection hb with hb; exact hb.symm
    rw [hb']
    congr 1
    apply hbt'.2
    rcases hbt.1 rfl with ⟨hh1, hh2⟩ | hh
    · exact Or.inl ⟨hh1, isPrefixOf_convex (invalidBits_lt _) hl h1 hh2⟩
    · exact Or.inr (hh.meet (keyLe_pre h1) (keyLe_pre h2))
  · rw [hu] at hk; exact absurd hk (by simp)

/-- Cases of a range query. -/
theorem rangeQuery_cases (h : FilterQ f) {l r : Key} (hlr : keyLe l r = true) (io : Bool) :
    (∃ A e B, f.tree = A ++ e :: B ∧ keyLe l e.1 = true ∧ keyLe e.1 r = true ∧ rangeQuery io f l r = .ok true) ∨
    (∃ A p e B, f.tree = A ++ p :: e :: B ∧ keyLt p.1 l = true ∧ keyLt r e.1 = true) ∨
    rangeQuery io f l r = .ub := by
  rcases tree_cases f l with ⟨A, e, B, ht, rfl⟩ | ⟨A, p, e, B, ht, h1, h2⟩ | ⟨e, B, ht, h1⟩ | hall
  · exact Or.inl ⟨A, e, B, ht, keyLe_refl _, hlr, rangeQuery_boundary0 h.pairwise ht (keyLe_refl _) hlr⟩
  · rcases keyLe_or_lt e.1 r with hr | hr
    · have ht' : f.tree = (A ++ [p]) ++ e :: B := by simpa using ht
      exact Or.inl ⟨A ++ [p], e, B, ht', keyLt_keyLe h2, hr, rangeQuery_boundary0 h.pairwise ht' (keyLt_keyLe h2) hr⟩
    · exact Or.inr (Or.inl ⟨A, p, e, B, ht, h1, hr⟩)
  · rcases keyLe_or_lt e.1 r with hr | hr
    · have ht' : f.tree = [] ++ e :: B := by simpa using ht
      exact Or.inl ⟨[], e, B, ht', keyLt_keyLe h1, hr, rangeQuery_boundary0 h.pairwise ht' (keyLt_keyLe h1) hr⟩
    · right; right
      have hp : treePeek (e :: B) 0 = .ok e := rfl
      have hne : keyLe e.1 r = false := by rw [keyLe_iff_not_lt, hr]; rfl
      unfold rangeQuery
      simp only [ht, seek_first (keyLt_keyLe h1), hp, Res.bind_ok, hne, Bool.false_eq_true, if_false, if_true]
  · right; right
    unfold rangeQuery
    simp only [seek_none hall, Res.bind_ub]

/-- Range answers grow with the range. -/
theorem range_mono (h : FilterQ f) {l r l' r' : Key} (hl : keyLe l' l = true) (hlr : keyLe l r = true)
    (hr : keyLe r r' = true) (hq : rangeQuery false f l r = .ok true) : rangeQuery false f l' r' = .ok true := by
  rcases rangeQuery_cases h hlr false with ⟨A, e, B, ht, h1, h2, _⟩ | ⟨A, p, e, B, ht, hp, he⟩ | hu
  · exact rangeQuery_boundary0 h.pairwise ht (keyLe_trans hl h1) (keyLe_trans h2 hr)
  · rcases keyLe_or_lt l' p.1 with hl' | hl'
    · exact rangeQuery_boundary0 h.pairwise ht hl' (keyLe_trans (keyLt_keyLe hp) (keyLe_trans hlr hr))
    rcases keyLe_or_lt e.1 r' with hr' | hr'
    · exact rangeQuery_boundary0 h.pairwise (A := A ++ [p]) (by simpa using ht)
        (keyLe_trans hl (keyLe_trans hlr (keyLt_keyLe he))) hr'
    obtain ⟨sh, ig, imp, L, R⟩ := h.region ht
    obtain ⟨b, hb, hbt⟩ := rangeQuery_gap0 h.wf h.pairwise ht R hp hlr he
    obtain ⟨b', hb', hbt'⟩ := rangeQuery_gap0 h.wf h.pairwise ht R hl' (keyLe_trans hl (keyLe_trans hlr hr)) hr'
    rw [hq] at hb
    obtain rfl : b = true := by injection hb with hb; exact hb.symm
    rw [hb']
    congr 1
    apply hbt'.2
    rcases hbt.1 rfl with ⟨hh1, hh2⟩ | hh
    · exact Or.inl ⟨hh1, isPrefixOf_convex (invalidBits_lt _) hl' hl hh2⟩
    · exact Or.inr (hh.mono (keyLe_pre hl) (keyLe_pre hr))
  · rw [hu] at hq; exact absurd hq (by simp)

/-- A one-key range query is a point query, including the undefined cases. -/
theorem range_self (h : FilterQ f) (k : Key) : rangeQuery false f k k = pointQuery f k := by
  rcases tree_cases f k with ⟨A, e, B, ht, rfl⟩ | ⟨A, p, e, B, ht, h1, h2⟩ | ⟨e, B, ht, h1⟩ | hall
  · rw [rangeQuery_boundary0 h.pairwise ht (keyLe_refl _) (keyLe_refl _), pointQuery_boundary0 h.pairwise ht]
  · obtain ⟨sh, ig, imp, L, R⟩ := h.region ht
    obtain ⟨b, hb, hbt⟩ := pointQuery_gap0 h.wf h.pairwise ht R h1 h2
    obtain ⟨b', hb', hbt'⟩ := rangeQuery_gap0 h.wf h.pairwise ht R h1 (keyLe_refl _) h2
    rw [hb, hb']
    congr 1
    rw [meetL_self] at hbt'
    exact Bool.eq_iff_iff.2 (hbt'.trans hbt.symm)
  · have hne : (e.1 == k) = false := by
      rw [beq_eq_false_iff_ne]
      rintro rfl
      rw [keyLt_irrefl] at h1; exact absurd h1 (by decide)
    have hp : treePeek (e :: B) 0 = .ok e := rfl
    have hle : keyLe e.1 k = false := by rw [keyLe_iff_not_lt, h1]; rfl
    unfold pointQuery rangeQuery
    simp only [ht, seek_first (keyLt_keyLe h1), hp, Res.bind_ok, hne, hle, Bool.false_eq_true, if_false, if_true]
  · unfold pointQuery rangeQuery
    simp only [seek_none hall, Res.bind_ub]

end

end Verif
