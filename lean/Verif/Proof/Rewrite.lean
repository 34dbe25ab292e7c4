import Verif.Proof.Level

/-!
# Re-encoding the items of a region for a nested region
-/

namespace Verif

/-- Old level `p` above `base`, new level `p + sa` for the region from `a` to `b`. -/
structure RW (s sa p base : Nat) (a b : Key) : Prop where
  s1 : 1 ≤ s
  s2 : s ≤ 46
  fit : sa + s ≤ 54
  low : base * 2 ^ sa ≤ pre (p + sa) a
  ab : ∀ q, pre q a ≤ pre q b
  diff : pre (p + sa) b ≤ pre (p + sa) a + 1023
  top : pre (p + sa) b < (base + 1024) * 2 ^ sa

/-- What is known about an old item that goes to the new region. -/
structure OldItem (s p base : Nat) (a b : Key) (x : Nat) : Prop where
  expl : x % 2 ^ s ≠ 0
  quot : x / 2 ^ s < 1024
  lo : pre (ilen s p x) a ≤ ival s base x
  hi : ival s base x ≤ pre (ilen s p x) b

def rwLo (sa p base : Nat) (a : Key) : Nat := pre (p + sa) a - base * 2 ^ sa

section
variable {s sa p base : Nat} {a b : Key}

theorem item_bound {x s : Nat} (hs : s ≤ 54) (h : x / 2 ^ s < 1024) : x < 2 ^ (10 + s) ∧ x < 2 ^ 64 := by
  have h1 : x < 1024 * 2 ^ s := by rwa [← Nat.div_lt_iff_lt_mul (Nat.two_pow_pos _)]
  have h2 : 2 ^ (10 + s) ≤ 2 ^ 64 := Nat.pow_le_pow_right (by decide) (by omega)
  rw [pow_add] at h2 ⊢
  omega

theorem RW.bounds (R : RW s sa p base a b) : rwLo sa p base a ≤ rwLo sa p base b ∧
    rwLo sa p base b ≤ rwLo sa p base a + 1023 ∧ rwLo sa p base b * 2 ^ s < 2 ^ 64 ∧
    rwLo sa p base a + base * 2 ^ sa = pre (p + sa) a ∧ rwLo sa p base b + base * 2 ^ sa = pre (p + sa) b := by
  have h1 := R.ab (p + sa)
  have h2 := R.diff
  have h3 := R.low
  have h4 := R.top
  rw [Nat.add_mul] at h4
  unfold rwLo
  refine ⟨by omega, by omega, ?_, by omega, by omega⟩
  have h5 : (pre (p + sa) b - base * 2 ^ sa) < 1024 * 2 ^ sa := by omega
  have h6 : 1024 * 2 ^ sa * 2 ^ s ≤ 2 ^ 64 := by
    have : 2 ^ (10 + (sa + s)) ≤ 2 ^ 64 := Nat.pow_le_pow_right (by decide) (by have := R.fit; omega)
    rw [pow_add, pow_add] at this
    rw [Nat.mul_assoc]; exact this
  exact Nat.lt_of_lt_of_le (Nat.mul_lt_mul_of_pos_right h5 (Nat.two_pow_pos s)) h6

theorem shl_val {x : Nat} (hfit : sa + s ≤ 54) (hq : x / 2 ^ s < 1024) :
    shl64 x sa = x * 2 ^ sa ∧ x * 2 ^ sa < 2 ^ 64 := by
  have h1 := (item_bound (s := s) (by omega) hq).1
  have h2 : x * 2 ^ sa < 2 ^ 64 := by
    have h3 : x * 2 ^ sa < 2 ^ (10 + s) * 2 ^ sa := Nat.mul_lt_mul_of_pos_right h1 (Nat.two_pow_pos _)
    rw [← pow_add] at h3
    exact Nat.lt_of_lt_of_le h3 (Nat.pow_le_pow_right (by decide) (by omega))
  refine ⟨?_, h2⟩
  unfold shl64
  rw [Nat.mod_eq_of_lt (show sa < 64 by omega), Nat.shiftLeft_eq, Nat.mod_eq_of_lt h2]

/-- An item that keeps its prefix. -/
theorem expand_keep (R : RW s sa p base a b) {m t : Nat} (O : OldItem s p base a b ((2 * m + 1) * 2 ^ t))
    (ht : t + sa < s) :
    expandItem s sa (rwLo sa p base a * 2 ^ s) (rwLo sa p base b * 2 ^ s) ((2 * m + 1) * 2 ^ t) =
      [sub64 (shl64 ((2 * m + 1) * 2 ^ t) sa) (rwLo sa p base a * 2 ^ s)] := by
  obtain ⟨h1, h2⟩ := shl_val R.fit O.quot
  unfold expandItem
  dsimp only
  rw [and_bitmask _ _ (by have := R.s2; omega), if_neg]
  rw [h1, Nat.mul_assoc, ← pow_add]
  intro hc
  obtain ⟨d, hd⟩ : ∃ d, s = t + sa + 1 + d := ⟨s - (t + sa + 1), by omega⟩
  have : 2 ^ (t + sa + 1) ∣ (2 * m + 1) * 2 ^ (t + sa) := by
    apply Nat.dvd_trans _ (Nat.dvd_of_mod_eq_zero hc)
    rw [hd, pow_add _ (_ + 1)]; exact Nat.dvd_mul_right _ _
  rw [pow_succ, Nat.mul_comm] at this
  have := Nat.dvd_of_mul_dvd_mul_right (Nat.two_pow_pos _) this
  omega

theorem keep_facts (R : RW s sa p base a b) {m t : Nat} (O : OldItem s p base a b ((2 * m + 1) * 2 ^ t))
    (ht : t + sa < s) :
    rwLo sa p base a * 2 ^ (s - 1 - (t + sa)) ≤ m ∧
    m / 2 ^ (s - 1 - (t + sa)) ≤ rwLo sa p base b ∧
    sub64 (shl64 ((2 * m + 1) * 2 ^ t) sa) (rwLo sa p base a * 2 ^ s) =
      (2 * (m - rwLo sa p base a * 2 ^ (s - 1 - (t + sa))) + 1) * 2 ^ (t + sa) ∧
    (2 * (m - rwLo sa p base a * 2 ^ (s - 1 - (t + sa))) + 1) * 2 ^ (t + sa) < 2 ^ 64 := by
  obtain ⟨b1, b2, b3, b4, b5⟩ := R.bounds
  obtain ⟨h1, h2⟩ := shl_val R.fit O.quot
  have hx := (item_bound (s := s) (by have := R.s2; omega) O.quot).2
  have hlo := O.lo
  have hhi := O.hi
  rw [ilen_odd hx, ival_odd hx] at hlo hhi
  obtain ⟨j, hj⟩ : ∃ j, s = t + sa + 1 + j := ⟨s - (t + sa + 1), by omega⟩
  have ej : s - 1 - (t + sa) = j := by omega
  have eℓ : p + s - 1 - t = p + sa + j := by omega
  have e2 : s - 1 - t = sa + j := by omega
  rw [eℓ, e2, pow_add, ← Nat.mul_assoc] at hlo hhi
  rw [ej]
  have f1 := pre_split a (p + sa) j
  rw [← b4, Nat.add_mul] at f1
  have hm : rwLo sa p base a * 2 ^ j ≤ m := by omega
  have hm2 : m / 2 ^ j ≤ rwLo sa p base b := by
    have := Nat.div_le_div_right (c := 2 ^ j) hhi
    rw [pre_add, Nat.add_mul_div_right _ _ (Nat.two_pow_pos _), ← b5] at this
    omega
  have e3 : rwLo sa p base a * 2 ^ s = 2 * (rwLo sa p base a * 2 ^ j) * 2 ^ (t + sa) := by
    rw [hj, pow_add, pow_succ]; ring
  have e4 : (2 * m + 1) * 2 ^ t * 2 ^ sa = (2 * m + 1) * 2 ^ (t + sa) := by rw [pow_add]; ring
  refine ⟨hm, hm2, ?_, ?_⟩
  · rw [h1, e3, e4]
    rw [e4] at h2
    have : 2 * (rwLo sa p base a * 2 ^ j) * 2 ^ (t + sa) ≤ (2 * m + 1) * 2 ^ (t + sa) :=
      Nat.mul_le_mul_right _ (by omega)
    rw [sub64_of_le h2 this, ← Nat.sub_mul]
    congr 1
    omega
  · rw [e4] at h2
    refine Nat.lt_of_le_of_lt (Nat.mul_le_mul_right _ ?_) h2
    omega

/-- An item that is shorter than the new level becomes all its extensions inside the new region. -/
theorem expand_wide (R : RW s sa p base a b) {m t : Nat} (O : OldItem s p base a b ((2 * m + 1) * 2 ^ t))
    (ht : s ≤ t + sa) (y : Nat) :
    y ∈ expandItem s sa (rwLo sa p base a * 2 ^ s) (rwLo sa p base b * 2 ^ s) ((2 * m + 1) * 2 ^ t) ↔
      ∃ v, v / 2 ^ (t + sa - s + 1) = m ∧ rwLo sa p base a ≤ v ∧ v ≤ rwLo sa p base b ∧
        y = (2 * (v - rwLo sa p base a) + 1) * 2 ^ (s - 1) := by
  obtain ⟨h1, h2⟩ := shl_val R.fit O.quot
  obtain ⟨b1, b2, b3, b4, b5⟩ := R.bounds
  obtain ⟨u, hu⟩ : ∃ u, t + sa = s + u := ⟨t + sa - s, by omega⟩
  have hs := R.s2
  have hs1 := R.s1
  unfold expandItem
  dsimp only
  have e1 : (2 * m + 1) * 2 ^ t * 2 ^ sa = (2 * m + 1) * 2 ^ u * 2 ^ s := by
    rw [Nat.mul_assoc, ← pow_add, hu, pow_add]; ring
  rw [h1, and_bitmask _ _ (by omega), e1, Nat.mul_mod_left, if_pos rfl]
  rw [e1] at h2
  have e2 : ((2 * m + 1) * 2 ^ u * 2 ^ s) >>> s = (2 * m + 1) * 2 ^ u := by
    rw [Nat.shiftRight_eq_div_pow, Nat.mul_div_cancel _ (Nat.two_pow_pos s)]
  have e3 : ∀ z, (z * 2 ^ s) >>> s = z := fun z => by
    rw [Nat.shiftRight_eq_div_pow, Nat.mul_div_cancel _ (Nat.two_pow_pos s)]
  have hI : (2 * m + 1) * 2 ^ u < 2 ^ 64 :=
    Nat.lt_of_le_of_lt (Nat.le_mul_of_pos_right _ (Nat.two_pow_pos s)) h2
  have e4 : sub64 ((2 * m + 1) * 2 ^ u) (lb64 ((2 * m + 1) * 2 ^ u)) = m * 2 ^ (u + 1) := by
    have := nolb64_odd hI
    rw [nolb64] at this
    rw [this, pow_succ]; ring
  have e5 : (2 * m + 1) * 2 ^ u ||| sub64 ((2 * m + 1) * 2 ^ u) 1 = m * 2 ^ (u + 1) + (2 ^ (u + 1) - 1) := by
    have hpos : 1 ≤ (2 * m + 1) * 2 ^ u := Nat.mul_pos (by omega) (Nat.two_pow_pos u)
    rw [sub64_of_le hI hpos]
    have hx : (2 * m + 1) * 2 ^ u = m * 2 ^ (u + 1) + 2 ^ u := by rw [pow_succ]; ring
    have hp := Nat.two_pow_pos u
    have hy : (2 * m + 1) * 2 ^ u - 1 = m * 2 ^ (u + 1) + (2 ^ u - 1) := by omega
    rw [hy, hx, pow_succ]
    apply Nat.eq_of_testBit_eq
    intro i
    rw [← pow_succ, Nat.testBit_or]
    rw [testBit_mul_pow_add _ _ _ _ (show 2 ^ u < 2 ^ (u + 1) by rw [pow_succ]; omega),
      testBit_mul_pow_add _ _ _ _ (show 2 ^ u - 1 < 2 ^ (u + 1) by rw [pow_succ]; omega),
      testBit_mul_pow_add _ _ _ _ (show 2 ^ (u + 1) - 1 < 2 ^ (u + 1) by have := Nat.two_pow_pos (u + 1); omega)]
    by_cases hi : i < u + 1
    · simp only [hi, if_true, Nat.testBit_two_pow, Nat.testBit_two_pow_sub_one]
      by_cases h : u = i
      · simp [h]
      · simp [h]; omega
    · simp only [hi, if_false, Bool.or_self]
  rw [e2, e3, e3, e4, e5, hu, show s + u - s + 1 = u + 1 by omega]
  have hp := Nat.two_pow_pos (u + 1)
  have hb63 : rwLo sa p base b < 2 ^ 64 :=
    Nat.lt_of_le_of_lt (Nat.le_mul_of_pos_right _ (Nat.two_pow_pos s)) b3
  have val : ∀ v, rwLo sa p base a ≤ v → v ≤ rwLo sa p base b →
      shl64 (sub64 v (rwLo sa p base a)) s ||| 1 <<< (s - 1) = (2 * (v - rwLo sa p base a) + 1) * 2 ^ (s - 1) := by
    intro v hv1 hv2
    rw [sub64_of_le (by omega) hv1]
    have g1 : (v - rwLo sa p base a) * 2 ^ s < 2 ^ 64 := by
      refine Nat.lt_of_le_of_lt (Nat.mul_le_mul_right _ ?_) b3
      omega
    unfold shl64
    rw [Nat.mod_eq_of_lt (show s < 64 by omega), Nat.shiftLeft_eq, Nat.mod_eq_of_lt g1]
    have g2 : 1 <<< (s - 1) < 2 ^ s := by
      rw [Nat.shiftLeft_eq, Nat.one_mul]; exact Nat.pow_lt_pow_right (by decide) (by omega)
    rw [← Nat.shiftLeft_eq, ← Nat.shiftLeft_add_eq_or_of_lt g2, Nat.shiftLeft_eq, Nat.shiftLeft_eq]
    obtain ⟨w, rfl⟩ := Nat.exists_eq_add_of_le hs1
    rw [show 1 + w - 1 = w by omega, pow_add]; ring
  rw [List.mem_map]
  constructor
  · rintro ⟨d, hd, rfl⟩
    rw [List.mem_range] at hd
    have hA : rwLo sa p base a ≤ max (m * 2 ^ (u + 1)) (rwLo sa p base a) + d := by omega
    have hB : max (m * 2 ^ (u + 1)) (rwLo sa p base a) + d ≤ rwLo sa p base b := by omega
    refine ⟨max (m * 2 ^ (u + 1)) (rwLo sa p base a) + d, ?_, hA, hB, val _ hA hB⟩
    rw [Nat.div_eq_iff hp]
    omega
  · rintro ⟨v, hv, hA, hB, rfl⟩
    rw [Nat.div_eq_iff hp] at hv
    refine ⟨v - max (m * 2 ^ (u + 1)) (rwLo sa p base a), ?_, ?_⟩
    · rw [List.mem_range]; omega
    · rw [show max (m * 2 ^ (u + 1)) (rwLo sa p base a) + (v - max (m * 2 ^ (u + 1)) (rwLo sa p base a)) = v by omega]
      exact val v hA hB

/-- Properties of a new item. -/
structure SubItem (s p' : Nat) (a b : Key) (y : Nat) : Prop where
  expl : y % 2 ^ s ≠ 0
  quot : y / 2 ^ s < pre p' b - pre p' a + 1
  lo : pre (ilen s p' y) a ≤ ival s (pre p' a) y
  hi : ival s (pre p' a) y ≤ pre (ilen s p' y) b

theorem odd_mod_ne {m t s : Nat} (ht : t < s) : (2 * m + 1) * 2 ^ t % 2 ^ s ≠ 0 := by
  intro hc
  obtain ⟨d, hd⟩ : ∃ d, s = t + 1 + d := ⟨s - (t + 1), by omega⟩
  have : 2 ^ (t + 1) ∣ (2 * m + 1) * 2 ^ t := by
    apply Nat.dvd_trans _ (Nat.dvd_of_mod_eq_zero hc)
    rw [hd, pow_add _ (_ + 1)]; exact Nat.dvd_mul_right _ _
  rw [pow_succ, Nat.mul_comm] at this
  have := Nat.dvd_of_mul_dvd_mul_right (Nat.two_pow_pos _) this
  omega

theorem odd_quot {m t s : Nat} (ht : t < s) : (2 * m + 1) * 2 ^ t / 2 ^ s = m / 2 ^ (s - 1 - t) := by
  obtain ⟨d, rfl⟩ : ∃ d, s = t + 1 + d := ⟨s - (t + 1), by omega⟩
  rw [show t + 1 + d - 1 - t = d by omega, pow_add, ← Nat.div_div_eq_div_mul, odd_div]

theorem keep_new (R : RW s sa p base a b) {m t : Nat} (O : OldItem s p base a b ((2 * m + 1) * 2 ^ t))
    (ht : t + sa < s) {y : Nat} (hy : y = sub64 (shl64 ((2 * m + 1) * 2 ^ t) sa) (rwLo sa p base a * 2 ^ s)) :
    SubItem s (p + sa) a b y ∧ ilen s (p + sa) y = ilen s p ((2 * m + 1) * 2 ^ t) ∧
      ival s (pre (p + sa) a) y = ival s base ((2 * m + 1) * 2 ^ t) := by
  obtain ⟨b1, b2, b3, b4, b5⟩ := R.bounds
  have hx := (item_bound (s := s) (by have := R.s2; omega) O.quot).2
  obtain ⟨f1, f2, f3, f4⟩ := keep_facts R O ht
  rw [f3] at hy
  subst hy
  have e1 : ilen s (p + sa) ((2 * (m - rwLo sa p base a * 2 ^ (s - 1 - (t + sa))) + 1) * 2 ^ (t + sa)) =
      ilen s p ((2 * m + 1) * 2 ^ t) := by
    rw [ilen_odd f4, ilen_odd hx]; omega
  have e2 : ival s (pre (p + sa) a) ((2 * (m - rwLo sa p base a * 2 ^ (s - 1 - (t + sa))) + 1) * 2 ^ (t + sa)) =
      ival s base ((2 * m + 1) * 2 ^ t) := by
    rw [ival_odd f4, ival_odd hx, ← b4, show s - 1 - t = sa + (s - 1 - (t + sa)) by omega, pow_add 2 sa,
      ← Nat.mul_assoc, Nat.add_mul]
    omega
  refine ⟨⟨odd_mod_ne ht, ?_, ?_, ?_⟩, e1, e2⟩
  · rw [odd_quot ht]
    have : (m - rwLo sa p base a * 2 ^ (s - 1 - (t + sa))) / 2 ^ (s - 1 - (t + sa)) =
        m / 2 ^ (s - 1 - (t + sa)) - rwLo sa p base a := by
      rw [Nat.mul_comm, Nat.sub_mul_div]
    rw [this]; omega
  · rw [e1, e2]; exact O.lo
  · rw [e1, e2]; exact O.hi

theorem wide_new (R : RW s sa p base a b) {v y : Nat} (h1 : rwLo sa p base a ≤ v) (h2 : v ≤ rwLo sa p base b)
    (hy : y = (2 * (v - rwLo sa p base a) + 1) * 2 ^ (s - 1)) :
    SubItem s (p + sa) a b y ∧ ilen s (p + sa) y = p + sa ∧
      ival s (pre (p + sa) a) y = v + base * 2 ^ sa ∧ y < 2 ^ 64 := by
  obtain ⟨b1, b2, b3, b4, b5⟩ := R.bounds
  have hs1 := R.s1
  have hs2 := R.s2
  have hq : y / 2 ^ s = v - rwLo sa p base a := by
    rw [hy, odd_quot (by omega)]; simp
  have hb : y < 2 ^ 64 := (item_bound (s := s) (by omega) (by omega)).2
  subst hy
  have e1 : ilen s (p + sa) ((2 * (v - rwLo sa p base a) + 1) * 2 ^ (s - 1)) = p + sa := by
    rw [ilen_odd hb]; omega
  have e2 : ival s (pre (p + sa) a) ((2 * (v - rwLo sa p base a) + 1) * 2 ^ (s - 1)) = v + base * 2 ^ sa := by
    rw [ival_odd hb, ← b4]; simp; omega
  refine ⟨⟨odd_mod_ne (by omega), by rw [hq]; omega, ?_, ?_⟩, e1, e2, hb⟩
  · rw [e1, e2]; omega
  · rw [e1, e2]; omega

/-- Re-encoding one item: all new items are fine and they match the same keys of the new region. -/
theorem expand_spec (R : RW s sa p base a b) {x : Nat} (O : OldItem s p base a b x) :
    (∀ y ∈ expandItem s sa (rwLo sa p base a * 2 ^ s) (rwLo sa p base b * 2 ^ s) x, SubItem s (p + sa) a b y) ∧
    ∀ k, pre (p + sa) a ≤ pre (p + sa) k → pre (p + sa) k ≤ pre (p + sa) b →
      (pre (ilen s p x) k = ival s base x ↔
        ∃ y ∈ expandItem s sa (rwLo sa p base a * 2 ^ s) (rwLo sa p base b * 2 ^ s) x,
          pre (ilen s (p + sa) y) k = ival s (pre (p + sa) a) y) := by
  obtain ⟨b1, b2, b3, b4, b5⟩ := R.bounds
  have hx := (item_bound (s := s) (by have := R.s2; omega) O.quot).2
  obtain ⟨m, t, rfl, ht⟩ := item_decomp O.expl
  by_cases hc : t + sa < s
  · rw [expand_keep R O hc]
    obtain ⟨g1, g2, g3⟩ := keep_new R O hc rfl
    refine ⟨?_, ?_⟩
    · intro y hy
      rw [List.mem_singleton] at hy
      subst hy; exact g1
    · intro k _ _
      simp only [List.mem_singleton, exists_eq_left]
      rw [g2, g3]
  · have hc' : s ≤ t + sa := by omega
    refine ⟨?_, ?_⟩
    · intro y hy
      obtain ⟨v, hv1, hv2, hv3, hv4⟩ := (expand_wide R O hc' y).1 hy
      exact (wide_new R hv2 hv3 hv4).1
    · intro k hk1 hk2
      rw [ilen_odd hx, ival_odd hx]
      have e1 : p + sa = (p + s - 1 - t) + (t + sa - s + 1) := by omega
      have e2 : pre (p + s - 1 - t) k = pre (p + sa) k / 2 ^ (t + sa - s + 1) := by
        conv_rhs => rw [e1]
        rw [pre_add]
      have e3 : base * 2 ^ sa = base * 2 ^ (s - 1 - t) * 2 ^ (t + sa - s + 1) := by
        rw [Nat.mul_assoc, ← pow_add]; congr 2; omega
      have e4 : pre (p + sa) k / 2 ^ (t + sa - s + 1) =
          (pre (p + sa) k - base * 2 ^ sa) / 2 ^ (t + sa - s + 1) + base * 2 ^ (s - 1 - t) := by
        rw [← Nat.add_mul_div_right _ _ (Nat.two_pow_pos _), ← e3]
        congr 1; omega
      rw [e2, e4]
      constructor
      · intro h
        have hv1 : (pre (p + sa) k - base * 2 ^ sa) / 2 ^ (t + sa - s + 1) = m := by omega
        have hv2 : rwLo sa p base a ≤ pre (p + sa) k - base * 2 ^ sa := by omega
        have hv3 : pre (p + sa) k - base * 2 ^ sa ≤ rwLo sa p base b := by omega
        obtain ⟨g1, g2, g3, _⟩ := wide_new R hv2 hv3 rfl
        refine ⟨_, (expand_wide R O hc' _).2 ⟨_, hv1, hv2, hv3, rfl⟩, ?_⟩
        rw [g2, g3]; omega
      · rintro ⟨y, hy, h⟩
        obtain ⟨v, hv1, hv2, hv3, hv4⟩ := (expand_wide R O hc' y).1 hy
        obtain ⟨g1, g2, g3, _⟩ := wide_new R hv2 hv3 hv4
        rw [g2, g3] at h
        have : pre (p + sa) k - base * 2 ^ sa = v := by omega
        rw [this, hv1]

end

end Verif
