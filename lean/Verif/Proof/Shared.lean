import Verif.Proof.Key

/-!
# `GetSharedIgnoreImplicitLengths`
-/

namespace Verif

theorem lzcnt_spec {x : Nat} (hx : x < 2 ^ 64) :
    lzcnt x ≤ 64 ∧ (∀ t, t < lzcnt x → x.testBit (63 - t) = false) ∧
      (lzcnt x < 64 → x.testBit (63 - lzcnt x) = true) := by
  unfold lzcnt
  by_cases h0 : x = 0
  · subst h0; simp
  · rw [if_neg h0]
    have h1 : x.log2 < 64 := (Nat.log2_lt h0).2 hx
    refine ⟨by omega, ?_, ?_⟩
    · intro t ht
      apply Nat.testBit_lt_two_pow
      have := (Nat.log2_lt h0 (k := x.log2 + 1)).1 (by omega)
      exact Nat.lt_of_lt_of_le this (Nat.pow_le_pow_right (by decide) (by omega))
    · intro _
      rw [show 63 - (63 - x.log2) = x.log2 by omega]
      exact Nat.testBit_log2 h0

theorem word_bit (k : Key) (ind t : Nat) (ht : t < 64) :
    (wordAt k (ind * 8)).testBit (63 - t) = decide (kbit k (64 * ind + t) = 1) := by
  rw [Nat.testBit_eq_decide_div_mod_eq, wordAt_beWord]
  have := word_field k (ind * 8) (63 - t) 1 (by omega)
  rw [show 8 * (ind * 8) + 64 - (63 - t) = 64 * ind + t + 1 by omega, pow_one, pre_mod_two] at this
  rw [this]

theorem kbit_ne {a b : Key} {i j : Nat} : kbit a i ≠ kbit b j ↔
    (decide (kbit a i = 1) ^^ decide (kbit b j = 1)) = true := by
  have h1 := kbit_lt a i; have h2 := kbit_lt b j
  rcases (show kbit a i = 0 ∨ kbit a i = 1 by omega) with e | e <;>
    rcases (show kbit b j = 0 ∨ kbit b j = 1 by omega) with e' | e' <;> simp [e, e']

theorem wordXor_bit (k1 k2 : Key) (ind t : Nat) (ht : t < 64) :
    (wordAt k1 (ind * 8) ^^^ wordAt k2 (ind * 8)).testBit (63 - t) = true ↔
      kbit k1 (64 * ind + t) ≠ kbit k2 (64 * ind + t) := by
  rw [Nat.testBit_xor, word_bit _ _ _ ht, word_bit _ _ _ ht, kbit_ne]

theorem sharedLoop_spec (k1 k2 : Key) : ∀ fuel ind, (∀ i, i < 64 * ind → kbit k1 i = kbit k2 i) →
    match sharedLoop k1 k2 fuel ind (64 * ind) with
    | none => ∀ i, i < 64 * (ind + fuel) → kbit k1 i = kbit k2 i
    | some (share, ind') => (∀ i, i < share → kbit k1 i = kbit k2 i) ∧ kbit k1 share ≠ kbit k2 share ∧
        ind' = share / 64 := by
  intro fuel
  induction fuel with
  | zero => intro ind h; exact h
  | succ fuel ih =>
    intro ind h
    rw [sharedLoop]
    have hx : wordAt k1 (ind * 8) ^^^ wordAt k2 (ind * 8) < 2 ^ 64 := Nat.xor_lt_two_pow (wordAt_lt ..) (wordAt_lt ..)
    obtain ⟨z1, z2, z3⟩ := lzcnt_spec hx
    generalize lzcnt (wordAt k1 (ind * 8) ^^^ wordAt k2 (ind * 8)) = d at *
    have hpre : ∀ i, i < 64 * ind + d → kbit k1 i = kbit k2 i := by
      intro i hi
      rcases Nat.lt_or_ge i (64 * ind) with hi' | hi'
      · exact h i hi'
      · have := z2 (i - 64 * ind) (by omega)
        by_contra hc
        have h2 := (wordXor_bit k1 k2 ind (i - 64 * ind) (by omega)).2
          (by rw [show 64 * ind + (i - 64 * ind) = i by omega]; exact hc)
        rw [this] at h2; exact absurd h2 (by decide)
    by_cases hd : d = 64
    · rw [if_pos hd]
      subst hd
      have := ih (ind + 1) (fun i hi => hpre i (by omega))
      rw [show 64 * (ind + 1) = 64 * ind + 64 by omega] at this
      rw [show ind + (fuel + 1) = ind + 1 + fuel by omega]
      exact this
    · rw [if_neg hd]
      refine ⟨hpre, ?_, by omega⟩
      exact (wordXor_bit k1 k2 ind d (by omega)).1 (z3 (by omega))

/-- The bit pair (1, 0) skipped by the second loop. -/
def Skip (k1 k2 : Key) (i : Nat) : Prop := kbit k1 i = 1 ∧ kbit k2 i = 0

theorem wordSkip_bit (k1 k2 : Key) (ind off t : Nat) (ht : t < 64) (ho : off ≤ 64) :
    ((not64 (wordAt k1 (ind * 8)) ||| wordAt k2 (ind * 8)) &&& bitmask (64 - off)).testBit (63 - t) = false ↔
      t < off ∨ Skip k1 k2 (64 * ind + t) := by
  rw [Nat.testBit_and, Nat.testBit_or, testBit_not64, word_bit _ _ _ ht, word_bit _ _ _ ht,
    testBit_bitmask _ _ (by omega)]
  have h2 := kbit_lt k2 (64 * ind + t)
  unfold Skip
  rcases Nat.lt_or_ge t off with h | h
  · have : ¬ (63 - t < 64 - off) := by omega
    simp [h, this]
  · have h3 : 63 - t < 64 - off := by omega
    have h4 : ¬ t < off := by omega
    have h5 : 63 - t < 64 := by omega
    rcases (show kbit k2 (64 * ind + t) = 0 ∨ kbit k2 (64 * ind + t) = 1 by omega) with e | e <;>
      simp [h3, h4, h5, e]

theorem ignoreLoop_spec (k1 k2 : Key) (share : Nat) : ∀ fuel ind ignore,
    (∀ i, share < i → i < share + 1 + ignore → Skip k1 k2 i) →
    share + 1 + ignore = (if ind > share / 64 then 64 * ind else share + 1) →
    share / 64 ≤ ind → ind ≤ (k1.length + k2.length) / 8 + 1 → (k1.length + k2.length) / 8 + 2 ≤ ind + fuel →
    share < 8 * (k1.length + k2.length) →
    let r := ignoreLoop k1 k2 share fuel ind ignore
    (∀ i, share < i → i < share + 1 + r → Skip k1 k2 i) ∧ ¬ Skip k1 k2 (share + 1 + r) := by
  intro fuel
  induction fuel with
  | zero => intro ind ignore _ _ _ h1 h2; omega
  | succ fuel ih =>
    intro ind ignore hs he hge hle hf hsh
    rw [ignoreLoop]
    dsimp only
    generalize hoff : (if ind > share / 64 then 0 else share % 64 + 1) = off
    have hoff64 : off ≤ 64 := by rw [← hoff]; split_ifs <;> omega
    have hpos : share + 1 + ignore = 64 * ind + off := by
      rw [he, ← hoff]
      split_ifs with h
      · omega
      · have : ind = share / 64 := by omega
        subst this; omega
    have hx : (not64 (wordAt k1 (ind * 8)) ||| wordAt k2 (ind * 8)) &&& bitmask (64 - off) < 2 ^ 64 := by
      rw [and_bitmask _ _ (by omega)]
      exact Nat.lt_of_lt_of_le (Nat.mod_lt _ (Nat.two_pow_pos _)) (Nat.pow_le_pow_right (by decide) (by omega))
    obtain ⟨z1, z2, z3⟩ := lzcnt_spec hx
    generalize lzcnt ((not64 (wordAt k1 (ind * 8)) ||| wordAt k2 (ind * 8)) &&& bitmask (64 - off)) = d at *
    have hoffd : off ≤ d := by
      by_contra hc
      have h1 := z3 (by omega)
      have h2 := (wordSkip_bit k1 k2 ind off d (by omega) hoff64).2 (Or.inl (by omega))
      rw [h1] at h2; exact absurd h2 (by decide)
    have hskip : ∀ i, share < i → i < 64 * ind + d → Skip k1 k2 i := by
      intro i h1 h2
      rcases Nat.lt_or_ge i (share + 1 + ignore) with h3 | h3
      · exact hs i h1 h3
      · rcases (wordSkip_bit k1 k2 ind off (i - 64 * ind) (by omega) hoff64).1 (z2 _ (by omega)) with h4 | h4
        · omega
        · rwa [show 64 * ind + (i - 64 * ind) = i by omega] at h4
    have hnew : share + 1 + (ignore + (d - off)) = 64 * ind + d := by omega
    by_cases hd : d = 64
    · rw [if_pos hd]
      have hin : ind ≤ (k1.length + k2.length) / 8 := by
        by_contra hc
        have hgt : ind > share / 64 := by omega
        have := hskip (64 * ind) (by omega) (by omega)
        rw [Skip, kbit_of_ge (by omega)] at this
        exact absurd this.1 (by decide)
      refine ih (ind + 1) _ ?_ ?_ (by omega) (by omega) (by omega) hsh
      · rw [hnew]; exact hskip
      · rw [if_pos (by omega), hnew]; omega
    · rw [if_neg hd]
      rw [hnew]
      refine ⟨hskip, ?_⟩
      intro hc
      have h1 := (wordSkip_bit k1 k2 ind off d (by omega) hoff64).2 (Or.inr hc)
      rw [z3 (by omega)] at h1; exact absurd h1 (by decide)

/-- What the three numbers mean. -/
structure Lengths (k1 k2 : Key) (sh ig imp : Nat) : Prop where
  same : ∀ i, i < sh → kbit k1 i = kbit k2 i
  diff : kbit k1 sh ≠ kbit k2 sh
  skip : ∀ i, sh < i → i < sh + 1 + ig → Skip k1 k2 i
  stop : ¬ Skip k1 k2 (sh + 1 + ig)
  imp_eq : imp = if 2 * (2 ^ 9 + pre (sh + ig + 10) k2 % 2 ^ 9 - pre (sh + ig + 10) k1 % 2 ^ 9 + 1) < 2 ^ 10
    then 11 else 10

theorem sii_spec {k1 k2 : Key} {sh ig imp : Nat} (h : sharedIgnoreImplicit k1 k2 = some (sh, ig, imp)) :
    Lengths k1 k2 sh ig imp := by
  have h1 := sharedLoop_spec k1 k2 (wordFuel k1 k2) 0 (by simp)
  unfold sharedIgnoreImplicit at h
  rw [Nat.mul_zero] at h1
  cases e : sharedLoop k1 k2 (wordFuel k1 k2) 0 0 with
  | none => rw [e] at h; simp at h
  | some v =>
    obtain ⟨share, ind⟩ := v
    rw [e] at h h1
    dsimp only at h h1
    obtain ⟨h2, h3, h4⟩ := h1
    simp only [Option.some.injEq, Prod.mk.injEq] at h
    obtain ⟨e1, e2, e3⟩ := h
    subst e1
    have hsh : share < 8 * (k1.length + k2.length) := by
      by_contra hc
      rw [kbit_of_ge (by omega), kbit_of_ge (by omega)] at h3
      exact h3 rfl
    have h5 := ignoreLoop_spec k1 k2 share (wordFuel k1 k2) ind 0 (by omega)
      (by rw [if_neg (by omega)]) (by omega) (by omega) (by unfold wordFuel; omega) hsh
    dsimp only at h5
    rw [e2] at h5 e3
    refine ⟨h2, h3, h5.1, h5.2, ?_⟩
    rw [← e3, bitsAt_eq _ _ _ (by omega), bitsAt_eq _ _ _ (by omega)]
    rw [show share + ig + 1 + 9 = share + ig + 10 by omega]
    have a1 : pre (share + ig + 10) k1 % 2 ^ 9 < 2 ^ 9 := Nat.mod_lt _ (by decide)
    have a2 : pre (share + ig + 10) k2 % 2 ^ 9 < 2 ^ 9 := Nat.mod_lt _ (by decide)
    generalize pre (share + ig + 10) k1 % 2 ^ 9 = x at *
    generalize pre (share + ig + 10) k2 % 2 ^ 9 = y at *
    have e5 : 1 <<< 9 ||| y = 2 ^ 9 + y := by
      rw [← Nat.shiftLeft_add_eq_or_of_lt a2]; rfl
    rw [e5, sub64_of_le (by omega) (by omega)]
    have e6 : shl64 (add64 (2 ^ 9 + y - x) 1) 1 = 2 * (2 ^ 9 + y - x + 1) := by
      unfold shl64 add64
      rw [Nat.shiftLeft_eq, show 2 ^ (1 % 64) = 2 from rfl]; omega
    rw [e6]
    by_cases hc : 2 * (2 ^ 9 + y - x + 1) < 2 ^ 10
    · rw [if_pos hc, if_pos (by simpa using hc)]
    · rw [if_neg hc, if_neg (by simpa using hc)]

/-- The function returns unless the padded keys coincide. -/
theorem sii_none {k1 k2 : Key} : sharedIgnoreImplicit k1 k2 = none ↔ PadEq k1 k2 := by
  have h1 := sharedLoop_spec k1 k2 (wordFuel k1 k2) 0 (by simp)
  rw [Nat.mul_zero] at h1
  unfold sharedIgnoreImplicit
  cases e : sharedLoop k1 k2 (wordFuel k1 k2) 0 0 with
  | none =>
    rw [e] at h1
    simp only [true_iff]
    intro p
    rw [pre_eq_iff]
    intro i _
    rcases Nat.lt_or_ge i (64 * (0 + wordFuel k1 k2)) with h | h
    · exact h1 i h
    · unfold wordFuel at h
      rw [kbit_of_ge (by omega), kbit_of_ge (by omega)]
  | some v =>
    obtain ⟨share, ind⟩ := v
    rw [e] at h1
    simp only [reduceCtorEq, false_iff]
    intro h
    exact h1.2.1 (pre_eq_iff.1 (h (share + 1)) share (by omega))

end Verif
