import Verif.Proof.InsertSimple

/-!
# Cut levels of nested regions; truncation of the new boundary
-/

namespace Verif

/-! ## Dropping whole bytes -/

theorem byteAt_drop (k : Key) (d i : Nat) : byteAt (k.drop d) i = byteAt k (i + d) := by
  unfold byteAt
  rw [List.getD_eq_getElem?_getD, List.getD_eq_getElem?_getD, List.getElem?_drop, Nat.add_comm]

theorem kbit_drop (k : Key) (d i : Nat) : kbit (k.drop d) i = kbit k (i + 8 * d) := by
  unfold kbit
  rw [byteAt_drop, show (i + 8 * d) / 8 = i / 8 + d by omega, show (i + 8 * d) % 8 = i % 8 by omega]

theorem pre_drop (k : Key) (d : Nat) : ∀ q, pre (q + 8 * d) k = pre (8 * d) k * 2 ^ q + pre q (k.drop d)
  | 0 => by simp [pre]
  | q + 1 => by
    have e := pre_drop k d q
    rw [show q + 1 + 8 * d = (q + 8 * d) + 1 by omega, pre_succ_eq, e, pre_succ_eq, kbit_drop, pow_succ]
    ring

theorem pre_drop_mod (k : Key) (d q : Nat) {j : Nat} (hj : j ≤ q) :
    pre (q + 8 * d) k % 2 ^ j = pre q (k.drop d) % 2 ^ j := by
  rw [pre_drop]
  obtain ⟨e, rfl⟩ := Nat.exists_eq_add_of_le hj
  rw [pow_add, Nat.mul_comm (2 ^ j), ← Nat.mul_assoc, Nat.mul_comm, Nat.mul_add_mod]

theorem Lengths.undrop {k1 k2 : Key} {d sh ig imp : Nat} (L : Lengths (k1.drop d) (k2.drop d) sh ig imp)
    (h : pre (8 * d) k1 = pre (8 * d) k2) : Lengths k1 k2 (sh + 8 * d) ig imp := by
  refine ⟨?_, ?_, ?_, ?_, ?_⟩
  · intro i hi
    by_cases hc : i < 8 * d
    · exact pre_eq_iff.1 h i hc
    · have := L.same (i - 8 * d) (by omega)
      rw [kbit_drop, kbit_drop, Nat.sub_add_cancel (by omega)] at this
      exact this
  · have := L.diff
    rwa [kbit_drop, kbit_drop] at this
  · intro i h1 h2
    have := L.skip (i - 8 * d) (by omega) (by omega)
    unfold Skip at this ⊢
    rwa [kbit_drop, kbit_drop, Nat.sub_add_cancel (by omega)] at this
  · have := L.stop
    unfold Skip at this ⊢
    rwa [kbit_drop, kbit_drop, show sh + 1 + ig + 8 * d = sh + 8 * d + 1 + ig by omega] at this
  · have := L.imp_eq
    rw [show sh + 8 * d + ig + 10 = sh + ig + 10 + 8 * d by omega, pre_drop_mod _ _ _ (by omega),
      pre_drop_mod _ _ _ (by omega)]
    exact this

/-! ## Uniqueness and nesting -/

theorem Lengths.unique {k1 k2 : Key} {sh ig imp sh' ig' imp' : Nat} (L : Lengths k1 k2 sh ig imp)
    (L' : Lengths k1 k2 sh' ig' imp') : sh = sh' ∧ ig = ig' ∧ imp = imp' := by
  have e1 : sh = sh' := by
    rcases Nat.lt_trichotomy sh sh' with h | h | h
    · exact absurd (L'.same sh h) L.diff
    · exact h
    · exact absurd (L.same sh' h) L'.diff
  subst e1
  have e2 : ig = ig' := by
    rcases Nat.lt_trichotomy ig ig' with h | h | h
    · exact absurd (L'.skip (sh + 1 + ig) (by omega) (by omega)) L.stop
    · exact h
    · exact absurd (L.skip (sh + 1 + ig') (by omega) (by omega)) L'.stop
  subst e2
  exact ⟨rfl, rfl, by rw [L.imp_eq, L'.imp_eq]⟩

theorem Lengths.sii {k1 k2 : Key} {sh ig imp : Nat} (L : Lengths k1 k2 sh ig imp) :
    sharedIgnoreImplicit k1 k2 = some (sh, ig, imp) := by
  cases h : sharedIgnoreImplicit k1 k2 with
  | none =>
    rw [sii_none] at h
    exact absurd (pre_eq_iff.1 (h (sh + 1)) sh (by omega)) L.diff
  | some v =>
    obtain ⟨a, b, d⟩ := v
    obtain ⟨rfl, rfl, rfl⟩ := L.unique (sii_spec h)
    rfl

/-- A nested region is cut at least as deep. -/
theorem Lengths.level_mono {k1 k2 a b : Key} {sh ig imp sh' ig' imp' : Nat} (L : Lengths k1 k2 sh ig imp)
    (hlt : PadLt k1 k2) (L' : Lengths a b sh' ig' imp') (hab : PadLt a b) (ha : Between k1 a k2)
    (hb : Between k1 b k2) : sh + ig + imp ≤ sh' + ig' + imp' := by
  have ca := L.cut hlt ha
  have cb := L.cut hlt hb
  have i1 := L.imp_cases
  have i2 := L'.imp_cases
  have ba := kbit_lt a sh
  have bb := kbit_lt b sh
  have hle := hab.le (sh + ig + 1)
  by_cases heq : kbit a sh = kbit b sh
  · -- same half
    have e : pre (sh + ig + 1) a = pre (sh + ig + 1) b := by rw [ca, cb, heq]
    have hs : sh + ig + 1 ≤ sh' := by
      by_contra hc
      exact L'.diff (pre_eq_iff.1 e sh' (by omega))
    omega
  · have a0 : kbit a sh = 0 := by omega
    have b1 : kbit b sh = 1 := by omega
    rw [a0, Nat.add_zero] at ca
    rw [b1, ← L.succ hlt] at cb
    have hsame := L.pre_same
    have hs : sh' = sh := by
      have e1 : pre sh a = pre sh k1 := pre_eq_len (by omega) ca
      have e2 : pre sh b = pre sh k2 := pre_eq_len (by omega) cb
      have e3 : pre sh a = pre sh b := by rw [e1, e2, hsame]
      rcases Nat.lt_trichotomy sh' sh with h | h | h
      · exact absurd (pre_eq_iff.1 e3 sh' h) L'.diff
      · exact h
      · exact absurd (L'.same sh h) heq
    subst hs
    have hig : ig ≤ ig' := by
      by_contra hc
      apply L'.stop
      have := L.skip (sh' + 1 + ig') (by omega) (by omega)
      unfold Skip at this ⊢
      rw [pre_eq_iff.1 ca (sh' + 1 + ig') (by omega), pre_eq_iff.1 cb (sh' + 1 + ig') (by omega)]
      exact this
    rcases Nat.lt_or_eq_of_le hig with h | h
    · omega
    · subst h
      have m1 := (ha (sh' + ig + 10)).1
      have m2 := (hb (sh' + ig + 10)).2
      have e1 := pre_split k1 (sh' + ig + 1) 9
      have e2 := pre_split k2 (sh' + ig + 1) 9
      have e3 := pre_split a (sh' + ig + 1) 9
      have e4 := pre_split b (sh' + ig + 1) 9
      rw [show sh' + ig + 1 + 9 = sh' + ig + 10 by omega] at e1 e2 e3 e4
      rw [ca] at e3
      rw [cb] at e4
      have p1 := L.imp_eq
      have p2 := L'.imp_eq
      by_cases hc : 2 * (2 ^ 9 + pre (sh' + ig + 10) k2 % 2 ^ 9 - pre (sh' + ig + 10) k1 % 2 ^ 9 + 1) < 2 ^ 10
      · rw [if_pos hc] at p1
        rw [if_pos (by omega)] at p2
        omega
      · rw [if_neg hc] at p1
        omega

/-! ## The truncated key -/

theorem byteAt_take_append (k : Key) (n : Nat) (x : UInt8) (hn : n ≤ k.length) (i : Nat) :
    byteAt (k.take n ++ [x]) i = if i < n then byteAt k i else if i = n then x.toNat else 0 := by
  unfold byteAt
  rw [List.getD_eq_getElem?_getD, List.getD_eq_getElem?_getD]
  by_cases h : i < n
  · rw [if_pos h, List.getElem?_append_left (by rw [List.length_take]; omega), List.getElem?_take_of_lt h]
  · rw [if_neg h, List.getElem?_append_right (by rw [List.length_take]; omega), List.length_take,
      Nat.min_eq_left hn]
    by_cases h2 : i = n
    · subst h2; simp
    · rw [if_neg h2]
      obtain ⟨j, hj⟩ : ∃ j, i - n = j + 1 := ⟨i - n - 1, by omega⟩
      rw [hj]; simp

theorem mask_bits (b w i : Nat) (hw : w ≤ 7) (hi : i < 8) (hb : b < 256) :
    (UInt8.ofNat (b &&& not64 (bitmask w))).toNat / 2 ^ i % 2 = if i < w then 0 else b / 2 ^ i % 2 := by
  have h1 : (UInt8.ofNat (b &&& not64 (bitmask w))).toNat = b &&& not64 (bitmask w) := by
    rw [UInt8.toNat_ofNat']
    apply Nat.mod_eq_of_lt
    exact Nat.lt_of_le_of_lt Nat.and_le_left hb
  rw [h1]
  have key : ∀ n : Nat, n / 2 ^ i % 2 = (n.testBit i).toNat := fun n => by rw [Nat.toNat_testBit]
  rw [key, key, Nat.testBit_and, testBit_not64, testBit_bitmask _ _ (by omega)]
  by_cases h : i < w
  · rw [if_pos h]; simp [h, show i < 64 by omega]
  · rw [if_neg h]; simp [h, show i < 64 by omega]

/-- Bits of the truncated key. -/
theorem editKey_kbit (k : Key) (z : Nat) (hz : 1 ≤ z) (i : Nat) :
    kbit (editKey k (some z)) i = if i < z then kbit k i else 0 := by
  unfold editKey
  dsimp only
  by_cases hl : k.length > (z - 1) / 8
  · rw [if_pos hl]
    unfold kbit
    rw [byteAt_take_append _ _ _ (by omega)]
    by_cases h1 : i / 8 < (z - 1) / 8
    · rw [if_pos h1, if_pos (show i < z by omega)]
    · rw [if_neg h1]
      by_cases h2 : i / 8 = (z - 1) / 8
      · rw [if_pos h2, mask_bits _ _ _ (by omega) (by omega) (byteAt_lt _ _), h2]
        by_cases h3 : i < z
        · rw [if_pos h3, if_neg (by omega)]
        · rw [if_neg h3, if_pos (by omega)]
      · rw [if_neg h2, if_neg (by omega)]; simp
  · rw [if_neg hl]
    by_cases h1 : i < z
    · rw [if_pos h1]
    · rw [if_neg h1, kbit_of_ge (by omega)]

theorem editKey_length_le (k : Key) (z : Option Nat) : (editKey k z).length ≤ k.length := by
  unfold editKey
  cases z with
  | none => exact Nat.le_refl _
  | some z =>
    dsimp only
    split_ifs with h
    · simp only [List.length_append, List.length_take, List.length_cons, List.length_nil]; omega
    · exact Nat.le_refl _

theorem editKey_length (k : Key) (z : Nat) (hz : 1 ≤ z) : 8 * (editKey k (some z)).length ≤ z + 7 - (z - 1) % 8 ∧
    ((editKey k (some z)).length = (z - 1) / 8 + 1 ∨ 8 * (editKey k (some z)).length < z) := by
  unfold editKey
  dsimp only
  split_ifs with h
  · simp only [List.length_append, List.length_take, List.length_cons, List.length_nil]; omega
  · omega

theorem editKey_pre (k : Key) (z : Nat) (hz : 1 ≤ z) {q : Nat} (hq : q ≤ z) :
    pre q (editKey k (some z)) = pre q k := by
  rw [pre_eq_iff]
  intro i hi
  rw [editKey_kbit k z hz, if_pos (by omega)]

theorem pre_zeros {k : Key} {z : Nat} (h : ∀ i, z ≤ i → kbit k i = 0) : ∀ j, pre (z + j) k = pre z k * 2 ^ j
  | 0 => by simp
  | j + 1 => by
    rw [← Nat.add_assoc, pre_succ_eq, pre_zeros h j, h _ (by omega), pow_succ]; ring

theorem editKey_zeros (k : Key) (z : Nat) (hz : 1 ≤ z) : ∀ i, z ≤ i → kbit (editKey k (some z)) i = 0 := by
  intro i hi
  rw [editKey_kbit k z hz, if_neg (by omega)]

theorem editKey_le (k : Key) (z : Nat) (hz : 1 ≤ z) (p : Nat) : pre p (editKey k (some z)) ≤ pre p k := by
  by_cases h : p ≤ z
  · rw [editKey_pre k z hz h]
  · obtain ⟨j, rfl⟩ := Nat.exists_eq_add_of_le (show z ≤ p by omega)
    rw [pre_zeros (editKey_zeros k z hz), editKey_pre k z hz (Nat.le_refl _), pre_split k z j]
    omega

end Verif
