import Verif.Proof.SepSearch

/-!
# The cut of the item list by the new boundary
-/

namespace Verif

theorem mem_take_getD {l : List Nat} {n x : Nat} (h : x ∈ l.take n) : ∃ i, i < n ∧ i < l.length ∧ l.getD i 0 = x := by
  obtain ⟨i, hi, rfl⟩ := List.mem_iff_getElem.1 h
  rw [List.length_take] at hi
  refine ⟨i, by omega, by omega, ?_⟩
  rw [getD_eq (by omega), List.getElem_take]

theorem mem_drop_getD {l : List Nat} {n x : Nat} (h : x ∈ l.drop n) : ∃ i, n ≤ i ∧ i < l.length ∧ l.getD i 0 = x := by
  obtain ⟨i, hi, rfl⟩ := List.mem_iff_getElem.1 h
  rw [List.length_drop] at hi
  refine ⟨n + i, by omega, by omega, ?_⟩
  rw [getD_eq (by omega), List.getElem_drop]

/-- The result of the cut. -/
structure CutSpec (s p base : Nat) (k : Key) (L : List Nat) (sp : Nat) (zp : Option Nat) : Prop where
  left : ∀ x ∈ L.take sp, ival s base x < pre (ilen s p x) (editKey k zp)
  right : ∀ x ∈ L.drop sp, pre (ilen s p x) (editKey k zp) ≤ ival s base x
  zeros : ∀ x ∈ L.drop sp, pre (ilen s p x) (editKey k zp) = ival s base x →
    (∀ i, ilen s p x ≤ i → kbit (editKey k zp) i = 0) ∧ ∀ z, zp = some z → z ≤ ilen s p x
  head : ∀ z, zp = some z → p ≤ z ∧ ∃ x0 rest, L.drop sp = x0 :: rest ∧ x0 ∈ L ∧ ilen s p x0 = z ∧ ival s base x0 = pre z k ∧
    ∀ x ∈ rest, ile x0 x
  none : zp = none → ∀ x ∈ L, pre (ilen s p x) k ≠ ival s base x

section
variable {s p : Nat} {prev k : Key}

theorem nolb_le_iff {m t : Nat} (h : (2 * m + 1) * 2 ^ t < 2 ^ 64) (v : Nat) :
    nolb64 ((2 * m + 1) * 2 ^ t) ≤ v ↔ m ≤ v / 2 ^ (t + 1) := by
  rw [nolb64_odd h, Nat.le_div_iff_mul_le (Nat.two_pow_pos _), pow_succ]
  rw [show 2 * m * 2 ^ t = m * (2 ^ t * 2) by ring]

theorem sep_le_iff {m t : Nat} (h : (2 * m + 1) * 2 ^ t < 2 ^ 64) {v : Nat} (hv : v + 1 < 2 ^ 64) :
    nolb64 ((2 * m + 1) * 2 ^ t) ≤ sub64 (v ||| 1) 1 ↔ m ≤ v / 2 ^ (t + 1) := by
  rw [← nolb_le_iff h, nolb64_odd h, or_one, sub64_of_le (by omega) (by omega)]
  have e : 2 * m * 2 ^ t = 2 * (m * 2 ^ t) := by ring
  rw [e]; omega

theorem cut_spec (hs1 : 1 ≤ s) (hs2 : s ≤ 46) {T : Nat} {L : List Nat} (hL : Loadable s T L) (hT : T ≤ 1024)
    (hp1 : 1 ≤ p) (hk : pre p prev ≤ pre p k) (hkT : pre p k ≤ pre p prev + 1023) {sp : Nat} {zp : Option Nat}
    (hz : zeroScan L s (relVal s p prev k ||| 1) (p + s)
      (sepSearch L (relVal s p prev k ||| 1) (L.length + 2) (-1) L.length).toNat
      ((sepSearch L (relVal s p prev k ||| 1) (L.length + 2) (-1) L.length).toNat, none) = (sp, zp)) :
    CutSpec s p (pre p prev) k L sp zp := by
  have hitem : ∀ x ∈ L, x % 2 ^ s ≠ 0 ∧ x < 2 ^ 64 := by
    intro x hx
    obtain ⟨h1, h2⟩ := hL.item x hx
    exact ⟨h1, (item_bound (s := s) (by omega) (by omega)).2⟩
  have hvq := relVal_div (s := s) hk
  have hv : relVal s p prev k + 1 < 2 ^ 64 := by
    have h1 : relVal s p prev k < 1024 * 2 ^ s := by
      rw [← Nat.div_lt_iff_lt_mul (Nat.two_pow_pos _)]; omega
    have h2 : 2 ^ s ≤ 2 ^ 46 := Nat.pow_le_pow_right (by decide) hs2
    omega
  obtain ⟨c1, c2, c3, c4⟩ := sepSearch_spec hL.sorted (relVal s p prev k ||| 1) (L.length + 2) (-1) L.length
    (by omega) (by omega) (by omega) (by omega) (by intro i hi; omega) (by intro i hi; omega)
  generalize sepSearch L (relVal s p prev k ||| 1) (L.length + 2) (-1) L.length = R at *
  obtain ⟨r, rfl⟩ : ∃ r : Nat, R = r := ⟨R.toNat, by omega⟩
  rw [Int.toNat_natCast] at hz
  -- meaning in terms of prefixes
  have hlow : ∀ i, i < r → ival s (pre p prev) (L.getD i 0) ≤ pre (ilen s p (L.getD i 0)) k := by
    intro i hi
    have hmem : L.getD i 0 ∈ L := by rw [getD_eq (by omega)]; exact List.getElem_mem _
    obtain ⟨h0, h64⟩ := hitem _ hmem
    have h1 := c3 i (by omega)
    obtain ⟨m, t, e, ht⟩ := item_decomp h0
    rw [e] at h1 h64 ⊢
    rw [sep_le_iff h64 hv] at h1
    rw [ilen_odd h64, ival_odd h64, ← relVal_cut hk ht]
    omega
  have hhigh : ∀ i, r ≤ i → i < L.length → pre (ilen s p (L.getD i 0)) k < ival s (pre p prev) (L.getD i 0) := by
    intro i hi hi'
    have hmem : L.getD i 0 ∈ L := by rw [getD_eq (by omega)]; exact List.getElem_mem _
    obtain ⟨h0, h64⟩ := hitem _ hmem
    have h1 := c4 i (by omega) hi'
    obtain ⟨m, t, e, ht⟩ := item_decomp h0
    rw [e] at h1 h64 ⊢
    rw [← Nat.not_le, sep_le_iff h64 hv] at h1
    rw [ilen_odd h64, ival_odd h64, ← relVal_cut hk ht]
    omega
  have hcov : ∀ i, i < L.length → (Covers (L.getD i 0) (relVal s p prev k ||| 1) ↔
      pre (ilen s p (L.getD i 0)) k = ival s (pre p prev) (L.getD i 0)) := by
    intro i hi
    have hmem : L.getD i 0 ∈ L := by rw [getD_eq (by omega)]; exact List.getElem_mem _
    obtain ⟨h0, h64⟩ := hitem _ hmem
    rw [← covers_relVal h0 h64 hk]
    obtain ⟨m, t, e, ht⟩ := item_decomp h0
    rw [e] at h64 ⊢
    rw [covers_odd h64, covers_odd h64, or_one_div]
  have hquot : ∀ j, j < r → L.getD j 0 / 2 ^ s ≤ (relVal s p prev k ||| 1) / 2 ^ s := by
    intro i hi
    have hmem : L.getD i 0 ∈ L := by rw [getD_eq (by omega)]; exact List.getElem_mem _
    obtain ⟨h0, h64⟩ := hitem _ hmem
    have h1 := c3 i (by omega)
    have h2 : nolb64 (L.getD i 0) ≤ (relVal s p prev k ||| 1) := by
      rw [or_one] at h1 ⊢
      rw [sub64_of_le (by omega) (by omega)] at h1
      omega
    have := Nat.div_le_div_right (c := 2 ^ s) h2
    rw [(nolb64_div h0 h64).1] at this
    exact this
  rcases zeroScan_spec hL.sorted hs2 hitem (p + s) r (r, none) (by omega) hquot with ⟨g1, g2⟩ | ⟨j, g1, g2, g3, g4⟩
  · rw [g1] at hz
    obtain ⟨rfl, rfl⟩ := Prod.mk.inj hz
    have hno : ∀ i, i < r → pre (ilen s p (L.getD i 0)) k ≠ ival s (pre p prev) (L.getD i 0) := by
      intro i hi hc
      exact g2 i hi ((hcov i (by omega)).2 hc)
    refine ⟨?_, ?_, ?_, ?_, ?_⟩
    · intro x hx
      obtain ⟨i, hi, hi', rfl⟩ := mem_take_getD hx
      have := hlow i hi
      have := hno i hi
      simp only [editKey]; omega
    · intro x hx
      obtain ⟨i, hi, hi', rfl⟩ := mem_drop_getD hx
      have := hhigh i hi hi'
      simp only [editKey]; omega
    · intro x hx he
      obtain ⟨i, hi, hi', rfl⟩ := mem_drop_getD hx
      have := hhigh i hi hi'
      simp only [editKey] at he; omega
    · intro z hz; exact absurd hz (by simp)
    · intro _ x hx
      obtain ⟨i, hi, rfl⟩ := List.mem_iff_getElem.1 hx
      rw [← getD_eq hi]
      by_cases h : i < r
      · exact hno i h
      · have := hhigh i (by omega) hi; omega
  · rw [g4] at hz
    obtain ⟨rfl, rfl⟩ := Prod.mk.inj hz
    have hmem0 : L.getD j 0 ∈ L := by rw [getD_eq (by omega)]; exact List.getElem_mem _
    obtain ⟨h00, h064⟩ := hitem _ hmem0
    have hz0 := (hcov j (by omega)).1 g2
    obtain ⟨m0, t0, e0, ht0⟩ := item_decomp h00
    have ez : p + s - tz (L.getD j 0) - 1 = p + s - 1 - t0 := by rw [e0] at h064 ⊢; rw [tz_odd h064]; omega
    have eil : ilen s p (L.getD j 0) = p + s - 1 - t0 := by rw [e0] at h064 ⊢; rw [ilen_odd h064]
    have eiv : ival s (pre p prev) (L.getD j 0) = m0 + pre p prev * 2 ^ (s - 1 - t0) := by
      rw [e0] at h064 ⊢; rw [ival_odd h064]
    rw [ez]
    rw [eil, eiv] at hz0
    have hz1 : 1 ≤ p + s - 1 - t0 := by omega
    -- the truncated key
    have eE := pre_zeros (editKey_zeros k _ hz1) (t0 + 1)
    rw [editKey_pre k _ hz1 (Nat.le_refl _), hz0, show p + s - 1 - t0 + (t0 + 1) = p + s by omega, Nat.add_mul] at eE
    have hpE : pre p (editKey k (some (p + s - 1 - t0))) = pre p k := editKey_pre k _ hz1 (by omega)
    have hkE : pre p prev ≤ pre p (editKey k (some (p + s - 1 - t0))) := by rw [hpE]; exact hk
    have hrel : relVal s p prev (editKey k (some (p + s - 1 - t0))) = nolb64 (L.getD j 0) := by
      have h1 := relVal_add (s := s) hkE
      have e2 : pre p prev * 2 ^ (s - 1 - t0) * 2 ^ (t0 + 1) = pre p prev * 2 ^ s := by
        rw [Nat.mul_assoc, ← pow_add]; congr 2; omega
      rw [e2] at eE
      rw [e0] at h064 ⊢
      rw [nolb64_odd h064, show 2 * m0 * 2 ^ t0 = m0 * 2 ^ (t0 + 1) by rw [pow_succ]; ring]
      omega
    refine ⟨?_, ?_, ?_, ?_, ?_⟩
    · intro x hx
      obtain ⟨i, hi, hi', rfl⟩ := mem_take_getD hx
      have hle := sorted_getD hL.sorted (show i ≤ j by omega) (by omega)
      have hnc := g3 i hi
      rw [hcov i hi'] at hnc
      have hmem : L.getD i 0 ∈ L := by rw [getD_eq (by omega)]; exact List.getElem_mem _
      obtain ⟨h0, h64⟩ := hitem _ hmem
      obtain ⟨m, t, e, ht⟩ := item_decomp h0
      have hn := ile_nolb hle
      rw [← hrel] at hn
      rw [e] at hn h64 hnc hle ⊢
      rw [nolb_le_iff h64] at hn
      rw [ilen_odd h64, ival_odd h64] at hnc ⊢
      have hE := relVal_cut hkE ht
      rw [← hE]
      by_cases heq : m = relVal s p prev (editKey k (some (p + s - 1 - t0))) / 2 ^ (t + 1)
      · exfalso
        by_cases hl : p + s - 1 - t ≤ p + s - 1 - t0
        · rw [← heq] at hE
          apply hnc
          rw [← editKey_pre k _ hz1 hl, ← hE]
        · have ht' : t < t0 := by omega
          have hdiv : m * 2 ^ (t + 1) = relVal s p prev (editKey k (some (p + s - 1 - t0))) := by
            rw [heq]
            apply Nat.div_mul_cancel
            rw [hrel]
            rw [e0] at h064 ⊢
            rw [nolb64_odd h064]
            obtain ⟨d, rfl⟩ := Nat.exists_eq_add_of_lt ht'
            refine ⟨m0 * 2 ^ (d + 1), ?_⟩
            rw [show t + d + 1 = t + (d + 1) by omega, pow_add 2 t (d + 1), pow_succ]; ring
          have hnn : nolb64 ((2 * m + 1) * 2 ^ t) = nolb64 (L.getD j 0) := by
            rw [← hrel, ← hdiv, nolb64_odd h64, pow_succ]; ring
          unfold ile at hle
          rw [hnn] at hle
          rw [e0] at h064 hle
          rw [lb64_odd h64, lb64_odd h064] at hle
          have : 2 ^ t < 2 ^ t0 := Nat.pow_lt_pow_right (by decide) ht'
          omega
      · omega
    · intro x hx
      obtain ⟨i, hi, hi', rfl⟩ := mem_drop_getD hx
      have hle := sorted_getD hL.sorted hi hi'
      have hmem : L.getD i 0 ∈ L := by rw [getD_eq (by omega)]; exact List.getElem_mem _
      obtain ⟨h0, h64⟩ := hitem _ hmem
      obtain ⟨m, t, e, ht⟩ := item_decomp h0
      have hn := ile_nolb hle
      rw [← hrel] at hn
      rw [e] at hn h64 ⊢
      rw [ilen_odd h64, ival_odd h64, ← relVal_cut hkE ht]
      rw [nolb64_odd h64, show 2 * m * 2 ^ t = m * 2 ^ (t + 1) by rw [pow_succ]; ring] at hn
      have := Nat.div_le_div_right (c := 2 ^ (t + 1)) hn
      rw [Nat.mul_div_cancel _ (Nat.two_pow_pos _)] at this
      omega
    · intro x hx heq
      obtain ⟨i, hi, hi', rfl⟩ := mem_drop_getD hx
      have hle := sorted_getD hL.sorted hi hi'
      have hmem : L.getD i 0 ∈ L := by rw [getD_eq (by omega)]; exact List.getElem_mem _
      obtain ⟨h0, h64⟩ := hitem _ hmem
      obtain ⟨m, t, e, ht⟩ := item_decomp h0
      have hn := ile_nolb hle
      rw [← hrel] at hn
      rw [e] at hn h64 heq hle ⊢
      rw [ilen_odd h64]
      rw [ilen_odd h64, ival_odd h64, ← relVal_cut hkE ht] at heq
      have hm : m = relVal s p prev (editKey k (some (p + s - 1 - t0))) / 2 ^ (t + 1) := by omega
      have h1 : nolb64 ((2 * m + 1) * 2 ^ t) ≤ relVal s p prev (editKey k (some (p + s - 1 - t0))) := by
        rw [nolb_le_iff h64]; omega
      have htt : t ≤ t0 := by
        by_contra hc
        have : 2 ^ t0 < 2 ^ t := Nat.pow_lt_pow_right (by decide) (by omega)
        unfold ile at hle
        rw [hrel] at hn h1
        rw [show nolb64 ((2 * m + 1) * 2 ^ t) = nolb64 (L.getD j 0) by omega] at hle
        rw [e0] at h064 hle
        rw [lb64_odd h64, lb64_odd h064] at hle
        omega
      refine ⟨fun i' hi'2 => editKey_zeros k _ hz1 i' (by omega), ?_⟩
      intro z hz
      obtain rfl : p + s - 1 - t0 = z := by injection hz
      omega
    · intro z hz
      obtain rfl : p + s - 1 - t0 = z := by injection hz
      refine ⟨by omega, L.getD j 0, L.drop (j + 1), ?_, hmem0, eil, by rw [eiv]; exact hz0.symm, ?_⟩
      · rw [getD_eq (by omega)]
        exact List.drop_eq_getElem_cons (by omega)
      · intro x hx
        obtain ⟨i, hi, hi', rfl⟩ := mem_drop_getD hx
        exact sorted_getD hL.sorted (by omega) hi'
    · intro hz; exact absurd hz (by simp)

end

end Verif
