import Verif.Proof.Del

/-!
# DeleteRawFromInfixStore takes exactly one item out of the region
-/

namespace Verif

/-! ## Counting the remaining bits -/

theorem cnt_clear {b b' : Nat → Bool} {p : Nat} (h : ∀ i, b' i = if i = p then false else b i) (K : Nat) :
    cnt b' K + (if p < K then (b p).toNat else 0) = cnt b K := by
  induction K with
  | zero => simp [cnt]
  | succ K ih =>
    rw [cnt, cnt, h K]
    rcases Nat.lt_trichotomy p K with h1 | h1 | h1
    · rw [if_pos h1] at ih
      rw [if_neg (by omega), if_pos (by omega)]; omega
    · rw [if_neg (by omega)] at ih
      rw [if_pos h1.symm, if_pos (by omega), ← h1]
      rw [← h1] at ih; simp; omega
    · rw [if_neg (by omega)] at ih
      rw [if_neg (by omega), if_neg (by omega)]; omega

/-- Bits `(p, e]` shifted left over bit `p`. -/
theorem cnt_delL {b b' : Nat → Bool} {p e : Nat} (hpe : p ≤ e)
    (h : ∀ i, b' i = if i = e then false else if p ≤ i ∧ i < e then b (i + 1) else b i) (K : Nat) :
    cnt b' K + (if p < K then (b p).toNat else 0) = if p < K ∧ K ≤ e then cnt b (K + 1) else cnt b K := by
  have h0 : ∀ i, (fun i => if i = p then false else b i) i = if i = p then false else b i := fun _ => rfl
  have h1 := cnt_shiftL (b := fun i => if i = p then false else b i) (b' := b') (l := p + 1) (r := e + 1)
    (by omega) (by omega) (by
      intro i
      rw [h i]
      split_ifs <;> first | rfl | (exfalso; omega)) (by simp) K
  have h2 := cnt_clear h0 K
  have h3 := cnt_clear h0 (K + 1)
  rw [h1]
  by_cases c : p < K ∧ K ≤ e
  · rw [if_pos (by omega), if_pos c, if_pos c.1]
    rw [if_pos (by omega)] at h3; exact h3
  · rw [if_neg (by omega), if_neg c]; exact h2

/-- Bits `[b, p)` shifted right over bit `p`. -/
theorem cnt_delR {r r' : Nat → Bool} {b p : Nat} (hbp : b ≤ p)
    (h : ∀ i, r' i = if i = b then false else if b < i ∧ i ≤ p then r (i - 1) else r i) (K : Nat) :
    cnt r' K = if b < K ∧ K ≤ p then cnt r (K - 1) else cnt r K - (if p < K then (r p).toNat else 0) := by
  have h0 : ∀ i, (fun i => if i = p then false else r i) i = if i = p then false else r i := fun _ => rfl
  have h1 := cnt_shiftR (b := fun i => if i = p then false else r i) (b' := r') hbp (by
      intro i
      rw [h i]
      split_ifs <;> first | rfl | (exfalso; omega)) (by simp) K
  have h2 := cnt_clear h0 K
  have h3 := cnt_clear h0 (K - 1)
  rw [h1]
  by_cases c : b < K ∧ K ≤ p
  · rw [if_pos c, if_pos c]
    rw [if_neg (by omega)] at h3; omega
  · rw [if_neg c, if_neg c]; omega

section
variable {m n s T : Nat} {mp : Nat → Nat} {lay lay' : Nat → Option Nat} {σ : Nat → Nat} {p y m' rs re : Nat}

/-- The run of quotient `q` occupies slots `rs` to `re`. -/
structure RunIs (m n s : Nat) (lay : Nat → Option Nat) (q rs re : Nat) : Prop where
  le : rs ≤ re
  lt : re < n
  rend : Verif.rend m re = true
  fill : ∀ k, rs ≤ k → k ≤ re → ∃ z, lay k = some z ∧ z / 2 ^ s = q
  all : ∀ j z, j < n → lay j = some z → z / 2 ^ s = q → rs ≤ j ∧ j ≤ re

theorem RunIs.no_rend {q : Nat} (R : RunIs m n s lay q rs re) (rp : Rep m n s lay) {k : Nat} (h1 : rs ≤ k) (h2 : k < re) :
    Verif.rend m k = false := by
  by_contra hc
  have hc : Verif.rend m k = true := by simpa using hc
  have := R.lt
  obtain ⟨x, hx, hlast⟩ := (rp.rend k (by omega)).1 hc
  obtain ⟨x', hx', hq'⟩ := R.fill k h1 (by omega)
  rw [hx] at hx'; injection hx' with hx'; subst hx'
  obtain ⟨z, hz, hzq⟩ := R.fill re R.le (Nat.le_refl _)
  exact hlast re z h2 R.lt hz (by omega)

/-- Assemble `Rep` of the layout without the item. -/
theorem del_rep (I : Ins n lay' lay p y σ) (r : Rep m n s lay) (R : RunIs m n s lay (y / 2 ^ s) rs re)
    (hslot : ∀ i, i < n → slotv m' n s i = slotOf s (lay' i))
    (hocc : ∀ q, q < 1024 → occ m' q = (occ m q && !decide (rs = re ∧ q = y / 2 ^ s)))
    (hpop0 : pop0 m' = cnt (occ m') 512)
    (hpop1 : pop1 m' = cnt (rend m') (min 512 n))
    (hr1 : ∀ k, k < n → lay' k = none → rend m' k = false)
    (hr2 : ∀ k z, k < n → lay' k = some z →
      rend m' k = (rend m (σ k) || decide (σ k + 1 = re ∧ p = re ∧ rs < re))) :
    Rep m' n s lay' := by
  have hp := R.all p y I.px I.at_p rfl
  refine ⟨hslot, ?_, ?_, hpop0, hpop1⟩
  · intro q hq
    have hio := ins_occ (s := s) I q
    rw [← r.occ q hq] at hio
    rw [hocc q hq]
    by_cases c1 : q = y / 2 ^ s
    · have ho : occ m q = true := hio.2 (Or.inr c1)
      rw [ho]
      by_cases c2 : rs = re
      · simp only [c1, c2, and_self, decide_true, Bool.not_true, Bool.and_false, Bool.false_eq_true, false_iff]
        rintro ⟨i, z, hi, hz, hzq⟩
        obtain ⟨a1, a2, a3⟩ := I.sub i z hi hz
        have := R.all _ z a1 a3 hzq
        omega
      · simp only [c2, false_and, decide_false, Bool.not_false, Bool.and_true, true_iff]
        have hother : ∃ j, rs ≤ j ∧ j ≤ re ∧ j ≠ p := by
          by_cases c3 : p = rs
          · exact ⟨re, by omega, by omega, by omega⟩
          · exact ⟨rs, by omega, by omega, by omega⟩
        obtain ⟨j, j1, j2, j3⟩ := hother
        obtain ⟨z, hz, hzq⟩ := R.fill j j1 j2
        have := R.lt
        rcases I.sur j z (by omega) hz with ⟨h1, _⟩ | ⟨i, hi, _, hiz⟩
        · exact absurd h1 j3
        · exact ⟨i, z, hi, hiz, by omega⟩
    · have hd : decide (rs = re ∧ q = y / 2 ^ s) = false := by simp [c1]
      rw [hd]
      simp only [Bool.not_false, Bool.and_true]
      rw [hio]
      constructor
      · rintro (h | h)
        · exact h
        · exact absurd h c1
      · exact Or.inl
  · intro k hk
    rcases hlk : lay' k with _ | z
    · rw [hr1 k hk hlk]; simp
    · rw [hr2 k z hk hlk, Bool.or_eq_true, decide_eq_true_iff]
      obtain ⟨a1, a2, a3⟩ := I.sub k z hk hlk
      constructor
      · rintro (h | ⟨h1, h2, h3⟩)
        · obtain ⟨z', e1, e2⟩ := (r.rend _ a1).1 h
          rw [a3] at e1; injection e1 with e1; subst e1
          refine ⟨z, rfl, ?_⟩
          intro j w hj1 hj2 hw
          obtain ⟨b1, _, b3⟩ := I.sub j w hj2 hw
          exact e2 _ w (I.mono k j hj1 hj2 (by simp [hlk]) (by simp [hw])) b1 b3
        · refine ⟨z, rfl, ?_⟩
          intro j w hj1 hj2 hw hq
          obtain ⟨b1, b2, b3⟩ := I.sub j w hj2 hw
          have hlt := I.mono k j hj1 hj2 (by simp [hlk]) (by simp [hw])
          obtain ⟨z', hz', hzq'⟩ := R.fill (σ k) (by omega) (by omega)
          rw [a3] at hz'; injection hz' with hz'; subst hz'
          have := R.all _ w b1 b3 (by omega)
          omega
      · rintro ⟨z', e, hlast⟩
        injection e with e; subst e
        by_contra hc
        rw [not_or] at hc
        obtain ⟨hc1, hc2⟩ := hc
        have hex : ∃ j w, σ k < j ∧ j < n ∧ lay j = some w ∧ w / 2 ^ s = z / 2 ^ s := by
          by_contra hno
          apply hc1
          rw [r.rend _ a1]
          refine ⟨z, a3, ?_⟩
          intro j w h1 h2 h3 h4
          exact hno ⟨j, w, h1, h2, h3, h4⟩
        have honly : ∀ j w, σ k < j → j < n → lay j = some w → w / 2 ^ s = z / 2 ^ s → j = p := by
          intro j w h1 h2 h3 h4
          rcases I.sur j w h2 h3 with ⟨h5, _⟩ | ⟨i, hi, hij, hiw⟩
          · exact h5
          · exfalso
            exact hlast i w (I.lt_of hk (by simp [hlk]) (by simp [hiw]) (by omega)) hi hiw h4
        obtain ⟨j, w, h1, h2, h3, h4⟩ := hex
        have hjp := honly j w h1 h2 h3 h4
        subst hjp
        rw [I.at_p] at h3; injection h3 with h3; subst h3
        have hzk := R.all _ z a1 a3 h4.symm
        have hre := R.lt
        have hpre : j = re := by
          by_contra hne
          obtain ⟨w', hw', hwq'⟩ := R.fill re R.le (Nat.le_refl _)
          have := honly re w' (by omega) R.lt hw' (by omega)
          omega
        apply hc2
        refine ⟨?_, hpre, by omega⟩
        by_contra hne
        obtain ⟨w', hw', hwq'⟩ := R.fill (σ k + 1) (by omega) (by omega)
        have := honly (σ k + 1) w' (by omega) (by omega) hw' (by omega)
        omega

/-! ## The two shift directions -/

/-- Last step of both directions: the occupied bit of a destroyed run. -/
def delOcc (m q : Nat) (d : Bool) : Nat :=
  if d then subPop0 (resetBit m 1 q) (b2n (q < 512)) else m

/-- Deletion by shifting slots up to `e` left. -/
def delLeft (m n s p e re : Nat) (d : Bool) : Nat :=
  let m1 := if p ≤ 512 ∧ 512 < e + 1 then addPop1 m (getBit m 17 512) else m
  let m2 := shiftSlotsLeft m1 n s (p + 1) (e + 1)
  let m3 := shiftRunendsLeft m2 (p + 1) (e + 1)
  let m4 := if p = e then resetBit (setSlot m3 n s p 0) 17 p else m3
  if d = false then setBit m4 17 (re - 1) else subPop1 m4 (b2n (re ≤ 512))

/-- Deletion by shifting slots from `b` right. -/
def delRight (m n s b p re : Nat) (d : Bool) : Nat :=
  let m1 := shiftSlotsRight m n s b p
  let m2 := shiftRunendsRight m1 b p
  let m3 := if p = b then
      let m3' := setSlot m2 n s p 0
      if d then resetBit m3' 17 re else m3'
    else m2
  let m4 := if b < 512 ∧ 512 ≤ p then subPop1 m3 (getBit m3 17 512) else m3
  if d = false then setBit m4 17 re else subPop1 m4 (b2n (re < 512))

theorem delOcc_rep {q : Nat} {d : Bool} {L : Nat → Option Nat} (hq : q < 1024)
    (hpop0 : pop0 m = cnt (occ m) 512) (ho : d = true → occ m q = true)
    (h : ∀ M, (∀ i, i < n → slotv M n s i = slotv m n s i) →
      (∀ q', q' < 1024 → occ M q' = (occ m q' && !decide (d = true ∧ q' = q))) →
      (∀ i, rend M i = rend m i) → pop1 M = pop1 m → pop0 M = cnt (occ M) 512 → Rep M n s L) :
    Rep (delOcc m q d) n s L := by
  unfold delOcc
  cases d with
  | false =>
    apply h
    · intro i _; rfl
    · intro q' _; simp
    · intro i; rfl
    · rfl
    · exact hpop0
  | true =>
    have ho := ho rfl
    rw [if_pos rfl]
    have hocc : ∀ q', occ (subPop0 (resetBit m 1 q) (b2n (q < 512))) q' = (occ m q' && !decide (q' = q)) := by
      intro q'
      simp only [subPop0, occ_setPop0]
      rw [occ_resetBit1]
    apply h
    · intro i _
      simp only [subPop0, slotv_setPop0]
      rw [slotv_resetBit1 _ _ _ _ _ hq]
    · intro q' _
      rw [hocc]; simp
    · intro i
      simp only [subPop0, rend_setPop0]
      rw [rend_resetBit1 _ _ _ hq]
    · simp only [subPop0, pop1_setPop0]
      rw [pop1_resetBit _ _ _ (by decide)]
    · have h1 : cnt (occ (subPop0 (resetBit m 1 q) (b2n (q < 512)))) 512 + (if q < 512 then 1 else 0) = cnt (occ m) 512 := by
        have := cnt_clear (b := occ m) (b' := occ (subPop0 (resetBit m 1 q) (b2n (q < 512)))) (p := q) (by
          intro i; rw [hocc]; by_cases c : i = q <;> simp [c]) 512
        rw [ho] at this
        exact this
      have h2 : cnt (occ m) 512 ≤ 512 := cnt_le _ _
      have h3 : pop0 (subPop0 (resetBit m 1 q) (b2n (q < 512))) = sub32 (pop0 m) (if q < 512 then 1 else 0) := by
        simp only [subPop0]
        rw [pop0_setPop0 _ _ (sub32_lt _ _), pop0_resetBit _ _ _ (by decide), b2n_eq]
      rw [h3, hpop0, sub32_small (by omega) (by omega)]
      omega

theorem left_rep (r : Rep m n s lay) (hs1 : 1 ≤ s) (hs2 : s ≤ 46) {e : Nat}
    (hp : lay p = some y) (hpn : p < n) (hq : y / 2 ^ s < 1024) (R : RunIs m n s lay (y / 2 ^ s) rs re)
    (hree : re ≤ e) (he : e < n) (hre : rend m e = true) :
    Rep (delOcc (delLeft m n s p e re (decide (rs = re))) (y / 2 ^ s) (decide (rs = re))) n s (layDL lay p e) := by
  obtain ⟨hp1, hp2⟩ := R.all p y hpn hp rfl
  have hpe : p ≤ e := by omega
  have I := ins_layDL hpe he hp
  have hv0 : 0 < 2 ^ s := Nat.two_pow_pos s
  have hpop1 := pop1_le r
  have hB : (rend m 512).toNat ≤ 1 := by cases rend m 512 <;> simp
  -- the intermediate blocks
  generalize hd : decide (rs = re) = d
  generalize hm1 : (if p ≤ 512 ∧ 512 < e + 1 then addPop1 m (getBit m 17 512) else m) = m1
  generalize hm2 : shiftSlotsLeft m1 n s (p + 1) (e + 1) = m2
  generalize hm3 : shiftRunendsLeft m2 (p + 1) (e + 1) = m3
  generalize hm4 : (if p = e then resetBit (setSlot m3 n s p 0) 17 p else m3) = m4
  generalize hm5 : (if d = false then setBit m4 17 (re - 1) else subPop1 m4 (b2n (re ≤ 512))) = m5
  have hdef : delLeft m n s p e re d = m5 := by
    unfold delLeft
    simp only [hm1, hm2, hm3, hm4, hm5]
  rw [hdef]
  have hs1m : ∀ i, slotv m1 n s i = slotv m n s i := by
    intro i; rw [← hm1]; split_ifs
    · simp only [addPop1, slotv_setPop1]
    · rfl
  have ho1m : ∀ i, occ m1 i = occ m i := by
    intro i; rw [← hm1]; split_ifs
    · simp only [addPop1, occ_setPop1]
    · rfl
  have hr1m : ∀ i, rend m1 i = rend m i := by
    intro i; rw [← hm1]; split_ifs
    · simp only [addPop1, rend_setPop1]
    · rfl
  have hp0m : pop0 m1 = pop0 m := by
    rw [← hm1]; split_ifs
    · simp only [addPop1, pop0_setPop1]
    · rfl
  have hp1m : pop1 m1 = pop1 m + if p ≤ 512 ∧ 512 < e + 1 then (rend m 512).toNat else 0 := by
    rw [← hm1]; split_ifs
    · simp only [addPop1]
      rw [pop1_setPop1 _ _ (add32_lt _ _), getBit17, add32_small (by omega)]
    · rfl
  have hr3 : ∀ i, i < n → rend m3 i = if i = e then false else if p ≤ i ∧ i < e then rend m (i + 1) else rend m i := by
    intro i hi
    rw [← hm3, rend_shiftRunendsLeft _ _ _ (by omega) (by omega)]
    by_cases c1 : i = e
    · rw [if_pos (by omega), if_pos c1]
    · rw [if_neg (by omega), if_neg c1]
      by_cases c2 : p ≤ i ∧ i < e
      · rw [if_pos (by omega), if_pos c2, ← hm2, rend_shiftSlotsLeft _ _ _ (by omega) (by omega) (by omega), hr1m]
      · rw [if_neg (by omega), if_neg c2, ← hm2, rend_shiftSlotsLeft _ _ _ (by omega) (by omega) (by omega), hr1m]
  have hr4 : ∀ i, i < n → rend m4 i = rend m3 i := by
    intro i hi
    rw [← hm4]; split_ifs with c
    · rw [rend_resetBit17, rend_setSlot (by omega) hs1 hv0 _ hi]
      by_cases c2 : i = p
      · rw [hr3 i hi, if_pos (by omega)]; simp
      · simp [c2]
    · rfl
  have hre1 : d = false → 1 ≤ re ∧ rs ≤ re - 1 := by
    intro h0; rw [h0] at hd
    have := R.le
    have : rs ≠ re := by simpa using hd
    omega
  have hr5 : ∀ i, i < n → rend m5 i = (rend m3 i || decide (d = false ∧ i = re - 1)) := by
    intro i hi
    rw [← hm5]; split_ifs with c
    · rw [rend_setBit17, hr4 i hi]; simp [c]
    · simp only [subPop1, rend_setPop1]
      rw [hr4 i hi]
      have : d = true := by simpa using c
      simp [this]
  have hs4 : ∀ i, i < n → slotv m4 n s i = slotOf s (layDL lay p e i) := by
    intro i hi
    have h3 : slotv m3 n s i = if i = e then 0 else if p ≤ i ∧ i < e then slotv m n s (i + 1) else slotv m n s i := by
      rw [← hm3, slotv_shiftRunendsLeft _ _ _ _ _ (by omega) (by omega) (by omega), ← hm2,
        slotv_shiftSlotsLeft _ _ _ (by omega) (by omega)]
      by_cases c1 : i = e
      · rw [if_pos (by omega), if_pos c1]
      · rw [if_neg (by omega), if_neg c1]
        by_cases c2 : p ≤ i ∧ i < e
        · rw [if_pos (by omega), if_pos c2, hs1m]
        · rw [if_neg (by omega), if_neg c2, hs1m]
    have h4 : slotv m4 n s i = slotv m3 n s i := by
      rw [← hm4]; split_ifs with c
      · rw [slotv_resetBit17 _ _ _ _ _ hpn, slotv_setSlot (by omega) hs1 hv0]
        by_cases c2 : i = p
        · rw [if_pos c2, h3, if_pos (by omega)]
        · rw [if_neg c2]
      · rfl
    rw [h4, h3]
    unfold layDL
    split_ifs with c1 c2
    · rfl
    · exact r.slot _ (by omega)
    · exact r.slot _ hi
  have hs5 : ∀ i, i < n → slotv m5 n s i = slotOf s (layDL lay p e i) := by
    intro i hi
    rw [← hs4 i hi, ← hm5]; split_ifs with c
    · rw [slotv_setBit17 _ _ _ _ _ (by have := R.lt; omega)]
    · simp only [subPop1, slotv_setPop1]
  have ho5 : ∀ q, q < 1024 → occ m5 q = occ m q := by
    intro q hq'
    have h3 : occ m3 q = occ m q := by
      rw [← hm3, occ_shiftRunendsLeft _ _ _ (by omega) (by omega) hq', ← hm2,
        occ_shiftSlotsLeft _ _ _ (by omega) (by omega) hq', ho1m]
    have h4 : occ m4 q = occ m3 q := by
      rw [← hm4]; split_ifs
      · rw [occ_resetBit17 _ _ _ hq', occ_setSlot (by omega) hs1 hv0 _ hq']
      · rfl
    rw [← h3, ← h4, ← hm5]; split_ifs
    · rw [occ_setBit17 _ _ _ hq']
    · simp only [subPop1, occ_setPop1]
  have hp05 : pop0 m5 = pop0 m := by
    have h3 : pop0 m3 = pop0 m := by
      rw [← hm3, pop0_shiftRunendsLeft _ _ (by omega) (by omega), ← hm2,
        pop0_shiftSlotsLeft _ _ (by omega) (by omega), hp0m]
    have h4 : pop0 m4 = pop0 m3 := by
      rw [← hm4]; split_ifs
      · rw [pop0_resetBit _ _ _ (by decide), pop0_setSlot (by omega) hs1 hv0]
      · rfl
    rw [← h3, ← h4, ← hm5]; split_ifs
    · rw [pop0_setBit _ _ _ (by decide)]
    · simp only [subPop1, pop0_setPop1]
  have hp14 : pop1 m4 = pop1 m1 := by
    have h3 : pop1 m3 = pop1 m1 := by
      rw [← hm3, pop1_shiftRunendsLeft _ _ (by omega) (by omega), ← hm2,
        pop1_shiftSlotsLeft _ _ (by omega) (by omega)]
    rw [← h3, ← hm4]; split_ifs
    · rw [pop1_resetBit _ _ _ (by decide), pop1_setSlot (by omega) hs1 hv0]
    · rfl
  -- the runend bit at `p`
  have hrp : rend m p = decide (p = re) := by
    by_cases c : p = re
    · rw [c, R.rend]; simp
    · rw [R.no_rend r hp1 (by omega)]; simp [c]
  have hrlt := R.lt
  have hp15 : pop1 m5 = cnt (rend m5) (min 512 n) := by
    -- count of the shifted bits
    have hc := cnt_delL (b := rend m) (b' := fun i => if i = e then false else if p ≤ i ∧ i < e then rend m (i + 1) else rend m i)
      hpe (fun i => rfl) (min 512 n)
    have hc3 : cnt (rend m3) (min 512 n) = cnt (fun i => if i = e then false else if p ≤ i ∧ i < e then rend m (i + 1) else rend m i) (min 512 n) :=
      cnt_congr fun i hi => hr3 i (by omega)
    rw [← hc3] at hc
    have hsucc : p < min 512 n ∧ min 512 n ≤ e → cnt (rend m) (min 512 n + 1) = pop1 m + (rend m 512).toNat := by
      rintro ⟨c1, c2⟩
      have : min 512 n = 512 := by omega
      rw [r.pop1, this, cnt]
    have hcd := cnt_le (rend m3) (min 512 n)
    have hpm1 := pop1_lt m1
    cases hdv : d with
    | true =>
      have hrsre : rs = re := by rw [hdv] at hd; simpa using hd
      have hpre : p = re := by omega
      have e5 : pop1 m5 = sub32 (pop1 m1) (if re ≤ 512 then 1 else 0) := by
        rw [← hm5, hdv, if_neg (by simp)]
        simp only [subPop1]
        rw [pop1_setPop1 _ _ (sub32_lt _ _), b2n_eq, hp14]
      have ec : cnt (rend m5) (min 512 n) = cnt (rend m3) (min 512 n) := by
        apply cnt_congr; intro i hi
        rw [hr5 i (by omega), hdv]; simp
      rw [ec, e5]
      rw [hrp, hpre] at hc
      simp only [decide_true, Bool.toNat_true] at hc
      rw [hpre] at hp1m hsucc
      by_cases c1 : re ≤ 512 ∧ 512 < e + 1
      · rw [if_pos c1] at hp1m
        by_cases c2 : re < min 512 n
        · rw [if_pos c2, if_pos (by omega), hsucc (by omega)] at hc
          rw [if_pos c1.1, sub32_small (by omega) hpm1]
          omega
        · have h512 : re = 512 := by omega
          rw [if_neg c2, if_neg (by omega), ← r.pop1] at hc
          have : rend m 512 = true := by rw [← h512]; exact R.rend
          rw [this] at hp1m
          simp only [Bool.toNat_true] at hp1m
          rw [if_pos c1.1, sub32_small (by omega) hpm1]
          omega
      · rw [if_neg c1] at hp1m
        by_cases c2 : re < min 512 n
        · rw [if_pos c2, if_neg (by omega), ← r.pop1] at hc
          rw [if_pos (by omega), sub32_small (by omega) hpm1]
          omega
        · rw [if_neg c2, if_neg (by omega), ← r.pop1] at hc
          rw [if_neg (by omega), sub32_small (by omega) hpm1]
          omega
    | false =>
      obtain ⟨g1, g2⟩ := hre1 hdv
      have e5 : pop1 m5 = pop1 m1 := by
        rw [← hm5, hdv, if_pos rfl, pop1_setBit _ _ _ (by decide), hp14]
      rw [e5]
      by_cases c0 : p = re
      · -- the runend itself is removed
        have h3f : rend m3 (re - 1) = false := by
          rw [hr3 _ (by omega), if_neg (by omega), if_neg (by omega)]
          exact R.no_rend r g2 (by omega)
        rw [hrp, c0] at hc
        simp only [decide_true, Bool.toNat_true] at hc
        rw [c0] at hp1m hsucc
        have ec : cnt (rend m5) (min 512 n) = cnt (rend m3) (min 512 n) + if re - 1 < min 512 n then 1 else 0 := by
          split_ifs with c1
          · apply cnt_flip c1 h3f
            · rw [hr5 _ (by omega), hdv]; simp
            · intro i hi hne
              rw [hr5 _ (by omega), hdv]; simp [hne]
          · rw [Nat.add_zero]; apply cnt_congr; intro i hi
            rw [hr5 _ (by omega), hdv]
            have : ¬ i = re - 1 := by omega
            simp [this]
        rw [ec]
        by_cases c1 : re ≤ 512 ∧ 512 < e + 1
        · rw [if_pos c1] at hp1m
          by_cases c2 : re < min 512 n
          · rw [if_pos c2, if_pos (by omega), hsucc (by omega)] at hc
            rw [if_pos (by omega)]; omega
          · have h512 : re = 512 := by omega
            rw [if_neg c2, if_neg (by omega), ← r.pop1] at hc
            have : rend m 512 = true := by rw [← h512]; exact R.rend
            rw [this] at hp1m
            simp only [Bool.toNat_true] at hp1m
            rw [if_pos (by omega)]; omega
        · rw [if_neg c1] at hp1m
          by_cases c2 : re < min 512 n
          · rw [if_pos c2, if_neg (by omega), ← r.pop1] at hc
            rw [if_pos (by omega)]; omega
          · rw [if_neg c2, if_neg (by omega), ← r.pop1] at hc
            rw [if_neg (by omega)]; omega
      · have h3t : rend m3 (re - 1) = true := by
          rw [hr3 _ (by omega), if_neg (by omega), if_pos (by omega), Nat.sub_add_cancel g1]
          exact R.rend
        have ec : cnt (rend m5) (min 512 n) = cnt (rend m3) (min 512 n) := by
          apply cnt_congr; intro i hi
          rw [hr5 _ (by omega)]
          by_cases c1 : i = re - 1
          · rw [c1, h3t]; simp
          · simp [c1]
        rw [ec]
        rw [hrp] at hc
        simp only [c0, decide_false, Bool.toNat_false, ite_self, Nat.add_zero] at hc
        by_cases c1 : p ≤ 512 ∧ 512 < e + 1
        · rw [if_pos c1] at hp1m
          by_cases c2 : p < min 512 n
          · rw [if_pos (by omega), hsucc (by omega)] at hc
            omega
          · have h512 : p = 512 := by omega
            rw [if_neg (by omega), ← r.pop1] at hc
            have : rend m 512 = false := by rw [← h512, hrp]; simp [c0]
            rw [this] at hp1m
            simp only [Bool.toNat_false] at hp1m
            omega
        · rw [if_neg c1] at hp1m
          rw [if_neg (by omega), ← r.pop1] at hc
          omega
  have hqr := R.all p y hpn hp rfl
  apply delOcc_rep hq
  · rw [hp05, r.pop0]
    exact (cnt_congr fun i hi => ho5 i (by omega)).symm
  · intro _
    rw [ho5 _ hq]
    exact (r.occ _ hq).2 ⟨p, y, hpn, hp, rfl⟩
  · intro M hMs hMo hMr hM1 hM0
    apply del_rep I r R
    · intro i hi; rw [hMs i hi, hs5 i hi]
    · intro q hq'
      rw [hMo q hq', ho5 q hq', ← hd]
      simp
    · exact hM0
    · rw [hM1, hp15]
      exact (cnt_congr fun i _ => hMr i).symm
    · intro k hk hl
      rw [hMr, hr5 k hk, hr3 k hk]
      unfold layDL at hl
      by_cases c1 : k = e
      · rw [if_pos c1]
        have : ¬ (d = false ∧ k = re - 1) := by
          rintro ⟨h0, h1⟩; have := hre1 h0; omega
        simp [this]
      · rw [if_neg c1] at hl ⊢
        have hcase : ∀ i, i < n → lay i = none → rend m i = false ∧ ¬ (rs ≤ i ∧ i ≤ re) := by
          intro i hi hli
          refine ⟨rend_none r hi hli, ?_⟩
          rintro ⟨h1, h2⟩
          obtain ⟨z, hz, _⟩ := R.fill i h1 h2
          rw [hli] at hz; simp at hz
        by_cases c2 : p ≤ k ∧ k < e
        · rw [if_pos c2] at hl ⊢
          obtain ⟨g1, g2⟩ := hcase _ (by omega) hl
          rw [g1]
          have : ¬ (d = false ∧ k = re - 1) := by
            rintro ⟨h0, h1⟩; have := hre1 h0; omega
          simp [this]
        · rw [if_neg c2] at hl ⊢
          obtain ⟨g1, g2⟩ := hcase _ hk hl
          rw [g1]
          have : ¬ (d = false ∧ k = re - 1) := by
            rintro ⟨h0, h1⟩; have := hre1 h0; omega
          simp [this]
    · intro k z hk hz
      rw [hMr, hr5 k hk, hr3 k hk]
      have hke : k ≠ e := by rintro rfl; rw [layDL_e] at hz; simp at hz
      rw [if_neg hke]
      rw [Bool.eq_iff_iff]
      simp only [Bool.or_eq_true, decide_eq_true_iff]
      have hdf : d = false ↔ rs < re := by
        have := R.le
        rw [← hd]; simp; omega
      by_cases c2 : p ≤ k ∧ k < e
      · rw [if_pos c2, if_pos c2]
        constructor
        · rintro (h | ⟨h0, h1⟩)
          · exact Or.inl h
          · left
            have := hre1 h0
            rw [h1, Nat.sub_add_cancel this.1]; exact R.rend
        · rintro (h | ⟨h0, h1, h2⟩)
          · exact Or.inl h
          · omega
      · rw [if_neg c2, if_neg c2]
        constructor
        · rintro (h | ⟨h0, h1⟩)
          · exact Or.inl h
          · right
            have := hre1 h0
            exact ⟨by omega, by omega, hdf.1 h0⟩
        · rintro (h | ⟨h0, h1, h2⟩)
          · exact Or.inl h
          · right
            exact ⟨hdf.2 h2, by omega⟩

theorem right_rep (r : Rep m n s lay) (hs1 : 1 ≤ s) (hs2 : s ≤ 46) {b : Nat}
    (hp : lay p = some y) (hpn : p < n) (hq : y / 2 ^ s < 1024) (R : RunIs m n s lay (y / 2 ^ s) rs re)
    (hbrs : b ≤ rs) :
    Rep (delOcc (delRight m n s b p re (decide (rs = re))) (y / 2 ^ s) (decide (rs = re))) n s (layDR lay b p) := by
  obtain ⟨hp1, hp2⟩ := R.all p y hpn hp rfl
  have hbp : b ≤ p := by omega
  have I := ins_layDR hbp hpn hp
  have hv0 : 0 < 2 ^ s := Nat.two_pow_pos s
  have hpop1 := pop1_le r
  have hrlt := R.lt
  -- the intermediate blocks
  generalize hd : decide (rs = re) = d
  generalize hm1 : shiftSlotsRight m n s b p = m1
  generalize hm2 : shiftRunendsRight m1 b p = m2
  generalize hm3 : (if p = b then if d then resetBit (setSlot m2 n s p 0) 17 re else setSlot m2 n s p 0 else m2) = m3
  generalize hm4 : (if b < 512 ∧ 512 ≤ p then subPop1 m3 (getBit m3 17 512) else m3) = m4
  generalize hm5 : (if d = false then setBit m4 17 re else subPop1 m4 (b2n (re < 512))) = m5
  have hdef : delRight m n s b p re d = m5 := by
    unfold delRight
    simp only [hm1, hm2, hm3, hm4, hm5]
  rw [hdef]
  have hdf : d = false ↔ rs < re := by
    have := R.le
    rw [← hd]; simp; omega
  have hdt : d = true ↔ rs = re := by
    rw [← hd]; simp
  have hr2 : ∀ i, i < n → rend m2 i = if i = b then false else if b < i ∧ i ≤ p then rend m (i - 1) else rend m i := by
    intro i hi
    rw [← hm2, rend_shiftRunendsRight, ← hm1]
    split_ifs
    · rfl
    · exact rend_shiftSlotsRight _ _ _ (by omega)
    · exact rend_shiftSlotsRight _ _ _ hi
  have hr3 : ∀ i, i < n → rend m3 i = rend m2 i := by
    intro i hi
    rw [← hm3]; split_ifs with c1 c2
    · rw [rend_resetBit17, rend_setSlot (by omega) hs1 hv0 _ hi]
      by_cases c3 : i = re
      · have := hdt.1 c2
        rw [hr2 i hi, if_pos (by omega)]; simp
      · simp [c3]
    · rw [rend_setSlot (by omega) hs1 hv0 _ hi]
    · rfl
  have hr4 : ∀ i, i < n → rend m4 i = rend m2 i := by
    intro i hi
    rw [← hr3 i hi, ← hm4]; split_ifs
    · simp only [subPop1, rend_setPop1]
    · rfl
  have hr5 : ∀ i, i < n → rend m5 i = (rend m2 i || decide (d = false ∧ i = re)) := by
    intro i hi
    rw [← hm5]; split_ifs with c
    · rw [rend_setBit17, hr4 i hi]; simp [c]
    · simp only [subPop1, rend_setPop1]
      rw [hr4 i hi]
      have : d = true := by simpa using c
      simp [this]
  have hs3 : ∀ i, i < n → slotv m3 n s i = slotOf s (layDR lay b p i) := by
    intro i hi
    have h2 : slotv m2 n s i = if i = b then 0 else if b < i ∧ i ≤ p then slotv m n s (i - 1) else slotv m n s i := by
      rw [← hm2, slotv_shiftRunendsRight _ _ _ _ _ hbp hpn, ← hm1, slotv_shiftSlotsRight _ _ _ hbp]
    have h3 : slotv m3 n s i = slotv m2 n s i := by
      have hz : p = b → slotv (setSlot m2 n s p 0) n s i = slotv m2 n s i := by
        intro c
        rw [slotv_setSlot (by omega) hs1 hv0]
        by_cases c2 : i = p
        · rw [if_pos c2, h2, if_pos (by omega)]
        · rw [if_neg c2]
      rw [← hm3]; split_ifs with c1 c2
      · rw [slotv_resetBit17 _ _ _ _ _ hrlt, hz c1]
      · exact hz c1
      · rfl
    rw [h3, h2]
    unfold layDR
    split_ifs with c1 c2
    · rfl
    · exact r.slot _ (by omega)
    · exact r.slot _ hi
  have hs5 : ∀ i, i < n → slotv m5 n s i = slotOf s (layDR lay b p i) := by
    intro i hi
    have h4 : slotv m4 n s i = slotv m3 n s i := by
      rw [← hm4]; split_ifs
      · simp only [subPop1, slotv_setPop1]
      · rfl
    rw [← hs3 i hi, ← h4, ← hm5]; split_ifs with c
    · rw [slotv_setBit17 _ _ _ _ _ hrlt]
    · simp only [subPop1, slotv_setPop1]
  have ho5 : ∀ q, q < 1024 → occ m5 q = occ m q := by
    intro q hq'
    have h2 : occ m2 q = occ m q := by
      rw [← hm2, occ_shiftRunendsRight _ _ _ hbp hq', ← hm1, occ_shiftSlotsRight _ _ _ hq']
    have h3 : occ m3 q = occ m2 q := by
      rw [← hm3]; split_ifs
      · rw [occ_resetBit17 _ _ _ hq', occ_setSlot (by omega) hs1 hv0 _ hq']
      · rw [occ_setSlot (by omega) hs1 hv0 _ hq']
      · rfl
    have h4 : occ m4 q = occ m3 q := by
      rw [← hm4]; split_ifs
      · simp only [subPop1, occ_setPop1]
      · rfl
    rw [← h2, ← h3, ← h4, ← hm5]; split_ifs
    · rw [occ_setBit17 _ _ _ hq']
    · simp only [subPop1, occ_setPop1]
  have hp05 : pop0 m5 = pop0 m := by
    have h2 : pop0 m2 = pop0 m := by
      rw [← hm2, pop0_shiftRunendsRight _ _ hbp, ← hm1, pop0_shiftSlotsRight]
    have h3 : pop0 m3 = pop0 m2 := by
      rw [← hm3]; split_ifs
      · rw [pop0_resetBit _ _ _ (by decide), pop0_setSlot (by omega) hs1 hv0]
      · rw [pop0_setSlot (by omega) hs1 hv0]
      · rfl
    have h4 : pop0 m4 = pop0 m3 := by
      rw [← hm4]; split_ifs
      · simp only [subPop1, pop0_setPop1]
      · rfl
    rw [← h2, ← h3, ← h4, ← hm5]; split_ifs
    · rw [pop0_setBit _ _ _ (by decide)]
    · simp only [subPop1, pop0_setPop1]
  have hp13 : pop1 m3 = pop1 m := by
    have h2 : pop1 m2 = pop1 m := by
      rw [← hm2, pop1_shiftRunendsRight _ _ hbp, ← hm1, pop1_shiftSlotsRight]
    rw [← h2, ← hm3]; split_ifs
    · rw [pop1_resetBit _ _ _ (by decide), pop1_setSlot (by omega) hs1 hv0]
    · rw [pop1_setSlot (by omega) hs1 hv0]
    · rfl
  have hcsucc : cnt (rend m) 512 = cnt (rend m) 511 + (rend m 511).toNat := by rw [cnt]
  have hp14 : pop1 m4 = pop1 m - if b < 512 ∧ 512 ≤ p then (rend m 511).toNat else 0 := by
    rw [← hm4]; split_ifs with c
    · have hK : pop1 m = cnt (rend m) 512 := by rw [r.pop1]; congr 1; omega
      simp only [subPop1]
      rw [pop1_setPop1 _ _ (sub32_lt _ _), getBit17, hr3 _ (by omega), hr2 _ (by omega), if_neg (by omega),
        if_pos (by omega), hp13, sub32_small _ (pop1_lt _)]
      rw [hK, hcsucc]; simp
    · rw [hp13]; rfl
  have hrp : rend m p = decide (p = re) := by
    by_cases c : p = re
    · rw [c, R.rend]; simp
    · rw [R.no_rend r hp1 (by omega)]; simp [c]
  have hp15 : pop1 m5 = cnt (rend m5) (min 512 n) := by
    have hc := cnt_delR (r := rend m) (r' := fun i => if i = b then false else if b < i ∧ i ≤ p then rend m (i - 1) else rend m i)
      hbp (fun i => rfl) (min 512 n)
    have hc2 : cnt (rend m2) (min 512 n) = cnt (fun i => if i = b then false else if b < i ∧ i ≤ p then rend m (i - 1) else rend m i) (min 512 n) :=
      cnt_congr fun i hi => hr2 i (by omega)
    rw [← hc2] at hc
    -- the count of the shifted bits
    have hc' : cnt (rend m2) (min 512 n) + (if p < min 512 n ∧ p = re then 1 else 0) = pop1 m4 := by
      rw [hc, hp14]
      by_cases c1 : b < min 512 n ∧ min 512 n ≤ p
      · have hK : min 512 n = 512 := by omega
        rw [if_pos c1, if_neg (by omega), if_pos (by omega), r.pop1, hK, hcsucc]
        simp
      · rw [if_neg c1, if_neg (show ¬ (b < 512 ∧ 512 ≤ p) by omega), r.pop1, hrp]
        by_cases c2 : p < min 512 n
        · by_cases c3 : p = re
          · have := cnt_lt (rend m) c2 (by rw [c3]; exact R.rend)
            rw [if_pos c2, if_pos ⟨c2, c3⟩, decide_eq_true c3, Bool.toNat_true]; omega
          · simp [c3]
        · simp [c2]
    have hpm4 := pop1_lt m4
    cases hdv : d with
    | true =>
      have hrsre : rs = re := hdt.1 hdv
      have hpre : p = re := by omega
      have e5 : pop1 m5 = sub32 (pop1 m4) (if re < 512 then 1 else 0) := by
        rw [← hm5, hdv, if_neg (by simp)]
        simp only [subPop1]
        rw [pop1_setPop1 _ _ (sub32_lt _ _), b2n_eq]
      have ec : cnt (rend m5) (min 512 n) = cnt (rend m2) (min 512 n) := by
        apply cnt_congr; intro i hi
        rw [hr5 i (by omega), hdv]; simp
      rw [ec, e5]
      by_cases c : re < 512
      · rw [if_pos (by omega)] at hc'
        rw [if_pos c, sub32_small (by omega) hpm4]; omega
      · rw [if_neg (by omega)] at hc'
        rw [if_neg c, sub32_small (by omega) hpm4]; omega
    | false =>
      have hrsre := hdf.1 hdv
      have e5 : pop1 m5 = pop1 m4 := by
        rw [← hm5, hdv, if_pos rfl, pop1_setBit _ _ _ (by decide)]
      rw [e5]
      by_cases c0 : p = re
      · have h2f : rend m2 re = false := by
          rw [hr2 _ hrlt, if_neg (by omega), if_pos (by omega)]
          exact R.no_rend r (by omega) (by omega)
        have ec : cnt (rend m5) (min 512 n) = cnt (rend m2) (min 512 n) + if re < min 512 n then 1 else 0 := by
          split_ifs with c1
          · apply cnt_flip c1 h2f
            · rw [hr5 _ (by omega), hdv]; simp
            · intro i hi hne
              rw [hr5 _ (by omega), hdv]; simp [hne]
          · rw [Nat.add_zero]; apply cnt_congr; intro i hi
            rw [hr5 _ (by omega), hdv]
            have : ¬ i = re := by omega
            simp [this]
        rw [ec, ← hc']
        by_cases c1 : re < min 512 n
        · rw [if_pos (by omega), if_pos c1]
        · rw [if_neg (by omega), if_neg c1]
      · have h2t : rend m2 re = true := by
          rw [hr2 _ hrlt, if_neg (by omega), if_neg (by omega)]
          exact R.rend
        have ec : cnt (rend m5) (min 512 n) = cnt (rend m2) (min 512 n) := by
          apply cnt_congr; intro i hi
          rw [hr5 _ (by omega)]
          by_cases c1 : i = re
          · rw [c1, h2t]; simp
          · simp [c1]
        rw [ec, ← hc', if_neg (by omega)]; simp
  apply delOcc_rep hq
  · rw [hp05, r.pop0]
    exact (cnt_congr fun i hi => ho5 i (by omega)).symm
  · intro _
    rw [ho5 _ hq]
    exact (r.occ _ hq).2 ⟨p, y, hpn, hp, rfl⟩
  · intro M hMs hMo hMr hM1 hM0
    have hcase : ∀ i, i < n → lay i = none → rend m i = false ∧ ¬ (rs ≤ i ∧ i ≤ re) := by
      intro i hi hli
      refine ⟨rend_none r hi hli, ?_⟩
      rintro ⟨h1, h2⟩
      obtain ⟨z, hz, _⟩ := R.fill i h1 h2
      rw [hli] at hz; simp at hz
    apply del_rep I r R
    · intro i hi; rw [hMs i hi, hs5 i hi]
    · intro q hq'
      rw [hMo q hq', ho5 q hq', ← hd]
      simp
    · exact hM0
    · rw [hM1, hp15]
      exact (cnt_congr fun i _ => hMr i).symm
    · intro k hk hl
      rw [hMr, hr5 k hk, hr2 k hk]
      unfold layDR at hl
      by_cases c1 : k = b
      · rw [if_pos c1]
        have : ¬ (d = false ∧ k = re) := by
          rintro ⟨h0, h1⟩; have := hdf.1 h0; omega
        simp [this]
      · rw [if_neg c1] at hl ⊢
        by_cases c2 : b < k ∧ k ≤ p
        · rw [if_pos c2] at hl ⊢
          obtain ⟨g1, g2⟩ := hcase _ (by omega) hl
          rw [g1]
          have : ¬ (d = false ∧ k = re) := by
            rintro ⟨h0, h1⟩; have := hdf.1 h0; omega
          simp [this]
        · rw [if_neg c2] at hl ⊢
          obtain ⟨g1, g2⟩ := hcase _ hk hl
          rw [g1]
          have : ¬ (d = false ∧ k = re) := by
            rintro ⟨h0, h1⟩; have := hdf.1 h0; omega
          simp [this]
    · intro k z hk hz
      rw [hMr, hr5 k hk, hr2 k hk]
      have hkb : k ≠ b := by rintro rfl; rw [layDR_b] at hz; simp at hz
      rw [if_neg hkb]
      rw [Bool.eq_iff_iff]
      simp only [Bool.or_eq_true, decide_eq_true_iff]
      by_cases c2 : b < k ∧ k ≤ p
      · rw [if_pos c2, if_pos c2]
        constructor
        · rintro (h | ⟨h0, h1⟩)
          · exact Or.inl h
          · right
            exact ⟨by omega, by omega, hdf.1 h0⟩
        · rintro (h | ⟨h0, h1, h2⟩)
          · exact Or.inl h
          · right; exact ⟨hdf.2 h2, by omega⟩
      · rw [if_neg c2, if_neg c2]
        constructor
        · rintro (h | ⟨h0, h1⟩)
          · exact Or.inl h
          · left; rw [h1]; exact R.rend
        · rintro (h | ⟨h0, h1, h2⟩)
          · exact Or.inl h
          · exfalso; omega

end
end Verif
