import Verif.Proof.StoreDelete2
import Verif.Proof.Region

/-!
# DeleteRawFromInfixStore as a whole
-/

namespace Verif

/-! ## Two items covering the same key -/

theorem covers_nested {x y k : Nat} (hx0 : 0 < x) (hx : x < 2 ^ 64) (hy0 : 0 < y) (hy : y < 2 ^ 64)
    (cx : Covers x k) (cy : Covers y k) (hle : ile x y) : lb64 y ≤ lb64 x := by
  obtain ⟨a, t, rfl⟩ := odd_decomp hx0
  obtain ⟨b, u, rfl⟩ := odd_decomp hy0
  unfold Covers at cx cy
  unfold ile at hle
  rw [nolb64_odd hx, lb64_odd hx] at *
  rw [nolb64_odd hy, lb64_odd hy] at *
  rcases hle with h1 | ⟨_, h1⟩
  · by_contra hc
    have htu : t < u := by
      by_contra hcc
      exact hc (Nat.pow_le_pow_right (by decide) (by omega))
    obtain ⟨d, rfl⟩ : ∃ d, u = t + 1 + d := ⟨u - t - 1, by omega⟩
    have e1 : 2 * a * 2 ^ t = a * 2 ^ (t + 1) := by rw [pow_succ]; ring
    have e2 : 2 * b * 2 ^ (t + 1 + d) = (2 * b * 2 ^ d) * 2 ^ (t + 1) := by rw [pow_add]; ring
    have e3 : (2 * a + 1) * 2 ^ t + 2 ^ t = (a + 1) * 2 ^ (t + 1) := by rw [pow_succ]; ring
    rw [e1, e2] at h1
    rw [e3] at cx
    rw [e2] at cy
    have h2 : a < 2 * b * 2 ^ d := Nat.lt_of_mul_lt_mul_right h1
    have h3 : (a + 1) * 2 ^ (t + 1) ≤ (2 * b * 2 ^ d) * 2 ^ (t + 1) := Nat.mul_le_mul_right _ h2
    omega
  · exact h1

section
variable {m m' n s : Nat}

theorem out_subPop0 (h : Outside n s m m') {v : Nat} : Outside n s m (subPop0 m' v) := out_setPop0 h _

theorem out_resetBit1 (h : Outside n s m m') {q : Nat} (hq : q < 1024) : Outside n s m (resetBit m' 1 q) := by
  intro j hj
  rw [testBit_resetBit, h j hj]
  have : ¬ j = 64 * 1 + q := by omega
  simp [this]

theorem out_resetBit17 (h : Outside n s m m') {i : Nat} (hi : i < n) : Outside n s m (resetBit m' 17 i) := by
  intro j hj
  rw [testBit_resetBit, h j hj]
  have : ¬ j = 64 * 17 + i := by omega
  simp [this]

theorem out_delOcc (h : Outside n s m m') {q : Nat} (hq : q < 1024) {d : Bool} : Outside n s m (delOcc m' q d) := by
  unfold delOcc
  split_ifs
  · exact out_subPop0 (out_resetBit1 h hq)
  · exact h

theorem out_delLeft {p e re : Nat} {d : Bool} (hs : s ≤ 57) (hs0 : 0 < s) (hpe : p ≤ e) (he : e < n) (hre : re ≤ e) :
    Outside n s m (delLeft m n s p e re d) := by
  unfold delLeft
  dsimp only
  have h0 := outside_refl n s m
  have h1 : Outside n s m (if p ≤ 512 ∧ 512 < e + 1 then addPop1 m (getBit m 17 512) else m) := by
    split_ifs
    · exact out_addPop1 h0
    · exact h0
  have h2 := out_shiftSlotsLeft h1 (l := p + 1) (r := e + 1) (by omega) (by omega) (by omega)
  have h3 := out_shiftRunendsLeft h2 (l := p + 1) (r := e + 1) (by omega) (by omega) (by omega)
  generalize shiftRunendsLeft (shiftSlotsLeft _ n s (p + 1) (e + 1)) (p + 1) (e + 1) = m3 at *
  have h3' := out_setSlot (i := p) (v := 0) h3 hs hs0 (Nat.two_pow_pos s) (by omega)
  have h3'' := out_resetBit17 (i := p) h3' (by omega)
  generalize hm4 : (if p = e then resetBit (setSlot m3 n s p 0) 17 p else m3) = m4
  have h4 : Outside n s m m4 := by
    rw [← hm4]; split_ifs <;> assumption
  split_ifs
  · exact out_setBit17 h4 (by omega)
  · exact out_subPop1 h4

theorem out_delRight {b p re : Nat} {d : Bool} (hs : s ≤ 57) (hs0 : 0 < s) (hbp : b ≤ p) (hp : p < n) (hre : re < n) :
    Outside n s m (delRight m n s b p re d) := by
  unfold delRight
  dsimp only
  have h0 := outside_refl n s m
  have h1 := out_shiftSlotsRight h0 (l := b) (r := p) hbp hp
  have h2 := out_shiftRunendsRight h1 (l := b) (r := p) hbp hp
  generalize shiftRunendsRight (shiftSlotsRight m n s b p) b p = m2 at *
  have h3 := out_setSlot (i := p) (v := 0) h2 hs hs0 (Nat.two_pow_pos s) hp
  have h3' := out_resetBit17 (i := re) h3 hre
  generalize hm3 : (if p = b then if d = true then resetBit (setSlot m2 n s p 0) 17 re else setSlot m2 n s p 0 else m2) = m3
  have h4 : Outside n s m m3 := by
    rw [← hm3]; split_ifs
    · exact h3'
    · exact h3
    · exact h2
  split_ifs
  · exact out_setBit17 (out_subPop1 h4) hre
  · exact out_setBit17 h4 hre
  · exact out_subPop1 (out_subPop1 h4)
  · exact out_subPop1 h4

end

theorem decElemCount_fields {st : Store} (h : 0 < st.elemCount) (hs : st.status < 2 ^ 32) :
    st.decElemCount.elemCount = st.elemCount - 1 ∧ st.decElemCount.sizeGrade = st.sizeGrade ∧
    st.decElemCount.status < 2 ^ 32 ∧ st.decElemCount.invalidBits = st.invalidBits ∧
    st.decElemCount.isPartial = st.isPartial := by
  have e : st.decElemCount.status = st.status - 1 := by
    rw [elemCount_eq] at h
    unfold Store.decElemCount sub32
    dsimp only
    omega
  simp only [elemCount_eq, sizeGrade_eq, invalidBits_eq, isPartial_eq, e] at *
  refine ⟨by omega, by omega, by omega, by omega, ?_⟩
  congr 1
  rw [show (st.status - 1) / 2 ^ 31 = st.status / 2 ^ 31 by omega]

/-! ## The invariant without home slots -/

/-- Right shift keeping home slots. -/
theorem layWF_layDR {n s T b p y : Nat} {mp : Nat → Nat} {lay : Nat → Option Nat} (h : LayWF n s T mp lay)
    (hbp : b ≤ p) (hpn : p < n) (hp : lay p = some y)
    (hcut : Cut n s lay b) (hfill : ∀ k, b ≤ k → k ≤ p → lay k ≠ none)
    (hlo : ∀ i x, i < b → lay i = some x → mp (x / 2 ^ s) ≤ i)
    (hhi : ∀ i x, b ≤ i → i < n → lay i = some x → b < mp (x / 2 ^ s)) :
    LayWF n s T mp (layDR lay b p) := by
  have I := ins_layDR hbp hpn hp
  refine ⟨I.item_rev h, I.sorted_rev h, contig_layDR h hcut (fun k k1 k2 => hfill k (by omega) k2), ?_, ?_⟩
  · intro i k x hi hx hm hk hnone
    unfold layDR at hx hnone
    by_cases i1 : i = b
    · rw [if_pos i1] at hx; simp at hx
    rw [if_neg i1] at hx
    by_cases i2 : b < i ∧ i ≤ p
    · rw [if_pos i2] at hx
      have hb := hhi (i - 1) x (by omega) (by omega) hx
      rw [if_neg (by omega), if_pos (by omega)] at hnone
      exact hfill (k - 1) (by omega) (by omega) hnone
    · rw [if_neg i2] at hx
      rcases Nat.lt_or_ge i b with i3 | i3
      · rw [if_neg (by omega), if_neg (by omega)] at hnone
        exact h.left i k x hi hx hm hk hnone
      · have hb := hhi i x i3 hi hx
        rw [if_neg (by omega)] at hnone
        by_cases k1 : b < k ∧ k ≤ p
        · rw [if_pos k1] at hnone
          exact hfill (k - 1) (by omega) (by omega) hnone
        · rw [if_neg k1] at hnone
          exact h.left i k x hi hx hm hk hnone
  · intro i k x hi hx hm hk hkn hnone
    unfold layDR at hx hnone
    by_cases i1 : i = b
    · rw [if_pos i1] at hx; simp at hx
    rw [if_neg i1] at hx
    by_cases i2 : b < i ∧ i ≤ p
    · rw [if_pos i2] at hx
      rw [if_neg (by omega)] at hnone
      by_cases k1 : b < k ∧ k ≤ p
      · rw [if_pos k1] at hnone
        exact hfill (k - 1) (by omega) (by omega) hnone
      · rw [if_neg k1] at hnone
        exact h.right (i - 1) k x (by omega) hx (by omega) (by omega) hkn hnone
    · rw [if_neg i2] at hx
      rcases Nat.lt_or_ge i b with i3 | i3
      · have := hlo i x i3 hx; omega
      · rw [if_neg (by omega), if_neg (by omega)] at hnone
        exact h.right i k x hi hx hm hk hkn hnone

/-- Some item lies left of an empty slot. -/
def Spread (n : Nat) (lay : Nat → Option Nat) : Prop := ∃ i k, i < k ∧ k < n ∧ lay i ≠ none ∧ lay k = none

/-- The result of removing one item: `y` is the longest item covering `key`. -/
structure Removed (good : Prop) (n s T : Nat) (mp : Nat → Nat) (lay : Nat → Option Nat) (key m m' : Nat) : Prop where
  out : Outside n s m m'
  ex : ∃ y lay' A B, StoredIn n lay y ∧ Covers y key ∧
    (∀ z, StoredIn n lay z → Covers z key → lb64 y ≤ lb64 z) ∧
    content n lay = A ++ y :: B ∧ content n lay' = A ++ B ∧ Rep m' n s lay' ∧ (∃ mp', LayWF n s T mp' lay') ∧
    (Spread n lay → good → LayWF n s T mp lay')

section
variable {c : Cfg} {T : Nat} {st : Store} {lay : Nat → Option Nat}

/-- The block update at the end of `deletePlace`. -/
def delBody (m n s q rs re : Nat) (matchPos shiftEnd shiftStart : Int) : Nat :=
  delOcc (if shiftStart = -1 then
      let m1 := if 0 ≤ matchPos ∧ matchPos ≤ 512 ∧ 512 < shiftEnd + 1 then
          addPop1 m (getBit m 17 512) else m
      let m2 := shiftSlotsLeft m1 n s (matchPos + 1).toNat (shiftEnd + 1).toNat
      let m3 := shiftRunendsLeft m2 (matchPos + 1).toNat (shiftEnd + 1).toNat
      let m4 := if matchPos = shiftEnd then
          resetBit (setSlot m3 n s matchPos.toNat 0) 17 matchPos.toNat else m3
      if (rs == re) = false then setBit m4 17 (re - 1)
      else subPop1 m4 (b2n (re ≤ 512))
    else
      let m1 := shiftSlotsRight m n s shiftStart.toNat matchPos.toNat
      let m2 := shiftRunendsRight m1 shiftStart.toNat matchPos.toNat
      let m3 := if matchPos = shiftStart then
          let m3' := setSlot m2 n s matchPos.toNat 0
          if (rs == re) then resetBit m3' 17 re else m3'
        else m2
      let m4 := if shiftStart < 512 ∧ (512 ≤ matchPos ∨ matchPos < 0) then
          subPop1 m3 (getBit m3 17 512) else m3
      if (rs == re) = false then setBit m4 17 re
      else subPop1 m4 (b2n (re < 512))) q (rs == re)

theorem delBody_left (m n s q rs re p e : Nat) : delBody m n s q rs re p e (-1) =
    delOcc (delLeft m n s p e re (decide (rs = re))) q (decide (rs = re)) := by
  have hbeq : (rs == re) = decide (rs = re) := by by_cases h : rs = re <;> simp [h]
  have e1 : (0 ≤ (p : Int) ∧ (p : Int) ≤ 512 ∧ 512 < (e : Int) + 1) = (p ≤ 512 ∧ 512 < e + 1) := by
    apply propext; omega
  have e2 : ((p : Int) + 1).toNat = p + 1 := by omega
  have e3 : ((e : Int) + 1).toNat = e + 1 := by omega
  have e4 : ((p : Int) = (e : Int)) = (p = e) := by apply propext; omega
  unfold delBody delLeft
  rw [if_pos rfl, hbeq]
  simp only [e1, e2, e3, e4, Int.toNat_natCast]

theorem delBody_right (m n s q rs re p b : Nat) (E : Int) : delBody m n s q rs re p E b =
    delOcc (delRight m n s b p re (decide (rs = re))) q (decide (rs = re)) := by
  have hbeq : (rs == re) = decide (rs = re) := by by_cases h : rs = re <;> simp [h]
  have e1 : ((b : Int) < 512 ∧ (512 ≤ (p : Int) ∨ (p : Int) < 0)) = (b < 512 ∧ 512 ≤ p) := by
    apply propext; omega
  have e4 : ((p : Int) = (b : Int)) = (p = b) := by apply propext; omega
  unfold delBody delRight
  rw [if_neg (by omega), hbeq]
  simp only [e1, e4, Int.toNat_natCast]

/-- The start of a right shift chosen by `deletePlace`, −1 for a left shift. -/
def delStart (c : Cfg) (m n s g isc re q : Nat) (found : Bool) : Int :=
  if found then -1
  else
    let res := deleteLeftLoop c m n s g isc (n + 1) (previousRunend m re) re q (-1)
    if res.1 < 0 then
      let mapped := getMappedPos c res.2.1.toNat g isc
      let fe := findEmptySlotBefore m n s re
      if 0 ≤ fe ∧ fe < (mapped : Int) then fe else res.2.2
    else res.2.2

theorem deletePlace_eq (c : Cfg) (st : Store) (key T : Nat) : deletePlace c st key T =
    (let n := c.size st.sizeGrade
     let s := c.infixSize
     let q := key >>> s
     let isc := implicitScalars (T - 512)
     let rank := rankOccupieds st.mem q
     let re := selectRunends st.mem n rank
     let rs := runStart st.mem n s rank re
     let l := deleteSearch st.mem n s key (re + 3) ((rs : Int) - 1) ((re : Int) + 1)
     let res := deleteRightLoop c st.mem n s st.sizeGrade isc (n + 1) re q re (-1)
     Store.decElemCount ⟨st.status, delBody st.mem n s q rs re
       (matchDown st.mem n s (key &&& bitmask s) rs (l + 1 - rs).toNat)
       (if res.2.2 = -1 then (res.2.1 : Int) else res.2.2)
       (delStart c st.mem n s st.sizeGrade isc re q res.1)⟩) := by
  rfl

/-- The block after a deletion, as computed by `deletePlace`. -/
theorem deletePlace_mem (hc : c.WF) {mp : Nat → Nat} {key : Nat}
    (wf : LayWF (c.size st.sizeGrade) c.infixSize T mp lay)
    (rep : Rep st.mem (c.size st.sizeGrade) c.infixSize lay)
    (hmono : (∀ q, getMappedPos c q st.sizeGrade (implicitScalars (T - 512)) = mp q) → ∀ a b, a ≤ b → b < T → mp a ≤ mp b)
    (hT : T ≤ 1024) (hodd : key % 2 = 1)
    (hk : ∃ x, StoredIn (c.size st.sizeGrade) lay x ∧ Covers x key) :
    ∃ m', deletePlace c st key T = Store.decElemCount ⟨st.status, m'⟩ ∧
      Removed (∀ q, getMappedPos c q st.sizeGrade (implicitScalars (T - 512)) = mp q)
        (c.size st.sizeGrade) c.infixSize T mp lay key st.mem m' := by
  have hs1 := hc.s1
  have hs2 := hc.s2
  refine ⟨_, deletePlace_eq c st key T, ?_⟩
  rw [Nat.shiftRight_eq_div_pow, and_bitmask _ _ (show c.infixSize ≤ 64 by omega)]
  generalize c.size st.sizeGrade = n at *
  generalize c.infixSize = s at *
  generalize st.sizeGrade = g at *
  generalize st.mem = m at *
  generalize implicitScalars (T - 512) = isc at *
  obtain ⟨x, ⟨i, hi, hx⟩, hcov⟩ := hk
  obtain ⟨x0, x1⟩ := wf.item i x hi hx
  have hxq := ((covers_iff x0 (item_lt hs2 hT x1)).1 hcov).1
  have hq : key / 2 ^ s < 1024 := by omega
  have ho : occ m (key / 2 ^ s) = true := (rep.occ _ hq).2 ⟨i, x, hi, hx, hxq⟩
  have R := runIs_of_occ rep wf hs2 hT hq ho
  generalize selectRunends m n (rankOccupieds m (key / 2 ^ s)) = re at *
  generalize runStart m n s (rankOccupieds m (key / 2 ^ s)) re = rs at *
  have hRle := R.le
  have hRlt := R.lt
  rcases matchPos_spec rep wf hs1 hs2 hT hq hodd R (fuel := re + 3) (by omega) with ⟨_, hno⟩ | ⟨p, y, hpm, hp1, hp2, hy, hyc, hyq, hmax⟩
  · exact absurd hcov (hno i x hi hx)
  rw [hpm]
  have hlong : ∀ z, StoredIn n lay z → Covers z key → lb64 y ≤ lb64 z := by
    rintro z ⟨j, hj, hz⟩ hzc
    have hjp := hmax j z hj hz hzc
    obtain ⟨z0, z1⟩ := wf.item j z hj hz
    obtain ⟨y0, y1⟩ := wf.item p y (by omega) hy
    have hpos : ∀ w, w % 2 ^ s ≠ 0 → 0 < w := by
      intro w hw; rcases Nat.eq_zero_or_pos w with h | h
      · subst h; simp at hw
      · exact h
    refine covers_nested (hpos z z0) (item_lt hs2 hT z1) (hpos y y0) (item_lt hs2 hT y1) hzc hyc ?_
    rcases Nat.eq_or_lt_of_le hjp with h1 | h1
    · subst h1; rw [hy] at hz; injection hz with hz; subst hz; exact ile_refl _
    · exact wf.sorted j p z y h1 (by omega) hz hy
  have Gre : GoodEnd m n lay re re := ⟨Nat.le_refl _, hRlt, R.rend, fun k k1 k2 => by
    obtain ⟨z, hz, _⟩ := R.fill k (by omega) k2; simp [hz]⟩
  obtain ⟨yr, hyr, hyrq⟩ := R.fill re hRle (Nat.le_refl _)
  have RW := rightLoop_weak (c := c) (g := g) (isc := isc) rep wf hs2 hT (re := re) (n + 1) re (key / 2 ^ s) re (-1)
    (fun _ => Gre) Gre (Or.inl rfl)
  have RS := fun hmp => rightLoop_strong (c := c) (g := g) (isc := isc) rep wf hs2 hT (re := re) hmp (hmono hmp) (n + 1) re (key / 2 ^ s) re (-1)
    (by omega) (fun _ => ⟨Gre, yr, hyr, by omega⟩) (by omega) (fun _ i x i1 i2 => by omega) (fun e he => by omega)
  generalize deleteRightLoop c m n s g isc (n + 1) re (key / 2 ^ s) re (-1) = res at RW RS ⊢
  obtain ⟨found, prev, se⟩ := res
  dsimp only at RW RS ⊢
  obtain ⟨e, he, Ge, heok⟩ : ∃ e : Nat, (if se = -1 then (prev : Int) else se) = e ∧ GoodEnd m n lay re e ∧
      ((∀ q, getMappedPos c q g isc = mp q) → EndOK n s mp lay re e) := by
    rcases RW.2 with h1 | ⟨e, h1, h2⟩
    · exact ⟨prev, by rw [if_pos h1], RW.1, fun hm => (RS hm).2.2.1 h1⟩
    · exact ⟨e, by rw [if_neg (by omega)]; exact h1, h2, fun hm => (RS hm).2.2.2 e h1⟩
  rw [he]
  have hGle := Ge.le
  have hGlt := Ge.lt
  have hpe : p ≤ e := by omega
  have hfille : ∀ k, p ≤ k → k ≤ e → lay k ≠ none := by
    intro k k1 k2
    rcases Nat.lt_or_ge k re with k3 | k3
    · obtain ⟨z, hz, _⟩ := R.fill k (by omega) (by omega); simp [hz]
    · exact Ge.fill k k3 k2
  have hcute := rend_cut rep wf hs2 hT hGlt Ge.rend
  -- left shift
  have left : (Spread n lay → (∀ q, getMappedPos c q g isc = mp q) → ∀ i x, i ≤ re → lay i = some x → mp (x / 2 ^ s) ≤ i) →
      Removed (∀ q, getMappedPos c q g isc = mp q) n s T mp lay key m (delOcc (delLeft m n s p e re (decide (rs = re))) (key / 2 ^ s) (decide (rs = re))) := by
    intro hlo
    obtain ⟨A, B, hA, hB⟩ := content_layDL hpe hGlt hy
    refine ⟨out_delOcc (out_delLeft (by omega) hs1 hpe hGlt hGle) hq, y, layDL lay p e, A, B, ⟨p, by omega, hy⟩, hyc, hlong, hA, hB, ?_,
      layWF_layDL_weak wf hpe hGlt hy hcute hfille, ?_⟩
    · have := left_rep rep hs1 hs2 hy (by omega) (by omega) (by rw [hyq]; exact R) hGle hGlt Ge.rend
      rwa [hyq] at this
    · intro hsp hmp'
      have hlo := hlo hsp hmp'
      have hE := heok hmp'
      refine layWF_layDL wf hpe hGlt hy hcute hfille (fun i x i1 hx => hlo i x (by omega) hx) ?_ hE.hi
      intro i x i1 i2 hx
      rcases Nat.lt_or_ge re i with i3 | i3
      · exact hE.mid i x i3 i2 hx
      · obtain ⟨z, hz, hzq⟩ := R.fill i (by omega) i3
        rw [hx] at hz; injection hz with hz; subst hz
        obtain ⟨w, hw, hwq⟩ := R.fill rs (Nat.le_refl _) hRle
        have := hlo rs w hRle hw
        rw [hzq]; rw [hwq] at this; omega
  -- right shift
  have right : ∀ b, GoodStart n s lay rs re b → (Spread n lay → (∀ q, getMappedPos c q g isc = mp q) →
        lay b ≠ none ∧ (∀ i x, i < b → lay i = some x → mp (x / 2 ^ s) ≤ i) ∧
        ∀ i x, b ≤ i → i < n → lay i = some x → b < mp (x / 2 ^ s)) →
      Removed (∀ q, getMappedPos c q g isc = mp q) n s T mp lay key m (delOcc (delRight m n s b p re (decide (rs = re))) (key / 2 ^ s) (decide (rs = re))) := by
    intro b Gb hlo
    have hb := Gb.le
    have hbp : b ≤ p := by omega
    have hpn : p < n := by omega
    obtain ⟨A, B, hA, hB⟩ := content_layDR hbp hpn hy
    refine ⟨out_delOcc (out_delRight (by omega) hs1 hbp hpn hRlt) hq, y, layDR lay b p, A, B, ⟨p, by omega, hy⟩, hyc, hlong, hA, hB, ?_,
      layWF_layDR_weak wf hbp hpn hy Gb.cut (fun k k1 k2 => Gb.fill k k1 (by omega)), ?_⟩
    · have := right_rep rep hs1 hs2 hy (by omega) (by omega) (by rw [hyq]; exact R) hb
      rwa [hyq] at this
    · intro hsp hmp'
      obtain ⟨l1, l2, l3⟩ := hlo hsp hmp'
      refine layWF_layDR wf hbp hpn hy Gb.cut ?_ l2 l3
      intro k k1 k2
      rcases Nat.eq_or_lt_of_le k1 with k3 | k3
      · rw [← k3]; exact l1
      · exact Gb.fill k k3 (by omega)
  -- the code's branches
  have codeL : ∀ ss : Int, ss = -1 →
      (Spread n lay → (∀ q, getMappedPos c q g isc = mp q) → ∀ i x, i ≤ re → lay i = some x → mp (x / 2 ^ s) ≤ i) →
      Removed (∀ q, getMappedPos c q g isc = mp q) n s T mp lay key m (delBody m n s (key / 2 ^ s) rs re p e ss) := by
    intro ss hss hlo
    rw [hss, delBody_left]
    exact left hlo
  have codeR : ∀ b : Nat, GoodStart n s lay rs re b → (Spread n lay → (∀ q, getMappedPos c q g isc = mp q) →
        lay b ≠ none ∧ (∀ i x, i < b → lay i = some x → mp (x / 2 ^ s) ≤ i) ∧
        ∀ i x, b ≤ i → i < n → lay i = some x → b < mp (x / 2 ^ s)) → ∀ ss : Int, ss = (b : Int) →
      Removed (∀ q, getMappedPos c q g isc = mp q) n s T mp lay key m (delBody m n s (key / 2 ^ s) rs re p e ss) := by
    intro b Gb hlo ss hss
    rw [hss, delBody_right]
    exact right b Gb hlo
  clear left right
  unfold delStart
  cases found with
  | true =>
    apply codeL _ (by simp)
    intro hsp hmp' i x i1 hx
    obtain ⟨k, k1, k2, k3⟩ := (RS hmp').1 rfl
    by_contra hcc
    exact wf.right i k x (by omega) hx (by omega) (by omega) k2 k3
  | false =>
    simp only [Bool.false_eq_true, if_false]
    have LW := leftLoop_weak (c := c) (g := g) (isc := isc) rep wf hs2 hT R (n + 1) re (key / 2 ^ s : Nat) (-1)
      (Nat.le_refl _) R.rend (fun k k1 k2 => by rw [show k = re by omega, hyr]; simp) (Or.inl rfl)
    have LS : Spread n lay → (∀ q, getMappedPos c q g isc = mp q) →
        0 ≤ (deleteLeftLoop c m n s g isc (n + 1) (previousRunend m re) re ((key / 2 ^ s : Nat) : Int) (-1)).1 ∧
        ((deleteLeftLoop c m n s g isc (n + 1) (previousRunend m re) re ((key / 2 ^ s : Nat) : Int) (-1)).2.2 = -1 →
          ∀ i x, i ≤ re → lay i = some x → mp (x / 2 ^ s) ≤ i) ∧
        (∀ b : Nat, (deleteLeftLoop c m n s g isc (n + 1) (previousRunend m re) re ((key / 2 ^ s : Nat) : Int) (-1)).2.2 = b →
          (∀ i x, i < b → lay i = some x → mp (x / 2 ^ s) ≤ i) ∧
          ∀ i x, b ≤ i → i < n → lay i = some x → b < mp (x / 2 ^ s)) := by
      rintro ⟨i0, k0, hik, hkn, hi0, hk0⟩ hmp'
      obtain ⟨x0, hx0⟩ := Option.ne_none_iff_exists'.1 hi0
      have hlast := (RS hmp').2.1 rfl
      have hk0re : k0 < re := by
        by_contra hcc
        exact RW.1.fill k0 (by omega) (by omega) hk0
      exact leftLoop_strong (c := c) (g := g) (isc := isc) rep wf hs2 hT hmp' (hmono hmp') hik hx0 hk0 hRlt (n + 1) re _ (-1)
        (by omega) (Nat.le_refl _) R.rend hk0re (fun y' hy' => by
          rw [hyr] at hy'; injection hy' with hy'; subst hy'; rw [hyrq])
        (fun k k1 k2 => by rw [show k = re by omega, hyr]; simp) (fun _ i x i1 i2 => by omega) (fun b hb => by omega)
    generalize deleteLeftLoop c m n s g isc (n + 1) (previousRunend m re) re ((key / 2 ^ s : Nat) : Int) (-1) = res at LW LS ⊢
    obtain ⟨cr, co, ss⟩ := res
    dsimp only at LW LS ⊢
    obtain ⟨b1, b2, b3, b4⟩ := findEmptySlotBefore_spec rep wf hs2 hT hRlt (by simp [hyr])
    by_cases hcr : cr < 0
    · rw [if_pos hcr]
      by_cases hfe : 0 ≤ findEmptySlotBefore m n s re ∧
          findEmptySlotBefore m n s re < ((getMappedPos c co.toNat g isc : Nat) : Int)
      · rw [if_pos hfe]
        refine codeR (findEmptySlotBefore m n s re).toNat (hole_start wf R (b4 hfe.1) (by omega) ?_).1 ?_ _ (by omega)
        · intro k k1 k2
          rcases Nat.eq_or_lt_of_le k2 with k3 | k3
          · rw [k3, hyr]; simp
          · exact b3 k (by omega) k3
        · intro hsp hmp'
          have := (LS hsp hmp').1; omega
      · rw [if_neg hfe]
        rcases LW with h1 | ⟨b, h1, h2, _⟩
        · exact codeL _ h1 (fun hsp hmp' => (LS hsp hmp').2.1 h1)
        · refine codeR b h2 ?_ _ h1
          intro hsp hmp'
          have := (LS hsp hmp').1; omega
    · rw [if_neg hcr]
      rcases LW with h1 | ⟨b, h1, h2, h3⟩
      · exact codeL _ h1 (fun hsp hmp' => (LS hsp hmp').2.1 h1)
      · exact codeR b h2 (fun hsp hmp' => ⟨h3, (LS hsp hmp').2.2 b h1⟩) _ h1

end

end Verif
