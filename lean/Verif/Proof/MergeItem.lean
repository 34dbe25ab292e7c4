import Verif.Model.Delete
import Verif.Proof.Shrink
import Verif.Proof.Plan

/-!
# One item in a merge of two regions
-/

namespace Verif

theorem shr64_eq {a s : Nat} (hs : s < 64) : shr64 a s = a / 2 ^ s := by
  rw [shr64, Nat.mod_eq_of_lt hs, Nat.shiftRight_eq_div_pow]

theorem pow_split {a b c : Nat} (h : a = b + c) : 2 ^ a = 2 ^ b * 2 ^ c := by rw [h, pow_add]

theorem or_shift {a b k : Nat} (h : b < 2 ^ k) : a * 2 ^ k ||| b = a * 2 ^ k + b := by
  rw [Nat.mul_comm, Nat.two_pow_add_eq_or_of_lt h]

/-- The last lines of both loops, for a high part `H` of `wH` bits and a low part `(2 b + 1) 2 ^ t` of `w` bits. -/
theorem tail_spec {new w wH H b t cnt V1 δ : Nat} (hV : (2 * b + 1) * 2 ^ t < 2 ^ w) (hw : w < 64)
    (hn : 1 ≤ new) (hn2 : new ≤ 64) (h1 : 1 ≤ wH) (hδ : δ + new = wH + w) (hcnt : cnt = min wH new)
    (hV1 : V1 = if w + 1 < new then (2 * b + 1) * 2 ^ t * 2 ^ (new - (w + 1)) else shItem (w + 1 - new) ((2 * b + 1) * 2 ^ t))
    (hVn : V1 < 2 ^ (new - 1)) :
    recoverTail new cnt (H / 2 ^ (wH - cnt) * 2 ^ (new - cnt)) V1 =
      (2 * ((b + H * 2 ^ (w - 1 - t)) / 2 ^ (δ - t)) + 1) * 2 ^ (t - δ) := by
  have hV64 : (2 * b + 1) * 2 ^ t < 2 ^ 64 := Nat.lt_trans hV (Nat.pow_lt_pow_right (by decide) hw)
  have htw : t < w := by
    by_contra hcon
    have : 2 ^ w ≤ 2 ^ t := Nat.pow_le_pow_right (by decide) (by omega)
    have : 1 * 2 ^ t ≤ (2 * b + 1) * 2 ^ t := Nat.mul_le_mul_right _ (by omega)
    omega
  have hbw : b < 2 ^ (w - 1 - t) := by
    by_contra hcon
    have e : 2 ^ w = 2 * 2 ^ (w - 1 - t) * 2 ^ t := by
      rw [← pow_succ', ← pow_add]; congr 1; omega
    have : 2 * 2 ^ (w - 1 - t) * 2 ^ t ≤ (2 * b + 1) * 2 ^ t := Nat.mul_le_mul_right _ (by omega)
    omega
  unfold recoverTail
  by_cases hc : wH < new
  · obtain rfl : cnt = wH := by omega
    rw [if_pos hc, Nat.sub_self, pow_zero, Nat.div_one]
    have hV164 : V1 < 2 ^ 64 := Nat.lt_of_lt_of_le hVn (Nat.pow_le_pow_right (by decide) (by omega))
    have key : shr64 V1 (cnt - 1) ||| (if lowbitPos V1 < cnt - 1 then 1 else 0) =
        (2 * (b / 2 ^ (δ - t)) + 1) * 2 ^ (t - δ) := by
      have sh : shr64 V1 (cnt - 1) ||| (if lowbitPos V1 < cnt - 1 then 1 else 0) = shItem (cnt - 1) V1 ∧
          shItem (cnt - 1) V1 = (2 * (b / 2 ^ (δ - t)) + 1) * 2 ^ (t - δ) := by
        split_ifs at hV1 with hnw
        · rw [Nat.mul_assoc, ← pow_add] at hV1
          subst hV1
          refine ⟨?_, ?_⟩
          · unfold shItem
            rw [lowbitPos_odd hV164, tz_odd hV164, shr64, Nat.mod_eq_of_lt (by omega)]
          · rw [shItem_odd _ hV164]
            congr 2
            · congr 3; omega
            · omega
        · rw [shItem_odd _ hV64] at hV1
          subst hV1
          refine ⟨?_, ?_⟩
          · unfold shItem
            rw [lowbitPos_odd hV164, tz_odd hV164, shr64, Nat.mod_eq_of_lt (by omega)]
          · rw [shItem_odd _ hV164, Nat.div_div_eq_div_mul, ← pow_add]
            congr 2
            · congr 3; omega
            · omega
      rw [sh.1, sh.2]
    rw [Nat.or_assoc, key]
    have hlt : (2 * (b / 2 ^ (δ - t)) + 1) * 2 ^ (t - δ) < 2 ^ (new - cnt) := by
      rw [← key]
      apply Nat.or_lt_two_pow
      · rw [shr64_eq (by omega), Nat.div_lt_iff_lt_mul (Nat.two_pow_pos _), ← pow_add]
        rw [show new - cnt + (cnt - 1) = new - 1 by omega]; exact hVn
      · have : 2 ^ 1 ≤ 2 ^ (new - cnt) := Nat.pow_le_pow_right (by decide) (by omega)
        split_ifs <;> omega
    rw [or_shift hlt]
    by_cases hdt : δ ≤ t
    · rw [show δ - t = 0 by omega, pow_zero, Nat.div_one, Nat.div_one]
      have e : 2 ^ (new - cnt) = 2 * 2 ^ (w - 1 - t) * 2 ^ (t - δ) := by
        rw [← pow_succ', ← pow_add]; congr 1; omega
      rw [e]; ring
    · rw [show t - δ = 0 by omega, pow_zero, Nat.mul_one, Nat.mul_one]
      have e : H * 2 ^ (w - 1 - t) = H * 2 ^ (w - 1 - δ) * 2 ^ (δ - t) := by
        rw [Nat.mul_assoc, ← pow_add]; congr 2; omega
      have e2 : 2 ^ (new - cnt) = 2 * 2 ^ (w - 1 - δ) := by rw [← pow_succ']; congr 1; omega
      rw [e, Nat.add_mul_div_right _ _ (Nat.two_pow_pos _), e2]
      ring
  · obtain rfl : cnt = new := by omega
    rw [if_neg (by omega), Nat.sub_self, pow_zero, Nat.mul_one, or_one', Nat.div_div_eq_div_mul, ← pow_succ,
      show t - δ = 0 by omega, pow_zero, Nat.mul_one]
    congr 2
    rw [show δ - t = (w - 1 - t) + (wH - cnt + 1) by omega, pow_add 2 (w - 1 - t), ← Nat.div_div_eq_div_mul,
      Nat.add_mul_div_right _ _ (Nat.two_pow_pos _), Nat.div_eq_of_lt hbw, Nat.zero_add]

section
variable {mf : MergeFrame} {s x v b t : Nat}

/-- First lines of both loops. -/
theorem rescale_spec (hs1 : 1 ≤ s) (hs : s ≤ 46) (ho : mf.oldImplicitSize = 10 ∨ mf.oldImplicitSize = 11)
    (hi : mf.implicitSize = 10 ∨ mf.implicitSize = 11) (hv : x + mf.oldLeftImplicit * 2 ^ s = v)
    (hlt : v < 2 ^ (mf.oldImplicitSize + s)) (hV : v % 2 ^ (mf.oldImplicitSize - 1 + s) = (2 * b + 1) * 2 ^ t) :
    (mf.rescale s x).1 = v / 2 ^ (mf.oldImplicitSize - 1 + s) ∧ v / 2 ^ (mf.oldImplicitSize - 1 + s) ≤ 1 ∧
    ((mf.rescale s x).2 = if mf.oldImplicitSize - 1 + s + 1 < mf.implicitSize + s then
        (2 * b + 1) * 2 ^ t * 2 ^ (mf.implicitSize + s - (mf.oldImplicitSize - 1 + s + 1))
      else shItem (mf.oldImplicitSize - 1 + s + 1 - (mf.implicitSize + s)) ((2 * b + 1) * 2 ^ t)) ∧
    (mf.rescale s x).2 < 2 ^ (mf.implicitSize + s - 1) := by
  have hw : (2 * b + 1) * 2 ^ t < 2 ^ (mf.oldImplicitSize - 1 + s) := by rw [← hV]; exact Nat.mod_lt _ (Nat.two_pow_pos _)
  have hle : 2 ^ (mf.oldImplicitSize + s) ≤ 2 ^ 57 := Nat.pow_le_pow_right (by decide) (by omega)
  have hle' : 2 ^ (mf.oldImplicitSize - 1 + s) ≤ 2 ^ 56 := Nat.pow_le_pow_right (by decide) (by omega)
  have hadd : add64 x (shl64 mf.oldLeftImplicit s) = v := by
    rw [shl64_eq (by omega) (by omega), add64, hv, Nat.mod_eq_of_lt (by omega)]
  have h64 : (2 * b + 1) * 2 ^ t < 2 ^ 64 := by omega
  unfold MergeFrame.rescale
  dsimp only
  rw [hadd, show mf.oldImplicitSize + s - 1 = mf.oldImplicitSize - 1 + s by omega, shr64_eq (by omega),
    and_bitmask _ _ (by omega), hV]
  refine ⟨rfl, ?_, ?_⟩
  · have : v / 2 ^ (mf.oldImplicitSize - 1 + s) < 2 := by
      rw [Nat.div_lt_iff_lt_mul (Nat.two_pow_pos _), ← pow_succ']
      rw [show mf.oldImplicitSize - 1 + s + 1 = mf.oldImplicitSize + s by omega]; exact hlt
    omega
  · by_cases hc : mf.implicitSize + s > mf.oldImplicitSize + s
    · rw [if_pos hc, if_pos (by omega)]
      have e1 : mf.implicitSize + s - (mf.oldImplicitSize + s) = 1 := by omega
      have e2 : mf.implicitSize + s - (mf.oldImplicitSize - 1 + s + 1) = 1 := by omega
      rw [e1, e2, shl64_eq (by omega) (by omega)]
      refine ⟨rfl, ?_⟩
      rw [show mf.implicitSize + s - 1 = mf.oldImplicitSize - 1 + s + 1 by omega, pow_succ 2 (_ + s)]
      omega
    · rw [if_neg hc, if_neg (by omega)]
      rw [show mf.oldImplicitSize - 1 + s + 1 - (mf.implicitSize + s) = mf.oldImplicitSize + s - (mf.implicitSize + s) by omega]
      have hd : mf.oldImplicitSize + s - (mf.implicitSize + s) = 0 ∨ mf.oldImplicitSize + s - (mf.implicitSize + s) = 1 := by omega
      have hself : ∀ y : Nat, y ||| (y &&& 1) = y := fun y => by
        apply Nat.eq_of_testBit_eq; intro i; simp only [Nat.testBit_or, Nat.testBit_and]; cases y.testBit i <;> rfl
      rcases hd with hd | hd
      · rw [hd, shItem_odd _ h64, shr64_eq (by omega), pow_zero, Nat.div_one, hself]
        refine ⟨by simp, ?_⟩
        rw [show mf.implicitSize + s - 1 = mf.oldImplicitSize - 1 + s by omega]; exact hw
      · rw [hd]
        have e : shr64 ((2 * b + 1) * 2 ^ t) 1 ||| ((2 * b + 1) * 2 ^ t &&& 1) = shItem 1 ((2 * b + 1) * 2 ^ t) := by
          unfold shItem
          rw [tz_odd h64, shr64, Nat.mod_eq_of_lt (by decide)]
          congr 1
          rw [Nat.and_one_is_mod]
          cases t with
          | zero => rw [pow_zero, if_pos (by decide)]; omega
          | succ t => rw [if_neg (by omega), pow_succ, ← Nat.mul_assoc, Nat.mul_mod_left]
        rw [e]
        refine ⟨rfl, ?_⟩
        rw [← e]
        apply Nat.or_lt_two_pow
        · rw [shr64_eq (by decide), Nat.div_lt_iff_lt_mul (by decide), ← pow_add]
          rw [show mf.implicitSize + s - 1 + 1 = mf.oldImplicitSize - 1 + s by omega]; exact hw
        · rw [Nat.and_one_is_mod]
          have : 2 ^ 1 ≤ 2 ^ (mf.implicitSize + s - 1) := Nat.pow_le_pow_right (by decide) (by omega)
          omega

/-- All ones or a carry. -/
theorem fill_eq {d r : Nat} (hd : d ≤ 1) (hr : r < 64) :
    sub64 (shl64 1 r) (1 ^^^ d) &&& bitmask r = if d = 1 then 0 else 2 ^ r - 1 := by
  have hp : 2 ^ r < 2 ^ 64 := Nat.pow_lt_pow_right (by decide) hr
  have h1 := Nat.two_pow_pos r
  rw [shl64_eq hr (by omega), Nat.one_mul, and_bitmask _ _ (by omega)]
  obtain rfl | rfl : d = 0 ∨ d = 1 := by omega
  · rw [show (1 ^^^ 0 : Nat) = 1 by decide, sub64_of_le hp h1, if_neg (by decide), Nat.mod_eq_of_lt (by omega)]
  · rw [show (1 ^^^ 1 : Nat) = 0 by decide, sub64_of_le hp (Nat.zero_le _), if_pos rfl, Nat.sub_zero, Nat.mod_self]

/-- The high part of an item when the old region differs at the same bit as the new one: the bit `d` in front of `r`
bits that are ones for `d = 0` and zeros for `d = 1`. -/
def highSame (d r : Nat) : Nat := if d = 1 then 2 ^ r else 2 ^ r - 1

theorem highSame_div {d r j : Nat} (h : j ≤ r) : highSame d r / 2 ^ (r - j) = highSame d j := by
  unfold highSame
  have e : 2 ^ r = 2 ^ j * 2 ^ (r - j) := by rw [← pow_add]; congr 1; omega
  have h1 := Nat.two_pow_pos (r - j)
  have h2 := Nat.two_pow_pos j
  split_ifs
  · rw [e, Nat.mul_div_cancel _ h1]
  · rw [e, Nat.div_eq_iff h1]
    obtain ⟨a, ha⟩ : ∃ a, 2 ^ j = a + 1 := ⟨2 ^ j - 1, by omega⟩
    rw [ha, Nat.add_mul, Nat.add_sub_cancel]
    omega

theorem recoverSame_spec (hs1 : 1 ≤ s) (hs : s ≤ 46) (ho : mf.oldImplicitSize = 10 ∨ mf.oldImplicitSize = 11)
    (hi : mf.implicitSize = 10 ∨ mf.implicitSize = 11) (hv : x + mf.oldLeftImplicit * 2 ^ s = v)
    (hlt : v < 2 ^ (mf.oldImplicitSize + s)) (hV : v % 2 ^ (mf.oldImplicitSize - 1 + s) = (2 * b + 1) * 2 ^ t)
    (hig : mf.ignore ≤ mf.oldIgnore) (hig2 : mf.oldIgnore < 2 ^ 32) {δ : Nat}
    (hδ : δ + mf.ignore + mf.implicitSize = mf.oldIgnore + mf.oldImplicitSize) :
    recoverSame mf s x =
      (2 * ((b + highSame (v / 2 ^ (mf.oldImplicitSize - 1 + s)) (mf.oldIgnore - mf.ignore) *
        2 ^ (mf.oldImplicitSize - 1 + s - 1 - t)) / 2 ^ (δ - t)) + 1) * 2 ^ (t - δ) := by
  obtain ⟨r1, r2, r3, r4⟩ := rescale_spec hs1 hs ho hi hv hlt hV
  have hw : (2 * b + 1) * 2 ^ t < 2 ^ (mf.oldImplicitSize - 1 + s) := by rw [← hV]; exact Nat.mod_lt _ (Nat.two_pow_pos _)
  unfold recoverSame
  generalize hre : mf.rescale s x = re at r1 r3 r4
  obtain ⟨d, V1⟩ := re
  dsimp only at r1 r3 r4 ⊢
  rw [← r1] at r2 ⊢
  rw [sub32_of_le hig hig2, sub32_of_le (by omega) (by omega)]
  generalize hr : min (mf.oldIgnore - mf.ignore) (mf.implicitSize + s - 1) = r
  have hadd : add32 1 r = 1 + r := add32_small (by omega)
  rw [hadd, sub32_of_le (by omega) (by omega), fill_eq r2 (by omega)]
  have hn57 : 2 ^ (mf.implicitSize + s - 1) ≤ 2 ^ 56 := Nat.pow_le_pow_right (by decide) (by omega)
  have hR : shl64 d (mf.implicitSize + s - 1) ||| shl64 (if d = 1 then 0 else 2 ^ r - 1) (mf.implicitSize + s - (1 + r)) =
      highSame d (mf.oldIgnore - mf.ignore) / 2 ^ (mf.oldIgnore - mf.ignore + 1 - (1 + r)) * 2 ^ (mf.implicitSize + s - (1 + r)) := by
    rw [show mf.oldIgnore - mf.ignore + 1 - (1 + r) = mf.oldIgnore - mf.ignore - r by omega, highSame_div (by omega)]
    have e : 2 ^ (mf.implicitSize + s - 1) = 2 ^ r * 2 ^ (mf.implicitSize + s - (1 + r)) := by rw [← pow_add]; congr 1; omega
    have hp := Nat.two_pow_pos r
    unfold highSame
    by_cases hd : d = 1
    · rw [if_pos hd, if_pos hd, hd, shl64_eq (by omega) (by omega), Nat.one_mul, e]
      rw [shl64_eq (by omega) (by omega)]; simp
    · have hd0 : d = 0 := by omega
      rw [if_neg hd, if_neg hd, hd0, shl64_eq (by omega) (by omega), Nat.zero_mul, Nat.zero_or, shl64_eq (by omega)]
      have : (2 ^ r - 1) * 2 ^ (mf.implicitSize + s - (1 + r)) ≤ 2 ^ (mf.implicitSize + s - 1) := by
        rw [e]; exact Nat.mul_le_mul_right _ (by omega)
      omega
  rw [hR]
  exact tail_spec (w := mf.oldImplicitSize - 1 + s) (wH := mf.oldIgnore - mf.ignore + 1) hw (by omega) (by omega) (by omega)
    (by omega) (by omega) (by omega) r3 r4

end
/-- The high part of an item when the old region lies on one side of the first differing bit of the new one. -/
def highBelow (kb m B d g : Nat) : Nat := (kb * 2 ^ m + B) * 2 ^ (g + 1) + highSame d g

theorem highSame_lt (d g : Nat) : highSame d g < 2 ^ (g + 1) := by
  unfold highSame
  have := Nat.two_pow_pos g
  rw [pow_succ]
  split_ifs <;> omega

section
variable {mf : MergeFrame} {s x v b t : Nat}

theorem recoverBelow_spec (hs1 : 1 ≤ s) (hs : s ≤ 46) (ho : mf.oldImplicitSize = 10 ∨ mf.oldImplicitSize = 11)
    (hi : mf.implicitSize = 10 ∨ mf.implicitSize = 11) (hv : x + mf.oldLeftImplicit * 2 ^ s = v)
    (hlt : v < 2 ^ (mf.oldImplicitSize + s)) (hV : v % 2 ^ (mf.oldImplicitSize - 1 + s) = (2 * b + 1) * 2 ^ t)
    {left : Key} {m : Nat} (hm : mf.oldShared = mf.shared + mf.ignore + 1 + m) (hsh : mf.oldShared < 2 ^ 31)
    (hig2 : mf.oldIgnore < 2 ^ 31) {δ : Nat}
    (hδ : δ + mf.shared + mf.ignore + mf.implicitSize = mf.oldShared + mf.oldIgnore + mf.oldImplicitSize) :
    recoverBelow mf s left x = if 32 ≤ mf.implicitSize + s - 1 then .ub else .ok
      ((2 * ((b + highBelow (kbit left mf.shared) m (pre mf.oldShared left % 2 ^ m) (v / 2 ^ (mf.oldImplicitSize - 1 + s)) mf.oldIgnore *
        2 ^ (mf.oldImplicitSize - 1 + s - 1 - t)) / 2 ^ (δ - t)) + 1) * 2 ^ (t - δ)) := by
  obtain ⟨r1, r2, r3, r4⟩ := rescale_spec hs1 hs ho hi hv hlt hV
  have hw : (2 * b + 1) * 2 ^ t < 2 ^ (mf.oldImplicitSize - 1 + s) := by rw [← hV]; exact Nat.mod_lt _ (Nat.two_pow_pos _)
  unfold recoverBelow
  generalize hre : mf.rescale s x = re at r1 r3 r4
  obtain ⟨d, V1⟩ := re
  dsimp only at r1 r3 r4 ⊢
  rw [← r1] at r2 ⊢
  by_cases hub : 32 ≤ mf.implicitSize + s - 1
  · rw [if_pos hub, if_pos hub]
  rw [if_neg hub, if_neg hub]
  generalize hnew : mf.implicitSize + s = new at *
  have hn1 : 10 < new := by omega
  have hn57 : 2 ^ (new - 1) ≤ 2 ^ 31 := Nat.pow_le_pow_right (by decide) (by omega)
  have e0 : sub32 (sub32 (sub32 mf.oldShared mf.shared) mf.ignore) 1 = m := by
    rw [sub32_of_le (show mf.shared ≤ mf.oldShared by omega) (by omega),
      sub32_of_le (show mf.ignore ≤ mf.oldShared - mf.shared by omega) (by omega), sub32_of_le (by omega) (by omega)]; omega
  rw [e0, sub32_of_le (show 1 ≤ new by omega) (by omega)]
  have hkb : kbit left mf.shared ≤ 1 := by have := kbit_lt left mf.shared; omega
  have ekb : keyBit left mf.shared <<< (new - 1) % 2 ^ 32 = kbit left mf.shared * 2 ^ (new - 1) := by
    rw [keyBit_eq, Nat.shiftLeft_eq, Nat.mod_eq_of_lt]
    have := Nat.mul_le_mul_right (2 ^ (new - 1)) hkb
    omega
  rw [ekb]
  generalize hB : pre mf.oldShared left % 2 ^ m = B
  have hBlt : B < 2 ^ m := by rw [← hB]; exact Nat.mod_lt _ (Nat.two_pow_pos _)
  generalize kbit left mf.shared = kb at *
  generalize hr : min m (new - 1) = r
  have hadd : add32 1 r = 1 + r := add32_small (by omega)
  rw [hadd, sub32_of_le (show 1 + r ≤ new by omega) (by omega)]
  have hbits : bitsAt left (mf.shared + mf.ignore + 1) r = B / 2 ^ (m - r) := by
    rw [bitsAt_eq _ _ _ (by omega), ← hB, ← pre_add left (mf.shared + mf.ignore + 1 + r) (m - r),
      show mf.shared + mf.ignore + 1 + r + (m - r) = mf.oldShared by omega]
    rw [show (2 : Nat) ^ m = 2 ^ (m - r) * 2 ^ r from pow_split (by omega), Nat.mod_mul_right_div_self]
  rw [hbits]
  have hBr : B / 2 ^ (m - r) < 2 ^ r := by
    rw [Nat.div_lt_iff_lt_mul (Nat.two_pow_pos _), ← pow_add, show r + (m - r) = m by omega]; exact hBlt
  have esplit : 2 ^ (new - 1) = 2 ^ r * 2 ^ (new - (1 + r)) := pow_split (by omega)
  have hBs : B / 2 ^ (m - r) * 2 ^ (new - (1 + r)) < 2 ^ (new - 1) := by
    rw [esplit]; exact Nat.mul_lt_mul_of_pos_right hBr (Nat.two_pow_pos _)
  rw [shl64_eq (by omega) (by omega), or_shift hBs, esplit, ← Nat.mul_assoc, ← Nat.add_mul]
  by_cases hc : 1 + r < new
  · rw [if_pos hc]
    obtain rfl : r = m := by omega
    rw [Nat.sub_self, pow_zero, Nat.div_one]
    rw [sub32_of_le (show 1 ≤ new - (1 + r) by omega) (by omega)]
    have eadd : add32 mf.oldIgnore 1 = mf.oldIgnore + 1 := add32_small (by omega)
    rw [eadd]
    generalize hr2 : min (mf.oldIgnore + 1) (new - (1 + r)) = r2'
    have hadd2 : add32 (1 + r) r2' = 1 + r + r2' := add32_small (by omega)
    rw [hadd2, sub32_of_le (show 1 + r + r2' ≤ new by omega) (by omega)]
    have hfill : (if r2' > 1 then shl64 (sub64 (shl64 1 (r2' - 1)) (1 ^^^ d) &&& bitmask (r2' - 1)) (new - (1 + r + r2')) else 0) =
        (if d = 1 then 0 else 2 ^ (r2' - 1) - 1) * 2 ^ (new - (1 + r + r2')) := by
      by_cases h2 : r2' > 1
      · rw [if_pos h2, fill_eq r2 (by omega)]
        apply shl64_eq (by omega)
        have h3 : 2 ^ (r2' - 1) * 2 ^ (new - (1 + r + r2')) ≤ 2 ^ (new - 1) := by
          rw [← pow_add]; exact Nat.pow_le_pow_right (by decide) (by omega)
        have h4 : (if d = 1 then 0 else 2 ^ (r2' - 1) - 1) * 2 ^ (new - (1 + r + r2')) ≤ 2 ^ (r2' - 1) * 2 ^ (new - (1 + r + r2')) :=
          Nat.mul_le_mul_right _ (by have := Nat.two_pow_pos (r2' - 1); split_ifs <;> omega)
        omega
      · rw [if_neg h2, show r2' - 1 = 0 by omega]; simp
    rw [hfill]
    have hR : (kb * 2 ^ r + B) * 2 ^ (new - (1 + r)) ||| shl64 d (new - (1 + r) - 1) |||
        (if d = 1 then 0 else 2 ^ (r2' - 1) - 1) * 2 ^ (new - (1 + r + r2')) =
        highBelow kb r B d mf.oldIgnore / 2 ^ (r + mf.oldIgnore + 2 - (1 + r + r2')) * 2 ^ (new - (1 + r + r2')) := by
      have e1 : 2 ^ (new - (1 + r)) = 2 ^ r2' * 2 ^ (new - (1 + r + r2')) := pow_split (by omega)
      have e2 : 2 ^ (new - (1 + r) - 1) = 2 ^ (r2' - 1) * 2 ^ (new - (1 + r + r2')) := pow_split (by omega)
      have e3 : shl64 d (new - (1 + r) - 1) ||| (if d = 1 then 0 else 2 ^ (r2' - 1) - 1) * 2 ^ (new - (1 + r + r2')) =
          highSame d (r2' - 1) * 2 ^ (new - (1 + r + r2')) := by
        have : 2 ^ (new - (1 + r) - 1) ≤ 2 ^ (new - 1) := Nat.pow_le_pow_right (by decide) (by omega)
        have hd' := Nat.mul_le_mul_right (2 ^ (new - (1 + r) - 1)) r2
        rw [shl64_eq (by omega) (by omega)]
        unfold highSame
        by_cases hd : d = 1
        · rw [if_pos hd, if_pos hd, hd, Nat.one_mul, Nat.zero_mul, Nat.or_zero, e2]
        · obtain rfl : d = 0 := by omega
          rw [if_neg hd, if_neg hd, Nat.zero_mul, Nat.zero_or]
      rw [Nat.or_assoc, e3, or_shift, e1, ← Nat.mul_assoc, ← Nat.add_mul]
      · refine congrArg (· * 2 ^ (new - (1 + r + r2'))) ?_
        unfold highBelow
        have e4 : 2 ^ (mf.oldIgnore + 1) = 2 ^ r2' * 2 ^ (r + mf.oldIgnore + 2 - (1 + r + r2')) := pow_split (by omega)
        rw [e4, ← Nat.mul_assoc, Nat.add_comm (_ * _ * _) (highSame _ mf.oldIgnore), Nat.add_mul_div_right _ _ (Nat.two_pow_pos _),
          Nat.add_comm (_ / _)]
        refine congrArg ((kb * 2 ^ r + B) * 2 ^ r2' + ·) ?_
        rw [show r + mf.oldIgnore + 2 - (1 + r + r2') = mf.oldIgnore - (r2' - 1) by omega, highSame_div (by omega)]
      · rw [e1]
        apply Nat.mul_lt_mul_of_pos_right _ (Nat.two_pow_pos _)
        have := highSame_lt d (r2' - 1)
        rwa [show r2' - 1 + 1 = r2' by omega] at this
    rw [hR]
    exact congrArg Res.ok (tail_spec (w := mf.oldImplicitSize - 1 + s) (wH := r + mf.oldIgnore + 2) hw (by omega) (by omega)
      (by omega) (by omega) (by omega) (by omega) r3 r4)
  · rw [if_neg hc]
    have hR : (kb * 2 ^ r + B / 2 ^ (m - r)) * 2 ^ (new - (1 + r)) =
        highBelow kb m B d mf.oldIgnore / 2 ^ (m + mf.oldIgnore + 2 - (1 + r)) * 2 ^ (new - (1 + r)) := by
      refine congrArg (· * 2 ^ (new - (1 + r))) ?_
      unfold highBelow
      rw [show m + mf.oldIgnore + 2 - (1 + r) = (mf.oldIgnore + 1) + (m - r) by omega, pow_add 2 (mf.oldIgnore + 1) (m - r),
        ← Nat.div_div_eq_div_mul, Nat.add_comm (_ * _) (highSame _ _), Nat.add_mul_div_right _ _ (Nat.two_pow_pos _),
        Nat.div_eq_of_lt (highSame_lt _ _), Nat.zero_add]
      rw [show (2 : Nat) ^ m = 2 ^ r * 2 ^ (m - r) from pow_split (by omega), ← Nat.mul_assoc, Nat.add_comm (kb * _ * _),
        Nat.add_mul_div_right _ _ (Nat.two_pow_pos _), Nat.add_comm]
    rw [hR]
    exact congrArg Res.ok (tail_spec (w := mf.oldImplicitSize - 1 + s) (wH := m + mf.oldIgnore + 2) hw (by omega) (by omega)
      (by omega) (by omega) (by omega) (by omega) r3 r4)

end

end Verif
