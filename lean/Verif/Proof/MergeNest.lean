import Verif.Proof.MergeItem
import Verif.Proof.Split

/-!
# The lengths of a region inside another one
-/

namespace Verif

section
variable {K1 K2 l r : Key} {sh ig imp oSh oIg oImp : Nat}

theorem Lengths.imp_gap (L : Lengths l r sh ig imp) (hlt : PadLt l r) :
    imp = if pre (sh + ig + 10) r - pre (sh + ig + 10) l + 1 < 512 then 11 else 10 := by
  have hs := L.succ hlt
  have e1 := pre_split l (sh + ig + 1) 9
  have e2 := pre_split r (sh + ig + 1) 9
  rw [show sh + ig + 1 + 9 = sh + ig + 10 by omega] at e1 e2
  have h1 : pre (sh + ig + 10) l % 2 ^ 9 < 2 ^ 9 := Nat.mod_lt _ (by decide)
  have h2 : pre (sh + ig + 10) r % 2 ^ 9 < 2 ^ 9 := Nat.mod_lt _ (by decide)
  have e : 2 ^ 9 + pre (sh + ig + 10) r % 2 ^ 9 - pre (sh + ig + 10) l % 2 ^ 9 = pre (sh + ig + 10) r - pre (sh + ig + 10) l := by
    rw [hs, Nat.add_mul] at e2
    omega
  rw [L.imp_eq, e]
  split_ifs <;> first | rfl | (exfalso; omega)

/-- A region inside another one differs at the same bit, or behind all bits ignored by the outer one. -/
theorem Lengths.nest (L : Lengths K1 K2 sh ig imp) (hlt : PadLt K1 K2) (O : Lengths l r oSh oIg oImp) (holt : PadLt l r)
    (hl : Between K1 l K2) (hr : Between K1 r K2) :
    (oSh = sh ∧ ig ≤ oIg ∧ pre (sh + ig + 1) l = pre (sh + ig + 1) K1) ∨ (∃ m, oSh = sh + ig + 1 + m) := by
  have c1 := L.cut hlt hl
  have c2 := L.cut hlt hr
  have b1 := kbit_lt l sh
  have b2 := kbit_lt r sh
  have hle := holt.le (sh + ig + 1)
  by_cases he : pre (sh + ig + 1) l = pre (sh + ig + 1) r
  · right
    refine ⟨oSh - (sh + ig + 1), ?_⟩
    by_contra hc
    exact O.diff (pre_eq_iff.1 he oSh (by omega))
  · left
    have k1 : kbit l sh = 0 := by omega
    have k2 : kbit r sh = 1 := by omega
    have s1 : pre sh l = pre sh r := by
      have := L.pre_same; have := hl sh; have := hr sh; omega
    have hosh : oSh = sh := by
      rcases Nat.lt_trichotomy oSh sh with h | h | h
      · exact absurd (pre_eq_iff.1 s1 oSh h) O.diff
      · exact h
      · have := O.same sh h; omega
    have p1 : pre (sh + ig + 1) l = pre (sh + ig + 1) K1 := by omega
    have p2 : pre (sh + ig + 1) r = pre (sh + ig + 1) K2 := by have := L.succ hlt; omega
    refine ⟨hosh, ?_, p1⟩
    by_contra hc
    refine O.stop ?_
    obtain ⟨g1, g2⟩ := L.skip (sh + 1 + oIg) (by omega) (by omega)
    rw [hosh]
    exact ⟨by rw [pre_eq_iff.1 p1 _ (by omega), g1], by rw [pre_eq_iff.1 p2 _ (by omega), g2]⟩

/-- The level of an inner region is not smaller. -/
theorem Lengths.level_le (L : Lengths K1 K2 sh ig imp) (hlt : PadLt K1 K2) (O : Lengths l r oSh oIg oImp) (holt : PadLt l r)
    (hl : Between K1 l K2) (hr : Between K1 r K2) : sh + ig + imp ≤ oSh + oIg + oImp := by
  have i1 := L.imp_cases
  have i2 := O.imp_cases
  rcases L.nest hlt O holt hl hr with ⟨e1, e2, _⟩ | ⟨m, rfl⟩
  · by_cases he : ig = oIg
    · subst e1 he
      have g1 := L.imp_gap hlt
      have g2 := O.imp_gap holt
      have := hl (oSh + ig + 10)
      have := hr (oSh + ig + 10)
      split_ifs at g1 g2 <;> omega
    · omega
  · omega

theorem ones_part (O : Lengths l r oSh oIg oImp) (holt : PadLt l r) : ∀ j, j ≤ oIg →
    pre (oSh + 1 + j) l = pre (oSh + 1) l * 2 ^ j + (2 ^ j - 1)
  | 0, _ => by simp
  | j + 1, h => by
    have ih := ones_part O holt j (by omega)
    have hb := (O.skip (oSh + 1 + j) (by omega) (by omega)).1
    rw [show oSh + 1 + (j + 1) = oSh + 1 + j + 1 by omega, pre_succ_eq, hb, ih, pow_succ]
    have := Nat.two_pow_pos j
    rw [← Nat.mul_assoc]
    omega

theorem high_same (O : Lengths l r oSh oIg oImp) (holt : PadLt l r) (hig : ig ≤ oIg)
    (hp : pre (oSh + ig + 1) l = pre (oSh + ig + 1) K1) {d : Nat} (hd : d ≤ 1) :
    highSame d (oIg - ig) + pre (oSh + ig + 1) K1 * 2 ^ (oIg - ig) = d + pre (oSh + oIg + 1) l := by
  have h1 := ones_part O holt ig hig
  have h2 := ones_part O holt oIg (Nat.le_refl _)
  rw [show oSh + 1 + ig = oSh + ig + 1 by omega] at h1
  rw [show oSh + 1 + oIg = oSh + oIg + 1 by omega] at h2
  rw [← hp, h1, h2]
  have e : 2 ^ oIg = 2 ^ ig * 2 ^ (oIg - ig) := pow_split (by omega)
  have p1 := Nat.two_pow_pos ig
  have p2 := Nat.two_pow_pos (oIg - ig)
  obtain ⟨a, ha⟩ : ∃ a, 2 ^ ig = a + 1 := ⟨2 ^ ig - 1, by omega⟩
  obtain ⟨b, hb⟩ : ∃ b, 2 ^ (oIg - ig) = b + 1 := ⟨2 ^ (oIg - ig) - 1, by omega⟩
  rw [e, ha, hb]
  have e2 : (a + 1) * (b + 1) - 1 = a * (b + 1) + b := by rw [Nat.add_mul]; omega
  rw [e2, Nat.add_sub_cancel]
  unfold highSame
  rw [hb]
  obtain rfl | rfl : d = 0 ∨ d = 1 := by omega
  · rw [if_neg (by decide), Nat.add_sub_cancel]; ring
  · rw [if_pos rfl]; ring

theorem high_below (L : Lengths K1 K2 sh ig imp) (hlt : PadLt K1 K2) (O : Lengths l r oSh oIg oImp) (holt : PadLt l r)
    (hl : Between K1 l K2) {m : Nat} (hm : oSh = sh + ig + 1 + m) {d : Nat} (hd : d ≤ 1) :
    highBelow (kbit l sh) m (pre oSh l % 2 ^ m) d oIg + pre (sh + ig + 1) K1 * 2 ^ (m + oIg + 1) = d + pre (oSh + oIg + 1) l := by
  have h2 := ones_part O holt oIg (Nat.le_refl _)
  rw [show oSh + 1 + oIg = oSh + oIg + 1 by omega, pre_succ_eq l oSh, (O.bits holt).1] at h2
  have h3 := pre_split l (sh + ig + 1) m
  rw [← hm, L.cut hlt hl] at h3
  rw [h2]
  unfold highBelow
  have e : 2 ^ (m + oIg + 1) = 2 ^ m * 2 ^ (oIg + 1) := pow_split (by omega)
  have e2 : 2 ^ (oIg + 1) = 2 * 2 ^ oIg := pow_succ' _ _
  generalize pre oSh l % 2 ^ m = B at *
  have p1 := Nat.two_pow_pos oIg
  obtain ⟨a, ha⟩ : ∃ a, 2 ^ oIg = a + 1 := ⟨2 ^ oIg - 1, by omega⟩
  rw [e, e2, h3]
  unfold highSame
  rw [ha]
  obtain rfl | rfl : d = 0 ∨ d = 1 := by omega
  · rw [if_neg (by decide), Nat.add_sub_cancel]; ring
  · rw [if_pos rfl, Nat.add_sub_cancel]; ring

end
/-- `y` is item `x` of the region above `l` with level `oP`, cut to the bits kept in the region above `K` with level `nP`. -/
structure CutItem (s oP : Nat) (l : Key) (nP : Nat) (K : Key) (x y : Nat) : Prop where
  len : ilen s nP y = min (ilen s oP x) (nP + s - 1)
  val : ival s (pre nP K) y = ival s (pre oP l) x / 2 ^ (ilen s oP x - ilen s nP y)

/-- The arithmetic of one item: absolute value, cut to the new width. -/
theorem cut_abs {s δ new w wH t b H PK d PL A M : Nat} (ht : t < s) (hnew : s + 2 ≤ new) (hδ : δ + new = wH + w) (hw : t < w) (h1 : 1 ≤ wH)
    (hH : H + PK * 2 ^ (wH - 1) = d + PL) (hA : A = (2 * M + 1) * 2 ^ t)
    (hV : A = (2 * b + 1) * 2 ^ t + (d + PL) * 2 ^ w) :
    (2 * ((b + H * 2 ^ (w - 1 - t)) / 2 ^ (δ - t)) + 1) * 2 ^ (t - δ) + PK * 2 ^ (new - 1) =
      (2 * (M / 2 ^ (δ - t)) + 1) * 2 ^ (t - δ) := by
  have hM : M = b + H * 2 ^ (w - 1 - t) + PK * 2 ^ (wH + w - 2 - t) := by
    have e1 : 2 ^ w = 2 * 2 ^ (w - 1 - t) * 2 ^ t := by rw [← pow_succ', ← pow_add]; congr 1; omega
    have e2 : 2 ^ (wH + w - 2 - t) = 2 ^ (wH - 1) * 2 ^ (w - 1 - t) := by rw [← pow_add]; congr 1; omega
    have e3 : (2 * M + 1) * 2 ^ t = (2 * (b + H * 2 ^ (w - 1 - t) + PK * 2 ^ (wH + w - 2 - t)) + 1) * 2 ^ t := by
      rw [← hA, hV, ← hH, e1, e2]; ring
    have := Nat.eq_of_mul_eq_mul_right (Nat.two_pow_pos t) e3
    omega
  rw [hM]
  by_cases hdt : δ ≤ t
  · rw [show δ - t = 0 by omega, pow_zero, Nat.div_one, Nat.div_one]
    have e : 2 ^ (new - 1) = 2 * 2 ^ (wH + w - 2 - t) * 2 ^ (t - δ) := by rw [← pow_succ', ← pow_add]; congr 1; omega
    rw [e]; ring
  · rw [show t - δ = 0 by omega, pow_zero, Nat.mul_one, Nat.mul_one]
    have e : 2 ^ (wH + w - 2 - t) = 2 ^ (new - 2) * 2 ^ (δ - t) := by rw [← pow_add]; congr 1; omega
    rw [e, ← Nat.mul_assoc PK, Nat.add_mul_div_right _ _ (Nat.two_pow_pos _)]
    have e' : 2 ^ (new - 1) = 2 * 2 ^ (new - 2) := by rw [← pow_succ']; congr 1; omega
    rw [e']; ring

/-- From the absolute value to the item of the new region. -/
theorem cut_item {s oP nP δ t a M z : Nat} {K l r : Key} (ht : t < s) (hs : s ≤ 46) (hP : oP = nP + δ)
    (hx : (2 * a + 1) * 2 ^ t < 2 ^ 64) (hM : M = a + pre oP l * 2 ^ (s - 1 - t)) (hK : pre nP K ≤ pre nP l)
    (hq : a / 2 ^ (s - 1 - t) + pre oP l ≤ pre oP r) (hr : pre nP r ≤ pre nP K + 1023)
    (hz : z + pre nP K * 2 ^ s = (2 * (M / 2 ^ (δ - t)) + 1) * 2 ^ (t - δ)) :
    z % 2 ^ s ≠ 0 ∧ z / 2 ^ s + pre nP K ≤ pre nP r ∧ z < 2 ^ 64 ∧
      CutItem s oP l nP K ((2 * a + 1) * 2 ^ t) z := by
  have hbase : pre nP K * 2 ^ (s - 1 - (t - δ)) ≤ M / 2 ^ (δ - t) := by
    rw [Nat.le_div_iff_mul_le (Nat.two_pow_pos _), Nat.mul_assoc, ← pow_add,
      show s - 1 - (t - δ) + (δ - t) = δ + (s - 1 - t) by omega, pow_add, ← Nat.mul_assoc, hM]
    have h1 : pre nP K * 2 ^ δ ≤ pre oP l := by
      rw [hP, pre_split l nP δ]
      have := Nat.mul_le_mul_right (2 ^ δ) hK
      omega
    have := Nat.mul_le_mul_right (2 ^ (s - 1 - t)) h1
    omega
  obtain ⟨a', ha'⟩ := Nat.exists_eq_add_of_le hbase
  have hz' : z = (2 * a' + 1) * 2 ^ (t - δ) := by
    have e : pre nP K * 2 ^ s = 2 * (pre nP K * 2 ^ (s - 1 - (t - δ))) * 2 ^ (t - δ) := by
      rw [show (2 : Nat) ^ s = 2 * 2 ^ (s - 1 - (t - δ)) * 2 ^ (t - δ) by rw [← pow_succ', ← pow_add]; congr 1; omega]
      ring
    rw [ha', e] at hz
    have e2 : (2 * (pre nP K * 2 ^ (s - 1 - (t - δ)) + a') + 1) * 2 ^ (t - δ) =
      (2 * a' + 1) * 2 ^ (t - δ) + 2 * (pre nP K * 2 ^ (s - 1 - (t - δ))) * 2 ^ (t - δ) := by ring
    omega
  have hquot : z / 2 ^ s + pre nP K ≤ pre nP r := by
    have e : z / 2 ^ s + pre nP K = (z + pre nP K * 2 ^ s) / 2 ^ s := by
      rw [Nat.add_mul_div_right _ _ (Nat.two_pow_pos _)]
    rw [e, hz, odd_quot (by omega), Nat.div_div_eq_div_mul, ← pow_add,
      show δ - t + (s - 1 - (t - δ)) = s - 1 - t + δ by omega, pow_add, ← Nat.div_div_eq_div_mul, hM,
      Nat.add_mul_div_right _ _ (Nat.two_pow_pos _), ← pre_add r nP δ, ← hP]
    exact Nat.div_le_div_right hq
  have hlt : z < 2 ^ 64 := by
    have h1 : z / 2 ^ s < 1024 := by omega
    rw [Nat.div_lt_iff_lt_mul (Nat.two_pow_pos _)] at h1
    have h2 : 2 ^ s ≤ 2 ^ 46 := Nat.pow_le_pow_right (by decide) hs
    omega
  refine ⟨by rw [hz']; exact odd_mod_ne (by omega), hquot, hlt, ?_⟩
  rw [hz'] at hlt ⊢
  have hl : ilen s nP ((2 * a' + 1) * 2 ^ (t - δ)) = min (ilen s oP ((2 * a + 1) * 2 ^ t)) (nP + s - 1) := by
    rw [ilen_odd hlt, ilen_odd hx]; omega
  refine ⟨hl, ?_⟩
  rw [ival_odd hlt, ival_odd hx, ilen_odd hlt, ilen_odd hx, ← hM, show oP + s - 1 - t - (nP + s - 1 - (t - δ)) = δ - t by omega, ha']
  omega
theorem odd_mod_pow {c t w : Nat} (h : t < w) :
    (2 * c + 1) * 2 ^ t % 2 ^ w = (2 * (c % 2 ^ (w - 1 - t)) + 1) * 2 ^ t := by
  have e : 2 ^ w = 2 * 2 ^ (w - 1 - t) * 2 ^ t := by rw [← pow_succ', ← pow_add]; congr 1; omega
  have hp := Nat.two_pow_pos (w - 1 - t)
  have hm := Nat.mod_lt c hp
  rw [e, Nat.mul_mod_mul_right]
  congr 1
  have h1 := Nat.div_add_mod c (2 ^ (w - 1 - t))
  conv_lhs => rw [← h1]
  rw [show 2 * (2 ^ (w - 1 - t) * (c / 2 ^ (w - 1 - t)) + c % 2 ^ (w - 1 - t)) + 1 =
    2 * (c % 2 ^ (w - 1 - t)) + 1 + 2 * 2 ^ (w - 1 - t) * (c / 2 ^ (w - 1 - t)) by ring, Nat.add_mul_mod_self_left,
    Nat.mod_eq_of_lt (by omega)]

section
variable {K1 K2 l r : Key} {sh ig imp oSh oIg oImp s x : Nat}

/-- The frame of `UpdateInfixListDelete`. -/
def mergeFrame (s sh ig imp oSh oIg oImp : Nat) (l : Key) : MergeFrame :=
  ⟨sh, ig, imp, oSh, oIg, oImp, extractPartialKey s l oSh oIg oImp 0 >>> s⟩

/-- The loop body of either branch. -/
def mergeFn (s sh ig imp oSh oIg oImp : Nat) (l : Key) (x : Nat) : Res Nat :=
  if oSh = sh then .ok (recoverSame (mergeFrame s sh ig imp oSh oIg oImp l) s x)
  else recoverBelow (mergeFrame s sh ig imp oSh oIg oImp l) s l x

theorem merge_item (L : Lengths K1 K2 sh ig imp) (hlt : PadLt K1 K2) (O : Lengths l r oSh oIg oImp) (holt : PadLt l r)
    (hl : Between K1 l K2) (hr : Between K1 r K2) (hs1 : 1 ≤ s) (hs : s ≤ 46) (hb : oSh + oIg < 2 ^ 31)
    (h0 : x % 2 ^ s ≠ 0) (hx : x < 2 ^ 64) (hq : x / 2 ^ s + pre (oSh + oIg + oImp) l ≤ pre (oSh + oIg + oImp) r) :
    mergeFn s sh ig imp oSh oIg oImp l x = .ub ∨ ∃ z, mergeFn s sh ig imp oSh oIg oImp l x = .ok z ∧
      sub64 z (shl64 (extractPartialKey s K1 sh ig imp 0 >>> s) s) % 2 ^ s ≠ 0 ∧
      sub64 z (shl64 (extractPartialKey s K1 sh ig imp 0 >>> s) s) / 2 ^ s + pre (sh + ig + imp) K1 ≤ pre (sh + ig + imp) r ∧
      sub64 z (shl64 (extractPartialKey s K1 sh ig imp 0 >>> s) s) < 2 ^ 64 ∧
      CutItem s (oSh + oIg + oImp) l (sh + ig + imp) K1 x (sub64 z (shl64 (extractPartialKey s K1 sh ig imp 0 >>> s) s)) := by
  have i1 := L.imp_cases
  have i2 := O.imp_cases
  obtain ⟨δ, hδ⟩ := Nat.exists_eq_add_of_le (L.level_le hlt O holt hl hr)
  obtain ⟨a, t, rfl, ht⟩ := item_decomp h0
  have hli := O.prevImplicit holt hs
  have hPK := L.prevImplicit hlt hs
  have hle := O.succ holt
  generalize hliv : extractPartialKey s l oSh oIg oImp 0 >>> s = li at hli
  generalize hpiv : extractPartialKey s K1 sh ig imp 0 >>> s = pI at hPK
  generalize hPL : pre (oSh + oIg + 1) l = PL at hli hle
  generalize hPKv : pre (sh + ig + 1) K1 = PK at hPK
  have ewi : 2 ^ (oImp - 1 + s) = 2 ^ (oImp - 1) * 2 ^ s := pow_add _ _ _
  -- the absolute value
  have hAv : (2 * a + 1) * 2 ^ t + li * 2 ^ s + PL * 2 ^ (oImp - 1 + s) =
      (2 * (a + pre (oSh + oIg + oImp) l * 2 ^ (s - 1 - t)) + 1) * 2 ^ t := by
    rw [ewi, ← hli, show (2 : Nat) ^ s = 2 * 2 ^ (s - 1 - t) * 2 ^ t by rw [← pow_succ', ← pow_add]; congr 1; omega]
    ring
  have hvo : (2 * a + 1) * 2 ^ t + li * 2 ^ s = (2 * (a + li * 2 ^ (s - 1 - t)) + 1) * 2 ^ t := by
    rw [show (2 : Nat) ^ s = 2 * 2 ^ (s - 1 - t) * 2 ^ t by rw [← pow_succ', ← pow_add]; congr 1; omega]; ring
  have hV := odd_mod_pow (c := a + li * 2 ^ (s - 1 - t)) (t := t) (w := oImp - 1 + s) (by omega)
  rw [← hvo] at hV
  generalize hbv : (a + li * 2 ^ (s - 1 - t)) % 2 ^ (oImp - 1 + s - 1 - t) = b at hV
  have hvlt : (2 * a + 1) * 2 ^ t + li * 2 ^ s < 2 ^ (oImp + s) := by
    have h1 : pre (oSh + oIg + oImp) r < (PL + 2) * 2 ^ (oImp - 1) := by
      rw [show oSh + oIg + oImp = oSh + oIg + 1 + (oImp - 1) by omega, pre_split r (oSh + oIg + 1) (oImp - 1), hle,
        show (PL + 2) * 2 ^ (oImp - 1) = (PL + 1) * 2 ^ (oImp - 1) + 2 ^ (oImp - 1) by ring]
      have := Nat.mod_lt (pre (oSh + oIg + 1 + (oImp - 1)) r) (Nat.two_pow_pos (oImp - 1))
      omega
    have h2 : ((2 * a + 1) * 2 ^ t + li * 2 ^ s) / 2 ^ s + PL * 2 ^ (oImp - 1) < (PL + 2) * 2 ^ (oImp - 1) := by
      rw [Nat.add_mul_div_right _ _ (Nat.two_pow_pos _)]; omega
    have h3 : ((2 * a + 1) * 2 ^ t + li * 2 ^ s) / 2 ^ s < 2 * 2 ^ (oImp - 1) := by
      rw [Nat.add_mul PL] at h2; omega
    rw [Nat.div_lt_iff_lt_mul (Nat.two_pow_pos _)] at h3
    rw [show (2 : Nat) ^ (oImp + s) = 2 * 2 ^ (oImp - 1) * 2 ^ s by rw [← pow_succ', ← pow_add]; congr 1; omega]
    exact h3
  have hd1 : ((2 * a + 1) * 2 ^ t + li * 2 ^ s) / 2 ^ (oImp - 1 + s) ≤ 1 := by
    have : ((2 * a + 1) * 2 ^ t + li * 2 ^ s) / 2 ^ (oImp - 1 + s) < 2 := by
      rw [Nat.div_lt_iff_lt_mul (Nat.two_pow_pos _), ← pow_succ', show oImp - 1 + s + 1 = oImp + s by omega]; exact hvlt
    omega
  have hA : (2 * (a + pre (oSh + oIg + oImp) l * 2 ^ (s - 1 - t)) + 1) * 2 ^ t =
      (2 * b + 1) * 2 ^ t + (((2 * a + 1) * 2 ^ t + li * 2 ^ s) / 2 ^ (oImp - 1 + s) + PL) * 2 ^ (oImp - 1 + s) := by
    rw [← hAv, Nat.add_mul (_ / _) PL]
    have h1 := Nat.div_add_mod' ((2 * a + 1) * 2 ^ t + li * 2 ^ s) (2 ^ (oImp - 1 + s))
    rw [hV] at h1
    generalize (2 * a + 1) * 2 ^ t + li * 2 ^ s = v at *
    omega
  have hmod : oSh + oIg + oImp = sh + ig + imp + δ := hδ
  -- what remains after the loop body
  have fin : ∀ z, z + PK * 2 ^ (imp + s - 1) =
      (2 * ((a + pre (oSh + oIg + oImp) l * 2 ^ (s - 1 - t)) / 2 ^ (δ - t)) + 1) * 2 ^ (t - δ) →
      sub64 z (shl64 pI s) % 2 ^ s ≠ 0 ∧
      sub64 z (shl64 pI s) / 2 ^ s + pre (sh + ig + imp) K1 ≤ pre (sh + ig + imp) r ∧ sub64 z (shl64 pI s) < 2 ^ 64 ∧
      CutItem s (oSh + oIg + oImp) l (sh + ig + imp) K1 ((2 * a + 1) * 2 ^ t) (sub64 z (shl64 pI s)) := by
    intro z hz
    have eP : PK * 2 ^ (imp + s - 1) + pI * 2 ^ s = pre (sh + ig + imp) K1 * 2 ^ s := by
      rw [← hPK, show imp + s - 1 = imp - 1 + s by omega, pow_add]; ring
    have hqa : a / 2 ^ (s - 1 - t) + pre (oSh + oIg + oImp) l ≤ pre (oSh + oIg + oImp) r := by
      rw [← odd_quot ht]; exact hq
    have hK : pre (sh + ig + imp) K1 ≤ pre (sh + ig + imp) l := (hl _).1
    have hr' : pre (sh + ig + imp) r ≤ pre (sh + ig + imp) K1 + 1023 := by
      have := (L.total hlt).2; have := (hr (sh + ig + imp)).2; omega
    have hge : pre (sh + ig + imp) K1 * 2 ^ s ≤ z + PK * 2 ^ (imp + s - 1) := by
      rw [hz]
      have h1 : pre (sh + ig + imp) K1 ≤ (2 * ((a + pre (oSh + oIg + oImp) l * 2 ^ (s - 1 - t)) / 2 ^ (δ - t)) + 1) * 2 ^ (t - δ) / 2 ^ s := by
        rw [odd_quot (by omega), Nat.div_div_eq_div_mul, ← pow_add,
          show δ - t + (s - 1 - (t - δ)) = s - 1 - t + δ by omega, pow_add, ← Nat.div_div_eq_div_mul,
          Nat.add_mul_div_right _ _ (Nat.two_pow_pos _)]
        refine Nat.le_trans hK ?_
        rw [← pre_add l (sh + ig + imp) δ, ← hmod]
        exact Nat.div_le_div_right (Nat.le_add_left _ _)
      rwa [Nat.le_div_iff_mul_le (Nat.two_pow_pos _)] at h1
    have hpI : pI * 2 ^ s ≤ z := by omega
    obtain ⟨y, hy⟩ := Nat.exists_eq_add_of_le hpI
    have c := cut_item (z := y) ht hs hmod hx rfl hK hqa hr' (by rw [← hz, ← eP]; omega)
    have hpI2 : pI < 2 ^ 11 := by
      have h1 := extract_lt s K1 (sh := sh) (ig := ig) (msb := 0) (show 1 ≤ imp by omega) (by decide)
        (show imp + s + (sh + ig) % 8 ≤ 64 by omega)
      rw [← hpiv, Nat.shiftRight_eq_div_pow, Nat.div_lt_iff_lt_mul (Nat.two_pow_pos _), ← pow_add]
      exact Nat.lt_of_lt_of_le h1 (Nat.pow_le_pow_right (by decide) (by omega))
    have hps : pI * 2 ^ s < 2 ^ 57 := by
      have : 2 ^ s ≤ 2 ^ 46 := Nat.pow_le_pow_right (by decide) hs
      calc pI * 2 ^ s ≤ pI * 2 ^ 46 := Nat.mul_le_mul_left _ this
        _ < 2 ^ 11 * 2 ^ 46 := Nat.mul_lt_mul_of_pos_right hpI2 (by decide)
        _ = 2 ^ 57 := by decide
    have hy57 : y < 2 ^ 56 := by
      have h1 : y / 2 ^ s < 1024 := by have := c.2.1; omega
      rw [Nat.div_lt_iff_lt_mul (Nat.two_pow_pos _)] at h1
      have h2 : 2 ^ s ≤ 2 ^ 46 := Nat.pow_le_pow_right (by decide) hs
      omega
    have hsub : sub64 z (shl64 pI s) = y := by
      rw [shl64_eq (by omega) (by omega), sub64_of_le (by omega) hpI]; omega
    rw [hsub]
    exact c
  unfold mergeFn
  have hnest := L.nest hlt O holt hl hr
  by_cases hsame : oSh = sh
  · right
    rw [if_pos hsame]
    refine ⟨_, rfl, fin _ ?_⟩
    obtain ⟨e1, e2, e3⟩ : oSh = sh ∧ ig ≤ oIg ∧ pre (sh + ig + 1) l = pre (sh + ig + 1) K1 := by
      rcases hnest with h | ⟨m, hm⟩
      · exact h
      · omega
    rw [recoverSame_spec (mf := mergeFrame s sh ig imp oSh oIg oImp l) (v := (2 * a + 1) * 2 ^ t + li * 2 ^ s) (b := b) (t := t)
      (δ := δ) hs1 hs i2 i1 (by unfold mergeFrame; dsimp only; rw [hliv]) hvlt hV e2 (by unfold mergeFrame; dsimp only; omega)
      (by unfold mergeFrame; dsimp only; omega)]
    subst hsame
    have hh := high_same (ig := ig) (K1 := K1) O holt e2 e3 hd1
    rw [hPKv, hPL] at hh
    exact cut_abs (w := oImp - 1 + s) (wH := oIg - ig + 1) (new := imp + s) ht (by omega) (by omega) (by omega) (by omega)
      (by rw [Nat.add_sub_cancel]; exact hh) rfl hA
  · rw [if_neg hsame]
    obtain ⟨m, hm⟩ : ∃ m, oSh = sh + ig + 1 + m := by
      rcases hnest with h | h
      · exact absurd h.1 hsame
      · exact h
    rw [recoverBelow_spec (mf := mergeFrame s sh ig imp oSh oIg oImp l) (v := (2 * a + 1) * 2 ^ t + li * 2 ^ s) (b := b) (t := t)
      (δ := δ) (m := m) hs1 hs i2 i1 (by unfold mergeFrame; dsimp only; rw [hliv]) hvlt hV hm
      (by unfold mergeFrame; dsimp only; omega) (by unfold mergeFrame; dsimp only; omega)
      (by unfold mergeFrame; dsimp only; omega)]
    split_ifs with hub
    · left; rfl
    · right
      refine ⟨_, rfl, fin _ ?_⟩
      have hh := high_below L hlt O holt hl hm hd1
      rw [hPKv, hPL] at hh
      exact cut_abs (w := oImp - 1 + s) (wH := m + oIg + 2) (new := imp + s) ht (by omega) (by omega) (by omega) (by omega)
        (by rw [show m + oIg + 2 - 1 = m + oIg + 1 by omega]; exact hh) rfl hA

end

end Verif
