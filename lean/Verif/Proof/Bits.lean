import Verif.Model.Util
import Mathlib.Tactic.SplitIfs
import Mathlib.Tactic.Set
import Mathlib.Tactic.Ring
import Mathlib.Tactic.NormNum

/-!
# Bit-level lemmas about the memory and word primitives
-/

namespace Verif

theorem testBit_readBits (m off len i : Nat) :
    (readBits m off len).testBit i = (decide (i < len) && m.testBit (off + i)) := by
  simp [readBits, Nat.testBit_mod_two_pow, Nat.testBit_shiftRight]

theorem readBits_lt (m off len : Nat) : readBits m off len < 2 ^ len :=
  Nat.mod_lt _ (Nat.two_pow_pos _)

theorem testBit_writeBits (m off len v i : Nat) :
    (writeBits m off len v).testBit i =
      if i < off then m.testBit i else if i < off + len then v.testBit (i - off) else m.testBit i := by
  simp only [writeBits, Nat.testBit_or, Nat.testBit_shiftLeft, Nat.testBit_mod_two_pow,
    Nat.testBit_shiftRight]
  by_cases h1 : i < off
  · have : ¬ off ≤ i := by omega
    simp [h1]
  · by_cases h2 : i < off + len
    · have h3 : ¬ (len ≤ i - off) := by omega
      have h4 : i - off < len := by omega
      have h5 : off ≤ i := by omega
      simp [h1, h2, h3, h4, h5]
    · have h3 : len ≤ i - off := by omega
      have h4 : ¬ i - off < len := by omega
      have h5 : off ≤ i := by omega
      have h6 : off + len + (i - off - len) = i := by omega
      simp [h1, h2, h3, h4, h5, h6]

theorem testBit_getW (m w i : Nat) :
    (getW m w).testBit i = (decide (i < 64) && m.testBit (64 * w + i)) := testBit_readBits ..

theorem getW_lt (m w : Nat) : getW m w < 2 ^ 64 := readBits_lt ..

theorem testBit_putW (m w v i : Nat) :
    (putW m w v).testBit i =
      if 64 * w ≤ i ∧ i < 64 * w + 64 then v.testBit (i - 64 * w) else m.testBit i := by
  rw [putW, testBit_writeBits]
  split_ifs <;> first | rfl | omega

theorem testBit_shl64 (a s i : Nat) (hs : s < 64) :
    (shl64 a s).testBit i = (decide (i < 64) && (decide (s ≤ i) && a.testBit (i - s))) := by
  rw [shl64, Nat.mod_eq_of_lt hs, Nat.testBit_mod_two_pow, Nat.testBit_shiftLeft]

theorem testBit_shr64 (a s i : Nat) (hs : s < 64) :
    (shr64 a s).testBit i = a.testBit (s + i) := by
  rw [shr64, Nat.mod_eq_of_lt hs, Nat.testBit_shiftRight]

theorem testBit_not64 (a i : Nat) :
    (not64 a).testBit i = (a.testBit i ^^ decide (i < 64)) := by
  rw [not64, Nat.testBit_xor, Nat.testBit_two_pow_sub_one]

theorem bitmask_eq (n : Nat) (h : n ≤ 64) : bitmask n = 2 ^ n - 1 := by
  unfold bitmask
  split_ifs with h1
  · subst h1; rfl
  · have hn : n < 64 := by omega
    have h2 : 2 ^ n < 2 ^ 64 := Nat.pow_lt_pow_right (by decide) hn
    have h3 : 0 < 2 ^ n := Nat.two_pow_pos n
    rw [shl64, Nat.mod_eq_of_lt hn, Nat.one_shiftLeft, Nat.mod_eq_of_lt h2, sub64]
    omega

theorem testBit_bitmask (n i : Nat) (h : n ≤ 64) : (bitmask n).testBit i = decide (i < n) := by
  rw [bitmask_eq n h, Nat.testBit_two_pow_sub_one]

theorem and_bitmask (x n : Nat) (h : n ≤ 64) : x &&& bitmask n = x % 2 ^ n := by
  rw [bitmask_eq n h, Nat.and_two_pow_sub_one_eq_mod]

/-- Extensionality for the bits of a block. -/
theorem testBit_ext {a b : Nat} (h : ∀ i, a.testBit i = b.testBit i) : a = b :=
  Nat.eq_of_testBit_eq h

/-! ## Single bits of a bitmap -/

theorem testBit_one' (k : Nat) : Nat.testBit 1 k = decide (k = 0) := by
  rcases k with _ | k
  · rfl
  · rw [Nat.testBit_succ]; simp

theorem testBit_bit64 (p i : Nat) (hp : p < 64) : (shl64 1 p).testBit i = decide (i = p) := by
  rw [testBit_shl64 _ _ _ hp, testBit_one']
  by_cases h : i = p
  · subst h; simp [hp]
  · have : ¬ (p ≤ i ∧ i - p = 0) := by omega
    simp only [h, decide_false]
    by_cases h1 : p ≤ i
    · have : ¬ i - p = 0 := by omega
      simp [this]
    · simp [h1]

theorem testBit_setBit (m b pos i : Nat) :
    (setBit m b pos).testBit i = (m.testBit i || decide (i = 64 * b + pos)) := by
  have hm : pos % 64 < 64 := Nat.mod_lt _ (by decide)
  rw [setBit, testBit_putW]
  split_ifs with h
  · rw [Nat.testBit_or, testBit_getW, testBit_bit64 _ _ hm]
    have h1 : i - 64 * (b + pos / 64) < 64 := by omega
    have h2 : 64 * (b + pos / 64) + (i - 64 * (b + pos / 64)) = i := by omega
    rw [h2]
    simp only [h1, decide_true, Bool.true_and]
    congr 1
    rw [decide_eq_decide]
    omega
  · have : i ≠ 64 * b + pos := by omega
    simp [this]

theorem testBit_resetBit (m b pos i : Nat) :
    (resetBit m b pos).testBit i = (m.testBit i && !decide (i = 64 * b + pos)) := by
  have hm : pos % 64 < 64 := Nat.mod_lt _ (by decide)
  rw [resetBit, testBit_putW]
  split_ifs with h
  · rw [Nat.testBit_and, testBit_not64, testBit_getW, testBit_bit64 _ _ hm]
    have h1 : i - 64 * (b + pos / 64) < 64 := by omega
    have h2 : 64 * (b + pos / 64) + (i - 64 * (b + pos / 64)) = i := by omega
    rw [h2]
    simp only [h1, decide_true, Bool.true_and, Bool.xor_true]
    congr 2
    rw [decide_eq_decide]
    omega
  · have : i ≠ 64 * b + pos := by omega
    simp [this]

theorem mod_two_eq_toNat (x : Nat) : x % 2 = (x.testBit 0).toNat := by
  rw [Nat.testBit_zero]
  rcases Nat.mod_two_eq_zero_or_one x with h | h <;> simp [h]

theorem getBit_eq (m b pos : Nat) : getBit m b pos = (m.testBit (64 * b + pos)).toNat := by
  have hm : pos % 64 < 64 := Nat.mod_lt _ (by decide)
  rw [getBit, Nat.and_one_is_mod, mod_two_eq_toNat, testBit_shr64 _ _ _ hm, testBit_getW]
  have h2 : 64 * (b + pos / 64) + (pos % 64 + 0) = 64 * b + pos := by omega
  rw [h2]
  simp [hm]

theorem getBit_ne_zero (m b pos : Nat) : getBit m b pos ≠ 0 ↔ m.testBit (64 * b + pos) = true := by
  rw [getBit_eq]; cases m.testBit (64 * b + pos) <;> simp

theorem getBit_eq_zero (m b pos : Nat) : getBit m b pos = 0 ↔ m.testBit (64 * b + pos) = false := by
  rw [getBit_eq]; cases m.testBit (64 * b + pos) <;> simp

/-! ## Word-chunked bitmap shifts -/

/-- Clearing `mv` bits at offset `o` of word `w` and writing `p` there. -/
theorem testBit_chunk (m w o mv p j : Nat) (ho : o + mv ≤ 64) (hmv : 0 < mv) (hp : p < 2 ^ mv) :
    let m1 := putW m w (getW m w &&& not64 (shl64 (bitmask mv) o))
    (putW m1 w (getW m1 w ||| shl64 p o)).testBit j =
      if 64 * w + o ≤ j ∧ j < 64 * w + o + mv then p.testBit (j - (64 * w + o))
      else m.testBit j := by
  intro m1
  have ho' : o < 64 := by omega
  rw [testBit_putW]
  split_ifs with h1 h2 h2
  · rw [Nat.testBit_or, testBit_getW, testBit_shl64 _ _ _ ho', testBit_putW, if_pos (by omega),
      Nat.testBit_and, testBit_not64, testBit_shl64 _ _ _ ho', testBit_bitmask _ _ (by omega)]
    have e1 : 64 * w + (j - 64 * w) - 64 * w = j - 64 * w := by omega
    have e2 : j - 64 * w < 64 := by omega
    have e3 : o ≤ j - 64 * w := by omega
    have e4 : j - 64 * w - o < mv := by omega
    have e5 : j - (64 * w + o) = j - 64 * w - o := by omega
    simp [e1, e2, e3, e4, e5]
  · rw [Nat.testBit_or, testBit_getW, testBit_shl64 _ _ _ ho', testBit_putW, if_pos (by omega),
      Nat.testBit_and, testBit_not64, testBit_shl64 _ _ _ ho', testBit_bitmask _ _ (by omega),
      testBit_getW]
    have e1 : 64 * w + (j - 64 * w) = j := by omega
    have e2 : j - 64 * w < 64 := by omega
    rw [e1, e1]
    by_cases e3 : o ≤ j - 64 * w
    · have e4 : ¬ j - 64 * w - o < mv := by omega
      have e5 : p.testBit (j - 64 * w - o) = false :=
        Nat.testBit_lt_two_pow (Nat.lt_of_lt_of_le hp (Nat.pow_le_pow_right (by decide) (by omega)))
      simp [e2, e3, e4, e5]
    · simp [e2, e3]
  · omega
  · rw [testBit_putW, if_neg h1]

theorem testBit_payload (m w o mv j : Nat) (ho : o + mv ≤ 64) (hmv : 0 < mv) :
    (shr64 (getW m w) o &&& bitmask mv).testBit j =
      (decide (j < mv) && m.testBit (64 * w + o + j)) := by
  rw [Nat.testBit_and, testBit_shr64 _ _ _ (by omega), testBit_getW, testBit_bitmask _ _ (by omega)]
  by_cases h : j < mv
  · have : o + j < 64 := by omega
    simp [h, this, Nat.add_assoc]
  · simp [h]

theorem payload_lt (x o mv : Nat) (h : mv ≤ 64) : shr64 x o &&& bitmask mv < 2 ^ mv := by
  rw [and_bitmask _ _ h]; exact Nat.mod_lt _ (Nat.two_pow_pos _)

theorem testBit_clear (m w o er j : Nat) (ho : o + er ≤ 64) (her : 0 < er) :
    (putW m w (getW m w &&& not64 (shl64 (bitmask er) o))).testBit j =
      if 64 * w + o ≤ j ∧ j < 64 * w + o + er then false else m.testBit j := by
  have ho' : o < 64 := by omega
  rw [testBit_putW]
  split_ifs with h1 h2 h2
  · rw [Nat.testBit_and, testBit_not64, testBit_shl64 _ _ _ ho', testBit_bitmask _ _ (by omega)]
    have e2 : j - 64 * w < 64 := by omega
    have e3 : o ≤ j - 64 * w := by omega
    have e4 : j - 64 * w - o < er := by omega
    simp [e2, e3, e4]
  · rw [Nat.testBit_and, testBit_not64, testBit_shl64 _ _ _ ho', testBit_bitmask _ _ (by omega),
      testBit_getW]
    have e1 : 64 * w + (j - 64 * w) = j := by omega
    have e2 : j - 64 * w < 64 := by omega
    rw [e1]
    by_cases e3 : o ≤ j - 64 * w
    · have e4 : ¬ j - 64 * w - o < er := by omega
      simp [e2, e3, e4]
    · simp [e2, e3]
  · omega
  · rfl

theorem testBit_shiftRightMove (fuel : Nat) : ∀ (m b l rE dE j : Nat), rE ≤ dE → rE - l ≤ fuel →
    (shiftRightMove fuel m b l rE dE).testBit j =
      if 64 * b + (l + (dE - rE)) ≤ j ∧ j < 64 * b + dE ∧ l < rE then m.testBit (j - (dE - rE))
      else m.testBit j := by
  induction fuel with
  | zero =>
    intro m b l rE dE j h1 h2
    rw [shiftRightMove, if_neg (by omega)]
  | succ fuel ih =>
    intro m b l rE dE j h1 h2
    rw [shiftRightMove]
    split_ifs with hl hc hc
    · dsimp only
      set mv := min (rE - 1 - l) (min ((rE - 1) % 64) ((dE - 1) % 64)) + 1 with hmv
      have hmv0 : 0 < mv := by omega
      have hs : (rE - 1) % 64 + 1 - mv + mv ≤ 64 := by omega
      have hd : (dE - 1) % 64 + 1 - mv + mv ≤ 64 := by omega
      rw [ih _ _ _ _ _ _ (by omega) (by omega)]
      rw [testBit_chunk _ _ _ _ _ _ hd hmv0 (payload_lt _ _ _ (by omega))]
      rw [testBit_chunk _ _ _ _ _ _ hd hmv0 (payload_lt _ _ _ (by omega))]
      rw [testBit_payload _ _ _ _ _ hs hmv0, testBit_payload _ _ _ _ _ hs hmv0]
      split_ifs with g1 g2 g2
      · omega
      · congr 1; omega
      · have e1 : j - (64 * (b + (dE - 1) / 64) + ((dE - 1) % 64 + 1 - mv)) < mv := by omega
        simp only [e1, decide_true, Bool.true_and]
        congr 1; omega
      · omega
    · dsimp only
      set mv := min (rE - 1 - l) (min ((rE - 1) % 64) ((dE - 1) % 64)) + 1 with hmv
      have hmv0 : 0 < mv := by omega
      have hs : (rE - 1) % 64 + 1 - mv + mv ≤ 64 := by omega
      have hd : (dE - 1) % 64 + 1 - mv + mv ≤ 64 := by omega
      rw [ih _ _ _ _ _ _ (by omega) (by omega)]
      rw [if_neg (by omega), testBit_chunk _ _ _ _ _ _ hd hmv0 (payload_lt _ _ _ (by omega)),
        if_neg (by omega)]
    · omega
    · rfl

theorem testBit_shiftRightClear (fuel : Nat) : ∀ (m b l rE j : Nat), rE - l ≤ fuel →
    (shiftRightClear fuel m b l rE).testBit j =
      if 64 * b + l ≤ j ∧ j < 64 * b + rE then false else m.testBit j := by
  induction fuel with
  | zero =>
    intro m b l rE j h2
    rw [shiftRightClear, if_neg (by omega)]
  | succ fuel ih =>
    intro m b l rE j h2
    rw [shiftRightClear]
    by_cases hl : l < rE
    · rw [if_pos hl]
      dsimp only
      rw [ih _ _ _ _ _ (by omega), testBit_clear _ _ _ _ _ (by omega) (by omega)]
      split_ifs <;> first | rfl | omega
    · rw [if_neg hl, if_neg (by omega)]

/-- `shift_bitmap_right` moves bits `l .. rE-1` up by `shamt`, clears `l .. l+shamt-1` and leaves
everything else. -/
theorem testBit_shiftBitmapRight (m b l rE shamt j : Nat) :
    (shiftBitmapRight m b l rE shamt).testBit j =
      if 64 * b + l ≤ j ∧ j < 64 * b + (l + shamt) then false
      else if 64 * b + (l + shamt) ≤ j ∧ j < 64 * b + (rE + shamt) then m.testBit (j - shamt)
      else m.testBit j := by
  rw [shiftBitmapRight, testBit_shiftRightClear _ _ _ _ _ _ (by omega),
    testBit_shiftRightMove _ _ _ _ _ _ _ (by omega) (by omega)]
  have : rE + shamt - rE = shamt := by omega
  rw [this]
  split_ifs <;> first | rfl | omega

theorem testBit_shiftLeftMove (fuel : Nat) : ∀ (m b l rE d j : Nat), d ≤ l → rE - l ≤ fuel →
    (shiftLeftMove fuel m b l rE d).testBit j =
      if 64 * b + d ≤ j ∧ j + (l - d) < 64 * b + rE then m.testBit (j + (l - d))
      else m.testBit j := by
  induction fuel with
  | zero =>
    intro m b l rE d j h1 h2
    rw [shiftLeftMove, if_neg (by omega)]
  | succ fuel ih =>
    intro m b l rE d j h1 h2
    rw [shiftLeftMove]
    by_cases hl : l < rE
    · rw [if_pos hl]
      dsimp only
      set mv := min (rE - 1 - l) (63 - max (l % 64) (d % 64)) + 1 with hmv
      have hmv0 : 0 < mv := by omega
      have hs : l % 64 + mv ≤ 64 := by omega
      have hd : d % 64 + mv ≤ 64 := by omega
      rw [ih _ _ _ _ _ _ (by omega) (by omega)]
      rw [testBit_chunk _ _ _ _ _ _ hd hmv0 (payload_lt _ _ _ (by omega))]
      rw [testBit_chunk _ _ _ _ _ _ hd hmv0 (payload_lt _ _ _ (by omega))]
      rw [testBit_payload _ _ _ _ _ hs hmv0, testBit_payload _ _ _ _ _ hs hmv0]
      have e0 : l + mv - (d + mv) = l - d := by omega
      rw [e0]
      split_ifs with g1 g2 g3 g4 g5 g6 <;> first | omega | rfl | skip
      all_goals
        have e1 : j - (64 * (b + d / 64) + d % 64) < mv := by omega
        simp only [e1, decide_true, Bool.true_and]
        congr 1; omega
    · rw [if_neg hl, if_neg (by omega)]

theorem testBit_shiftLeftClear (fuel : Nat) : ∀ (m b l rE j : Nat), rE - l ≤ fuel →
    (shiftLeftClear fuel m b l rE).testBit j =
      if 64 * b + l ≤ j ∧ j < 64 * b + rE then false else m.testBit j := by
  induction fuel with
  | zero =>
    intro m b l rE j h2
    rw [shiftLeftClear, if_neg (by omega)]
  | succ fuel ih =>
    intro m b l rE j h2
    rw [shiftLeftClear]
    by_cases hl : l < rE
    · rw [if_pos hl]
      dsimp only
      rw [ih _ _ _ _ _ (by omega), testBit_clear _ _ _ _ _ (by omega) (by omega)]
      split_ifs <;> first | rfl | omega
    · rw [if_neg hl, if_neg (by omega)]

/-- `shift_bitmap_left` moves bits `l .. rE-1` down by `shamt`, clears `rE-shamt .. rE-1` and leaves
everything else. -/
theorem testBit_shiftBitmapLeft (m b l rE shamt j : Nat) (h1 : shamt ≤ l) :
    (shiftBitmapLeft m b l rE shamt).testBit j =
      if 64 * b + (rE - shamt) ≤ j ∧ j < 64 * b + rE then false
      else if 64 * b + (l - shamt) ≤ j ∧ j + shamt < 64 * b + rE then m.testBit (j + shamt)
      else m.testBit j := by
  rw [shiftBitmapLeft, testBit_shiftLeftClear _ _ _ _ _ _ (by omega),
    testBit_shiftLeftMove _ _ _ _ _ _ _ (by omega) (by omega)]
  have : l - (l - shamt) = shamt := by omega
  rw [this]

end Verif
