import Verif.Proof.Mem

/-!
# Writes stay inside a region's block
-/

namespace Verif

/-- The bits behind the last slot are the same in `m'` as in `m`. -/
def Outside (n s m m' : Nat) : Prop := ∀ j, 1088 + n + n * s ≤ j → m'.testBit j = m.testBit j

theorem outside_refl (n s m : Nat) : Outside n s m m := fun _ _ => rfl

section
variable {m m' n s : Nat}

theorem out_setSlot (h : Outside n s m m') {i v : Nat} (hs : s ≤ 57) (hs0 : 0 < s) (hv : v < 2 ^ s) (hi : i < n) :
    Outside n s m (setSlot m' n s i v) := by
  intro j hj
  have := mul_succ_le (s := s) hi
  rw [testBit_setSlot _ _ _ _ _ _ hs hs0 hv, if_neg (by omega), h j hj]

theorem out_setBit1 (h : Outside n s m m') {q : Nat} (hq : q < 1024) : Outside n s m (setBit m' 1 q) := by
  intro j hj
  rw [testBit_setBit, h j hj]
  have : ¬ j = 64 * 1 + q := by omega
  simp [this]

theorem out_setBit17 (h : Outside n s m m') {i : Nat} (hi : i < n) : Outside n s m (setBit m' 17 i) := by
  intro j hj
  rw [testBit_setBit, h j hj]
  have : ¬ j = 64 * 17 + i := by omega
  simp [this]

theorem out_setPop0 (h : Outside n s m m') (v : Nat) : Outside n s m (setPop0 m' v) := fun j hj => by
  rw [testBit_setPop0 _ _ _ (by omega), h j hj]

theorem out_setPop1 (h : Outside n s m m') (v : Nat) : Outside n s m (setPop1 m' v) := fun j hj => by
  rw [testBit_setPop1 _ _ _ (by omega), h j hj]

theorem out_addPop0 (h : Outside n s m m') {v : Nat} : Outside n s m (addPop0 m' v) := out_setPop0 h _
theorem out_addPop1 (h : Outside n s m m') {v : Nat} : Outside n s m (addPop1 m' v) := out_setPop1 h _
theorem out_subPop1 (h : Outside n s m m') {v : Nat} : Outside n s m (subPop1 m' v) := out_setPop1 h _

theorem out_shiftSlotsRight (h : Outside n s m m') {l r : Nat} (hlr : l ≤ r) (hr : r < n) :
    Outside n s m (shiftSlotsRight m' n s l r) := by
  intro j hj
  have h1 := mul_succ_le (s := s) hr
  have h2 := Nat.mul_le_mul_right s hlr
  unfold shiftSlotsRight
  rw [testBit_shiftBitmapRight, if_neg (by omega), if_neg (by omega), h j hj]

theorem out_shiftRunendsRight (h : Outside n s m m') {l r : Nat} (hlr : l ≤ r) (hr : r < n) :
    Outside n s m (shiftRunendsRight m' l r) := by
  intro j hj
  unfold shiftRunendsRight
  rw [testBit_shiftBitmapRight, if_neg (by omega), if_neg (by omega), h j hj]

theorem out_shiftSlotsLeft (h : Outside n s m m') {l r : Nat} (_ : 1 ≤ l) (_ : l ≤ r) (hr : r ≤ n) :
    Outside n s m (shiftSlotsLeft m' n s l r) := by
  intro j hj
  have h1 := Nat.mul_le_mul_right s hr
  have h2 : s ≤ l * s := Nat.le_mul_of_pos_left s (by omega)
  unfold shiftSlotsLeft
  rw [testBit_shiftBitmapLeft _ _ _ _ _ _ (by omega), if_neg (by omega), if_neg (by omega), h j hj]

theorem out_shiftRunendsLeft (h : Outside n s m m') {l r : Nat} (_ : 1 ≤ l) (_ : l ≤ r + 1) (hr : r ≤ n) :
    Outside n s m (shiftRunendsLeft m' l r) := by
  intro j hj
  unfold shiftRunendsLeft
  rw [testBit_shiftBitmapLeft _ _ _ _ _ _ (by omega), if_neg (by omega), if_neg (by omega), h j hj]

end

end Verif
