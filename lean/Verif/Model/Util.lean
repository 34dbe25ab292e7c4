import Verif.Model.Word

/-!
# util.hpp

A bitmap pointer `ptr + b` into a region's block is the pair of the block `m` and the word index
`b`. Loops are structural recursions on a fuel argument; the callers pass at least the number of
iterations the loop can make.
-/

namespace Verif

/-- `bit_select` with BMI2, util.hpp:141-149: position of the `i`-th set bit (0-based), 64 if none.
`i` is a shift count (`1ULL << i`). -/
def bitSelect (val i : Nat) : Nat := tzcnt (pdep (shl64 1 i) val)

/-- `bit_rank`, util.hpp:152-155. -/
def bitRank (val i : Nat) : Nat := popcount (val &&& bitmask i)

/-- `lowbit_pos`, util.hpp:158-161. -/
def lowbitPos (val : Nat) : Nat := tzcnt val

/-- `highbit_pos`, util.hpp:164-167: −1 for zero. -/
def highbitPos (val : Nat) : Int := 64 - (lzcnt val : Int) - 1

/-- `set_bitmap_bit`, util.hpp:170-173. -/
def setBit (m b pos : Nat) : Nat :=
  putW m (b + pos / 64) (getW m (b + pos / 64) ||| shl64 1 (pos % 64))

/-- `reset_bitmap_bit`, util.hpp:176-179. -/
def resetBit (m b pos : Nat) : Nat :=
  putW m (b + pos / 64) (getW m (b + pos / 64) &&& not64 (shl64 1 (pos % 64)))

/-- `get_bitmap_bit`, util.hpp:182-185. -/
def getBit (m b pos : Nat) : Nat := shr64 (getW m (b + pos / 64)) (pos % 64) &&& 1

/-- First loop of `shift_bitmap_right`, util.hpp:210-223. `rE`, `dE` are `r_src_bit_pos + 1` and
`dst_bit_pos + 1`, so that the loop variables stay natural numbers. -/
def shiftRightMove : Nat → Nat → Nat → Nat → Nat → Nat → Nat
  | 0, m, _, _, _, _ => m
  | fuel + 1, m, b, l, rE, dE =>
    if l < rE then
      let r := rE - 1
      let d := dE - 1
      let srcOff := r % 64
      let dstOff := d % 64
      let mv := min (r - l) (min srcOff dstOff) + 1
      let mask := bitmask mv
      let payload := shr64 (getW m (b + r / 64)) (srcOff + 1 - mv) &&& mask
      let m1 := putW m (b + d / 64) (getW m (b + d / 64) &&& not64 (shl64 mask (dstOff + 1 - mv)))
      let m2 := putW m1 (b + d / 64) (getW m1 (b + d / 64) ||| shl64 payload (dstOff + 1 - mv))
      shiftRightMove fuel m2 b l (rE - mv) (dE - mv)
    else m

/-- Second loop of `shift_bitmap_right`, util.hpp:226-232 (clears bits `l .. rE - 1`). -/
def shiftRightClear : Nat → Nat → Nat → Nat → Nat → Nat
  | 0, m, _, _, _ => m
  | fuel + 1, m, b, l, rE =>
    if l < rE then
      let r := rE - 1
      let off := r % 64
      let er := min (r - l) off + 1
      let m1 := putW m (b + r / 64)
        (getW m (b + r / 64) &&& not64 (shl64 (bitmask er) (off + 1 - er)))
      shiftRightClear fuel m1 b l (rE - er)
    else m

/-- `shift_bitmap_right(ptr, l, r, shamt)`, util.hpp:205-233; `rE` is `r + 1`. -/
def shiftBitmapRight (m b l rE shamt : Nat) : Nat :=
  shiftRightClear shamt (shiftRightMove (rE - l) m b l rE (rE + shamt)) b l (l + shamt)

/-- First loop of `shift_bitmap_left`, util.hpp:241-254; `rE` is `r_src_bit_pos + 1`. -/
def shiftLeftMove : Nat → Nat → Nat → Nat → Nat → Nat → Nat
  | 0, m, _, _, _, _ => m
  | fuel + 1, m, b, l, rE, d =>
    if l < rE then
      let srcOff := l % 64
      let dstOff := d % 64
      let mv := min (rE - 1 - l) (63 - max srcOff dstOff) + 1
      let mask := bitmask mv
      let payload := shr64 (getW m (b + l / 64)) srcOff &&& mask
      let m1 := putW m (b + d / 64) (getW m (b + d / 64) &&& not64 (shl64 mask dstOff))
      let m2 := putW m1 (b + d / 64) (getW m1 (b + d / 64) ||| shl64 payload dstOff)
      shiftLeftMove fuel m2 b (l + mv) rE (d + mv)
    else m

/-- Second loop of `shift_bitmap_left`, util.hpp:257-263 (clears bits `l .. rE - 1`). -/
def shiftLeftClear : Nat → Nat → Nat → Nat → Nat → Nat
  | 0, m, _, _, _ => m
  | fuel + 1, m, b, l, rE =>
    if l < rE then
      let off := l % 64
      let er := min (rE - 1 - l) (63 - off) + 1
      let m1 := putW m (b + l / 64) (getW m (b + l / 64) &&& not64 (shl64 (bitmask er) off))
      shiftLeftClear fuel m1 b (l + er) rE
    else m

/-- `shift_bitmap_left(ptr, l, r, shamt)`, util.hpp:236-264; `rE` is `r + 1`. The code requires
`shamt <= l` and `shamt <= rE` (otherwise it would address negative bit positions). -/
def shiftBitmapLeft (m b l rE shamt : Nat) : Nat :=
  shiftLeftClear shamt (shiftLeftMove (rE - l) m b l rE (l - shamt)) b (rE - shamt) rE

end Verif
