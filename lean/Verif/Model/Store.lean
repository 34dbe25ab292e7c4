import Verif.Model.Util

/-!
# InfixStore: one region of the filter

Model of `/repo/include/diva.hpp`, struct `InfixStore` and the functions that work on one store.

Block layout (diva.hpp:2013-2014, 2030, 2118): word 0 holds the two 32-bit counters `popcnts[0]`
and `popcnts[1]`, words 1..16 the `occupieds` bitmap (1024 bits), bits from 1088 on the `runends`
bitmap (one bit per slot) directly followed by the slots of `infix_size_` bits each.
-/

namespace Verif

/-- Scaling tables and infix size of a filter object (diva.hpp:229-239, 405-426).
`sizeScalar` is `size_scalars_`, `exceptionSize` is `exception_scaled_size_`. -/
structure Cfg where
  infixSize : Nat
  sizeScalar : Nat → Nat
  exceptionSize : Nat

/-- `scaled_sizes_[g]`, diva.hpp:410, 417. -/
def Cfg.size (c : Cfg) (g : Nat) : Nat := (1024 * c.sizeScalar g) >>> 15

/-- `implicit_scalars_[i]`, diva.hpp:420-425. The code computes
`(uint64_t)(1024.0 / (i + 512.0) * 2^15)` in doubles; the exact quotient is an integer or at least
`1/1023` away from one, so truncation gives the integer quotient. -/
def implicitScalars (i : Nat) : Nat := 2 ^ 25 / (512 + i)

/-- An `InfixStore`: the 32-bit status word and the block behind `ptr` (diva.hpp:157-162). -/
structure Store where
  status : Nat
  mem : Nat
deriving DecidableEq, Repr

/-- `GetElemCount`, diva.hpp:186-188. -/
def Store.elemCount (st : Store) : Nat := st.status &&& bitmask 20

/-- `SetElemCount`, diva.hpp:190-193 (argument non-negative at all call sites). -/
def Store.setElemCount (st : Store) (n : Nat) : Store :=
  { st with status := ((st.status &&& not64 (bitmask 20)) % 2 ^ 32 ||| n % 2 ^ 32) }

/-- `UpdateElemCount(1)`, diva.hpp:195-197. -/
def Store.incElemCount (st : Store) : Store := { st with status := add32 st.status 1 }

/-- `UpdateElemCount(-1)`, diva.hpp:195-197. -/
def Store.decElemCount (st : Store) : Store := { st with status := sub32 st.status 1 }

/-- `GetSizeGrade`, diva.hpp:199-201. -/
def Store.sizeGrade (st : Store) : Nat := (st.status >>> 20) &&& bitmask 8

/-- `SetSizeGrade`, diva.hpp:203-206. -/
def Store.setSizeGrade (st : Store) (g : Nat) : Store :=
  { st with status :=
      ((st.status &&& not64 (shl64 (bitmask 8) 20)) % 2 ^ 32 ||| (g <<< 20) % 2 ^ 32) }

/-- `GetInvalidBits`, diva.hpp:208-210. -/
def Store.invalidBits (st : Store) : Nat := (st.status >>> 28) &&& 7

/-- `SetInvalidBits`, diva.hpp:212-215. -/
def Store.setInvalidBits (st : Store) (v : Nat) : Store :=
  { st with status :=
      ((st.status &&& not64 (7 <<< 28)) % 2 ^ 32 ||| (v <<< 28) % 2 ^ 32) }

/-- `IsPartialKey`, diva.hpp:217-219. -/
def Store.isPartial (st : Store) : Bool := (st.status >>> 31) != 0

/-- `SetPartialKey`, diva.hpp:221-226. -/
def Store.setPartial (st : Store) (v : Bool) : Store :=
  { st with status :=
      if v then st.status ||| 1 <<< 31 else (st.status &&& not64 (1 <<< 31)) % 2 ^ 32 }

/-- `GetPtrWordCount`, diva.hpp:182-184. -/
def ptrWordCount (slotCount slotSize : Nat) : Nat :=
  1 + (1024 + slotCount * (slotSize + 1) + 63) / 64

/-- Constructor `InfixStore(slot_count, slot_size, size_grade)`, diva.hpp:164-169: fresh zeroed
block. Memory behind the block is unconstrained; theorems never depend on it. -/
def Store.new (g : Nat) : Store := Store.setSizeGrade { status := 0, mem := 0 } g

/-- `size_scalar_shrink_grow_sep`, diva.hpp:95. -/
def growSep : Nat := 55

/-! ## popcnts -/

/-- `popcnts[0]`. -/
def pop0 (m : Nat) : Nat := readBits m 0 32
/-- `popcnts[1]`. -/
def pop1 (m : Nat) : Nat := readBits m 32 32
/-- `popcnts[0] = v`. -/
def setPop0 (m v : Nat) : Nat := writeBits m 0 32 v
/-- `popcnts[1] = v`. -/
def setPop1 (m v : Nat) : Nat := writeBits m 32 32 v
/-- `popcnts[0] += v`. -/
def addPop0 (m v : Nat) : Nat := setPop0 m (add32 (pop0 m) v)
/-- `popcnts[1] += v`. -/
def addPop1 (m v : Nat) : Nat := setPop1 m (add32 (pop1 m) v)
/-- `popcnts[0] -= v`. -/
def subPop0 (m v : Nat) : Nat := setPop0 m (sub32 (pop0 m) v)
/-- `popcnts[1] -= v`. -/
def subPop1 (m v : Nat) : Nat := setPop1 m (sub32 (pop1 m) v)

/-- A C comparison used as a number. -/
def b2n (b : Bool) : Nat := if b then 1 else 0

/-! ## Rank, select, scans -/

/-- The summation loop of `RankOccupieds` and of the popcnt set-up. -/
def popSum (m b : Nat) : Nat → Nat → Nat
  | _, 0 => 0
  | i, k + 1 => popcount (getW m (b + i)) + popSum m b (i + 1) k

/-- `RankOccupieds`, diva.hpp:2010-2021: number of set `occupieds` bits below `pos`. -/
def rankOccupieds (m pos : Nat) : Nat :=
  let cond : Bool := 512 ≤ pos
  let res := if cond then pop0 m else 0
  let start := if cond then 8 else 0
  res + popSum m 1 start (pos / 64 - start) + bitRank (getW m (1 + pos / 64)) (pos % 64)

/-- Loop of `SelectRunends`, diva.hpp:2034-2037; returns `(i, old_total_set_bits)` at loop exit. -/
def selectLoop (m rank totalWords : Nat) : Nat → Nat → Nat → Nat → Nat × Nat
  | 0, i, old, _ => (i, old)
  | fuel + 1, i, old, total =>
    if total ≤ rank ∧ i < totalWords then
      selectLoop m rank totalWords fuel (i + 1) total (total + popcount (getW m (17 + i)))
    else (i, old)

/-- `SelectRunends`, diva.hpp:2024-2040; `n` is `scaled_sizes_[size_grade]`. -/
def selectRunends (m n rank : Nat) : Nat :=
  let totalWords := (n + 63) / 64
  let cond : Bool := pop1 m ≤ rank
  let t0 := if cond then pop1 m else 0
  let i0 := if cond then 8 else 0
  let (i, old) := selectLoop m rank totalWords (totalWords + 1) i0 t0 t0
  (i - 1) * 64 + bitSelect (getW m (17 + (i - 1))) (rank - old)

/-- Loop of `NextOccupied`/`NextRunend`, diva.hpp:2047-2050, 2079-2082. -/
def nextLoop (m b limit : Nat) : Nat → Nat → Nat
  | 0, res => res
  | fuel + 1, res =>
    let lb := lowbitPos (getW m (b + res / 64) &&& not64 (bitmask (res % 64)))
    let res' := res + lb - res % 64
    if lb = 64 ∧ res' < limit then nextLoop m b limit fuel res' else res'

/-- `NextOccupied`, diva.hpp:2043-2052. -/
def nextOccupied (m pos : Nat) : Nat := nextLoop m 1 1024 17 (pos + 1)

/-- `NextRunend`, diva.hpp:2072-2084. -/
def nextRunend (m n pos : Nat) : Nat := nextLoop m 17 n (n / 64 + 2) (pos + 1)

/-- Loop of `PreviousOccupied`/`PreviousRunend`, diva.hpp:2060-2064, 2092-2096. For `res = -1` the
C code masks with `BITMASK(0) = 0`, finds no bit, keeps `res = -1` and leaves the loop. -/
def prevLoop (m b : Nat) : Nat → Int → Int
  | fuel + 1, .ofNat r =>
    let off := r % 64
    let hb := highbitPos (getW m (b + r / 64) &&& bitmask (off + 1))
    if hb = -1 then prevLoop m b fuel (r - off - 1) else r - off + hb
  | 0, res => res
  | _, .negSucc k => .negSucc k

/-- `PreviousOccupied`, diva.hpp:2055-2069. -/
def previousOccupied (m pos : Nat) : Int := prevLoop m 1 (pos / 64 + 1) ((pos : Int) - 1)

/-- `PreviousRunend`, diva.hpp:2087-2101. -/
def previousRunend (m pos : Nat) : Int := prevLoop m 17 (pos / 64 + 1) ((pos : Int) - 1)

/-- `GetMappedPos`, diva.hpp:2104-2111 (`n = scaled_sizes_[size_grade]`). -/
def getMappedPos (c : Cfg) (implicitPart g implicitScalar : Nat) : Nat :=
  let res := (((implicitPart * c.sizeScalar g * implicitScalar) % 2 ^ 64) >>> 30) % 2 ^ 32
  min ((c.size g - 1) % 2 ^ 32) res

/-- `GetSlot`, diva.hpp:2114-2123, with `n = scaled_sizes_[size_grade]`, `s = infix_size_`. -/
def getSlot (m n s pos : Nat) : Nat :=
  let bitPos := 64 + 1024 + n + pos * s
  shr64 (readBits m (8 * (bitPos / 8)) 64) (bitPos % 8) &&& bitmask s

/-- `SetSlot` (both overloads), diva.hpp:2126-2154, slot width `s`. -/
def setSlot (m n s pos value : Nat) : Nat :=
  let bitPos := 64 + 1024 + n + pos * s
  let stamp := readBits m (8 * (bitPos / 8)) 64
  let stamp1 := stamp &&& not64 (shl64 (bitmask s) (bitPos % 8))
  let stamp2 := stamp1 ||| shl64 value (bitPos % 8)
  writeBits m (8 * (bitPos / 8)) 64 stamp2

/-- `ShiftSlotsRight(store, l, r, 1)`, diva.hpp:2157-2172 (variant without `NAIVE_SLOT_SHIFT`). -/
def shiftSlotsRight (m n s l r : Nat) : Nat :=
  shiftBitmapRight m 0 (64 + 1024 + n + l * s) (64 + 1024 + n + r * s) s

/-- `ShiftSlotsLeft(store, l, r, 1)`, diva.hpp:2175-2188. -/
def shiftSlotsLeft (m n s l r : Nat) : Nat :=
  shiftBitmapLeft m 0 (64 + 1024 + n + l * s) (64 + 1024 + n + r * s) s

/-- `ShiftRunendsRight(store, l, r, 1)`, diva.hpp:2191-2196. -/
def shiftRunendsRight (m l r : Nat) : Nat := shiftBitmapRight m 17 l r 1

/-- `ShiftRunendsLeft(store, l, r, 1)`, diva.hpp:2199-2204. -/
def shiftRunendsLeft (m l r : Nat) : Nat := shiftBitmapLeft m 17 l r 1

/-- Loop of `FindEmptySlotAfter`, diva.hpp:2212-2214. -/
def findEmptyAfterLoop (m n s : Nat) : Nat → Nat → Nat
  | 0, cur => cur
  | fuel + 1, cur =>
    if cur < n ∧ getSlot m n s (cur + 1) ≠ 0 then
      findEmptyAfterLoop m n s fuel (nextRunend m n cur)
    else cur

/-- `FindEmptySlotAfter`, diva.hpp:2207-2216. -/
def findEmptySlotAfter (m n s pos : Nat) : Nat := findEmptyAfterLoop m n s (n + 1) pos + 1

/-- First loop of `FindEmptySlotBefore`, diva.hpp:2223-2226; returns `(previous_pos, current_pos)`. -/
def findEmptyBeforeRuns (m n s : Nat) : Nat → Nat → Nat × Int
  | 0, cur => (cur, -1)
  | fuel + 1, cur =>
    match previousRunend m cur with
    | .ofNat p =>
      if getSlot m n s (p + 1) ≠ 0 then findEmptyBeforeRuns m n s fuel p else (cur, .ofNat p)
    | .negSucc k => (cur, .negSucc k)

/-- Second loop of `FindEmptySlotBefore`, diva.hpp:2228-2231, entered with `previous_pos = prev`. -/
def findEmptyBeforeScan (m n s : Nat) (cur : Int) : Nat → Int
  | 0 => -1
  | prev + 1 =>
    if cur < (prev : Int) ∧ getSlot m n s prev ≠ 0 then findEmptyBeforeScan m n s cur prev
    else (prev : Int)

/-- `FindEmptySlotBefore`, diva.hpp:2219-2231 (the code after line 2231 is unreachable). -/
def findEmptySlotBefore (m n s pos : Nat) : Int :=
  let (prev, cur) := findEmptyBeforeRuns m n s (pos + 1) pos
  findEmptyBeforeScan m n s cur prev

/-! ## Lists in and out of a store -/

/-- Loop of `GetInfixList`, diva.hpp:2839-2849: `k` slots remain, `i` is the current one. -/
def getListLoop (m n s : Nat) : Nat → Nat → Nat → List Nat
  | 0, _, _ => []
  | k + 1, i, implicitPart =>
    let explicitPart := getSlot m n s i
    let next := if getBit m 17 i ≠ 0 then nextOccupied m implicitPart else implicitPart
    if explicitPart ≠ 0 then
      (shl64 implicitPart s ||| explicitPart) :: getListLoop m n s k (i + 1) next
    else getListLoop m n s k (i + 1) next

/-- `GetInfixList`, diva.hpp:2831-2881. -/
def getInfixList (c : Cfg) (st : Store) : List Nat :=
  let n := c.size st.sizeGrade
  let start := if getW st.mem 1 &&& 1 ≠ 0 then 0 else nextOccupied st.mem 0
  getListLoop st.mem n c.infixSize n 0 start

/-- Forward pass of `LoadListToInfixStore`, diva.hpp:2744-2756: slot interval `[l, r)` per run. -/
def loadForward (s : Nat) (mapped : Nat → Nat) : Nat → Int → Int → List Nat → List (Int × Int)
  | _, l, r, [] => [(l, r)]
  | old, l, r, x :: xs =>
    let q := x >>> s
    if q ≠ old then
      let l' := max r (mapped q : Int)
      (l, r) :: loadForward s mapped q l' (l' + 1) xs
    else loadForward s mapped q l (r + 1) xs

/-- Backward pass, diva.hpp:2758-2764: move runs left so that they end inside the slot array. -/
def loadBackward (total : Int) : List (Int × Int) → List (Int × Int)
  | [] => []
  | (l, r) :: rest =>
    let rest' := loadBackward total rest
    let nextL := match rest' with
      | [] => total
      | (l', _) :: _ => l'
    let diff := min 0 (nextL - r)
    (l + diff, r + diff) :: rest'

/-- Inner writing loop for one run, diva.hpp:2768-2778: `k` items from slot `j` on. -/
def loadWriteRun (n s : Nat) : Nat → Nat → Nat → List Nat → Nat × List Nat
  | m, _, 0, list => (m, list)
  | m, _, _, [] => (m, [])
  | m, j, k + 1, x :: xs =>
    let m1 := setBit m 1 (x >>> s)
    let m2 := setSlot m1 n s j (x &&& bitmask s)
    loadWriteRun n s m2 (j + 1) k xs

/-- Writing loop, diva.hpp:2766-2780. -/
def loadWrite (n s : Nat) : Nat → List (Int × Int) → List Nat → Nat
  | m, [], _ => m
  | m, (l, r) :: runs, list =>
    let (m1, rest) := loadWriteRun n s m l.toNat (r - l).toNat list
    let m2 := setBit m1 17 (r - 1).toNat
    loadWrite n s m2 runs rest

/-- Popcount set-up for `popcnts[1]`, diva.hpp:2796-2799. -/
def runendPop (m n : Nat) : Nat → Nat → Nat
  | _, 0 => 0
  | i, k + 1 =>
    (if 64 * i < n then popcount (getW m (17 + i) &&& bitmask (min 64 (n - i * 64))) else 0)
      + runendPop m n (i + 1) k

/-- `LoadListToInfixStore`, diva.hpp:2711-2815. With `zero_out` the block is cleared first
(`Reset`, diva.hpp:178-180); the model clears the whole memory, the block included. -/
def loadList (c : Cfg) (st : Store) (list : List Nat) (totalImplicit : Nat) (zeroOut : Bool) :
    Store :=
  let g := st.sizeGrade
  let n := c.size g
  let s := c.infixSize
  let isc := implicitScalars (totalImplicit - 512)
  let m0 := if zeroOut then 0 else st.mem
  let st1 := { st with mem := m0 }.setElemCount list.length
  match list with
  | [] => st1
  | x0 :: _ =>
    let mapped := fun q => getMappedPos c q g isc
    let q0 := x0 >>> s
    let runs := loadBackward n (loadForward s mapped q0 (mapped q0) (mapped q0) list)
    let m1 := loadWrite n s st1.mem runs list
    let m2 := addPop0 m1 (popSum m1 1 0 8)
    let m3 := addPop1 m2 (runendPop m2 n 0 8)
    { st1 with mem := m3 }

/-- First grade in `[g, g + k)` with `scaled_sizes_[g] >= len` (`g + k` if none): the loop at
diva.hpp:2824 and `std::lower_bound` on the sorted table, diva.hpp:1810, 1894, 1989. -/
def findGrade (c : Cfg) (len : Nat) : Nat → Nat → Nat
  | 0, g => g
  | k + 1, g => if c.size g < len then findGrade c len k (g + 1) else g

/-- `AllocateInfixStoreWithList`, diva.hpp:2818-2828. -/
def allocWithList (c : Cfg) (list : List Nat) (totalImplicit : Nat) : Store :=
  let scaledLen := (((c.sizeScalar growSep * list.length) % 2 ^ 64) >>> 15) % 2 ^ 32
  let g := findGrade c scaledLen 500 0
  loadList c (Store.new g) list totalImplicit false

/-- `ResizeInfixStore`, diva.hpp:2664-2681. -/
def resizeStore (c : Cfg) (st : Store) (expand : Bool) (totalImplicit : Nat) : Store :=
  let list := getInfixList c st
  let g := st.sizeGrade
  let g' := if expand then g + 1 else g - 1
  loadList c (st.setSizeGrade g') list totalImplicit true

/-! ## Insert -/

/-- `x & -x`. -/
def lb64 (x : Nat) : Nat := x &&& neg64 x

/-- `x - (x & -x)`. -/
def nolb64 (x : Nat) : Nat := sub64 x (lb64 x)

/-- Binary search of `InsertRawIntoInfixStore`, diva.hpp:2286-2295; returns `r`. -/
def insertSearch (m n s explicitPart : Nat) : Nat → Int → Int → Int
  | 0, _, r => r
  | fuel + 1, l, r =>
    if r - l > 1 then
      let mid := (l + r) / 2
      if nolb64 (getSlot m n s mid.toNat) ≤ sub64 explicitPart 1 then
        insertSearch m n s explicitPart fuel mid r
      else insertSearch m n s explicitPart fuel l mid
    else r

/-- Branch of `InsertRawIntoInfixStore` for a free home slot, diva.hpp:2272-2277. -/
def insertFree (m n s q mapped explicitPart : Nat) : Nat :=
  let m1 := setSlot m n s mapped explicitPart
  let m2 := setBit m1 17 mapped
  let m3 := addPop0 m2 (b2n (q < 512))
  addPop1 m3 (b2n (mapped < 512))

/-- Branch for an occupied quotient, diva.hpp:2278-2312. -/
def insertOccupied (m n s mapped keyRank explicitPart : Nat) : Nat :=
  let runendPos := selectRunends m n keyRank
  let nextEmpty := findEmptySlotAfter m n s mapped
  let previousEmpty := findEmptySlotBefore m n s mapped
  let l := max (previousRunend m runendPos) previousEmpty
  let r := (insertSearch m n s explicitPart (runendPos + 3) l ((runendPos : Int) + 1)).toNat
  if nextEmpty < n then
    let m1 := shiftSlotsRight m n s r nextEmpty
    let m2 := shiftRunendsRight m1 runendPos nextEmpty
    let m3 := if runendPos < 512 ∧ 512 ≤ nextEmpty then subPop1 m2 (getBit m2 17 512) else m2
    setSlot m3 n s r explicitPart
  else
    let pe1 := (previousEmpty + 1).toNat
    let m1 := shiftSlotsLeft m n s pe1 r
    let m2 := if pe1 ≤ 512 ∧ 512 < min runendPos r then addPop1 m1 (getBit m1 17 512) else m1
    let m3 := shiftRunendsLeft m2 pe1 (min runendPos r)
    setSlot m3 n s (r - 1) explicitPart

/-- Branch for a new quotient whose home slot is taken, diva.hpp:2313-2340. -/
def insertNewRun (m n s q mapped keyRank explicitPart : Nat) : Nat :=
  let runendPos : Int := if keyRank = 0 then -1 else (selectRunends m n (keyRank - 1) : Int)
  let nextEmpty := findEmptySlotAfter m n s mapped
  let m' :=
    if nextEmpty < n then
      let shiftStart := (max (runendPos + 1) (mapped : Int)).toNat
      let m1 := shiftSlotsRight m n s shiftStart nextEmpty
      let m2 := shiftRunendsRight m1 shiftStart nextEmpty
      let m3 := if shiftStart < 512 ∧ 512 ≤ nextEmpty then subPop1 m2 (getBit m2 17 512) else m2
      let m4 := setSlot m3 n s shiftStart explicitPart
      let m5 := setBit m4 17 shiftStart
      addPop1 m5 (b2n (shiftStart < 512))
    else
      let previousEmpty := findEmptySlotBefore m n s mapped
      let targetPos := (max runendPos previousEmpty).toNat
      let pe1 := (previousEmpty + 1).toNat
      let m1 := shiftSlotsLeft m n s pe1 (targetPos + 1)
      let m2 := if pe1 ≤ 512 ∧ 512 < targetPos + 1 then addPop1 m1 (getBit m1 17 512) else m1
      let m3 := shiftRunendsLeft m2 pe1 (targetPos + 1)
      let m4 := setSlot m3 n s targetPos explicitPart
      let m5 := setBit m4 17 targetPos
      addPop1 m5 (b2n (targetPos < 512))
  addPop0 m' (b2n (q < 512))

/-- `InsertRawIntoInfixStore` after the growth check, diva.hpp:2257-2342. -/
def insertPlace (c : Cfg) (st : Store) (key totalImplicit : Nat) : Store :=
  let g := st.sizeGrade
  let n := c.size g
  let s := c.infixSize
  let q := key >>> s
  let e := key &&& bitmask s
  let isc := implicitScalars (totalImplicit - 512)
  let mapped := getMappedPos c q g isc
  let m := st.mem
  let keyRank := rankOccupieds m q
  let isOcc : Bool := getBit m 1 q != 0
  let m' :=
    if isOcc = false ∧ getSlot m n s mapped = 0 then insertFree m n s q mapped e
    else if isOcc then insertOccupied m n s mapped keyRank e
    else insertNewRun m n s q mapped keyRank e
  { st with mem := setBit m' 1 q }.incElemCount

/-- `InsertRawIntoInfixStore`, diva.hpp:2245-2370 (DEBUG blocks omitted). -/
def insertRaw (c : Cfg) (st : Store) (key totalImplicit : Nat) : Store :=
  let g := st.sizeGrade
  let limit := if g ≠ 0 then c.size (g - 1) else c.exceptionSize
  let st1 := if limit ≤ st.elemCount then resizeStore c st true totalImplicit else st
  insertPlace c st1 key totalImplicit

/-! ## Queries -/

/-- Start of the run that ends at `runendPos`, diva.hpp:2396-2397, 2547-2548, 2589-2590. -/
def runStart (m n s rank runendPos : Nat) : Nat :=
  let a : Int := if rank ≠ 0 then (selectRunends m n (rank - 1) : Int) else -1
  (max a (findEmptySlotBefore m n s runendPos) + 1).toNat

/-- Scan of one run from its end downwards, the do-while loops at diva.hpp:2600-2606, 2623-2630,
2652-2659: is there a slot with property `p`? `pos` is the current slot. -/
def scanRun (m n s : Nat) (p : Nat → Bool) : Nat → Bool
  | 0 => p (getSlot m n s 0)
  | pos + 1 =>
    if p (getSlot m n s (pos + 1)) then true
    else if getSlot m n s pos ≠ 0 ∧ getBit m 17 pos = 0 then scanRun m n s p pos
    else false

/-- Match test of `PointQueryInfixStore`, diva.hpp:2653-2654. -/
def pointMatch (explicitPart slot : Nat) : Bool :=
  let mask := sub64 (shl64 (lb64 slot) 1) 1
  (explicitPart ||| mask) == (slot ||| mask)

/-- `PointQueryInfixStore`, diva.hpp:2635-2661. -/
def pointQueryStore (c : Cfg) (st : Store) (key : Nat) : Bool :=
  let n := c.size st.sizeGrade
  let s := c.infixSize
  let m := st.mem
  let q := key >>> s
  let e := key &&& bitmask s
  if getBit m 1 q = 0 then false
  else
    let rank := rankOccupieds m q
    let runendPos := selectRunends m n rank
    scanRun m n s (pointMatch e) runendPos

/-- `l_explicit_part <= (slot_value | (slot_value - 1))`, diva.hpp:2601, 2624. -/
def leftReach (le slot : Nat) : Bool := le ≤ (slot ||| sub64 slot 1)

/-- `slot_value - (slot_value & -slot_value) <= r_explicit_part`, diva.hpp:2592, 2625. -/
def rightReach (re slot : Nat) : Bool := nolb64 slot ≤ re

/-- `RangeQueryInfixStore`, diva.hpp:2572-2632. -/
def rangeQueryStore (c : Cfg) (st : Store) (lKey rKey : Nat) : Bool :=
  let n := c.size st.sizeGrade
  let s := c.infixSize
  let m := st.mem
  let lq := lKey >>> s
  let le := lKey &&& bitmask s
  let rq := rKey >>> s
  let re := rKey &&& bitmask s
  if lq < rq then
    if nextOccupied m lq < rq then true
    else
      let rHit : Bool :=
        if getBit m 1 rq ≠ 0 then
          let rank := rankOccupieds m rq
          let runendPos := selectRunends m n rank
          rightReach re (getSlot m n s (runStart m n s rank runendPos))
        else false
      if rHit then true
      else if getBit m 1 lq ≠ 0 then
        let rank := rankOccupieds m lq
        scanRun m n s (leftReach le) (selectRunends m n rank)
      else false
  else
    if getBit m 1 lq = 0 then false
    else
      let rank := rankOccupieds m lq
      scanRun m n s (fun v => leftReach le v && rightReach re v) (selectRunends m n rank)

/-! ## Delete -/

/-- Binary search of `DeleteRawFromInfixStore` / `GetLongestMatchingInfixSize`,
diva.hpp:2400-2409, 2551-2560; returns `l`. The code compares the slot with the whole `key`, not
only with its explicit part. -/
def deleteSearch (m n s key : Nat) : Nat → Int → Int → Int
  | 0, l, _ => l
  | fuel + 1, l, r =>
    if r - l > 1 then
      let mid := (l + r) / 2
      if nolb64 (getSlot m n s mid.toNat) ≤ sub64 key 1 then deleteSearch m n s key fuel mid r
      else deleteSearch m n s key fuel l mid
    else l

/-- Downward search for a matching slot, diva.hpp:2410-2416, 2561-2567: `k` candidates remain, the
current one is `runstart + k - 1`; −1 offset result is `runstart - 1` when nothing matches. -/
def matchDown (m n s explicitPart : Nat) (runstart : Nat) : Nat → Int
  | 0 => (runstart : Int) - 1
  | k + 1 =>
    if pointMatch explicitPart (getSlot m n s (runstart + k)) then (runstart + k : Nat)
    else matchDown m n s explicitPart runstart k

/-- Loop at diva.hpp:2428-2440. State: `cur_runend`, `cur_occupied`, `shift_end`; returns
`(found_empty_right, prev_runend, shift_end)`. -/
def deleteRightLoop (c : Cfg) (m n s g isc : Nat) : Nat → Nat → Nat → Nat → Int → Bool × Nat × Int
  | 0, _, _, prev, shiftEnd => (false, prev, shiftEnd)
  | fuel + 1, curRunend, curOcc, prev, shiftEnd =>
    if curRunend < n then
      let prev' := curRunend
      if prev' + 1 < n ∧ getSlot m n s (prev' + 1) = 0 then (true, prev', shiftEnd)
      else
        let curRunend' := nextRunend m n curRunend
        let curOcc' := nextOccupied m curOcc
        let mapped := getMappedPos c curOcc' g isc
        let shiftEnd' : Int := if shiftEnd = -1 ∧ mapped ≥ prev' + 1 then (prev' : Int) else shiftEnd
        deleteRightLoop c m n s g isc fuel curRunend' curOcc' prev' shiftEnd'
    else (false, prev, shiftEnd)

/-- Loop at diva.hpp:2446-2458. Returns `(cur_runend, cur_occupied, shift_start)`. -/
def deleteLeftLoop (c : Cfg) (m n s g isc : Nat) : Nat → Int → Nat → Int → Int → Int × Int × Int
  | 0, curRunend, _, curOcc, shiftStart => (curRunend, curOcc, shiftStart)
  | fuel + 1, curRunend, prevRunend, curOcc, shiftStart =>
    if 0 ≤ curRunend then
      let mapped := getMappedPos c curOcc.toNat g isc
      if getSlot m n s (curRunend.toNat + 1) = 0 then
        let runstart := findEmptySlotBefore m n s prevRunend + 1
        (curRunend, curOcc, if (mapped : Int) > runstart then runstart else shiftStart)
      else
        let shiftStart' := if (mapped : Int) > curRunend + 1 then curRunend + 1 else shiftStart
        deleteLeftLoop c m n s g isc fuel (previousRunend m curRunend.toNat) curRunend.toNat
          (previousOccupied m curOcc.toNat) shiftStart'
    else (curRunend, curOcc, shiftStart)

/-- `DeleteRawFromInfixStore` after the shrink check, diva.hpp:2382-2508. Comparisons of the signed
`match_pos` with the unsigned 512 are unsigned in C++; a negative value counts as large. -/
def deletePlace (c : Cfg) (st : Store) (key totalImplicit : Nat) : Store :=
  let g := st.sizeGrade
  let n := c.size g
  let s := c.infixSize
  let q := key >>> s
  let e := key &&& bitmask s
  let isc := implicitScalars (totalImplicit - 512)
  let m := st.mem
  let rank := rankOccupieds m q
  let runendPos := selectRunends m n rank
  let rs := runStart m n s rank runendPos
  let runDestroyed : Bool := rs == runendPos
  let l := deleteSearch m n s key (runendPos + 3) ((rs : Int) - 1) ((runendPos : Int) + 1)
  let matchPos := matchDown m n s e rs (l + 1 - rs).toNat
  let (foundRight, prevRunend, shiftEnd0) := deleteRightLoop c m n s g isc (n + 1) runendPos q runendPos (-1)
  let shiftEnd : Int := if shiftEnd0 = -1 then (prevRunend : Int) else shiftEnd0
  let shiftStart : Int :=
    if foundRight then -1
    else
      let (curRunend, curOcc, ss) :=
        deleteLeftLoop c m n s g isc (n + 1) (previousRunend m runendPos) runendPos q (-1)
      if curRunend < 0 then
        let mapped := getMappedPos c curOcc.toNat g isc
        let fe := findEmptySlotBefore m n s runendPos
        -- `int32_t < uint32_t` compares unsigned, so a negative `fe` is never smaller
        if 0 ≤ fe ∧ fe < (mapped : Int) then fe else ss
      else ss
  let m' :=
    if shiftStart = -1 then
      let m1 := if 0 ≤ matchPos ∧ matchPos ≤ 512 ∧ 512 < shiftEnd + 1 then
          addPop1 m (getBit m 17 512) else m
      let m2 := shiftSlotsLeft m1 n s (matchPos + 1).toNat (shiftEnd + 1).toNat
      let m3 := shiftRunendsLeft m2 (matchPos + 1).toNat (shiftEnd + 1).toNat
      let m4 := if matchPos = shiftEnd then
          resetBit (setSlot m3 n s matchPos.toNat 0) 17 matchPos.toNat else m3
      if runDestroyed = false then setBit m4 17 (runendPos - 1)
      else subPop1 m4 (b2n (runendPos ≤ 512))
    else
      let m1 := shiftSlotsRight m n s shiftStart.toNat matchPos.toNat
      let m2 := shiftRunendsRight m1 shiftStart.toNat matchPos.toNat
      let m3 := if matchPos = shiftStart then
          let m3' := setSlot m2 n s matchPos.toNat 0
          if runDestroyed then resetBit m3' 17 runendPos else m3'
        else m2
      let m4 := if shiftStart < 512 ∧ (512 ≤ matchPos ∨ matchPos < 0) then
          subPop1 m3 (getBit m3 17 512) else m3
      if runDestroyed = false then setBit m4 17 runendPos
      else subPop1 m4 (b2n (runendPos < 512))
  let m'' := if runDestroyed then subPop0 (resetBit m' 1 q) (b2n (q < 512)) else m'
  { st with mem := m'' }.decElemCount

/-- `DeleteRawFromInfixStore`, diva.hpp:2373-2531 (DEBUG blocks omitted). -/
def deleteRaw (c : Cfg) (st : Store) (key totalImplicit : Nat) : Store :=
  let g := st.sizeGrade
  let limit := if g > 1 then c.size (g - 2) else c.exceptionSize
  let st1 := if g > 0 ∧ st.elemCount ≤ limit then resizeStore c st false totalImplicit else st
  deletePlace c st1 key totalImplicit

/-- `GetLongestMatchingInfixSize`, diva.hpp:2534-2569. -/
def longestMatch (c : Cfg) (st : Store) (key : Nat) : Nat :=
  let n := c.size st.sizeGrade
  let s := c.infixSize
  let m := st.mem
  let q := key >>> s
  let e := key &&& bitmask s
  if getBit m 1 q = 0 then 0
  else
    let rank := rankOccupieds m q
    let runendPos := selectRunends m n rank
    let rs := runStart m n s rank runendPos
    let l := deleteSearch m n s key (runendPos + 3) ((rs : Int) - 1) ((runendPos : Int) + 1)
    let mp := matchDown m n s e rs (l + 1 - rs).toNat
    if mp < (rs : Int) then 0 else s - lowbitPos (getSlot m n s mp.toNat)

/-! ## Shrinking the infix size -/

/-- Slot loop of `ShrinkInfixStoreInfixSize`, diva.hpp:2698-2705. `n` is the size of the old store,
`nNew` the offset size used by `SetSlot` on the new store. -/
def shrinkLoop (old n nNew s s' : Nat) : Nat → Nat → Nat → Nat
  | 0, _, m => m
  | k + 1, i, m =>
    let v := getSlot old n s i
    let m' := if v ≠ 0 then
        setSlot m nNew s' i ((v >>> (s - s')) ||| (if s > s' + lowbitPos v then 1 else 0))
      else m
    shrinkLoop old n nNew s s' k (i + 1) m'

/-- `ShrinkInfixStoreInfixSize`, diva.hpp:2684-2708. The new block belongs to a store object whose
size grade is the constructor's default 55, whatever the grade of `store`. -/
def shrinkStore (c : Cfg) (st : Store) (s' : Nat) : Store :=
  let n := c.size st.sizeGrade
  let newStore := Store.new growSep
  let total := 64 + 1024 + n
  let bytes := (total + 7) / 8
  let m0 := writeBits newStore.mem 0 (8 * bytes) (readBits st.mem 0 (8 * bytes))
  let m1 := writeBits m0 (8 * (bytes - 1)) 8
    (readBits m0 (8 * (bytes - 1)) 8 &&& bitmask (total % 8))
  let m2 := shrinkLoop st.mem n (c.size newStore.sizeGrade) c.infixSize s' n 0 m1
  { st with mem := m2 }

end Verif
