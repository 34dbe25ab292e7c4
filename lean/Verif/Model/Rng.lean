import Verif.Model.Delete
import Verif.Model.Serial

/-!
# The random number generator and the whole object

`rng_` is a `std::mt19937` (diva.hpp:234). The engine is modelled from its definition in the C++ standard
([rand.eng.mers], with the parameters of [rand.predef]): the state is the window of the last 624 words.
-/

namespace Verif

/-- One step of the initialisation: word `i` from word `i - 1`. -/
def mtInit (x i : Nat) : Nat := (1812433253 * (x ^^^ (x >>> 30)) + i) % 2 ^ 32

/-- `rng_.seed(seed)`, diva.hpp:333, 359, 393, 1408. -/
def mtSeed (seed : Nat) : List Nat :=
  ((List.range 623).foldl (fun w i => mtInit (w.headD 0) (i + 1) :: w) [seed % 2 ^ 32]).reverse

def mtTwist (w : List Nat) : Nat :=
  let y := (w.getD 0 0 &&& 0x80000000) ||| (w.getD 1 0 &&& 0x7fffffff)
  w.getD 397 0 ^^^ (y >>> 1) ^^^ (if y % 2 = 1 then 0x9908b0df else 0)

def mtTemper (z : Nat) : Nat :=
  let z := z ^^^ (z >>> 11)
  let z := z ^^^ ((z <<< 7) &&& 0x9d2c5680)
  let z := z ^^^ ((z <<< 15) &&& 0xefc60000)
  z ^^^ (z >>> 18)

/-- `rng_()`: the number drawn and the new state. -/
def mtDraw (w : List Nat) : Nat × List Nat := (mtTemper (mtTwist w), w.tail ++ [mtTwist w])

/-- A `Diva` object: the filter, `rng_seed_` and `rng_`. -/
structure Diva where
  filter : Filter
  seed : Nat
  rng : List Nat

/-- End of the bulk-loading constructors, diva.hpp:359, 393: the loaded filter with a freshly seeded generator. Bulk
loading draws no numbers. -/
def Diva.start (seed : Nat) (f : Filter) : Diva := ⟨f, seed, mtSeed seed⟩

/-- `Insert`, diva.hpp:443-449: one number is drawn to decide whether the insert splits a region. -/
def Diva.insert (d : Diva) (key : Key) : Res Diva :=
  (Verif.insert d.filter key ((mtDraw d.rng).1 % 1024 == 0)).bind fun f => .ok ⟨f, d.seed, (mtDraw d.rng).2⟩

/-- `Delete`, diva.hpp:1448-1562. -/
def Diva.delete (d : Diva) (key : Key) : Res Diva :=
  (Verif.delete d.filter key).bind fun f => .ok { d with filter := f }

/-- `Serialize`, diva.hpp:1162-1214, with the default load factor. -/
def Diva.save (intOpt : Bool) (d : Diva) : List UInt8 := serialize intOpt d.seed lfBits95 d.filter

/-- The deserialising constructor, diva.hpp:1275-1317: the generator is seeded again (1408). -/
def Diva.restore (intOpt : Bool) (buf : List UInt8) : Res Diva :=
  (deserializeMetadata intOpt buf).bind fun (_, seed, _) =>
  (deserialize intOpt buf).bind fun f => .ok ⟨f, seed, mtSeed seed⟩

end Verif
