import Verif.Model.Key

/-!
# Key comparison and leaf search of the integer tree

Only the comparison and the binary search inside one sorted leaf; the leaves are in Verif/Model/WhTree.lean, the descent
to the leaf in Verif/Model/WhMeta.lean.
-/

namespace Verif

/-- The 64-bit value under which the integer tree stores and looks up a key, wh_int.c:1429, 1451 and
74-78: the bytes of the key, zero padded, most significant first. Keys have at most eight bytes. -/
def intKeyVal (k : Key) : Nat := beWord k 0

/-- `compare_int_isp` and `compare_isp_isp`, wh_int.c:126-135, 144-155. -/
def compareInt (a : Nat) (alen : Nat) (b : Nat) (blen : Nat) : Int :=
  if a ≠ b then (if a < b then -1 else 1)
  else if alen = blen then 0
  else if alen < blen then -1 else 1

/-- Comparison of two keys of at most eight bytes in the integer tree. -/
def compareKeys (a b : Key) : Int := compareInt (intKeyVal a) a.length (intKeyVal b) b.length

/-- `wormleaf_int_search`, wh_int.c:1446-1463: binary search in a sorted leaf. -/
def leafSearchLoop (leaf : List Key) (key : Key) : Nat → Int → Int → Int
  | 0, _, hi => hi
  | fuel + 1, lo, hi =>
    if hi - lo > 1 then
      let i := (lo + hi) / 2
      if compareKeys key (leaf.getD i.toNat []) ≤ 0 then leafSearchLoop leaf key fuel lo i
      else leafSearchLoop leaf key fuel i hi
    else hi

def leafSearch (leaf : List Key) (key : Key) : Nat :=
  (leafSearchLoop leaf key (leaf.length + 1) (-1) leaf.length).toNat

end Verif
