import Verif.Spec.Cap

/-!
# Specification of one region

A region stores a sorted list of items. An item is a number below `T * 2 ^ s`; the position of its lowest set
bit says how many bits of a key it keeps: it stands for the interval of numbers from `itemLo` to `itemHi`.
-/

namespace Verif

/-- Largest power of two that divides a positive 64-bit number. -/
def lowbit (x : Nat) : Nat := Nat.gcd x (2 ^ 64)

/-- Ends of the interval of an item. -/
def itemLo (x : Nat) : Nat := x - lowbit x
def itemHi (x : Nat) : Nat := x + lowbit x - 1

/-- Items are sorted by left end, longer intervals first. -/
def ItemLe (x y : Nat) : Prop := itemLo x < itemLo y ∨ (itemLo x = itemLo y ∧ itemHi y ≤ itemHi x)

/-- A list of items for a region with `T` implicit values and infix size `s`. -/
structure ItemList (s T : Nat) (L : List Nat) : Prop where
  sorted : L.Pairwise ItemLe
  explicit : ∀ x ∈ L, ¬ 2 ^ s ∣ x
  implicit : ∀ x ∈ L, x < T * 2 ^ s

/-- A history of one region: allocated empty or with a list, cleared and loaded with a new list, grown, or given
one new item. The list is the multiset of items stored. -/
inductive RegionRun (c : Cfg) (T : Nat) : Store → List Nat → Prop
  | new {g : Nat} (hg : c.Fine g) : RegionRun c T (Store.new g) []
  | fresh {g : Nat} {L : List Nat} (hg : c.Fine g) (hL : ItemList c.infixSize T L) (hfit : L.length ≤ c.size g)
      (hlen : L.length < c.cap) : RegionRun c T (loadList c (Store.new g) L T false) L
  | alloc {L : List Nat} (hL : ItemList c.infixSize T L) (hlen : L.length < c.cap) :
      RegionRun c T (allocWithList c L T) L
  | load {st : Store} {L L' : List Nat} (h : RegionRun c T st L) (hL : ItemList c.infixSize T L')
      (hfit : L'.length ≤ c.size st.sizeGrade) (hlen : L'.length < c.cap) :
      RegionRun c T (loadList c st L' T true) L'
  | grow {st : Store} {L : List Nat} (h : RegionRun c T st L) (hg : c.Fine (st.sizeGrade + 1)) (hlen : L.length < c.cap) :
      RegionRun c T (resizeStore c st true T) L
  | insert {st : Store} {L : List Nat} {x : Nat} (h : RegionRun c T st L) (hx : x < T * 2 ^ c.infixSize) (ho : x % 2 = 1)
      (hlen : L.length + 1 < c.cap) : RegionRun c T (insertRaw c st x T) (x :: L)

/-- The bytes of a region's heap block are the same in two memories. Bits behind the last slot may differ. -/
def SameBlock (c : Cfg) (a b : Store) : Prop :=
  a.status = b.status ∧ ∀ j, j < 64 + 1024 + c.size a.sizeGrade * (1 + c.infixSize) → a.mem.testBit j = b.mem.testBit j

end Verif
