import Verif.Props.Queries
import Verif.Proof.WhInt

/-!
# C20, C21, C22, C23: from keys to numbers
-/

namespace Verif.Props

variable {prev next : Key} {s : Nat}

theorem frame_of (hs : s ≤ 46) (hlt : PadLt prev next) : ∃ sh ig imp fr, Lengths prev next sh ig imp ∧
    getFrame s prev next = .ok fr ∧ fr.shared = sh ∧ fr.ignore = ig ∧ fr.implicitSize = imp ∧
    fr.prevImplicit = extractPartialKey s prev sh ig imp 0 >>> s ∧
    fr.total = pre (sh + ig + imp) next - pre (sh + ig + imp) prev + 1 := by
  cases h : sharedIgnoreImplicit prev next with
  | none =>
    rw [sii_none] at h
    obtain ⟨q, hq⟩ := hlt
    have := h q; omega
  | some v =>
    obtain ⟨sh, ig, imp⟩ := v
    have L := sii_spec h
    refine ⟨sh, ig, imp, ⟨sh, ig, imp, extractPartialKey s prev sh ig imp 0 >>> s, _⟩, L, ?_, rfl, rfl, rfl, rfl,
      L.totalImplicit hlt hs⟩
    unfold getFrame
    rw [h]; rfl

/-- C20: for boundary keys in padded order the code computes as the number of implicit values the number of
bit prefixes of the region's level from one boundary to the other, and it is between 512 and 1024. The index
`total - 512` into the table of 513 scalars and every implicit value as an index into the 1024 `occupieds` bits
are in bounds. -/
theorem C20_total (hs : s ≤ 46) (hlt : PadLt prev next) : ∃ fr q, getFrame s prev next = .ok fr ∧ Level prev next q ∧
    fr.total = pre q next - pre q prev + 1 ∧ 512 ≤ fr.total ∧ fr.total ≤ 1024 := by
  obtain ⟨sh, ig, imp, fr, L, hf, _, _, _, _, hT⟩ := frame_of hs hlt
  obtain ⟨h1, h2⟩ := L.total hlt
  exact ⟨fr, sh + ig + imp, hf, L.level hlt, hT, by omega, by omega⟩

/-- For boundary keys that are equal after padding the search for the first difference does not end. -/
theorem C20_equal (h : PadEq prev next) : getFrame s prev next = .hang := by
  unfold getFrame
  rw [sii_none.2 h]

example : ∃ fr q, getFrame 5 [0x61] [0x61, 0x62] = .ok fr ∧ Level [0x61] [0x61, 0x62] q ∧
    fr.total = pre q [0x61, 0x62] - pre q [0x61] + 1 ∧ 512 ≤ fr.total ∧ fr.total ≤ 1024 :=
  C20_total (by decide) ⟨16, by decide⟩

example : (getFrame 5 [0x61] [0x61, 0x62]).bind (fun fr => .ok fr.total) = .ok 785 := by decide +kernel

/-- C21: the number computed for a key `a` between the boundaries. It counts the bit prefixes of `q + s` bits
from the lower boundary, `q` being the level; it is below `total` times `2 ^ s`. -/
theorem C21_value (hs : s ≤ 46) (hlt : PadLt prev next) {fr : RFrame} (hf : getFrame s prev next = .ok fr) :
    ∃ q, Level prev next q ∧ ∀ a, keyLe prev a = true → keyLe a next = true →
      sub64 (fr.extract s a) (shl64 fr.prevImplicit s) + pre q prev * 2 ^ s = pre (q + s) a ∧
      sub64 (fr.extract s a) (shl64 fr.prevImplicit s) < fr.total * 2 ^ s ∧
      (1 ≤ s → fr.item s a = (sub64 (fr.extract s a) (shl64 fr.prevImplicit s) ||| 1)) := by
  obtain ⟨sh, ig, imp, fr', L, hf', e1, e2, e3, e4, e5⟩ := frame_of hs hlt
  rw [hf] at hf'
  obtain rfl : fr = fr' := by injection hf'
  refine ⟨sh + ig + imp, L.level hlt, fun a h1 h2 => ?_⟩
  have hb := between_of_le h1 h2
  obtain ⟨hv, _⟩ := L.value hlt hb hs
  have hx : sub64 (fr.extract s a) (shl64 fr.prevImplicit s) = relVal s (sh + ig + imp) prev a := by
    unfold RFrame.extract
    rw [e1, e2, e3, e4]; exact hv
  rw [hx]
  refine ⟨relVal_add (hb _).1, ?_, fun h => ?_⟩
  · rw [e5, ← Nat.div_lt_iff_lt_mul (Nat.two_pow_pos s)]
    have := relVal_div (s := s) (hb (sh + ig + imp)).1
    have := (hb (sh + ig + imp)).2
    omega
  · unfold RFrame.item RFrame.extract
    rw [e1, e2, e3, e4]
    exact L.itemVal hlt hb h hs

/-- C21: the numbers are ordered like the keys, and keys with equal numbers agree on all `q + s` bits. The item
that is stored drops the last bit. -/
theorem C21_order (hs : s ≤ 46) (hlt : PadLt prev next) {fr : RFrame} (hf : getFrame s prev next = .ok fr) :
    ∃ q, Level prev next q ∧ ∀ a b, keyLe prev a = true → keyLe a next = true → keyLe prev b = true → keyLe b next = true →
      (keyLe a b = true → sub64 (fr.extract s a) (shl64 fr.prevImplicit s) ≤ sub64 (fr.extract s b) (shl64 fr.prevImplicit s)) ∧
      (sub64 (fr.extract s a) (shl64 fr.prevImplicit s) = sub64 (fr.extract s b) (shl64 fr.prevImplicit s) ↔
        pre (q + s) a = pre (q + s) b) ∧
      (1 ≤ s → (fr.item s a = fr.item s b ↔ pre (q + s - 1) a = pre (q + s - 1) b)) := by
  obtain ⟨q, hq, h⟩ := C21_value hs hlt hf
  refine ⟨q, hq, fun a b a1 a2 b1 b2 => ?_⟩
  obtain ⟨ha, _, ha2⟩ := h a a1 a2
  obtain ⟨hb, _, hb2⟩ := h b b1 b2
  generalize hX : sub64 (fr.extract s a) (shl64 fr.prevImplicit s) = X at *
  generalize hY : sub64 (fr.extract s b) (shl64 fr.prevImplicit s) = Y at *
  refine ⟨fun hab => ?_, by omega, fun h1 => ?_⟩
  · have := keyLe_pre hab (q + s); omega
  · rw [ha2 h1, hb2 h1]
    have e1 := pre_succ_eq a (q + s - 1)
    have e2 := pre_succ_eq b (q + s - 1)
    rw [show q + s - 1 + 1 = q + s by omega] at e1 e2
    have k1 := kbit_lt a (q + s - 1)
    have k2 := kbit_lt b (q + s - 1)
    have hp : pre q prev * 2 ^ s % 2 = 0 := by
      obtain ⟨t, rfl⟩ := Nat.exists_eq_add_of_le h1
      rw [pow_add, ← Nat.mul_assoc, pow_one, Nat.mul_right_comm, Nat.mul_mod_left]
    rw [or_one, or_one]
    generalize pre q prev * 2 ^ s = P at *
    omega

/-- Two keys of the region from "a" to "c" that the region can tell apart and two that it cannot. -/
example : (getFrame 5 [0x61] [0x63]).bind (fun fr => .ok (fr.item 5 [0x62, 0x10], fr.item 5 [0x62, 0x20],
    fr.item 5 [0x62, 0x20, 0x01])) = .ok (8705, 9217, 9217) := by decide +kernel

/-- C22: in every state of a filter whose boundary keys have at most eight bytes, also a corrupt one, the integer fast
path of `RangeQuery` computes the same answer. -/
theorem C22 (f : Filter) (h1 : 1 ≤ f.cfg.infixSize) (h2 : f.cfg.infixSize ≤ 46) (hb : ∀ x ∈ boundaries f, x.length ≤ 8)
    {l r : Key} (hl : l.length ≤ 8) (hr : r.length ≤ 8) : rangeQuery true f l r = rangeQuery false f l r :=
  rangeQuery_int0 h1 h2 (fun e he => hb _ (List.mem_map_of_mem he)) hl hr

/-- C22: the boundary keys are as short as the keys the filter was given. -/
theorem C22_states {c : Cfg} {n : Nat} {f : Filter} (hc : c.WF) (hn : n < 2 ^ 28) (h : States c n f) :
    ∀ x ∈ boundaries f, x.length ≤ n := by
  intro x hx
  obtain ⟨e, he, rfl⟩ := List.mem_map.1 hx
  exact (h.inv hc hn).len e he

example : rangeQuery true sample (encodeInt 0x2000000000000002) (encodeInt 0x2000000000000005) =
    rangeQuery false sample (encodeInt 0x2000000000000002) (encodeInt 0x2000000000000005) :=
  C22 sample (by rw [sample_cfg]; decide) (by rw [sample_cfg]; decide) (C22_states cfg95_5 (by decide) (.reach sample_reach))
    (by decide) (by decide)

/-- C23: the encoding of 64-bit keys as 8 bytes preserves the order. -/
theorem C23_encode {x y : Nat} (hx : x < 2 ^ 64) (hy : y < 2 ^ 64) :
    (encodeInt x).length = 8 ∧ (keyLe (encodeInt x) (encodeInt y) = true ↔ x ≤ y) ∧
    (keyLt (encodeInt x) (encodeInt y) = true ↔ x < y) ∧ (encodeInt x = encodeInt y ↔ x = y) :=
  ⟨encode_length x, encode_le hx hy, encode_lt hx hy, ⟨encode_inj hx hy, fun e => by rw [e]⟩⟩

/-- C23: the comparison of the integer tree is the lexicographic order on byte strings of at most 8 bytes. -/
theorem C23_compare {a b : Key} (ha : a.length ≤ 8) (hb : b.length ≤ 8) :
    (compareKeys a b ≤ 0 ↔ keyLe a b = true) ∧ (compareKeys a b = 0 ↔ a = b) :=
  ⟨compareKeys_le ha hb, compareKeys_zero ha hb⟩

example : compareKeys [0x61, 0] [0x61] = 1 ∧ compareKeys [0x61, 0] [0x61, 0x01] = -1 := by decide

/-- C23: the search in a sorted leaf of the integer tree finds the first key that is not smaller. -/
theorem C23_search {leaf : List Key} {key : Key} (hk : key.length ≤ 8) (hl : ∀ k ∈ leaf, k.length ≤ 8)
    (hs : leaf.Pairwise fun a b => keyLt a b = true) : leafSearch leaf key ≤ leaf.length ∧
    (∀ i, i < leafSearch leaf key → keyLt (leaf.getD i []) key = true) ∧
    ∀ i, leafSearch leaf key ≤ i → i < leaf.length → keyLe key (leaf.getD i []) = true := by
  obtain ⟨r, e, h1, h2, h3⟩ := leafSearchLoop_spec hk hl hs (leaf.length + 1) (-1) leaf.length (by omega) (by omega)
    (by omega) (by omega) (fun i hi => by omega) (fun i h1 h2 => by omega)
  have : leafSearch leaf key = r := by unfold leafSearch; rw [e]; rfl
  rw [this]
  exact ⟨h1, h2, h3⟩

example : leafSearch [[0x61], [0x61, 0], [0x62]] [0x61, 0x05] = 2 := by decide

end Verif.Props
