import Verif.Proof.DeleteItem
import Verif.Proof.Answers
import Verif.Proof.Reach2
import Verif.Props.SampleDel

/-!
# Deletion (C13, C15, C16, C36, C37) and its effect on C03, C04, C33
-/

namespace Verif.Props

/-! ## Violations -/

/-- C13 is violated by deleting the key 0: the boundary key 0 has no left neighbour, but `DeleteMerge` reads it. The
key is present because it was loaded. -/
theorem C13_false_delete_zero : ∃ f S, Ops (cfg95 5) 8 f S ∧ encodeInt 0 ∈ S ∧ delete f (encodeInt 0) = .ub := by
  have h : (opsRun 5 [0, 0x8000000000000000] []).bind (fun q => .ok (decide (encodeInt 0 ∈ q.2) &&
      isUb (delete q.1 (encodeInt 0)))) = .ok true := by decide +kernel
  obtain ⟨f, S, ho, he⟩ := opsRun_eval (by decide) (by decide) h
  simp only [Res.ok.injEq, Bool.and_eq_true, decide_eq_true_eq, isUb_iff] at he
  exact ⟨f, S, ho, he⟩

/-- C13 is violated by deleting the largest key: it has no right neighbour. -/
theorem C13_false_delete_max : ∃ f S, Ops (cfg95 5) 8 f S ∧ encodeInt 0xffffffffffffffff ∈ S ∧
    delete f (encodeInt 0xffffffffffffffff) = .ub := by
  have h : (opsRun 5 [0x8000000000000000, 0xffffffffffffffff] []).bind
      (fun q => .ok (decide (encodeInt 0xffffffffffffffff ∈ q.2) &&
      isUb (delete q.1 (encodeInt 0xffffffffffffffff)))) = .ok true := by decide +kernel
  obtain ⟨f, S, ho, he⟩ := opsRun_eval (by decide) (by decide) h
  simp only [Res.ok.injEq, Bool.and_eq_true, decide_eq_true_eq, isUb_iff] at he
  exact ⟨f, S, ho, he⟩

/-- C13 is violated with 25-bit infixes by deleting a boundary key in the middle: `DeleteMerge` shifts a 32-bit
number by 34. -/
theorem C13_false_delete_shift : ∃ f S, Ops (cfg95 25) 8 f S ∧ encodeInt 0xc000000000000000 ∈ S ∧
    delete f (encodeInt 0xc000000000000000) = .ub := by
  have h : (opsRun 25 [0x8000000000000000, 0xc000000000000000] [.ins 0xc000000000000001 false]).bind
      (fun q => .ok (decide (encodeInt 0xc000000000000000 ∈ q.2) &&
      isUb (delete q.1 (encodeInt 0xc000000000000000)))) = .ok true := by decide +kernel
  obtain ⟨f, S, ho, he⟩ := opsRun_eval (by decide) (by decide) h
  simp only [Res.ok.injEq, Bool.and_eq_true, decide_eq_true_eq, isUb_iff] at he
  exact ⟨f, S, ho, he⟩

/-- Ends with a region above the partial boundary key `30 55 0`, in which `0x3800000000000000` is an item. -/
def lossOps : List Op := [.ins 0x3800000000000000 false, .ins 0x2f00000000000000 true, .ins 0x3f00000000000000 true,
  .ins 0x3055555555555555 false, .ins 0x305555ffffffffff true, .del 0x305555ffffffffff]

/-- C15 is violated: `Delete` removes a partial boundary key although it is not a prefix of the deleted key, because
it only compares lengths. Another present key, held by that boundary, is lost. -/
theorem C15_false : ∃ f S f' k k', Ops (cfg95 5) 8 f S ∧ k ∈ S ∧ delete f k = .ok f' ∧ k' ∈ S.erase k ∧
    pointQuery f k' = .ok true ∧ pointQuery f' k' = .ok false := by
  have h : (opsRun 5 [0x8000000000000000, 0xc000000000000000] lossOps).bind
      (fun q => (delete q.1 (encodeInt 0x3800000000000000)).bind fun f' =>
        .ok (decide (encodeInt 0x3800000000000000 ∈ q.2) &&
          decide (encodeInt 0x3055555555555555 ∈ q.2.erase (encodeInt 0x3800000000000000)) &&
          isOk true (pointQuery q.1 (encodeInt 0x3055555555555555)) &&
          isOk false (pointQuery f' (encodeInt 0x3055555555555555)))) = .ok true := by decide +kernel
  obtain ⟨f, S, ho, he⟩ := opsRun_eval (by decide) (by decide) h
  obtain ⟨f', hd, he⟩ := bind_ok_iff.1 he
  simp only [Res.ok.injEq, Bool.and_eq_true, decide_eq_true_eq, isOk_iff] at he
  exact ⟨f, S, f', _, _, ho, he.1.1.1, hd, he.1.1.2, he.1.2, he.2⟩

/-- C16 is violated in the same state: the deleted key is an item of the region above `30 55 0`, that boundary is
not a prefix of the key, and yet the boundary is removed and the number of items stays the same. -/
theorem C16_false : ∃ f S f' prev next k q x, Ops (cfg95 5) 8 f S ∧ k ∈ S ∧ Adjacent f prev next ∧ keyLt prev k = true ∧
    keyLt k next = true ∧ Level prev next q ∧ x ∈ itemsOf f prev ∧ PrefixItem 5 q prev x k ∧
    pre 8 prev ≠ pre 8 k ∧ delete f k = .ok f' ∧ prev ∉ boundaries f' ∧ itemCount f' = itemCount f := by
  have h : (opsRun 5 [0x8000000000000000, 0xc000000000000000] lossOps).bind
      (fun q => (delete q.1 (encodeInt 0x3800000000000000)).bind fun f' =>
        .ok (decide (encodeInt 0x3800000000000000 ∈ q.2) &&
          decide (([0x30, 0x55, 0], encodeInt 0x3f00000000000000) ∈ (boundaries q.1).zip (boundaries q.1).tail) &&
          decide (15728 ∈ itemsOf q.1 [0x30, 0x55, 0]) && decide ([0x30, 0x55, 0] ∉ boundaries f') &&
          decide (itemCount f' = itemCount q.1))) = .ok true := by decide +kernel
  obtain ⟨f, S, ho, he⟩ := opsRun_eval (by decide) (by decide) h
  obtain ⟨f', hd, he⟩ := bind_ok_iff.1 he
  simp only [Res.ok.injEq, Bool.and_eq_true, decide_eq_true_eq] at he
  refine ⟨f, S, f', _, _, _, 14, 15728, ho, he.1.1.1.1, adjacent_mem.2 he.1.1.1.2, by decide, by decide, ?_, he.1.1.2,
    by unfold PrefixItem; decide +kernel, by decide, hd, he.1.2, he.2⟩
  exact ⟨4, 0, by decide, by decide, by decide, by omega, by decide, by decide +kernel⟩

/-- C36 is violated: after a deletion a region can hold an item away from its home slot with free slots before it;
a later insert into that region mixes up the order, and a present key is lost. -/
theorem C36_false : ∃ f S f' S' key k, Ops (cfg95 5) 8 f S ∧ pointQuery f k = .ok true ∧ k ∈ S ∧
    insert f key false = .ok f' ∧ Ops (cfg95 5) 8 f' S' ∧ k ∈ S' ∧ pointQuery f' k = .ok false := by
  have h : (opsRun 5 [0x8000000000000000, 0xbfffffffffffffff]
      [.ins 0xbe08000000000000 false, .ins 0xbff8000000000000 false, .del 0xbff8000000000000]).bind
      (fun q => (insert q.1 (encodeInt 0xbe1a000000000000) false).bind fun f' =>
        .ok (isOk true (pointQuery q.1 (encodeInt 0xbe08000000000000)) &&
          isOk false (pointQuery f' (encodeInt 0xbe08000000000000)) &&
          decide (encodeInt 0xbe08000000000000 ∈ q.2) && fitsB q.1 (encodeInt 0xbe1a000000000000) false)) = .ok true := by
    decide +kernel
  obtain ⟨f, S, ho, he⟩ := opsRun_eval (by decide) (by decide) h
  obtain ⟨f', hd, he⟩ := bind_ok_iff.1 he
  simp only [Res.ok.injEq, Bool.and_eq_true, decide_eq_true_eq, isOk_iff] at he
  exact ⟨f, S, f', _, _, _, ho, he.1.1.1, he.1.2, hd, ho.insert (by decide) (fitsB_sound he.2) hd,
    List.mem_cons_of_mem _ he.1.2, he.1.1.2⟩

/-- A state with an unsorted region: merging two regions does not sort the joined list again when a short item of the
upper region covers the deleted boundary, and a later insert is placed by binary search in the unsorted region. -/
theorem unsorted_state : ∃ f S l k, Ops (cfg95 5) 8 f S ∧ k ∈ S ∧ keyLe l k = true ∧ pointQuery f k = .ok true ∧
    (∀ io, rangeQuery io f l k = .ok false) ∧ ∀ io, rangeQuery io f k k = .ok true := by
  have h : (opsRun 5 [0x5000000000000000, 0x5555555555555578]
      [.ins 0x5555555D55555555 false, .ins 0x5a55555555555555 true, .ins 0x5555555555555577 false,
        .ins 0x5555700000000000 false, .del 0x5555555555555578, .ins 0x5554500000000000 false]).bind
      (fun q => .ok (isOk true (pointQuery q.1 (encodeInt 0x5554500000000000)) &&
          decide (encodeInt 0x5554500000000000 ∈ q.2) &&
          isOk false (rangeQuery true q.1 (encodeInt 0x5550000000000000) (encodeInt 0x5554500000000000)) &&
          isOk false (rangeQuery false q.1 (encodeInt 0x5550000000000000) (encodeInt 0x5554500000000000)) &&
          isOk true (rangeQuery true q.1 (encodeInt 0x5554500000000000) (encodeInt 0x5554500000000000)) &&
          isOk true (rangeQuery false q.1 (encodeInt 0x5554500000000000) (encodeInt 0x5554500000000000)))) = .ok true := by
    decide +kernel
  obtain ⟨f, S, ho, he⟩ := opsRun_eval (by decide) (by decide) h
  simp only [Res.ok.injEq, Bool.and_eq_true, decide_eq_true_eq, isOk_iff] at he
  obtain ⟨⟨⟨⟨⟨e1, e2⟩, e3⟩, e4⟩, e5⟩, e6⟩ := he
  refine ⟨f, S, encodeInt 0x5550000000000000, _, ho, e2, by decide, e1, ?_, ?_⟩ <;> intro io <;> cases io <;> assumption

/-- C37 is violated: a range query that ends in a key of the filter is negative, for both builds, although the point
query is positive. -/
theorem C37_false : ∃ f S l k, Ops (cfg95 5) 8 f S ∧ k ∈ S ∧ keyLe l k = true ∧ pointQuery f k = .ok true ∧
    ∀ io, rangeQuery io f l k = .ok false := by
  obtain ⟨f, S, l, k, h, h0, h1, h2, h3, _⟩ := unsorted_state
  exact ⟨f, S, l, k, h, h0, h1, h2, h3⟩

/-- C03 is violated in the same state: the point query is positive and the range query around it is not. -/
theorem C03_false : ∃ f S l k r, Ops (cfg95 5) 8 f S ∧ keyLe l k = true ∧ keyLe k r = true ∧ pointQuery f k = .ok true ∧
    ∀ io, rangeQuery io f l r = .ok false := by
  obtain ⟨f, S, l, k, h, _, h1, h2, h3⟩ := C37_false
  exact ⟨f, S, l, k, k, h, h1, keyLe_refl k, h2, h3⟩

/-- C04 is violated in the same state: a range query is positive and the query of a larger range is not. -/
theorem C04_false : ∃ f S l l' r, Ops (cfg95 5) 8 f S ∧ keyLe l l' = true ∧ keyLe l' r = true ∧
    ∀ io, rangeQuery io f l' r = .ok true ∧ rangeQuery io f l r = .ok false := by
  obtain ⟨f, S, l, k, h, _, h1, _, h3, h4⟩ := unsorted_state
  exact ⟨f, S, l, k, k, h, h1, keyLe_refl k, fun io => ⟨h4 io, h3 io⟩⟩

/-- C33 is violated in the same state: a negative range contains a key whose point query is positive. -/
theorem C33_false : ∃ f S l k r, Ops (cfg95 5) 8 f S ∧ keyLe l k = true ∧ keyLe k r = true ∧
    (∀ io, rangeQuery io f l r = .ok false) ∧ pointQuery f k ≠ .ok false := by
  obtain ⟨f, S, l, k, r, h, h1, h2, h3, h4⟩ := C03_false
  exact ⟨f, S, l, k, r, h, h1, h2, h4, by rw [h3]; simp⟩

end Verif.Props
