import Verif.Proof.RegionRun
import Verif.Props.Frames

/-!
# C09, C10, C25, C31, C32: one region
-/

namespace Verif.Props

variable {c : Cfg} {T : Nat} {st st' : Store} {L : List Nat} {x : Nat}

/-- C32: after any history the counter is the number of items, and the list read back consists of these items, in
order. -/
theorem C32 (hc : c.WF) (hT : T ≤ 1024) (h : RegionRun c T st L) : st.elemCount = L.length ∧
    (getInfixList c st).Perm L ∧ ItemList c.infixSize T (getInfixList c st) := by
  obtain ⟨L', hp, hh⟩ := h.has hc hT
  rw [hh.list hc hT, hh.count]
  exact ⟨hp.length_eq, hp, hh.loadable.itemList hc.s2 hT⟩

/-- C31: loading a sorted list of items that fits and reading it back gives the same list. The block can have any
content before. -/
theorem C31_load (hc : c.WF) (hT : T ≤ 1024) (hst : st.status < 2 ^ 32) (hg : c.Fine st.sizeGrade)
    (hL : ItemList c.infixSize T L) (hfit : L.length ≤ c.size st.sizeGrade) (hlen : L.length < c.cap) :
    getInfixList c (loadList c st L T true) = L ∧ (loadList c st L T true).elemCount = L.length ∧
    (loadList c st L T true).sizeGrade = st.sizeGrade := by
  obtain ⟨h1, _, _, h2⟩ := loadList_has hc hT hst hg (Or.inl rfl) (hL.loadable hc.s2 hT) hfit (Nat.lt_of_lt_of_le hlen c.cap_le)
  exact ⟨h2.list hc hT, h2.count, h1⟩

/-- C31 for a region allocated for the list. -/
theorem C31_alloc (hc : c.WF) (hT : T ≤ 1024) (hL : ItemList c.infixSize T L) (hlen : L.length < c.cap) :
    getInfixList c (allocWithList c L T) = L ∧ (allocWithList c L T).elemCount = L.length := by
  obtain ⟨_, _, h2⟩ := allocWithList_has hc hT (hL.loadable hc.s2 hT) hlen
  exact ⟨h2.list hc hT, h2.count⟩

/-- C09: an insert, with or without growth, puts the new item at one place of the list and changes nothing else. -/
theorem C09_insert (hc : c.WF) (hT : T ≤ 1024) (h : RegionRun c T st L) (hx : x < T * 2 ^ c.infixSize) (ho : x % 2 = 1)
    (hlen : L.length + 1 < c.cap) : ∃ A B, getInfixList c st = A ++ B ∧ getInfixList c (insertRaw c st x T) = A ++ x :: B := by
  obtain ⟨L', hp, hh⟩ := h.has hc hT
  have hl := hp.length_eq
  obtain ⟨_, _, A, B, e, h1⟩ := insertRaw_has hc hh hT ((Nat.div_lt_iff_lt_mul (Nat.two_pow_pos _)).2 hx) ho (by omega)
  exact ⟨A, B, by rw [hh.list hc hT, e], h1.list hc hT⟩

/-- C09: growing a region keeps the list. -/
theorem C09_grow (hc : c.WF) (hT : T ≤ 1024) (h : RegionRun c T st L) (hg : c.Fine (st.sizeGrade + 1)) (hlen : L.length < c.cap) :
    getInfixList c (resizeStore c st true T) = getInfixList c st ∧
    (resizeStore c st true T).sizeGrade = st.sizeGrade + 1 ∧ c.size st.sizeGrade < c.size (st.sizeGrade + 1) := by
  obtain ⟨L', hp, hh⟩ := h.has hc hT
  have hl := hp.length_eq
  have h1 := hc.grow st.sizeGrade (by have := hg.1; omega)
  have h2 := hh.length_le
  obtain ⟨r1, _, _, r4⟩ := resizeStore_has hc hh.weak hT (e := true) hg (by simp; omega) (by have := c.cap_le; omega)
  exact ⟨by rw [r4.list hc hT, hh.list hc hT], by rw [r1]; rfl, h1⟩

/-- The statement of C10: `insertRaw` is a growth step, if necessary, followed by placing the item in the slots of
`st1`. At that moment fewer items are stored than there are slots, some slot is free, and placing the item writes no
bit behind the last slot. -/
def RoomAndInside (c : Cfg) (T : Nat) (st : Store) (x : Nat) : Prop :=
  ∃ st1, (st1 = st ∨ st1 = resizeStore c st true T) ∧ insertRaw c st x T = insertPlace c st1 x T ∧
    st1.elemCount = st.elemCount ∧ st1.elemCount < c.size st1.sizeGrade ∧
    (insertPlace c st1 x T).sizeGrade = st1.sizeGrade ∧
    (∃ i, i < c.size st1.sizeGrade ∧ getSlot st1.mem (c.size st1.sizeGrade) c.infixSize i = 0) ∧
    ∀ j, 64 + 1024 + c.size st1.sizeGrade * (1 + c.infixSize) ≤ j →
      (insertPlace c st1 x T).mem.testBit j = st1.mem.testBit j

theorem room_of_has (hc : c.WF) (hT : T ≤ 1024) (hh : StoreHas c T st L) (hx : x < T * 2 ^ c.infixSize) (ho : x % 2 = 1)
    (hlen : st.elemCount + 1 < c.cap) : RoomAndInside c T st x := by
  have hcn0 := hh.count
  obtain ⟨st1, h1, h2, h3, h4, _, _⟩ := insertRaw_room hc hh hT x (by omega)
  have hcn := h3.count
  obtain ⟨lay, I, e⟩ := h3
  obtain ⟨g1, _, _, g4, _⟩ := insertPlace_spec hc I hT ((Nat.div_lt_iff_lt_mul (Nat.two_pow_pos _)).2 hx) ho h4 (by have := c.cap_le; omega)
  refine ⟨st1, h1.imp id And.left, h2, by omega, h4, g1, ?_, fun j hj => g4 j ?_⟩
  · have hroom := h4
    rw [I.count] at hroom
    obtain ⟨i, i1, i2⟩ := cnt_lt_room hroom
    have hs2 := hc.s2
    refine ⟨i, i1, ?_⟩
    rw [getSlot_eq _ _ _ _ (by omega), I.rep.slot i i1, show lay i = none by simpa using i2]
    rfl
  · rw [Nat.mul_add, Nat.mul_one] at hj; omega

/-- C10 for every history of one region. -/
theorem C10 (hc : c.WF) (hT : T ≤ 1024) (h : RegionRun c T st L) (hx : x < T * 2 ^ c.infixSize) (ho : x % 2 = 1)
    (hlen : st.elemCount + 1 < c.cap) : RoomAndInside c T st x := by
  obtain ⟨L', _, hh⟩ := h.has hc hT
  exact room_of_has hc hT hh hx ho hlen

/-- The statement of C25: the answers of a region, its list, and its list after an insert. -/
def SameAnswers (c : Cfg) (T : Nat) (st st' : Store) : Prop :=
  (∀ k, k < 1024 * 2 ^ c.infixSize → pointQueryStore c st' k = pointQueryStore c st k) ∧
  (∀ l r, l ≤ r → r < 1024 * 2 ^ c.infixSize → rangeQueryStore c st' l r = rangeQueryStore c st l r) ∧
  getInfixList c st' = getInfixList c st ∧
  ∀ x, x < T * 2 ^ c.infixSize → x % 2 = 1 → st.elemCount + 1 < c.cap →
    getInfixList c (insertRaw c st' x T) = getInfixList c (insertRaw c st x T)

theorem same_of_has (hc : c.WF) (hT : T ≤ 1024) (hh : StoreHas c T st L) (hs : SameBlock c st st') :
    SameAnswers c T st st' := by
  have hh' := hs.has hh
  have hcn := hh.count
  refine ⟨fun k hk => ?_, fun l r hlr hr => ?_, by rw [hh.list hc hT, hh'.list hc hT], fun x hx ho hlen => ?_⟩
  · have hk := (Nat.div_lt_iff_lt_mul (Nat.two_pow_pos c.infixSize)).2 hk
    rw [Bool.eq_iff_iff, hh.point hc hT hk, hh'.point hc hT hk]
  · have hr := (Nat.div_lt_iff_lt_mul (Nat.two_pow_pos c.infixSize)).2 hr
    rw [Bool.eq_iff_iff, hh.range hc hT hlr hr, hh'.range hc hT hlr hr]
  · have hq := (Nat.div_lt_iff_lt_mul (Nat.two_pow_pos c.infixSize)).2 hx
    obtain ⟨_, _, A, B, e, h1⟩ := insertRaw_has hc hh hT hq ho (by omega)
    obtain ⟨_, _, A', B', e', h1'⟩ := insertRaw_has hc hh' hT hq ho (by omega)
    rw [h1.list hc hT, h1'.list hc hT]
    refine h1'.loadable.eq_of_perm hc.s2 hT h1.loadable ?_
    refine List.perm_middle.trans (List.Perm.trans (List.Perm.cons x ?_) List.perm_middle.symm)
    rw [← e', ← e]

/-- C25 for every history of one region: nothing depends on the bits behind the block. -/
theorem C25 (hc : c.WF) (hT : T ≤ 1024) (h : RegionRun c T st L) (hs : SameBlock c st st') : SameAnswers c T st st' := by
  obtain ⟨L', _, hh⟩ := h.has hc hT
  exact same_of_has hc hT hh hs

/-- C10, C25 and C32 for the regions of every reachable filter: `st` is the region between the neighbouring boundary
keys `prev` and `next`. -/
theorem regions_of_reach {n : Nat} {f : Filter} (hc : c.WF) (hn : n < 2 ^ 28) (h : Reach c n f) {A B : Tree} {prev next : Key}
    {st2 : Store} (ht : f.tree = A ++ (prev, st) :: (next, st2) :: B) : ∃ fr, getFrame c.infixSize prev next = .ok fr ∧
    st.elemCount = (getInfixList c st).length ∧ ItemList c.infixSize fr.total (getInfixList c st) ∧
    (∀ st', SameBlock c st st' → SameAnswers c fr.total st st') ∧
    ∀ x, x < fr.total * 2 ^ c.infixSize → x % 2 = 1 → st.elemCount + 1 < c.cap → RoomAndInside c fr.total st x := by
  have I := h.inv hc hn
  obtain ⟨sh, ig, imp, L, R⟩ := I.ok.region ht
  rw [I.cfg] at R
  obtain ⟨sh', ig', imp', fr, hL', hf, _, _, _, _, hT⟩ := frame_of hc.s2 R.lt
  have hlev := (R.lengths.level R.lt).unique (hL'.level R.lt)
  have hle := R.T_le
  have hh := R.strong
  dsimp only at hlev hle hh
  rw [hlev] at hle hh
  rw [← hT] at hle hh
  refine ⟨fr, hf, ?_, ?_, fun st' hs => same_of_has hc hle hh hs, fun x hx ho hl => room_of_has hc hle hh hx ho hl⟩
  · rw [hh.list hc hle, hh.count]
  · rw [hh.list hc hle]; exact hh.loadable.itemList hc.s2 hle

/-! A region with 1024 implicit values: allocated with four items, two of them the same, then two inserts. The
bits behind the block differ in a second memory. -/

theorem region_items : ItemList 5 1024 [48, 33, 16385, 16385] := by
  refine ⟨?_, ?_, ?_⟩
  · have : ∀ i j : Fin 4, i < j → ItemLe ([48, 33, 16385, 16385].get i) ([48, 33, 16385, 16385].get j) := by
      unfold ItemLe; decide +kernel
    exact List.pairwise_iff_get.2 this
  · decide
  · decide

private theorem cap4 : 4 < (cfg95 5).cap := by rw [cfg95_cap]; decide
private theorem cap5 : 4 + 1 < (cfg95 5).cap := by rw [cfg95_cap]; decide
private theorem cap6 : 5 + 1 < (cfg95 5).cap := by rw [cfg95_cap]; decide

theorem region_run : RegionRun (cfg95 5) 1024
    (insertRaw (cfg95 5) (insertRaw (cfg95 5) (allocWithList (cfg95 5) [48, 33, 16385, 16385] 1024) 16387 1024) 35 1024)
    [35, 16387, 48, 33, 16385, 16385] :=
  .insert (.insert (.alloc region_items cap4) (by decide) rfl cap5) (by decide) rfl cap6

example : getInfixList (cfg95 5) (insertRaw (cfg95 5) (insertRaw (cfg95 5)
    (allocWithList (cfg95 5) [48, 33, 16385, 16385] 1024) 16387 1024) 35 1024) = [48, 33, 35, 16385, 16385, 16387] := by
  decide +kernel

example : SameBlock (cfg95 5) ⟨0, 0⟩ ⟨0, 2 ^ 10000⟩ := by
  refine ⟨rfl, fun j hj => ?_⟩
  have h : 64 + 1024 + (cfg95 5).size (Store.sizeGrade ⟨0, 0⟩) * (1 + (cfg95 5).infixSize) ≤ 10000 := by decide +kernel
  have hj : j < 10000 := Nat.lt_of_lt_of_le hj h
  rw [Nat.testBit_two_pow, Nat.zero_testBit]
  symm; simp; omega

end Verif.Props
