import Verif.Proof.StoreLoad2

/-!
# A region as the ordered list of its items
-/

namespace Verif

section
variable {c : Cfg} {T : Nat} {st : Store} {L : List Nat}

theorem content_pairwise {n s T : Nat} {mp : Nat → Nat} {lay : Nat → Option Nat} (h : LayWF n s T mp lay) :
    (content n lay).Pairwise ile := by
  unfold content
  rw [List.pairwise_filterMap]
  apply List.Pairwise.imp_of_mem _ List.pairwise_lt_range
  intro a b _ hb hab x hx y hy
  exact h.sorted a b x y hab (by simpa using hb) hx hy

/-- The sorted list of stored items of a region, from a witness layout whose home slots may be off. -/
def StoreHasW (c : Cfg) (T : Nat) (st : Store) (L : List Nat) : Prop :=
  ∃ lay, StoreWeak c T st lay ∧ content (c.size st.sizeGrade) lay = L

theorem StoreHas.weak (h : StoreHas c T st L) : StoreHasW c T st L := by
  obtain ⟨lay, I, e⟩ := h
  exact ⟨lay, I.weak, e⟩

theorem StoreHasW.loadable (h : StoreHasW c T st L) : Loadable c.infixSize T L := by
  obtain ⟨lay, I, rfl⟩ := h
  obtain ⟨mp, wf⟩ := I.wf
  refine ⟨content_pairwise wf, ?_⟩
  intro x hx
  obtain ⟨i, hi, hx⟩ := mem_content.1 hx
  exact wf.item i x hi hx

theorem StoreHasW.count (h : StoreHasW c T st L) : st.elemCount = L.length := by
  obtain ⟨lay, I, rfl⟩ := h
  rw [I.count, cnt_content]

theorem StoreHasW.status (h : StoreHasW c T st L) : st.status < 2 ^ 32 := by
  obtain ⟨lay, I, rfl⟩ := h
  exact I.status

theorem StoreHasW.fine (h : StoreHasW c T st L) : c.Fine st.sizeGrade := by
  obtain ⟨lay, I, rfl⟩ := h
  exact I.fine

theorem StoreHasW.length_le (h : StoreHasW c T st L) : L.length ≤ c.size st.sizeGrade := by
  obtain ⟨lay, I, rfl⟩ := h
  rw [← cnt_content]; exact cnt_le _ _

theorem StoreHasW.list (h : StoreHasW c T st L) (hc : c.WF) (hT : T ≤ 1024) : getInfixList c st = L := by
  obtain ⟨lay, I, rfl⟩ := h
  exact getInfixList_eq I hc.s2 hT

theorem StoreHasW.point (h : StoreHasW c T st L) (hc : c.WF) (hT : T ≤ 1024) {key : Nat}
    (hk : key / 2 ^ c.infixSize < 1024) : pointQueryStore c st key = true ↔ ∃ x ∈ L, Covers x key := by
  obtain ⟨lay, I, rfl⟩ := h
  rw [pointQueryStore_iff I hc.s2 hT hk]
  simp only [mem_content]

theorem StoreHasW.range (h : StoreHasW c T st L) (hc : c.WF) (hT : T ≤ 1024) {l r : Nat} (hlr : l ≤ r)
    (hr : r / 2 ^ c.infixSize < 1024) : rangeQueryStore c st l r = true ↔ ∃ x ∈ L, Meets x l r := by
  obtain ⟨lay, I, rfl⟩ := h
  rw [rangeQueryStore_iff I hc.s2 hT hlr hr]
  simp only [mem_content]

theorem StoreHas.loadable (h : StoreHas c T st L) : Loadable c.infixSize T L := h.weak.loadable

theorem StoreHas.count (h : StoreHas c T st L) : st.elemCount = L.length := h.weak.count

theorem StoreHas.status (h : StoreHas c T st L) : st.status < 2 ^ 32 := h.weak.status

theorem StoreHas.fine (h : StoreHas c T st L) : c.Fine st.sizeGrade := h.weak.fine

theorem StoreHas.length_le (h : StoreHas c T st L) : L.length ≤ c.size st.sizeGrade := h.weak.length_le

theorem StoreHas.list (h : StoreHas c T st L) (hc : c.WF) (hT : T ≤ 1024) : getInfixList c st = L :=
  h.weak.list hc hT

theorem StoreHas.point (h : StoreHas c T st L) (hc : c.WF) (hT : T ≤ 1024) {key : Nat}
    (hk : key / 2 ^ c.infixSize < 1024) : pointQueryStore c st key = true ↔ ∃ x ∈ L, Covers x key :=
  h.weak.point hc hT hk

theorem StoreHas.range (h : StoreHas c T st L) (hc : c.WF) (hT : T ≤ 1024) {l r : Nat} (hlr : l ≤ r)
    (hr : r / 2 ^ c.infixSize < 1024) : rangeQueryStore c st l r = true ↔ ∃ x ∈ L, Meets x l r :=
  h.weak.range hc hT hlr hr

theorem setSizeGrade_fields {st : Store} {g : Nat} (hst : st.status < 2 ^ 32) (hg : g < 256) :
    (st.setSizeGrade g).elemCount = st.elemCount ∧ (st.setSizeGrade g).sizeGrade = g ∧
    (st.setSizeGrade g).status < 2 ^ 32 ∧ (st.setSizeGrade g).invalidBits = st.invalidBits ∧
    (st.setSizeGrade g).isPartial = st.isPartial := by
  have e := setSizeGrade_status hst hg
  simp only [elemCount_eq, sizeGrade_eq, invalidBits_eq, isPartial_eq, e] at *
  refine ⟨by omega, by omega, by omega, by omega, ?_⟩
  congr 1
  rw [show (st.status / 2 ^ 28 * 2 ^ 28 + g * 2 ^ 20 + st.status % 2 ^ 20) / 2 ^ 31 = st.status / 2 ^ 31 by omega]

/-- Loading a list into a blank block gives a region holding exactly that list. -/
theorem loadList_has (hc : c.WF) {z : Bool} {list : List Nat} (hT : T ≤ 1024) (hst : st.status < 2 ^ 32)
    (hfine : c.Fine st.sizeGrade) (hb : z = true ∨ Blank st.mem (c.size st.sizeGrade) c.infixSize)
    (hl : Loadable c.infixSize T list) (hlen : list.length ≤ c.size st.sizeGrade) (hcnt : list.length < 2 ^ 20) :
    (loadList c st list T z).sizeGrade = st.sizeGrade ∧
    (loadList c st list T z).invalidBits = st.invalidBits ∧
    (loadList c st list T z).isPartial = st.isPartial ∧ StoreHas c T (loadList c st list T z) list := by
  obtain ⟨h1, h2, h3, lay, h4, h5⟩ := loadList_spec hc hT hst hfine hb hl hlen hcnt
  exact ⟨h1, h2, h3, lay, h4, by rw [h1]; exact h5⟩

/-- Growing or shrinking a region keeps its list. -/
theorem resizeStore_has (hc : c.WF) (h : StoreHasW c T st L) (hT : T ≤ 1024) {e : Bool}
    (hg : c.Fine (if e then st.sizeGrade + 1 else st.sizeGrade - 1))
    (hlen : L.length ≤ c.size (if e then st.sizeGrade + 1 else st.sizeGrade - 1)) (hcnt : L.length < 2 ^ 20) :
    (resizeStore c st e T).sizeGrade = (if e then st.sizeGrade + 1 else st.sizeGrade - 1) ∧
    (resizeStore c st e T).invalidBits = st.invalidBits ∧
    (resizeStore c st e T).isPartial = st.isPartial ∧ StoreHas c T (resizeStore c st e T) L := by
  unfold resizeStore
  dsimp only
  rw [h.list hc hT]
  obtain ⟨f1, f2, f3, f4, f5⟩ := setSizeGrade_fields h.status hg.1
  obtain ⟨g1, g2, g3, g4⟩ := loadList_has (st := st.setSizeGrade (if e then st.sizeGrade + 1 else st.sizeGrade - 1))
    (z := true) hc hT f3 (by rw [f2]; exact hg) (Or.inl rfl) h.loadable (by rw [f2]; exact hlen) hcnt
  exact ⟨by rw [g1, f2], by rw [g2, f4], by rw [g3, f5], g4⟩

/-- The growth step leaves a free slot. -/
theorem insertRaw_room (hc : c.WF) (h : StoreHas c T st L) (hT : T ≤ 1024) (x : Nat) (hcnt : L.length + 1 < c.cap) :
    ∃ st1, (st1 = st ∨ st1 = resizeStore c st true T ∧ c.Fine (st.sizeGrade + 1) ∧ L.length ≤ c.size (st.sizeGrade + 1)) ∧
      insertRaw c st x T = insertPlace c st1 x T ∧ StoreHas c T st1 L ∧
      st1.elemCount < c.size st1.sizeGrade ∧
      st1.sizeGrade = (if (if st.sizeGrade ≠ 0 then c.size (st.sizeGrade - 1) else c.exceptionSize) ≤ st.elemCount
        then st.sizeGrade + 1 else st.sizeGrade) ∧
      st1.invalidBits = st.invalidBits ∧ st1.isPartial = st.isPartial := by
  unfold insertRaw
  dsimp only
  have hg := sizeGrade_lt st
  have hcount := h.count
  have hle := h.length_le
  by_cases hlim : (if st.sizeGrade ≠ 0 then c.size (st.sizeGrade - 1) else c.exceptionSize) ≤ st.elemCount
  · rw [if_pos hlim]
    have hg' : st.sizeGrade < 255 := by
      by_contra hge
      rw [if_pos (by omega), show st.sizeGrade - 1 = 254 by omega] at hlim
      unfold Cfg.cap at hcnt
      omega
    have hgrow := hc.grow st.sizeGrade hg'
    have hcap := c.cap_le
    have hfine : c.Fine (st.sizeGrade + 1) := by
      refine ⟨by omega, Or.inr ?_⟩
      rw [Nat.add_sub_cancel]
      by_cases h0 : st.sizeGrade = 0
      · rw [h0]
        have := hc.size_mono (Nat.zero_le (growSep - 1)) (by decide)
        have := hc.fine_sep.2.resolve_left (by decide)
        omega
      · rw [if_pos h0] at hlim
        have := hc.step (st.sizeGrade - 1) (by omega) (by omega)
        rwa [show st.sizeGrade - 1 + 1 = st.sizeGrade by omega] at this
    obtain ⟨r1, r2, r3, r4⟩ := resizeStore_has hc h.weak hT (e := true) hfine (by simp; omega) (by omega)
    simp only [if_true] at r1
    refine ⟨_, Or.inr ⟨rfl, hfine, by omega⟩, rfl, r4, ?_, by rw [r1, if_pos hlim], r2, r3⟩
    rw [r1, r4.count]; omega
  · rw [if_neg hlim]
    refine ⟨st, Or.inl rfl, rfl, h, ?_, by rw [if_neg hlim], rfl, rfl⟩
    by_cases h0 : st.sizeGrade ≠ 0
    · rw [if_pos h0] at hlim
      have := hc.size_mono (show st.sizeGrade - 1 ≤ st.sizeGrade by omega) hg
      omega
    · rw [if_neg h0] at hlim
      have := hc.exc
      rw [show st.sizeGrade = 0 by omega]; omega

/-- Insertion adds exactly the new item, at its place in the order. -/
theorem insertRaw_has (hc : c.WF) (h : StoreHas c T st L) (hT : T ≤ 1024) {x : Nat}
    (hq : x / 2 ^ c.infixSize < T) (ho : x % 2 = 1) (hcnt : L.length + 1 < c.cap) :
    (insertRaw c st x T).invalidBits = st.invalidBits ∧
    (insertRaw c st x T).isPartial = st.isPartial ∧
    ∃ A B, L = A ++ B ∧ StoreHas c T (insertRaw c st x T) (A ++ x :: B) := by
  obtain ⟨st1, _, e, h1, hroom, _, hi, hp⟩ := insertRaw_room hc h hT x hcnt
  rw [e]
  have hcnt1 : st1.elemCount + 1 < 2 ^ 20 := by rw [h1.count]; have := c.cap_le; omega
  obtain ⟨lay, I, hL⟩ := h1
  obtain ⟨g1, g2, g3, _, lay', I', A, B, hA, hB⟩ := insertPlace_spec hc I hT hq ho hroom hcnt1
  refine ⟨by rw [g2, hi], by rw [g3, hp], A, B, by rw [← hL, hA], lay', I', ?_⟩
  rw [g1]; exact hB

theorem findGrade_spec (c : Cfg) (len : Nat) : ∀ k g, (∃ j, g ≤ j ∧ j < g + k ∧ len ≤ c.size j) →
    len ≤ c.size (findGrade c len k g) ∧ g ≤ findGrade c len k g ∧
      ∀ j, g ≤ j → len ≤ c.size j → findGrade c len k g ≤ j := by
  intro k
  induction k with
  | zero => rintro g ⟨j, h1, h2, _⟩; omega
  | succ k ih =>
    rintro g ⟨j, h1, h2, h3⟩
    rw [findGrade]
    split_ifs with h
    · have hj : j ≠ g := by rintro rfl; omega
      obtain ⟨a, b, d⟩ := ih (g + 1) ⟨j, by omega, by omega, h3⟩
      refine ⟨a, by omega, ?_⟩
      intro j' h1' h2'
      have : j' ≠ g := by rintro rfl; omega
      exact d j' (by omega) h2'
    · exact ⟨by omega, Nat.le_refl _, fun j hj _ => hj⟩

theorem findGrade_lt {len : Nat} (h : len ≤ 2 ^ 21) (ht : len ≤ c.size 254) :
    len ≤ c.size (findGrade c len 500 0) ∧ c.Fine (findGrade c len 500 0) := by
  obtain ⟨a, b, d⟩ := findGrade_spec c len 500 0 ⟨254, by omega, by omega, by omega⟩
  have := d 254 (by omega) (by omega)
  refine ⟨a, by omega, ?_⟩
  by_cases h0 : findGrade c len 500 0 = 0
  · exact Or.inl h0
  · right
    by_contra hlt
    have := d (findGrade c len 500 0 - 1) (by omega) (by omega)
    omega

theorem new_fields {g : Nat} (hg : g < 256) : (Store.new g).elemCount = 0 ∧ (Store.new g).sizeGrade = g ∧
    (Store.new g).status < 2 ^ 32 ∧ (Store.new g).invalidBits = 0 ∧ (Store.new g).isPartial = false := by
  obtain ⟨a, b, d, e, f⟩ := setSizeGrade_fields (st := ⟨0, 0⟩) (by decide) hg
  exact ⟨a, b, d, e, f⟩

/-- A freshly allocated region holding a list. -/
theorem allocWithList_has (hc : c.WF) {list : List Nat} (hT : T ≤ 1024)
    (hl : Loadable c.infixSize T list) (hcnt : list.length < c.cap) :
    (allocWithList c list T).invalidBits = 0 ∧ (allocWithList c list T).isPartial = false ∧
    StoreHas c T (allocWithList c list T) list := by
  unfold allocWithList
  dsimp only
  have h1 := hc.sep1
  have h2 := hc.sep2
  have e1 : 2 ^ 15 * list.length ≤ c.sizeScalar growSep * list.length := Nat.mul_le_mul h1 (Nat.le_refl _)
  have e2 : c.sizeScalar growSep * list.length ≤ 2 ^ 16 * list.length := Nat.mul_le_mul h2 (Nat.le_refl _)
  rw [Nat.shiftRight_eq_div_pow]
  generalize hsl : (c.sizeScalar growSep * list.length % 2 ^ 64 / 2 ^ 15) % 2 ^ 32 = sl
  have hcap : c.cap ≤ c.size 254 / 2 ∧ c.cap ≤ 2 ^ 20 := ⟨Nat.min_le_right _ _, c.cap_le⟩
  have hsl1 : list.length ≤ sl ∧ sl ≤ 2 ^ 21 ∧ sl ≤ c.size 254 := by
    rw [← hsl]
    generalize c.sizeScalar growSep * list.length = y at *
    omega
  obtain ⟨g1, g2⟩ := findGrade_lt hsl1.2.1 hsl1.2.2
  obtain ⟨f1, f2, f3, f4, f5⟩ := new_fields g2.1
  obtain ⟨r1, r2, r3, r4⟩ := loadList_has (st := Store.new (findGrade c sl 500 0)) (z := false) hc hT f3 (by rw [f2]; exact g2)
    (Or.inr (blank_zero _ _)) hl (by rw [f2]; omega) (by omega)
  exact ⟨by rw [r2, f4], by rw [r3, f5], r4⟩

/-- A fresh empty region. -/
theorem new_has {c : Cfg} {T : Nat} {g : Nat} (hg : c.Fine g) : StoreHas c T (Store.new g) [] := by
  obtain ⟨f1, f2, f3, f4, f5⟩ := new_fields hg.1
  have hb := blank_zero (c.size g) c.infixSize
  refine ⟨fun _ => none, ⟨?_, ?_, ?_, f3, by rw [f2]; exact hg⟩, by simp [content]⟩
  · refine ⟨?_, ?_, ?_, ?_, ?_⟩ <;> intros <;> simp_all
  · rw [f2]
    change Rep 0 _ _ _
    refine ⟨?_, ?_, ?_, ?_, ?_⟩
    · intro i hi; rw [hb.slot i hi]; rfl
    · intro q hq; rw [hb.occ q hq]; simp
    · intro i hi; rw [hb.rend i hi]; simp
    · rw [hb.pop0, cnt_zero_of]; intro i hi; exact hb.occ i (by omega)
    · rw [hb.pop1, cnt_zero_of]; intro i hi; exact hb.rend i (by omega)
  · rw [f1, cnt_zero_of]
    intro i _; rfl

end

end Verif
