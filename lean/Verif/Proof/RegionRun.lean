import Verif.Proof.Region
import Verif.Spec.Region
import Mathlib.Data.List.Perm.Basic
import Mathlib.Data.Nat.Prime.Basic

/-!
# Histories of one region
-/

namespace Verif

theorem lowbit_eq {x : Nat} (h0 : 0 < x) (h : x < 2 ^ 64) : lowbit x = lb64 x := by
  obtain ⟨a, t, rfl, h1, _⟩ := lb64_facts h0 h
  rw [h1]
  have ht : t ≤ 64 := by
    by_contra hc
    have h1 : 2 ^ 64 ≤ 2 ^ t := Nat.pow_le_pow_right (by decide) (by omega)
    have h2 : 1 * 2 ^ t ≤ (2 * a + 1) * 2 ^ t := Nat.mul_le_mul_right _ (by omega)
    omega
  unfold lowbit
  obtain ⟨k, hk⟩ := Nat.exists_eq_add_of_le ht
  rw [show (2 : Nat) ^ 64 = 2 ^ k * 2 ^ t by rw [← pow_add, hk, Nat.add_comm], Nat.gcd_mul_right]
  have : Nat.Coprime (2 * a + 1) (2 ^ k) := by
    apply Nat.Coprime.pow_right
    rw [Nat.coprime_comm, Nat.Coprime, Nat.gcd_rec, show (2 * a + 1) % 2 = 1 by omega, Nat.gcd_one_left]
  rw [this, Nat.one_mul]

theorem itemLe_iff {x y : Nat} (hx : 0 < x) (hx' : x < 2 ^ 62) (hy : 0 < y) (hy' : y < 2 ^ 62) :
    ItemLe x y ↔ ile x y := by
  unfold ItemLe itemLo itemHi ile
  have a1 := nolb_add_lb hx (show x < 2 ^ 64 by omega)
  have a2 := nolb_add_lb hy (show y < 2 ^ 64 by omega)
  rw [lowbit_eq hx (by omega), lowbit_eq hy (by omega)]
  omega

theorem itemLo_eq {x : Nat} (hx : 0 < x) (hx' : x < 2 ^ 64) : itemLo x = nolb64 x ∧ itemHi x + 1 = x + lb64 x := by
  unfold itemLo itemHi
  have a1 := nolb_add_lb hx hx'
  rw [lowbit_eq hx hx']
  omega

theorem item_lt56 {s T x : Nat} (hs : s ≤ 46) (hT : T ≤ 1024) (h : x < T * 2 ^ s) : x < 2 ^ 56 := by
  have : T * 2 ^ s ≤ 2 ^ 10 * 2 ^ 46 := Nat.mul_le_mul (by omega) (Nat.pow_le_pow_right (by decide) hs)
  omega

theorem ItemList.loadable {s T : Nat} {L : List Nat} (hs : s ≤ 46) (hT : T ≤ 1024) (h : ItemList s T L) :
    Loadable s T L := by
  have hpos : ∀ x ∈ L, 0 < x ∧ x < 2 ^ 62 := by
    intro x hx
    have := item_lt56 hs hT (h.implicit x hx)
    refine ⟨Nat.pos_of_ne_zero ?_, by omega⟩
    rintro rfl
    exact h.explicit 0 hx (dvd_zero _)
  refine ⟨h.sorted.imp_of_mem fun ha hb hab => ?_, fun x hx => ⟨fun hc => h.explicit x hx (Nat.dvd_of_mod_eq_zero hc), ?_⟩⟩
  · exact (itemLe_iff (hpos _ ha).1 (hpos _ ha).2 (hpos _ hb).1 (hpos _ hb).2).1 hab
  · exact (Nat.div_lt_iff_lt_mul (Nat.two_pow_pos s)).2 (h.implicit x hx)

theorem Loadable.itemList {s T : Nat} {L : List Nat} (hs : s ≤ 46) (hT : T ≤ 1024) (h : Loadable s T L) :
    ItemList s T L := by
  have hlt : ∀ x ∈ L, x < T * 2 ^ s := fun x hx => (Nat.div_lt_iff_lt_mul (Nat.two_pow_pos s)).1 (h.item x hx).2
  have hpos : ∀ x ∈ L, 0 < x ∧ x < 2 ^ 62 := by
    intro x hx
    have := item_lt56 hs hT (hlt x hx)
    refine ⟨Nat.pos_of_ne_zero ?_, by omega⟩
    rintro rfl
    exact (h.item 0 hx).1 (Nat.zero_mod _)
  refine ⟨h.sorted.imp_of_mem fun ha hb hab => ?_, fun x hx hc => (h.item x hx).1 (Nat.mod_eq_zero_of_dvd hc), hlt⟩
  exact (itemLe_iff (hpos _ ha).1 (hpos _ ha).2 (hpos _ hb).1 (hpos _ hb).2).2 hab

/-- Two sorted lists of items with the same items are equal. -/
theorem Loadable.eq_of_perm {s T : Nat} {L L' : List Nat} (hs : s ≤ 46) (hT : T ≤ 1024) (h : Loadable s T L)
    (h' : Loadable s T L') (hp : L.Perm L') : L = L' := by
  refine hp.eq_of_pairwise ?_ h.sorted h'.sorted
  intro a b ha hb h1 h2
  have e1 : nolb64 a = nolb64 b ∧ lb64 a = lb64 b := by unfold ile at *; omega
  have p : ∀ x, x % 2 ^ s ≠ 0 ∧ x / 2 ^ s < T → nolb64 x + lb64 x = x := by
    rintro x ⟨x1, x2⟩
    refine nolb_add_lb (Nat.pos_of_ne_zero ?_) (item_lt hs hT x2)
    rintro rfl
    exact x1 (Nat.zero_mod _)
  have := p a (h.item a ha)
  have := p b (h'.item b hb)
  omega

section
variable {c : Cfg} {T : Nat} {st st' : Store} {L : List Nat}

/-- Every history leads to a region that holds the items given to it. -/
theorem RegionRun.has (hc : c.WF) (hT : T ≤ 1024) (h : RegionRun c T st L) : ∃ L', L'.Perm L ∧ StoreHas c T st L' := by
  have hs := hc.s2
  induction h with
  | new hg => exact ⟨[], List.Perm.refl _, new_has hg⟩
  | @fresh g L hg hL hfit hlen =>
    obtain ⟨_, f2, f3, _, _⟩ := new_fields hg.1
    refine ⟨_, List.Perm.refl _, (loadList_has hc hT f3 (by rw [f2]; exact hg) (Or.inr ?_) (hL.loadable hs hT)
      (by rw [f2]; exact hfit) (Nat.lt_of_lt_of_le hlen c.cap_le)).2.2.2⟩
    exact blank_zero _ _
  | alloc hL hlen => exact ⟨_, List.Perm.refl _, (allocWithList_has hc hT (hL.loadable hs hT) hlen).2.2⟩
  | load h hL hfit hlen ih =>
    obtain ⟨L', _, hh⟩ := ih
    exact ⟨_, List.Perm.refl _, (loadList_has hc hT hh.status hh.fine (Or.inl rfl) (hL.loadable hs hT) hfit
      (Nat.lt_of_lt_of_le hlen c.cap_le)).2.2.2⟩
  | @grow st L h hg hlen ih =>
    obtain ⟨L', hp, hh⟩ := ih
    have := hc.grow st.sizeGrade (by have := hg.1; omega)
    have := hh.length_le
    have hl := hp.length_eq
    exact ⟨L', hp, (resizeStore_has hc hh.weak hT (e := true) hg (by simp; omega) (by have := c.cap_le; omega)).2.2.2⟩
  | @insert st L x h hx ho hlen ih =>
    obtain ⟨L', hp, hh⟩ := ih
    have hl := hp.length_eq
    obtain ⟨_, _, A, B, e, h1⟩ := insertRaw_has hc hh hT ((Nat.div_lt_iff_lt_mul (Nat.two_pow_pos _)).2 hx) ho (by omega)
    refine ⟨_, ?_, h1⟩
    rw [e] at hp
    exact (List.perm_middle).trans (hp.cons x)

theorem SameBlock.grade (hs : SameBlock c st st') : st'.sizeGrade = st.sizeGrade := by
  rw [sizeGrade_eq, sizeGrade_eq, hs.1]

theorem SameBlock.rep (hs : SameBlock c st st') {lay : Nat → Option Nat}
    (r : Rep st.mem (c.size st.sizeGrade) c.infixSize lay) : Rep st'.mem (c.size st'.sizeGrade) c.infixSize lay := by
  obtain ⟨_, h2⟩ := id hs
  rw [hs.grade]
  generalize c.size st.sizeGrade = n at *
  have hn : n * (1 + c.infixSize) = n + n * c.infixSize := by rw [Nat.mul_add, Nat.mul_one]
  have hocc : ∀ q, q < 1024 → occ st'.mem q = occ st.mem q := fun q hq => (h2 _ (by omega)).symm
  have hrend : ∀ i, i < n → rend st'.mem i = rend st.mem i := fun q hq => (h2 _ (by omega)).symm
  have hslot : ∀ i, i < n → slotv st'.mem n c.infixSize i = slotv st.mem n c.infixSize i := fun i hi =>
    slotv_congr fun j _ j2 => by
      have := mul_succ_le (s := c.infixSize) hi
      exact (h2 _ (by omega)).symm
  have hp0 : Verif.pop0 st'.mem = Verif.pop0 st.mem := pop0_congr fun j hj => (h2 _ (by omega)).symm
  have hp1 : Verif.pop1 st'.mem = Verif.pop1 st.mem := pop1_congr fun j _ hj => (h2 _ (by omega)).symm
  refine ⟨fun i hi => by rw [hslot i hi]; exact r.slot i hi, fun q hq => by rw [hocc q hq]; exact r.occ q hq,
    fun i hi => by rw [hrend i hi]; exact r.rend i hi, ?_, ?_⟩
  · rw [hp0, r.pop0]
    exact cnt_congr fun i hi => (hocc i (by omega)).symm
  · rw [hp1, r.pop1]
    exact cnt_congr fun i hi => (hrend i (by omega)).symm

theorem SameBlock.has (hs : SameBlock c st st') (h : StoreHas c T st L) : StoreHas c T st' L := by
  obtain ⟨lay, I, e⟩ := h
  have hcn : st'.elemCount = st.elemCount := by rw [elemCount_eq, elemCount_eq, hs.1]
  refine ⟨lay, ⟨by rw [hs.grade]; exact I.wf, hs.rep I.rep, by rw [hs.grade, hcn]; exact I.count,
    by rw [← hs.1]; exact I.status, by rw [hs.grade]; exact I.fine⟩, by rw [hs.grade]; exact e⟩

theorem SameBlock.hasW (hs : SameBlock c st st') (h : StoreHasW c T st L) : StoreHasW c T st' L := by
  obtain ⟨lay, I, e⟩ := h
  have hcn : st'.elemCount = st.elemCount := by rw [elemCount_eq, elemCount_eq, hs.1]
  refine ⟨lay, ⟨by rw [hs.grade]; exact I.wf, hs.rep I.rep, by rw [hs.grade, hcn]; exact I.count,
    by rw [← hs.1]; exact I.status, by rw [hs.grade]; exact I.fine⟩, by rw [hs.grade]; exact e⟩

end

end Verif
