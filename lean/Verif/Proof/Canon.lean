import Verif.Proof.RegionRun

/-!
# The block of a region is determined by its items

A well-formed layout is determined by its list of items, and a layout determines the bits of the block.
-/

namespace Verif

section
variable {n s T : Nat} {mp : Nat → Nat} {lay lay' : Nat → Option Nat}

theorem content_at {i x : Nat} (hi : i < n) (h : lay i = some x) :
    (content n lay)[cnt (fun i => (lay i).isSome) i]? = some x := by
  have e := content_split lay (Nat.le_of_lt hi)
  have hl : (List.filterMap lay (List.range' 0 i)).length = cnt (fun i => (lay i).isSome) i := by
    rw [cnt_content, content, List.range_eq_range']
  rw [e, List.getElem?_append_right (by omega), hl, Nat.sub_self]
  obtain ⟨d, hd⟩ : ∃ d, n - i = d + 1 := ⟨n - i - 1, by omega⟩
  rw [hd, List.range'_succ, List.filterMap_cons, h]
  rfl

theorem cnt_all {p : Nat → Bool} {i : Nat} (hi : i ≤ n) (h : ∀ k, i ≤ k → k < n → p k = true) : cnt p n = cnt p i + (n - i) := by
  obtain ⟨d, rfl⟩ := Nat.exists_eq_add_of_le hi
  rw [Nat.add_sub_cancel_left]
  clear hi
  induction d with
  | zero => rfl
  | succ d ih =>
    rw [← Nat.add_assoc, cnt, ih (fun k h1 h2 => h k h1 (by omega)), h (i + d) (by omega) (by omega)]
    simp; omega

theorem cnt_slack (p : Nat → Bool) {i : Nat} (hi : i ≤ n) : cnt p n ≤ cnt p i + (n - i) := by
  obtain ⟨d, rfl⟩ := Nat.exists_eq_add_of_le hi
  rw [cnt_add]
  have := cnt_le (fun k => p (i + k)) d
  omega

/-- No item lies further right in the second layout. -/
theorem LayWF.not_lt (h : LayWF n s T mp lay) (h' : LayWF n s T mp lay') (e : content n lay = content n lay') :
    ∀ k i j x y, cnt (fun i => (lay i).isSome) i = k → cnt (fun i => (lay' i).isSome) j = k → lay i = some x → lay' j = some y →
      j < n → ¬ i < j
  | k, i, j, x, y, hi, hj, hx, hy, hjn, hlt => by
    have hxy : x = y := by
      have h1 := content_at (n := n) (by omega) hx
      have h2 := content_at hjn hy
      rw [hi] at h1
      rw [hj, ← e, h1] at h2
      exact Option.some.inj h2
    subst hxy
    by_cases hm : i < mp (x / 2 ^ s)
    · have h1 : cnt (fun i => (lay i).isSome) n = cnt (fun i => (lay i).isSome) i + (n - i) :=
        cnt_all (by omega) fun k h1 h2 => Option.isSome_iff_ne_none.2 (h.right i k x (by omega) hx hm h1 h2)
      have h2 := cnt_slack (fun i => (lay' i).isSome) (Nat.le_of_lt hjn)
      rw [cnt_content n, ← e, ← cnt_content] at h2
      omega
    · have hf := h'.left j (j - 1) x hjn hy (by omega) (by omega)
      obtain ⟨y', hy'⟩ := Option.ne_none_iff_exists'.1 hf
      have hc : cnt (fun i => (lay' i).isSome) (j - 1) + 1 = k := by
        rw [← hj]
        conv_rhs => rw [show j = j - 1 + 1 by omega, cnt]
        rw [hy']; rfl
      obtain ⟨i', h1, h2, h3⟩ := exists_cnt (p := fun i => (lay i).isSome) (k := i) (r := k - 1) (by omega)
      obtain ⟨x', hx'⟩ := Option.isSome_iff_exists.1 h2
      exact LayWF.not_lt h h' e (k - 1) i' (j - 1) x' y' h3 (by omega) hx' hy' (by omega) (by omega)

theorem LayWF.same (h : LayWF n s T mp lay) (h' : LayWF n s T mp lay') (e : content n lay = content n lay') {i x : Nat}
    (hi : i < n) (hx : lay i = some x) : lay' i = some x := by
  have h1 := cnt_lt (fun i => (lay i).isSome) hi (by simp [hx])
  rw [cnt_content n, e, ← cnt_content] at h1
  obtain ⟨j, hj, h2, h3⟩ := exists_cnt h1
  obtain ⟨y, hy⟩ := Option.isSome_iff_exists.1 h2
  have a1 := h.not_lt h' e _ i j x y rfl h3 hx hy hj
  have a2 := h'.not_lt h e.symm _ j i y x h3 rfl hy hx hi
  have : i = j := by omega
  subst this
  have b1 := content_at hi hx
  have b2 := content_at hi hy
  rw [h3, ← e, b1] at b2
  rw [hy, Option.some.inj b2]

/-- A layout is determined by its items. -/
theorem LayWF.unique (h : LayWF n s T mp lay) (h' : LayWF n s T mp lay') (e : content n lay = content n lay') {i : Nat}
    (hi : i < n) : lay i = lay' i := by
  cases hx : lay i with
  | some x => exact (h.same h' e hi hx).symm
  | none =>
    cases hy : lay' i with
    | none => rfl
    | some y => rw [h'.same h e.symm hi hy] at hx; cases hx

/-- A layout determines the block. -/
theorem Rep.unique {m m' : Nat} (hs0 : 0 < s) (r : Rep m n s lay) (r' : Rep m' n s lay') (e : ∀ i, i < n → lay i = lay' i) {j : Nat}
    (hj : j < 64 + 1024 + n * (1 + s)) : m.testBit j = m'.testBit j := by
  have hocc : ∀ q, q < 1024 → Verif.occ m q = Verif.occ m' q := fun q hq => by
    rw [Bool.eq_iff_iff, r.occ q hq, r'.occ q hq]
    exact exists_congr fun i => exists_congr fun x => and_congr_right fun hi => by rw [e i hi]
  have hrend : ∀ i, i < n → Verif.rend m i = Verif.rend m' i := fun i hi => by
    rw [Bool.eq_iff_iff, r.rend i hi, r'.rend i hi, e i hi]
    refine exists_congr fun x => and_congr_right fun _ => ⟨fun h j y h1 h2 h3 => h j y h1 h2 (by rw [e j h2]; exact h3),
      fun h j y h1 h2 h3 => h j y h1 h2 (by rw [← e j h2]; exact h3)⟩
  have hp0 : Verif.pop0 m = Verif.pop0 m' := by
    rw [r.pop0, r'.pop0]; exact cnt_congr fun i hi => hocc i (by omega)
  have hp1 : Verif.pop1 m = Verif.pop1 m' := by
    rw [r.pop1, r'.pop1]; exact cnt_congr fun i hi => hrend i (by omega)
  rw [Nat.mul_add, Nat.mul_one] at hj
  by_cases h1 : j < 32
  · have := congrArg (fun v => v.testBit j) hp0
    simpa [Verif.pop0, testBit_readBits, h1] using this
  by_cases h2 : j < 64
  · have := congrArg (fun v => v.testBit (j - 32)) hp1
    simp only [Verif.pop1, testBit_readBits, show decide (j - 32 < 32) = true by simp; omega, Bool.true_and] at this
    rwa [show 32 + (j - 32) = j by omega] at this
  by_cases h3 : j < 1088
  · have := hocc (j - 64) (by omega)
    unfold Verif.occ at this
    rwa [show 64 + (j - 64) = j by omega] at this
  by_cases h4 : j < 1088 + n
  · have := hrend (j - 1088) (by omega)
    unfold Verif.rend at this
    rwa [show 1088 + (j - 1088) = j by omega] at this
  · obtain ⟨d, rfl⟩ : ∃ d, j = 1088 + n + d := ⟨j - 1088 - n, by omega⟩
    have hi : d / s < n := by rw [Nat.div_lt_iff_lt_mul hs0]; omega
    have := congrArg (fun v => v.testBit (d % s)) ((r.slot _ hi).trans ((congrArg (slotOf s) (e _ hi)).trans (r'.slot _ hi).symm))
    simp only [testBit_slotv, show decide (d % s < s) = true by simp [Nat.mod_lt _ hs0], Bool.true_and] at this
    have hd : 1088 + n + d / s * s + d % s = 1088 + n + d := by
      have := Nat.div_add_mod d s; rw [Nat.mul_comm] at this; omega
    rwa [hd] at this

end

/-- Two regions with the same items and the same status word have the same block. -/
theorem StoreHas.unique {c : Cfg} {T : Nat} {st st' : Store} {L : List Nat} (hs0 : 0 < c.infixSize) (h : StoreHas c T st L) (h' : StoreHas c T st' L)
    (hst : st.status = st'.status) : SameBlock c st st' := by
  have hg : st'.sizeGrade = st.sizeGrade := by rw [sizeGrade_eq, sizeGrade_eq, hst]
  obtain ⟨lay, I, e⟩ := h
  obtain ⟨lay', I', e'⟩ := h'
  have hw := I'.wf
  have hr := I'.rep
  rw [hg] at hw hr e'
  exact ⟨hst, fun j hj => I.rep.unique hs0 hr (fun i hi => I.wf.unique hw (e.trans e'.symm) hi) hj⟩

end Verif
