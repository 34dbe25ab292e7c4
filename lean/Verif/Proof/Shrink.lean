import Verif.Model.Shrink
import Verif.Proof.Tree
import Verif.Proof.Rewrite2

/-!
# Shrinking a region of the default size grade
-/

namespace Verif

/-- The shortened item: the marker moves to the lowest kept bit if it would be shifted out. -/
def shItem (d x : Nat) : Nat := (x >>> d) ||| (if tz x < d then 1 else 0)

theorem or_one' (x : Nat) : x ||| 1 = 2 * (x / 2) + 1 := by
  apply Nat.eq_of_testBit_eq; intro i
  rw [Nat.testBit_or]
  cases i with
  | zero => simp [Nat.testBit_zero]
  | succ i =>
    rw [Nat.testBit_succ (2 * (x / 2) + 1), Nat.testBit_succ 1, Nat.testBit_succ x]
    have : (2 * (x / 2) + 1) / 2 = x / 2 := by omega
    rw [this]; simp

theorem shItem_odd {a t : Nat} (d : Nat) (h : (2 * a + 1) * 2 ^ t < 2 ^ 64) :
    shItem d ((2 * a + 1) * 2 ^ t) = (2 * (a / 2 ^ (d - t)) + 1) * 2 ^ (t - d) := by
  unfold shItem
  rw [tz_odd h, Nat.shiftRight_eq_div_pow]
  by_cases htd : t < d
  · rw [if_pos htd, or_one', Nat.div_div_eq_div_mul, ← pow_succ, show t - d = 0 by omega, pow_zero, Nat.mul_one]
    congr 2
    rw [show d + 1 = (t + 1) + (d - t) by omega, pow_add, ← Nat.div_div_eq_div_mul, odd_div]
  · rw [if_neg htd, Nat.or_zero, show d - t = 0 by omega, pow_zero, Nat.div_one]
    conv_lhs => rw [show t = d + (t - d) by omega, pow_add, ← Nat.mul_assoc, Nat.mul_right_comm,
      Nat.mul_div_cancel _ (Nat.two_pow_pos d)]

section
variable {s s' x : Nat} (hs : s' ≤ s) (hs1 : 1 ≤ s') (h0 : x % 2 ^ s ≠ 0) (hx : x < 2 ^ 64)
include hs hs1 h0 hx

omit hs hs1 h0 in
theorem shItem_lt : shItem (s - s') x < 2 ^ 64 := by
  unfold shItem
  apply Nat.or_lt_two_pow
  · exact Nat.lt_of_le_of_lt (Nat.shiftRight_le _ _) hx
  · split_ifs <;> decide

theorem shItem_form : ∃ a t, x = (2 * a + 1) * 2 ^ t ∧ t < s ∧
    shItem (s - s') x = (2 * (a / 2 ^ (s - s' - t)) + 1) * 2 ^ (t - (s - s')) ∧ t - (s - s') < s' := by
  obtain ⟨a, t, rfl, ht⟩ := item_decomp h0
  exact ⟨a, t, rfl, ht, shItem_odd _ hx, by omega⟩

theorem shItem_mod : shItem (s - s') x % 2 ^ s' ≠ 0 := by
  obtain ⟨a, t, _, ht, e, hu⟩ := shItem_form hs hs1 h0 hx
  rw [e]; exact odd_mod_ne hu

theorem shItem_quot : shItem (s - s') x / 2 ^ s' = x / 2 ^ s := by
  obtain ⟨a, t, rfl, ht, e, hu⟩ := shItem_form hs hs1 h0 hx
  rw [e, odd_quot hu, odd_quot ht, Nat.div_div_eq_div_mul, ← pow_add]
  congr 2; omega

theorem shItem_len (p : Nat) : ilen s' p (shItem (s - s') x) + (s - s' - tz x) = ilen s p x := by
  obtain ⟨a, t, rfl, ht, e, hu⟩ := shItem_form hs hs1 h0 hx
  have := shItem_lt (s := s) (s' := s') hx
  rw [e] at this ⊢
  rw [ilen_odd this, ilen_odd hx, tz_odd hx]
  omega

theorem shItem_val (base : Nat) : ival s' base (shItem (s - s') x) = ival s base x / 2 ^ (s - s' - tz x) := by
  obtain ⟨a, t, rfl, ht, e, hu⟩ := shItem_form hs hs1 h0 hx
  have := shItem_lt (s := s) (s' := s') hx
  rw [e] at this ⊢
  rw [ival_odd this, ival_odd hx, tz_odd hx]
  rw [show s - 1 - t = (s' - 1 - (t - (s - s'))) + (s - s' - t) by omega, pow_add, ← Nat.mul_assoc,
    Nat.add_mul_div_right _ _ (Nat.two_pow_pos _)]

/-- The explicit part of the shortened item is computed from the explicit part. -/
theorem shItem_explicit : shItem (s - s') (x % 2 ^ s) = shItem (s - s') x % 2 ^ s' := by
  have e : tz (x % 2 ^ s) = tz x := by unfold tz; rw [(nolb64_div h0 hx).2.2]
  unfold shItem
  rw [e]
  apply Nat.eq_of_testBit_eq; intro i
  rw [Nat.testBit_mod_two_pow, Nat.testBit_or, Nat.testBit_or, Nat.testBit_shiftRight, Nat.testBit_shiftRight,
    Nat.testBit_mod_two_pow]
  by_cases hi : i < s'
  · simp [hi, show s - s' + i < s by omega]
  · simp only [hi, show ¬ s - s' + i < s by omega, decide_false, Bool.false_and, Bool.false_or]
    split_ifs
    · rw [testBit_one']; simp; omega
    · simp
end

/-- Shortening keeps the order of items. -/
theorem shItem_mono {x y : Nat} (d : Nat) (hx0 : 0 < x) (hy0 : 0 < y) (hx : x < 2 ^ 64) (hy : y < 2 ^ 64)
    (h : ile x y) : ile (shItem d x) (shItem d y) := by
  have key : ∀ x, 0 < x → x < 2 ^ 64 → nolb64 (shItem d x) = 2 * (nolb64 x / 2 ^ (d + 1)) ∧
      ∃ t, lb64 x = 2 ^ t ∧ lb64 (shItem d x) = 2 ^ (t - d) ∧ 2 ^ (t + 1) ∣ nolb64 x := by
    intro x h0 h1
    obtain ⟨a, t, rfl⟩ := odd_decomp h0
    have h2 : shItem d ((2 * a + 1) * 2 ^ t) < 2 ^ 64 := by
      unfold shItem
      apply Nat.or_lt_two_pow
      · exact Nat.lt_of_le_of_lt (Nat.shiftRight_le _ _) h1
      · split_ifs <;> decide
    rw [shItem_odd d h1] at h2 ⊢
    rw [nolb64_odd h2, lb64_odd h2, nolb64_odd h1, lb64_odd h1]
    refine ⟨?_, t, rfl, rfl, ⟨a, by rw [pow_succ]; ring⟩⟩
    rw [show 2 * a * 2 ^ t = a * 2 ^ (t + 1) by rw [pow_succ]; ring, Nat.mul_assoc]
    congr 1
    by_cases htd : t < d
    · rw [show t - d = 0 by omega, pow_zero, Nat.mul_one, show d + 1 = (t + 1) + (d - t) by omega, pow_add 2 (t + 1) (d - t),
        ← Nat.div_div_eq_div_mul, Nat.mul_div_cancel _ (Nat.two_pow_pos _)]
    · rw [show d - t = 0 by omega, pow_zero, Nat.div_one, show t + 1 = (t - d) + (d + 1) by omega, pow_add 2 (t - d) (d + 1),
        ← Nat.mul_assoc, Nat.mul_div_cancel _ (Nat.two_pow_pos _)]
  obtain ⟨nx, t, lx, lx', dx⟩ := key x hx0 hx
  obtain ⟨ny, u, ly, ly', dy⟩ := key y hy0 hy
  unfold ile at h ⊢
  rw [nx, ny, lx', ly']
  rcases h with h | ⟨h1, h2⟩
  · have h3 := Nat.div_le_div_right (c := 2 ^ (d + 1)) (Nat.le_of_lt h)
    rcases Nat.lt_or_ge (nolb64 x / 2 ^ (d + 1)) (nolb64 y / 2 ^ (d + 1)) with h4 | h4
    · left; omega
    · right
      refine ⟨by omega, ?_⟩
      rcases Nat.lt_or_ge u d with hu | hu
      · rw [show u - d = 0 by omega]; exact Nat.one_le_two_pow
      · exfalso
        have h5 : 2 ^ (d + 1) ∣ nolb64 y := Nat.dvd_trans (Nat.pow_dvd_pow 2 (by omega)) dy
        have h6 := Nat.div_mul_cancel h5
        have h7 := Nat.div_mul_le_self (nolb64 x) (2 ^ (d + 1))
        have h8 : nolb64 y / 2 ^ (d + 1) = nolb64 x / 2 ^ (d + 1) := by omega
        rw [h8] at h6
        omega
  · right
    rw [h1]
    refine ⟨rfl, ?_⟩
    rw [lx, ly] at h2
    have := (Nat.pow_le_pow_iff_right (show 1 < 2 by decide)).1 h2
    exact Nat.pow_le_pow_right (by decide) (by omega)

/-! ## The new block -/

/-- The value the loop writes. -/
theorem new_slot {s s' v : Nat} (hs : s' ≤ s) (h0 : 0 < v) (hv : v < 2 ^ 64) :
    ((v >>> (s - s')) ||| (if s > s' + lowbitPos v then 1 else 0)) = shItem (s - s') v := by
  obtain ⟨a, t, rfl⟩ := odd_decomp h0
  unfold shItem
  rw [lowbitPos_odd hv, tz_odd hv]
  congr 1
  by_cases h : t < s - s'
  · rw [if_pos h, if_pos (by omega)]
  · rw [if_neg h, if_neg (by omega)]

theorem shrinkLoop_spec {old n s s' : Nat} (hs : s' ≤ s) (hs1 : 1 ≤ s') (hs46 : s ≤ 46) : ∀ (k i m : Nat),
    (∀ j, j < 1088 + n → (shrinkLoop old n n s s' k i m).testBit j = m.testBit j) ∧
    (∀ j, slotv (shrinkLoop old n n s s' k i m) n s' j =
      if i ≤ j ∧ j < i + k ∧ slotv old n s j ≠ 0 then shItem (s - s') (slotv old n s j) else slotv m n s' j)
  | 0, i, m => ⟨fun _ _ => rfl, fun j => by rw [if_neg (by omega)]; rfl⟩
  | k + 1, i, m => by
    have hlt : slotv old n s i < 2 ^ 64 := Nat.lt_of_lt_of_le (slotv_lt _ _ _ _) (Nat.pow_le_pow_right (by decide) (by omega))
    unfold shrinkLoop
    simp only [getSlot_eq _ _ _ _ (show s ≤ 57 by omega)]
    by_cases h0 : slotv old n s i = 0
    · rw [if_neg (by simpa using h0)]
      obtain ⟨h1, h2⟩ := shrinkLoop_spec hs hs1 hs46 k (i + 1) m
      refine ⟨h1, fun j => ?_⟩
      rw [h2 j]
      by_cases hj : j = i
      · subst hj; rw [if_neg (by omega), if_neg (by simp [h0])]
      · by_cases hc : i + 1 ≤ j ∧ j < i + 1 + k ∧ slotv old n s j ≠ 0
        · rw [if_pos hc, if_pos ⟨by omega, by omega, hc.2.2⟩]
        · rw [if_neg hc, if_neg (by intro hh; exact hc ⟨by omega, by omega, hh.2.2⟩)]
    · rw [if_pos (by simpa using h0), new_slot hs (by omega) hlt]
      have hmod : slotv old n s i % 2 ^ s ≠ 0 := by rw [Nat.mod_eq_of_lt (slotv_lt _ _ _ _)]; exact h0
      have hv : shItem (s - s') (slotv old n s i) < 2 ^ s' := by
        have := shItem_quot hs hs1 hmod hlt
        rw [Nat.div_eq_of_lt (slotv_lt old n s i)] at this
        exact (Nat.div_eq_zero_iff.1 this).resolve_left (by have := Nat.two_pow_pos s'; omega)
      obtain ⟨h1, h2⟩ := shrinkLoop_spec (old := old) (n := n) hs hs1 hs46 k (i + 1)
        (setSlot m n s' i (shItem (s - s') (slotv old n s i)))
      refine ⟨fun j hj => ?_, fun j => ?_⟩
      · rw [h1 j hj, setSlot_below (by omega) (by omega) hv j hj]
      · rw [h2 j, slotv_setSlot (by omega) (by omega) hv]
        by_cases hj : j = i
        · subst hj; rw [if_neg (by omega), if_pos rfl, if_pos ⟨by omega, by omega, h0⟩]
        · rw [if_neg hj]
          by_cases hc : i + 1 ≤ j ∧ j < i + 1 + k ∧ slotv old n s j ≠ 0
          · rw [if_pos hc, if_pos ⟨by omega, by omega, hc.2.2⟩]
          · rw [if_neg hc, if_neg (by intro hh; exact hc ⟨by omega, by omega, hh.2.2⟩)]

/-- The bitmaps as copied into the new block. -/
def copyBits (m total : Nat) : Nat :=
  writeBits (writeBits 0 0 (8 * ((total + 7) / 8)) (readBits m 0 (8 * ((total + 7) / 8))))
    (8 * ((total + 7) / 8 - 1)) 8
    (readBits (writeBits 0 0 (8 * ((total + 7) / 8)) (readBits m 0 (8 * ((total + 7) / 8))))
      (8 * ((total + 7) / 8 - 1)) 8 &&& bitmask (total % 8))

/-- Copying the bitmaps when they do not end on a byte boundary. -/
theorem copy_bitmaps (m total j : Nat) (h8 : total % 8 ≠ 0) :
    (copyBits m total).testBit j = (decide (j < total) && m.testBit j) := by
  unfold copyBits
  have hb : ∀ j, (writeBits 0 0 (8 * ((total + 7) / 8)) (readBits m 0 (8 * ((total + 7) / 8)))).testBit j =
      (decide (j < 8 * ((total + 7) / 8)) && m.testBit j) := by
    intro j
    rw [testBit_writeBits]
    by_cases h : j < 8 * ((total + 7) / 8)
    · rw [if_neg (by omega), if_pos (by omega), testBit_readBits]; simp [h]
    · rw [if_neg (by omega), if_neg (by omega)]; simp [h]
  generalize hM : writeBits 0 0 (8 * ((total + 7) / 8)) (readBits m 0 (8 * ((total + 7) / 8))) = M at *
  rw [testBit_writeBits]
  by_cases h : 8 * ((total + 7) / 8 - 1) ≤ j ∧ j < 8 * ((total + 7) / 8 - 1) + 8
  · rw [if_neg (by omega), if_pos h.2, Nat.testBit_and, testBit_readBits, testBit_bitmask _ _ (by omega), hb,
      show 8 * ((total + 7) / 8 - 1) + (j - 8 * ((total + 7) / 8 - 1)) = j by omega]
    have e1 : decide (j - 8 * ((total + 7) / 8 - 1) < 8) = true := by simp; omega
    have e2 : decide (j < 8 * ((total + 7) / 8)) = true := by simp; omega
    have e3 : decide (j - 8 * ((total + 7) / 8 - 1) < total % 8) = decide (j < total) := by
      rw [decide_eq_decide]; omega
    rw [e1, e2, e3]; simp [Bool.and_comm]
  · rw [show (if j < 8 * ((total + 7) / 8 - 1) then M.testBit j
        else if j < 8 * ((total + 7) / 8 - 1) + 8 then _ else M.testBit j) = M.testBit j by
          by_cases h' : j < 8 * ((total + 7) / 8 - 1)
          · rw [if_pos h']
          · rw [if_neg h', if_neg (by omega)], hb]
    have : decide (j < 8 * ((total + 7) / 8)) = decide (j < total) := by rw [decide_eq_decide]; omega
    rw [this]

section
variable {c : Cfg} {T s' : Nat} {st : Store} {L : List Nat}

/-- Shrinking a region of the default grade shortens every item and keeps everything else. -/
theorem StoreHas.shrink (H : StoreHas c T st L) (hc : c.WF) (hT : T ≤ 1024) (hg : st.sizeGrade = growSep)
    (h8 : c.size growSep % 8 ≠ 0) (hs : s' ≤ c.infixSize) (hs1 : 1 ≤ s') :
    StoreHas { c with infixSize := s' } T (shrinkStore c st s') (L.map (shItem (c.infixSize - s'))) := by
  obtain ⟨lay, I, rfl⟩ := H
  have hn : c.size (Store.new growSep).sizeGrade = c.size st.sizeGrade := by
    rw [(new_fields (g := growSep) (by decide)).2.1, hg]
  have h8' : (64 + 1024 + c.size st.sizeGrade) % 8 ≠ 0 := by rw [hg]; omega
  have hmem : (shrinkStore c st s').mem = shrinkLoop st.mem (c.size st.sizeGrade) (c.size st.sizeGrade) c.infixSize s'
      (c.size st.sizeGrade) 0 (copyBits st.mem (64 + 1024 + c.size st.sizeGrade)) := by
    unfold shrinkStore
    dsimp only
    rw [hn]
    rfl
  have hst : (shrinkStore c st s').status = st.status := rfl
  have hgr : (shrinkStore c st s').sizeGrade = st.sizeGrade := rfl
  have hcp := fun j => copy_bitmaps st.mem (64 + 1024 + c.size st.sizeGrade) j h8'
  generalize copyBits st.mem (64 + 1024 + c.size st.sizeGrade) = M at hmem hcp
  obtain ⟨hb, hv⟩ := shrinkLoop_spec (old := st.mem) (n := c.size st.sizeGrade) hs hs1 hc.s2 (c.size st.sizeGrade) 0 M
  rw [← hmem] at hb hv
  have hbit : ∀ j, j < 1088 + c.size st.sizeGrade → (shrinkStore c st s').mem.testBit j = st.mem.testBit j := by
    intro j hj
    rw [hb j hj, hcp j]; simp; omega
  have hz : ∀ i, slotv M (c.size st.sizeGrade) s' i = 0 := by
    intro i
    apply testBit_ext; intro j
    rw [testBit_slotv, hcp]
    simp; omega
  have hitem : ∀ i x, i < c.size st.sizeGrade → lay i = some x → x % 2 ^ c.infixSize ≠ 0 ∧ x < 2 ^ 64 ∧ 0 < x ∧
      x / 2 ^ c.infixSize < T := by
    intro i x hi hl
    obtain ⟨h1, h2⟩ := I.wf.item i x hi hl
    refine ⟨h1, item_lt hc.s2 hT h2, ?_, h2⟩
    rcases Nat.eq_zero_or_pos x with h | h
    · subst h; simp at h1
    · exact h
  have hq : ∀ i x, i < c.size st.sizeGrade → lay i = some x →
      shItem (c.infixSize - s') x / 2 ^ s' = x / 2 ^ c.infixSize := fun i x hi hl =>
    shItem_quot hs hs1 (hitem i x hi hl).1 (hitem i x hi hl).2.1
  have hmap : ∀ i y, (lay i).map (shItem (c.infixSize - s')) = some y ↔
      ∃ x, lay i = some x ∧ y = shItem (c.infixSize - s') x := by
    intro i y; cases lay i <;> simp [eq_comm]
  have hnone : ∀ i, (lay i).map (shItem (c.infixSize - s')) ≠ none ↔ lay i ≠ none := by
    intro i; cases lay i <;> simp
  refine ⟨fun i => (lay i).map (shItem (c.infixSize - s')), ⟨⟨?_, ?_, ?_, ?_, ?_⟩, ⟨?_, ?_, ?_, ?_, ?_⟩, ?_, I.status, I.fine⟩, ?_⟩
  · intro i y hi hl
    obtain ⟨x, hx, rfl⟩ := (hmap i y).1 hl
    exact ⟨shItem_mod hs hs1 (hitem i x hi hx).1 (hitem i x hi hx).2.1, by
      rw [hq i x hi hx]; exact (hitem i x hi hx).2.2.2⟩
  · intro i j y z hij hj hl hl'
    obtain ⟨x, hx, rfl⟩ := (hmap i y).1 hl
    obtain ⟨x', hx', rfl⟩ := (hmap j z).1 hl'
    have hj' : j < c.size st.sizeGrade := hj
    obtain ⟨_, a2, a3, _⟩ := hitem i x (by omega) hx
    obtain ⟨_, b2, b3, _⟩ := hitem j x' hj' hx'
    exact shItem_mono _ a3 b3 a2 b2 (I.wf.sorted i j x x' hij hj' hx hx')
  · intro i j k y z h1 h2 hj hl hl' e
    obtain ⟨x, hx, rfl⟩ := (hmap i y).1 hl
    obtain ⟨x', hx', rfl⟩ := (hmap j z).1 hl'
    have hj' : j < c.size st.sizeGrade := hj
    have e1 := hq i x (by omega) hx
    have e2 := hq j x' hj' hx'
    exact (hnone k).2 (I.wf.contig i j k x x' h1 h2 hj' hx hx' (by rw [← e1, ← e2]; exact e))
  · intro i k y hi hl hm hk
    obtain ⟨x, hx, rfl⟩ := (hmap i y).1 hl
    have hi' : i < c.size st.sizeGrade := hi
    have e1 := hq i x hi' hx
    refine (hnone k).2 (I.wf.left i k x hi' hx ?_ hk)
    rw [← e1]; exact hm
  · intro i k y hi hl hm hk hkn
    obtain ⟨x, hx, rfl⟩ := (hmap i y).1 hl
    have hi' : i < c.size st.sizeGrade := hi
    have e1 := hq i x hi' hx
    refine (hnone k).2 (I.wf.right i k x hi' hx ?_ hk hkn)
    rw [← e1]; exact hm
  · intro i hi
    have hi' : i < c.size st.sizeGrade := hi
    refine (hv i).trans ?_
    rw [hz, I.rep.slot i hi']
    cases hl : lay i with
    | none => simp [slotOf]
    | some x =>
      obtain ⟨h1, h2, _, _⟩ := hitem i x hi' hl
      rw [if_pos ⟨by omega, by omega, by simpa [slotOf] using h1⟩]
      exact shItem_explicit hs hs1 h1 h2
  · intro q hqq
    rw [show occ (shrinkStore c st s').mem q = occ st.mem q from hbit _ (by omega), I.rep.occ q hqq]
    constructor
    · rintro ⟨i, x, hi, hx, rfl⟩
      exact ⟨i, _, hi, (hmap i _).2 ⟨x, hx, rfl⟩, hq i x hi hx⟩
    · rintro ⟨i, y, hi, hy, rfl⟩
      obtain ⟨x, hx, rfl⟩ := (hmap i y).1 hy
      exact ⟨i, x, hi, hx, (hq i x hi hx).symm⟩
  · intro i hi
    have hi' : i < c.size st.sizeGrade := hi
    rw [show rend (shrinkStore c st s').mem i = rend st.mem i from hbit _ (by omega), I.rep.rend i hi']
    constructor
    · rintro ⟨x, hx, hall⟩
      refine ⟨_, (hmap i _).2 ⟨x, hx, rfl⟩, ?_⟩
      intro j y hij hj hy
      have hj' : j < c.size st.sizeGrade := hj
      obtain ⟨x', hx', rfl⟩ := (hmap j y).1 hy
      have e1 := hq i x hi' hx
      have e2 := hq j x' hj' hx'
      dsimp only
      rw [e1, e2]
      exact hall j x' hij hj' hx'
    · rintro ⟨y, hy, hall⟩
      obtain ⟨x, hx, rfl⟩ := (hmap i y).1 hy
      refine ⟨x, hx, ?_⟩
      intro j x' hij hj hx'
      have := hall j _ hij hj ((hmap j _).2 ⟨x', hx', rfl⟩)
      dsimp only at this
      rwa [hq i x hi' hx, hq j x' hj hx'] at this
  · rw [pop0_congr fun j hj => hbit j (by omega), I.rep.pop0]
    exact cnt_congr fun i hi => (hbit _ (by omega)).symm
  · rw [pop1_congr fun j _ hj => hbit j (by omega), I.rep.pop1]
    exact cnt_congr fun i hi => (hbit _ (by omega)).symm
  · refine Eq.trans (b := st.elemCount) rfl (I.count.trans ?_)
    exact cnt_congr fun i hi => by cases lay i <;> rfl
  · unfold content
    rw [List.map_filterMap]
    rfl

end

/-- Copying the bitmaps when they end on a byte boundary: the last byte is lost. -/
theorem copy_bitmaps8 (m total j : Nat) (h8 : total % 8 = 0) (ht : 8 ≤ total) :
    (copyBits m total).testBit j = (decide (j < total - 8) && m.testBit j) := by
  unfold copyBits
  have hb : ∀ j, (writeBits 0 0 (8 * ((total + 7) / 8)) (readBits m 0 (8 * ((total + 7) / 8)))).testBit j =
      (decide (j < 8 * ((total + 7) / 8)) && m.testBit j) := by
    intro j
    rw [testBit_writeBits]
    by_cases h : j < 8 * ((total + 7) / 8)
    · rw [if_neg (by omega), if_pos (by omega), testBit_readBits]; simp [h]
    · rw [if_neg (by omega), if_neg (by omega)]; simp [h]
  generalize hM : writeBits 0 0 (8 * ((total + 7) / 8)) (readBits m 0 (8 * ((total + 7) / 8))) = M at *
  rw [testBit_writeBits, h8]
  by_cases h1 : j < 8 * ((total + 7) / 8 - 1)
  · rw [if_pos h1, hb]
    have e1 : decide (j < 8 * ((total + 7) / 8)) = decide (j < total - 8) := by rw [decide_eq_decide]; omega
    rw [e1]
  · have e2 : decide (j < total - 8) = false := by simp; omega
    rw [if_neg h1, e2]
    by_cases h2 : j < 8 * ((total + 7) / 8 - 1) + 8
    · rw [if_pos h2, Nat.testBit_and, testBit_bitmask _ _ (by omega)]
      simp
    · rw [if_neg h2, hb]
      have e1 : decide (j < 8 * ((total + 7) / 8)) = false := by simp; omega
      rw [e1]

theorem shrinkLoop_id {old n nNew s s' : Nat} (hz : ∀ i, i < n → getSlot old n s i = 0) : ∀ (k i m : Nat), i + k ≤ n →
    shrinkLoop old n nNew s s' k i m = m
  | 0, _, _, _ => rfl
  | k + 1, i, m, hi => by
    unfold shrinkLoop
    dsimp only
    rw [hz i (by omega), if_neg (by simp)]
    exact shrinkLoop_id hz k (i + 1) m (by omega)

section
variable {c : Cfg} {T s' : Nat} {st : Store}

/-- What shrinking makes of an empty region of any grade. -/
theorem StoreHas.shrink_bits (H : StoreHas c T st []) (hc : c.WF) :
    ∀ j, (shrinkStore c st s').mem.testBit j = (decide (j < 64) && st.mem.testBit j) := by
  obtain ⟨lay, I, hl⟩ := H
  have hnone : ∀ i, i < c.size st.sizeGrade → lay i = none := by
    intro i hi
    cases h : lay i with
    | none => rfl
    | some x =>
      have := mem_content.2 ⟨i, hi, h⟩
      rw [hl] at this; cases this
  have hmem : (shrinkStore c st s').mem = copyBits st.mem (64 + 1024 + c.size st.sizeGrade) := by
    unfold shrinkStore
    dsimp only
    rw [shrinkLoop_id _ _ _ _ (by omega)]
    · rfl
    · intro i hi
      rw [getSlot_eq _ _ _ _ (by have := hc.s2; omega), I.rep.slot i hi, hnone i hi]; rfl
  intro j
  rw [hmem]
  have hz : 64 ≤ j → j < 1088 + c.size st.sizeGrade → st.mem.testBit j = false := by
    intro h1 h2
    by_cases h3 : j < 1088
    · have := (I.rep.occ (j - 64) (by omega)).not.2 (by
        rintro ⟨i, x, hi, hx, _⟩; rw [hnone i hi] at hx; cases hx)
      have e : occ st.mem (j - 64) = st.mem.testBit j := by
        unfold occ; rw [show 64 + (j - 64) = j by omega]
      rw [e] at this; simpa using this
    · have := (I.rep.rend (j - 1088) (by omega)).not.2 (by
        rintro ⟨x, hx, _⟩; rw [hnone _ (by omega)] at hx; cases hx)
      have e : rend st.mem (j - 1088) = st.mem.testBit j := by
        unfold rend; rw [show 1088 + (j - 1088) = j by omega]
      rw [e] at this; simpa using this
  by_cases h8 : (64 + 1024 + c.size st.sizeGrade) % 8 = 0
  · rw [copy_bitmaps8 _ _ _ h8 (by omega)]
    by_cases hj : j < 64
    · have : decide (j < 64 + 1024 + c.size st.sizeGrade - 8) = true := by simp; omega
      rw [this]; simp [hj]
    · have e : decide (j < 64) = false := by simpa using hj
      rw [e, Bool.false_and]
      by_cases hj' : j < 1088 + c.size st.sizeGrade
      · rw [hz (by omega) hj', Bool.and_false]
      · have : decide (j < 64 + 1024 + c.size st.sizeGrade - 8) = false := by simp; omega
        rw [this, Bool.false_and]
  · rw [copy_bitmaps _ _ _ h8]
    by_cases hj : j < 64
    · have : decide (j < 64 + 1024 + c.size st.sizeGrade) = true := by simp; omega
      rw [this]; simp [hj]
    · have e : decide (j < 64) = false := by simpa using hj
      rw [e, Bool.false_and]
      by_cases hj' : j < 1088 + c.size st.sizeGrade
      · rw [hz (by omega) hj', Bool.and_false]
      · have : decide (j < 64 + 1024 + c.size st.sizeGrade) = false := by simp; omega
        rw [this, Bool.false_and]

/-- Shrinking an empty region of any grade leaves an empty region. -/
theorem StoreHas.shrink_empty (H : StoreHas c T st []) (hc : c.WF) :
    StoreHas { c with infixSize := s' } T (shrinkStore c st s') [] := by
  have hb := H.shrink_bits (s' := s') hc
  obtain ⟨lay, I, hl⟩ := H
  have hnone : ∀ i, i < c.size st.sizeGrade → lay i = none := by
    intro i hi
    cases h : lay i with
    | none => rfl
    | some x =>
      have := mem_content.2 ⟨i, hi, h⟩
      rw [hl] at this; cases this
  have ho : ∀ q, occ (shrinkStore c st s').mem q = false := by
    intro q; unfold occ; rw [hb]; simp
  have hr : ∀ q, rend (shrinkStore c st s').mem q = false := by
    intro q; unfold rend; rw [hb]; simp; omega
  have ho' : ∀ q, q < 1024 → occ st.mem q = false := by
    intro q hq
    have := (I.rep.occ q hq).not.2 (by rintro ⟨i, x, hi, hx, _⟩; rw [hnone i hi] at hx; cases hx)
    simpa using this
  have hr' : ∀ q, q < c.size st.sizeGrade → rend st.mem q = false := by
    intro q hq
    have := (I.rep.rend q hq).not.2 (by rintro ⟨x, hx, _⟩; rw [hnone _ hq] at hx; cases hx)
    simpa using this
  refine ⟨fun _ => none, ⟨⟨?_, ?_, ?_, ?_, ?_⟩, ⟨?_, ?_, ?_, ?_, ?_⟩, ?_, I.status, I.fine⟩, ?_⟩
  · intro i x _ h; cases h
  · intro i j x y _ _ h; cases h
  · intro i j k x y _ _ _ h; cases h
  · intro i k x _ h; cases h
  · intro i k x _ h; cases h
  · intro i _
    change _ = 0
    apply testBit_ext; intro j
    rw [testBit_slotv, hb]
    simp; omega
  · intro q _
    rw [ho]; simp
  · intro i _
    rw [hr]; simp
  · rw [pop0_congr (m := st.mem) fun j hj => by rw [hb]; simp; omega, I.rep.pop0]
    exact cnt_congr fun i hi => by rw [ho, ho' i (by omega)]
  · rw [pop1_congr (m := st.mem) fun j _ hj => by rw [hb]; simp; omega, I.rep.pop1]
    exact cnt_congr fun i hi => by rw [hr, hr' i (by omega)]
  · refine Eq.trans (b := st.elemCount) rfl (I.count.trans ?_)
    exact cnt_congr fun i hi => by rw [hnone i hi]
  · unfold content
    simp

/-- Shrinking a region that is empty or of the default grade. -/
theorem StoreHas.shrink' {L : List Nat} (H : StoreHas c T st L) (hc : c.WF) (hT : T ≤ 1024)
    (hg : st.sizeGrade = growSep ∨ st.elemCount = 0) (h8 : c.size growSep % 8 ≠ 0) (hs : s' ≤ c.infixSize) (hs1 : 1 ≤ s') :
    StoreHas { c with infixSize := s' } T (shrinkStore c st s') (L.map (shItem (c.infixSize - s'))) := by
  rcases hg with hg | hg
  · exact H.shrink hc hT hg h8 hs hs1
  · obtain rfl : L = [] := by rw [H.count] at hg; exact List.length_eq_zero_iff.1 hg
    exact H.shrink_empty hc

end

/-! ## Regions and queries -/

theorem pre_shorten (k : Key) {p q d : Nat} (h : p + d = q) : pre p k = pre q k / 2 ^ d := by
  rw [← h, pre_add]

section
variable {c : Cfg} {prev next : Key} {st : Store} {sh ig imp s' : Nat} {L : List Nat}

theorem RegionHas.shrinkStrong (R : RegionHas c prev st next sh ig imp L) (hc : c.WF) (hg : st.sizeGrade = growSep ∨ st.elemCount = 0)
    (h8 : c.size growSep % 8 ≠ 0) (hs : s' ≤ c.infixSize) (hs1 : 1 ≤ s') :
    StoreHas { c with infixSize := s' } (pre (sh + ig + imp) next - pre (sh + ig + imp) prev + 1) (shrinkStore c st s')
      (L.map (shItem (c.infixSize - s'))) := R.strong.shrink' hc R.T_le hg h8 hs hs1

theorem RegionHas.shrink (R : RegionHas c prev st next sh ig imp L) (hc : c.WF) (hg : st.sizeGrade = growSep ∨ st.elemCount = 0)
    (h8 : c.size growSep % 8 ≠ 0) (hs : s' ≤ c.infixSize) (hs1 : 1 ≤ s') :
    RegionBase { c with infixSize := s' } prev (shrinkStore c st s') next sh ig imp (L.map (shItem (c.infixSize - s'))) :=
  ⟨R.lt, R.sii, (R.shrinkStrong hc hg h8 hs hs1).weak⟩

theorem RegionBase.hit_shrink (R : RegionBase c prev st next sh ig imp L) (hc : c.WF) (hs : s' ≤ c.infixSize)
    (hs1 : 1 ≤ s') {k : Key} (h : HitL c.infixSize (sh + ig + imp) prev L k) :
    HitL s' (sh + ig + imp) prev (L.map (shItem (c.infixSize - s'))) k := by
  obtain ⟨x, hx, e⟩ := h
  obtain ⟨h0, hlt, _⟩ := R.item_lt hc hx
  refine ⟨_, List.mem_map_of_mem hx, ?_⟩
  rw [pre_shorten k (shItem_len hs hs1 h0 hlt _), e, shItem_val hs hs1 h0 hlt]

theorem RegionBase.meet_shrink (R : RegionBase c prev st next sh ig imp L) (hc : c.WF) (hs : s' ≤ c.infixSize)
    (hs1 : 1 ≤ s') {l r : Key} (h : MeetL c.infixSize (sh + ig + imp) prev L l r) :
    MeetL s' (sh + ig + imp) prev (L.map (shItem (c.infixSize - s'))) l r := by
  obtain ⟨x, hx, e1, e2⟩ := h
  obtain ⟨h0, hlt, _⟩ := R.item_lt hc hx
  refine ⟨_, List.mem_map_of_mem hx, ?_, ?_⟩
  · rw [pre_shorten l (shItem_len hs hs1 h0 hlt _), shItem_val hs hs1 h0 hlt]
    exact Nat.div_le_div_right e1
  · rw [pre_shorten r (shItem_len hs hs1 h0 hlt _), shItem_val hs hs1 h0 hlt]
    exact Nat.div_le_div_right e2

theorem RegionHas.inside_shrink (R : RegionHas c prev st next sh ig imp L) (hc : c.WF) (hs : s' ≤ c.infixSize)
    (hs1 : 1 ≤ s') : ∀ y ∈ L.map (shItem (c.infixSize - s')), Inside s' (sh + ig + imp) prev next y := by
  intro y hy
  obtain ⟨x, hx, rfl⟩ := List.mem_map.1 hy
  obtain ⟨h0, hlt, _⟩ := R.item_lt hc hx
  obtain ⟨e1, e2⟩ := R.inside x hx
  refine ⟨?_, ?_⟩
  · rw [pre_shorten prev (shItem_len hs hs1 h0 hlt _), shItem_val hs hs1 h0 hlt]
    exact Nat.div_le_div_right e1
  · rw [pre_shorten next (shItem_len hs hs1 h0 hlt _), shItem_val hs hs1 h0 hlt]
    exact Nat.div_le_div_right e2

end

theorem Cfg.WF.shrink {c : Cfg} {s' : Nat} (hc : c.WF) (hs : s' ≤ c.infixSize) (hs1 : 1 ≤ s') :
    Cfg.WF { c with infixSize := s' } :=
  ⟨hs1, Nat.le_trans hs hc.s2, hc.grow, hc.exc, hc.scalar, hc.step, hc.top, hc.sep1, hc.sep2⟩

section
variable {f f' : Filter} {s' : Nat}

theorem shrink_eq (hf : shrinkInfixSize f s' = .ok f') :
    f' = ⟨{ f.cfg with infixSize := s' }, f.tree.map fun e => (e.1, shrinkStore f.cfg e.2 s')⟩ := by
  unfold shrinkInfixSize at hf
  split at hf
  · cases hf
  · injection hf with h; exact h.symm

theorem shrink_pairwise (h : FilterOK f) (hf : shrinkInfixSize f s' = .ok f') :
    f'.tree.Pairwise fun e e' => PadLt e.1 e'.1 := by
  rw [shrink_eq hf]
  exact List.pairwise_map.2 h.pairwise

theorem shrink_boundaries (hf : shrinkInfixSize f s' = .ok f') :
    f'.tree.map Prod.fst = f.tree.map Prod.fst := by
  rw [shrink_eq hf]
  simp [Function.comp_def]

theorem shrink_tree (hf : shrinkInfixSize f s' = .ok f') {A B : Tree} {p e : Key × Store}
    (ht : f.tree = A ++ p :: e :: B) : ∃ A' B' ste, f'.tree = A' ++ (p.1, shrinkStore f.cfg p.2 s') :: (e.1, ste) :: B' := by
  rw [shrink_eq hf]
  dsimp only
  rw [ht, List.map_append, List.map_cons, List.map_cons]
  exact ⟨_, _, _, rfl⟩

end

end Verif
