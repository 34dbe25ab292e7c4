import Verif.Proof.Mem
import Verif.Proof.Order

/-!
# Layout of items in slots, and its representation in memory

A layout gives the item (quotient and explicit part in one number) of every slot, or none.
`LayWF` is the invariant on layouts, `Rep` says that a block of memory represents a layout.
-/

namespace Verif

/-- Well-formed layout of `n` slots with `s`-bit explicit parts, quotients below `T`, and home slot
`mp q` of quotient `q`. -/
structure LayWF (n s T : Nat) (mp : Nat → Nat) (lay : Nat → Option Nat) : Prop where
  item : ∀ i x, i < n → lay i = some x → x % 2 ^ s ≠ 0 ∧ x / 2 ^ s < T
  sorted : ∀ i j x y, i < j → j < n → lay i = some x → lay j = some y → ile x y
  contig : ∀ i j k x y, i < k → k < j → j < n → lay i = some x → lay j = some y →
    x / 2 ^ s = y / 2 ^ s → lay k ≠ none
  left : ∀ i k x, i < n → lay i = some x → mp (x / 2 ^ s) ≤ k → k < i → lay k ≠ none
  right : ∀ i k x, i < n → lay i = some x → i < mp (x / 2 ^ s) → i ≤ k → k < n → lay k ≠ none

/-- The slot content for an optional item. -/
def slotOf (s : Nat) : Option Nat → Nat
  | none => 0
  | some x => x % 2 ^ s

/-- The block `m` represents the layout. -/
structure Rep (m n s : Nat) (lay : Nat → Option Nat) : Prop where
  slot : ∀ i, i < n → slotv m n s i = slotOf s (lay i)
  occ : ∀ q, q < 1024 → (occ m q = true ↔ ∃ i x, i < n ∧ lay i = some x ∧ x / 2 ^ s = q)
  rend : ∀ i, i < n → (rend m i = true ↔ ∃ x, lay i = some x ∧
    ∀ j y, i < j → j < n → lay j = some y → y / 2 ^ s ≠ x / 2 ^ s)
  pop0 : pop0 m = cnt (Verif.occ m) 512
  pop1 : pop1 m = cnt (Verif.rend m) (min 512 n)

theorem item_lt {x s T : Nat} (hs : s ≤ 46) (hT : T ≤ 1024) (h : x / 2 ^ s < T) : x < 2 ^ 64 := by
  have h1 : x < T * 2 ^ s := (Nat.div_lt_iff_lt_mul (Nat.two_pow_pos s)).1 h
  have h2 : T * 2 ^ s ≤ 2 ^ 10 * 2 ^ 46 :=
    Nat.mul_le_mul hT (Nat.pow_le_pow_right (by decide) hs)
  omega

section
variable {m n s T : Nat} {mp : Nat → Nat} {lay : Nat → Option Nat}

theorem LayWF.quot_le (h : LayWF n s T mp lay) (hs : s ≤ 46) (hT : T ≤ 1024) {i j x y : Nat}
    (hij : i ≤ j) (hj : j < n) (hi : lay i = some x) (hj' : lay j = some y) :
    x / 2 ^ s ≤ y / 2 ^ s := by
  rcases Nat.lt_or_ge i j with h1 | h1
  · obtain ⟨a1, a2⟩ := h.item i x (by omega) hi
    obtain ⟨b1, b2⟩ := h.item j y hj hj'
    exact ile_quot a1 b1 (item_lt hs hT a2) (item_lt hs hT b2) (h.sorted i j x y h1 hj hi hj')
  · have : i = j := by omega
    subst this
    rw [hi] at hj'; injection hj' with e; rw [e]

theorem LayWF.pos_lt (h : LayWF n s T mp lay) (hs : s ≤ 46) (hT : T ≤ 1024) {i j x y : Nat}
    (hi' : i < n) (hi : lay i = some x) (hj' : lay j = some y)
    (hq : x / 2 ^ s < y / 2 ^ s) : i < j := by
  by_contra hc
  have := h.quot_le hs hT (show j ≤ i by omega) hi' hj' hi
  omega

theorem Rep.slot_ne_zero (r : Rep m n s lay) (h : LayWF n s T mp lay) {i : Nat} (hi : i < n) :
    slotv m n s i ≠ 0 ↔ lay i ≠ none := by
  rw [r.slot i hi]
  cases e : lay i with
  | none => simp [slotOf]
  | some x => simp [slotOf, (h.item i x hi e).1]

theorem Rep.filled_of_rend (r : Rep m n s lay) {i : Nat} (hi : i < n) (h : Verif.rend m i = true) :
    lay i ≠ none := by
  obtain ⟨x, h1, _⟩ := (r.rend i hi).1 h
  rw [h1]; simp

theorem cnt_flip {p p' : Nat → Bool} {k a : Nat} (ha : a < k) (h0 : p a = false) (h1 : p' a = true)
    (h : ∀ i, i < k → i ≠ a → p' i = p i) : cnt p' k = cnt p k + 1 := by
  have e : k = a + (1 + (k - a - 1)) := by omega
  rw [e, cnt_add, cnt_add, cnt_add p, cnt_add (fun i => p (a + i))]
  have e1 : cnt p' a = cnt p a := cnt_congr fun i hi => h i (by omega) (by omega)
  have e2 : cnt (fun i => p' (a + i)) 1 = 1 := by simp [cnt, h1]
  have e3 : cnt (fun i => p (a + i)) 1 = 0 := by simp [cnt, h0]
  have e4 : cnt (fun i => p' (a + (1 + i))) (k - a - 1) = cnt (fun i => p (a + (1 + i))) (k - a - 1) :=
    cnt_congr fun i hi => h _ (by omega) (by omega)
  rw [e1, e2, e3, e4]; omega

open Classical in
/-- Quotients whose run ends before slot `i`. -/
noncomputable def endedBefore (m s : Nat) (lay : Nat → Option Nat) (i q : Nat) : Bool :=
  decide (∃ e x, e < i ∧ rend m e = true ∧ lay e = some x ∧ x / 2 ^ s = q)

theorem endedBefore_iff {i q : Nat} : endedBefore m s lay i q = true ↔
    ∃ e x, e < i ∧ rend m e = true ∧ lay e = some x ∧ x / 2 ^ s = q := by
  classical
  unfold endedBefore; rw [decide_eq_true_eq]

theorem endedBefore_false {i q : Nat} : endedBefore m s lay i q = false ↔
    ¬ ∃ e x, e < i ∧ rend m e = true ∧ lay e = some x ∧ x / 2 ^ s = q := by
  rw [← endedBefore_iff]; simp

theorem cnt_rend_eq (r : Rep m n s lay) (h : LayWF n s T mp lay) (hT : T ≤ 1024) :
    ∀ i, i ≤ n → cnt (rend m) i = cnt (endedBefore m s lay i) 1024 := by
  intro i
  induction i with
  | zero =>
    intro _
    symm
    apply cnt_zero_of
    intro q _
    rw [endedBefore_false]
    rintro ⟨e, x, h1, _⟩; omega
  | succ i ih =>
    intro hi
    rw [cnt, ih (by omega)]
    cases hr : rend m i with
    | false =>
      rw [Bool.toNat_false, Nat.add_zero]
      apply cnt_congr
      intro q _
      rw [Bool.eq_iff_iff, endedBefore_iff, endedBefore_iff]
      constructor
      · rintro ⟨e, x, h1, h2⟩; exact ⟨e, x, by omega, h2⟩
      · rintro ⟨e, x, h1, h2, h3⟩
        refine ⟨e, x, ?_, h2, h3⟩
        by_contra hc
        have : e = i := by omega
        subst this; rw [hr] at h2; simp at h2
    | true =>
      rw [Bool.toNat_true]
      obtain ⟨x, hx, hlast⟩ := (r.rend i (by omega)).1 hr
      have hq := (h.item i x (by omega) hx).2
      symm
      apply cnt_flip (a := x / 2 ^ s) (by omega)
      · rw [endedBefore_false]
        rintro ⟨e, y, h1, h2, h3, h4⟩
        obtain ⟨y', h5, h6⟩ := (r.rend e (by omega)).1 h2
        rw [h3] at h5; injection h5 with h5; subst h5
        exact h6 i x h1 (by omega) hx h4.symm
      · rw [endedBefore_iff]
        exact ⟨i, x, by omega, hr, hx, rfl⟩
      · intro q _ hq'
        rw [Bool.eq_iff_iff, endedBefore_iff, endedBefore_iff]
        constructor
        · rintro ⟨e, y, h1, h2, h3, h4⟩
          refine ⟨e, y, ?_, h2, h3, h4⟩
          by_contra hc
          have : e = i := by omega
          subst this
          rw [hx] at h3; injection h3 with h3; subst h3
          exact hq' h4.symm
        · rintro ⟨e, y, h1, h2⟩; exact ⟨e, y, by omega, h2⟩

/-- Every filled slot belongs to a run that ends at a runend, with filled slots in between. -/
theorem run_end (r : Rep m n s lay) (h : LayWF n s T mp lay) (hs : s ≤ 46) (hT : T ≤ 1024) {i x : Nat}
    (hi : i < n) (hx : lay i = some x) :
    ∃ e y, i ≤ e ∧ e < n ∧ rend m e = true ∧ lay e = some y ∧ y / 2 ^ s = x / 2 ^ s ∧
      ∀ k, i ≤ k → k ≤ e → ∃ z, lay k = some z ∧ z / 2 ^ s = x / 2 ^ s := by
  obtain ⟨d, hd⟩ : ∃ d, n = i + 1 + d := ⟨n - i - 1, by omega⟩
  induction d using Nat.strong_induction_on generalizing i x with
  | _ d ih =>
    by_cases hl : ∃ j y, i < j ∧ j < n ∧ lay j = some y ∧ y / 2 ^ s = x / 2 ^ s
    · obtain ⟨j, y, h1, h2, h3, h4⟩ := hl
      have hfill : ∀ k, i < k → k ≤ j → ∃ z, lay k = some z ∧ z / 2 ^ s = x / 2 ^ s := by
        intro k hk1 hk2
        have hne : lay k ≠ none := by
          rcases Nat.lt_or_ge k j with hk | hk
          · exact h.contig i j k x y hk1 hk h2 hx h3 h4.symm
          · have : k = j := by omega
            rw [this, h3]; simp
        obtain ⟨z, hz⟩ := Option.ne_none_iff_exists'.1 hne
        refine ⟨z, hz, ?_⟩
        have a1 := h.quot_le hs hT (show i ≤ k by omega) (by omega) hx hz
        have a2 := h.quot_le hs hT hk2 h2 hz h3
        omega
      obtain ⟨z, hz, hzq⟩ := hfill (i + 1) (by omega) (by omega)
      obtain ⟨e, y', g1, g2, g3, g4, g5, g6⟩ := ih (d - 1) (by omega) (show i + 1 < n by omega) hz (by omega)
      refine ⟨e, y', by omega, g2, g3, g4, by omega, ?_⟩
      intro k hk1 hk2
      rcases Nat.lt_or_ge i k with hk | hk
      · obtain ⟨z', hz', hq'⟩ := g6 k (by omega) hk2
        exact ⟨z', hz', by omega⟩
      · have : k = i := by omega
        subst this; exact ⟨x, hx, rfl⟩
    · refine ⟨i, x, Nat.le_refl _, hi, ?_, hx, rfl, ?_⟩
      · rw [r.rend i hi]
        refine ⟨x, hx, ?_⟩
        intro j y h1 h2 h3 h4
        exact hl ⟨j, y, h1, h2, h3, h4⟩
      · intro k hk1 hk2
        have : k = i := by omega
        subst this; exact ⟨x, hx, rfl⟩

/-- The number of runends before a slot of a run is the rank of its quotient among occupied quotients. -/
theorem rank_eq (r : Rep m n s lay) (h : LayWF n s T mp lay) (hs : s ≤ 46) (hT : T ≤ 1024) {e x : Nat}
    (he : e < n) (hx : lay e = some x) :
    cnt (rend m) e = cnt (occ m) (x / 2 ^ s) := by
  rw [cnt_rend_eq r h hT e (by omega)]
  have hq := (h.item e x he hx).2
  rw [cnt_eq_of_gap (a := x / 2 ^ s) (by omega)]
  · apply cnt_congr
    intro q hq'
    rw [Bool.eq_iff_iff]
    rw [endedBefore_iff, r.occ q (by omega)]
    constructor
    · rintro ⟨e', y, h1, h2, h3, h4⟩
      exact ⟨e', y, by omega, h3, h4⟩
    · rintro ⟨i, y, h1, h2, h3⟩
      obtain ⟨e', y', g1, g2, g3, g4, g5, _⟩ := run_end r h hs hT h1 h2
      exact ⟨e', y', h.pos_lt hs hT g2 g4 hx (by omega), g3, g4, by omega⟩
  · intro q h1 h2
    rw [endedBefore_false]
    rintro ⟨e', y, g1, g2, g3, g4⟩
    have h5 := h.quot_le hs hT (show e' ≤ e by omega) he g3 hx
    obtain ⟨y', h6, h7⟩ := (r.rend e' (by omega)).1 g2
    rw [g3] at h6; injection h6 with h6; subst h6
    exact h7 e x g1 he hx (by omega)

/-- An occupied quotient has a run, whose end `SelectRunends` finds. -/
theorem occ_run (r : Rep m n s lay) (h : LayWF n s T mp lay) (hs : s ≤ 46) (hT : T ≤ 1024) {q : Nat}
    (hq : q < 1024) (ho : occ m q = true) :
    ∃ e x, e < n ∧ rend m e = true ∧ lay e = some x ∧ x / 2 ^ s = q ∧
      selectRunends m n (cnt (occ m) q) = e := by
  obtain ⟨i, x, h1, h2, h3⟩ := (r.occ q hq).1 ho
  obtain ⟨e, y, g1, g2, g3, g4, g5, _⟩ := run_end r h hs hT h1 h2
  refine ⟨e, y, g2, g3, g4, by omega, ?_⟩
  apply selectRunends_eq m n _ e g2 g3 _ r.pop1
  have := rank_eq r h hs hT g2 g4
  rw [show q = y / 2 ^ s by omega]
  exact this

theorem Rep.rank (r : Rep m n s lay) (q : Nat) : rankOccupieds m q = cnt (Verif.occ m) q :=
  rankOccupieds_eq m q r.pop0

/-- The `k`-th occupied quotient's run is found by `SelectRunends`; used with the predecessor rank. -/
theorem pred_run (r : Rep m n s lay) (h : LayWF n s T mp lay) (hs : s ≤ 46) (hT : T ≤ 1024) {q : Nat}
    (hq : q ≤ 1024) (hpos : cnt (occ m) q ≠ 0) :
    ∃ q' e x, q' < q ∧ e < n ∧ rend m e = true ∧ lay e = some x ∧ x / 2 ^ s = q' ∧
      selectRunends m n (cnt (occ m) q - 1) = e ∧
      ∀ i y, i < n → lay i = some y → y / 2 ^ s < q → y / 2 ^ s ≤ q' := by
  obtain ⟨q', h1, h2, h3⟩ := exists_cnt (p := occ m) (k := q) (r := cnt (occ m) q - 1) (by omega)
  obtain ⟨e, x, g1, g2, g3, g4, g5⟩ := occ_run r h hs hT (by omega) h2
  refine ⟨q', e, x, h1, g1, g2, g3, g4, by rw [← h3, g5], ?_⟩
  intro i y hi hy hlt
  by_contra hc
  have ho : occ m (y / 2 ^ s) = true := (r.occ _ (by omega)).2 ⟨i, y, hi, hy, rfl⟩
  have a1 := cnt_lt (occ m) (show q' < y / 2 ^ s by omega) h2
  have a2 := cnt_lt (occ m) hlt ho
  omega

/-- Slot scan of one run. -/
theorem scanRun_iff (r : Rep m n s lay) (h : LayWF n s T mp lay) (hs : s ≤ 46) (hT : T ≤ 1024)
    (p : Nat → Bool) : ∀ pos x, pos < n → lay pos = some x →
      (scanRun m n s p pos = true ↔
        ∃ j y, j ≤ pos ∧ lay j = some y ∧ y / 2 ^ s = x / 2 ^ s ∧ p (y % 2 ^ s) = true) := by
  intro pos
  induction pos with
  | zero =>
    intro x h1 h2
    rw [scanRun, getSlot_eq _ _ _ _ (by omega), r.slot 0 h1, h2]
    constructor
    · intro hp; exact ⟨0, x, Nat.le_refl _, h2, rfl, hp⟩
    · rintro ⟨j, y, a1, a2, _, a4⟩
      have : j = 0 := by omega
      subst this; rw [h2] at a2; injection a2 with a2; subst a2; exact a4
  | succ pos ih =>
    intro x h1 h2
    rw [scanRun, getSlot_eq _ _ _ _ (by omega), getSlot_eq _ _ _ _ (by omega), r.slot _ h1, h2]
    split_ifs with hp hc
    · constructor
      · intro _; exact ⟨pos + 1, x, Nat.le_refl _, h2, rfl, hp⟩
      · intro _; rfl
    · obtain ⟨hc1, hc2⟩ := hc
      obtain ⟨z, hz⟩ := Option.ne_none_iff_exists'.1 ((r.slot_ne_zero h (by omega)).1 hc1)
      have hnr : rend m pos ≠ true := by
        rw [getBit_eq_zero] at hc2
        rw [rend, hc2]; simp
      have hzq : z / 2 ^ s = x / 2 ^ s := by
        have hle := h.quot_le hs hT (show pos ≤ pos + 1 by omega) h1 hz h2
        by_contra hne
        apply hnr
        rw [r.rend pos (by omega)]
        refine ⟨z, hz, ?_⟩
        intro j y a1 a2 a3 a4
        have := h.quot_le hs hT (show pos + 1 ≤ j by omega) a2 h2 a3
        omega
      rw [ih z (by omega) hz]
      constructor
      · rintro ⟨j, y, a1, a2, a3, a4⟩; exact ⟨j, y, by omega, a2, by omega, a4⟩
      · rintro ⟨j, y, a1, a2, a3, a4⟩
        refine ⟨j, y, ?_, a2, by omega, a4⟩
        by_contra hcon
        have : j = pos + 1 := by omega
        subst this; rw [h2] at a2; injection a2 with a2; subst a2
        exact hp a4
    · constructor
      · intro hf; simp at hf
      · rintro ⟨j, y, a1, a2, a3, a4⟩
        exfalso
        rcases Nat.lt_or_ge j (pos + 1) with hj | hj
        · have hpos : lay pos ≠ none := by
            rcases Nat.lt_or_ge j pos with hj2 | hj2
            · exact h.contig j (pos + 1) pos y x hj2 (by omega) h1 a2 h2 a3
            · have : j = pos := by omega
              rw [← this, a2]; simp
          apply hc
          refine ⟨(r.slot_ne_zero h (by omega)).2 hpos, ?_⟩
          obtain ⟨z, hz⟩ := Option.ne_none_iff_exists'.1 hpos
          rw [getBit_eq_zero]
          have e1 := h.quot_le hs hT (show j ≤ pos by omega) (by omega) a2 hz
          have e2 := h.quot_le hs hT (show pos ≤ pos + 1 by omega) h1 hz h2
          by_contra hr
          have hr' : rend m pos = true := by
            rw [rend]; simpa using hr
          obtain ⟨z', g1, g2⟩ := (r.rend pos (by omega)).1 hr'
          rw [hz] at g1; injection g1 with g1; subst g1
          exact g2 (pos + 1) x (by omega) h1 h2 (by omega)
        · have : j = pos + 1 := by omega
          subst this; rw [h2] at a2; injection a2 with a2; subst a2
          exact hp a4

/-! ## Empty-slot searches -/

theorem findEmptyAfterLoop_spec (r : Rep m n s lay) (h : LayWF n s T mp lay) (hs : s ≤ 46)
    (hT : T ≤ 1024) : ∀ fuel cur, n < cur + fuel →
      cur ≤ findEmptyAfterLoop m n s fuel cur ∧
      (∀ k, cur < k → k ≤ findEmptyAfterLoop m n s fuel cur → k < n → lay k ≠ none) ∧
      (findEmptyAfterLoop m n s fuel cur + 1 < n → lay (findEmptyAfterLoop m n s fuel cur + 1) = none) := by
  intro fuel
  induction fuel with
  | zero =>
    intro cur hc
    rw [findEmptyAfterLoop]
    exact ⟨Nat.le_refl _, fun k h1 h2 => by omega, fun h1 => by omega⟩
  | succ fuel ih =>
    intro cur hc
    rw [findEmptyAfterLoop]
    split_ifs with hcond
    · obtain ⟨c1, c2⟩ := hcond
      obtain ⟨n1, n2, n3⟩ := nextRunend_spec m n cur
      obtain ⟨i1, i2, i3⟩ := ih (nextRunend m n cur) (by omega)
      refine ⟨by omega, ?_, i3⟩
      intro k k1 k2 k3
      by_cases k4 : nextRunend m n cur < k
      · exact i2 k k4 k2 k3
      · rw [getSlot_eq _ _ _ _ (by omega)] at c2
        obtain ⟨z, hz⟩ := Option.ne_none_iff_exists'.1 ((r.slot_ne_zero h (show cur + 1 < n by omega)).1 c2)
        obtain ⟨e, y, g1, g2, g3, _, _, g6⟩ := run_end r h hs hT (by omega) hz
        have : ¬ e < nextRunend m n cur := by
          intro hlt
          have := n2 e (by omega) hlt
          rw [rend] at g3; rw [this] at g3; simp at g3
        obtain ⟨w, hw, _⟩ := g6 k (by omega) (by omega)
        rw [hw]; simp
    · refine ⟨Nat.le_refl _, fun k h1 h2 => by omega, ?_⟩
      intro h1
      by_contra hne
      apply hcond
      refine ⟨by omega, ?_⟩
      rw [getSlot_eq _ _ _ _ (by omega)]
      exact (r.slot_ne_zero h h1).2 hne

/-- `FindEmptySlotAfter(pos)` is the first empty slot after `pos`, or at least `n` if there is none. -/
theorem findEmptySlotAfter_spec (r : Rep m n s lay) (h : LayWF n s T mp lay) (hs : s ≤ 46)
    (hT : T ≤ 1024) (pos : Nat) :
    pos < findEmptySlotAfter m n s pos ∧
    (∀ k, pos < k → k < findEmptySlotAfter m n s pos → k < n → lay k ≠ none) ∧
    (findEmptySlotAfter m n s pos < n → lay (findEmptySlotAfter m n s pos) = none) := by
  obtain ⟨h1, h2, h3⟩ := findEmptyAfterLoop_spec r h hs hT (n + 1) pos (by omega)
  unfold findEmptySlotAfter
  exact ⟨by omega, fun k k1 k2 k3 => h2 k k1 (by omega) k3, h3⟩

theorem findEmptyBeforeRuns_spec (r : Rep m n s lay) (h : LayWF n s T mp lay) (hs : s ≤ 46)
    (hT : T ≤ 1024) : ∀ fuel cur, cur < fuel → cur < n → lay cur ≠ none →
      ∃ p c, findEmptyBeforeRuns m n s fuel cur = (p, c) ∧ p ≤ cur ∧ -1 ≤ c ∧ c < p ∧ lay p ≠ none ∧
        (∀ k, p ≤ k → k ≤ cur → lay k ≠ none) ∧
        (0 ≤ c → lay (c.toNat + 1) = none) := by
  intro fuel
  induction fuel with
  | zero => intro cur hc; omega
  | succ fuel ih =>
    intro cur hc hn hfill
    rw [findEmptyBeforeRuns]
    obtain ⟨p1, p2, p3, p4⟩ := previousRunend_spec m cur
    rcases hpr : previousRunend m cur with p | k
    · rw [hpr] at p1 p2 p3 p4
      dsimp only
      have hof : Int.ofNat p = (p : Int) := rfl
      have hpc : p < cur := by omega
      have hrp : rend m p = true := p4 (by omega)
      split_ifs with hcond
      · rw [getSlot_eq _ _ _ _ (by omega)] at hcond
        obtain ⟨z, hz⟩ := Option.ne_none_iff_exists'.1 ((r.slot_ne_zero h (show p + 1 < n by omega)).1 hcond)
        obtain ⟨e, y, g1, g2, g3, _, _, g6⟩ := run_end r h hs hT (by omega) hz
        have hge : ¬ e < cur := by
          intro hlt
          have := p3 e (by omega) (by omega)
          rw [rend, this] at g3; simp at g3
        have hfp : lay p ≠ none := r.filled_of_rend (by omega) hrp
        obtain ⟨p', c, f1, f2, f3, f4, f5, f6, f7⟩ := ih p (by omega) (by omega) hfp
        refine ⟨p', c, f1, by omega, f3, f4, f5, ?_, f7⟩
        intro k k1 k2
        by_cases k3 : k ≤ p
        · exact f6 k k1 k3
        · obtain ⟨w, hw, _⟩ := g6 k (by omega) (by omega)
          rw [hw]; simp
      · refine ⟨cur, .ofNat p, rfl, Nat.le_refl _, by omega, by omega, hfill, ?_, ?_⟩
        · intro k k1 k2
          have : k = cur := by omega
          rw [this]; exact hfill
        · intro _
          by_contra hne
          apply hcond
          rw [getSlot_eq _ _ _ _ (by omega)]
          exact (r.slot_ne_zero h (show p + 1 < n by omega)).2 hne
    · rw [hpr] at p1 p2
      dsimp only
      refine ⟨cur, .negSucc k, rfl, Nat.le_refl _, p1, p2, hfill, ?_, ?_⟩
      · intro k k1 k2
        have : k = cur := by omega
        rw [this]; exact hfill
      · intro hneg; omega

theorem findEmptyBeforeScan_spec (r : Rep m n s lay) (h : LayWF n s T mp lay) (hs : s ≤ 46)
    (c : Int) : ∀ p, p ≤ n → c < p → (0 ≤ c → c.toNat + 1 < p ∧ lay (c.toNat + 1) = none) →
      -1 ≤ findEmptyBeforeScan m n s c p ∧ findEmptyBeforeScan m n s c p < p ∧
      (∀ k : Nat, findEmptyBeforeScan m n s c p < k → k < p → lay k ≠ none) ∧
      (0 ≤ findEmptyBeforeScan m n s c p → lay (findEmptyBeforeScan m n s c p).toNat = none) := by
  intro p
  induction p with
  | zero =>
    intro h1 h2 h3
    rw [findEmptyBeforeScan]
    exact ⟨by omega, by omega, fun k _ hk => by omega, fun hk => by omega⟩
  | succ p ih =>
    intro h1 h2 h3
    rw [findEmptyBeforeScan]
    have hslot := r.slot_ne_zero h (show p < n by omega)
    rw [getSlot_eq _ _ _ _ (by omega)]
    split_ifs with hcond
    · obtain ⟨c1, c2⟩ := hcond
      have hfp := hslot.1 c2
      obtain ⟨i1, i2, i3, i4⟩ := ih (by omega) c1 (fun h0 => by
        obtain ⟨a, b⟩ := h3 h0
        refine ⟨?_, b⟩
        by_contra hh
        have : c.toNat + 1 = p := by omega
        rw [this] at b; exact hfp b)
      refine ⟨i1, by omega, ?_, i4⟩
      intro k k1 k2
      by_cases k3 : k = p
      · rw [k3]; exact hfp
      · exact i3 k k1 (by omega)
    · refine ⟨by omega, by omega, fun k k1 k2 => by omega, ?_⟩
      intro _
      by_contra hne
      have hne' : lay p ≠ none := by simpa using hne
      apply hcond
      refine ⟨?_, hslot.2 hne'⟩
      by_contra hlt
      obtain ⟨a, b⟩ := h3 (by omega)
      omega

/-- `FindEmptySlotBefore(pos)` at a filled slot is the last empty slot before `pos`, −1 if none. -/
theorem findEmptySlotBefore_spec (r : Rep m n s lay) (h : LayWF n s T mp lay) (hs : s ≤ 46)
    (hT : T ≤ 1024) {pos : Nat} (hpos : pos < n) (hf : lay pos ≠ none) :
    -1 ≤ findEmptySlotBefore m n s pos ∧ findEmptySlotBefore m n s pos < pos ∧
    (∀ k : Nat, findEmptySlotBefore m n s pos < k → k < pos → lay k ≠ none) ∧
    (0 ≤ findEmptySlotBefore m n s pos → lay (findEmptySlotBefore m n s pos).toNat = none) := by
  obtain ⟨p, c, f1, f2, f3, f4, f5, f6, f7⟩ :=
    findEmptyBeforeRuns_spec r h hs hT (pos + 1) pos (by omega) hpos hf
  unfold findEmptySlotBefore
  rw [f1]
  dsimp only
  obtain ⟨g1, g2, g3, g4⟩ := findEmptyBeforeScan_spec r h hs c p (by omega) f4 (fun h0 => by
    refine ⟨?_, f7 h0⟩
    by_contra hh
    have : c.toNat + 1 = p := by omega
    have h7 := f7 h0
    rw [this] at h7; exact f5 h7)
  refine ⟨g1, by omega, ?_, g4⟩
  intro k k1 k2
  by_cases k3 : k < p
  · exact g3 k k1 k3
  · exact f6 k (by omega) (by omega)

end

end Verif
