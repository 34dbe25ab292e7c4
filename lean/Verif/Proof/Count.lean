import Verif.Proof.Bits
import Verif.Model.Store

/-!
# Counting, select, rank and scans
-/

namespace Verif

/-- Number of indices below `k` at which `p` holds. -/
def cnt (p : Nat → Bool) : Nat → Nat
  | 0 => 0
  | k + 1 => cnt p k + (p k).toNat

theorem cnt_mono (p : Nat → Bool) {a b : Nat} (h : a ≤ b) : cnt p a ≤ cnt p b := by
  induction b, h using Nat.le_induction with
  | base => exact Nat.le_refl _
  | succ b _ ih => rw [cnt]; omega

theorem cnt_add (p : Nat → Bool) (a b : Nat) : cnt p (a + b) = cnt p a + cnt (fun i => p (a + i)) b := by
  induction b with
  | zero => rfl
  | succ b ih => rw [← Nat.add_assoc, cnt, ih, cnt]; omega

theorem cnt_congr {p q : Nat → Bool} {k : Nat} (h : ∀ i, i < k → p i = q i) : cnt p k = cnt q k := by
  induction k with
  | zero => rfl
  | succ k ih => rw [cnt, cnt, ih (fun i hi => h i (by omega)), h k (by omega)]

theorem cnt_lt (p : Nat → Bool) {a b : Nat} (hab : a < b) (ha : p a = true) : cnt p a < cnt p b := by
  have h1 : cnt p (a + 1) ≤ cnt p b := cnt_mono p hab
  rw [cnt, ha] at h1
  simp at h1; omega

theorem cnt_le (p : Nat → Bool) (k : Nat) : cnt p k ≤ k := by
  induction k with
  | zero => exact Nat.le_refl _
  | succ k ih => rw [cnt]; cases p k <;> simp <;> omega

theorem cnt_inj (p : Nat → Bool) {a b : Nat} (ha : p a = true) (hb : p b = true)
    (h : cnt p a = cnt p b) : a = b := by
  rcases Nat.lt_trichotomy a b with h1 | h1 | h1
  · have := cnt_lt p h1 ha; omega
  · exact h1
  · have := cnt_lt p h1 hb; omega

theorem cnt_zero_of {p : Nat → Bool} {k : Nat} (h : ∀ i, i < k → p i = false) : cnt p k = 0 := by
  induction k with
  | zero => rfl
  | succ k ih => rw [cnt, ih (fun i hi => h i (by omega)), h k (by omega)]; rfl

theorem cnt_eq_of_gap {p : Nat → Bool} {a b : Nat} (hab : a ≤ b)
    (h : ∀ i, a ≤ i → i < b → p i = false) : cnt p b = cnt p a := by
  obtain ⟨d, rfl⟩ := Nat.exists_eq_add_of_le hab
  rw [cnt_add, cnt_zero_of (p := fun i => p (a + i)) (fun i hi => h _ (by omega) (by omega))]; rfl

/-- There is a set position with any rank below the total. -/
theorem exists_cnt {p : Nat → Bool} {k r : Nat} (h : r < cnt p k) :
    ∃ t, t < k ∧ p t = true ∧ cnt p t = r := by
  induction k with
  | zero => simp [cnt] at h
  | succ k ih =>
    by_cases h1 : r < cnt p k
    · obtain ⟨t, a, b, c⟩ := ih h1
      exact ⟨t, by omega, b, c⟩
    · rw [cnt] at h
      cases hp : p k with
      | false => rw [hp] at h; simp at h; omega
      | true => rw [hp] at h; simp at h; exact ⟨k, by omega, hp, by omega⟩

theorem countP_range (p : Nat → Bool) (k : Nat) : (List.range k).countP p = cnt p k := by
  induction k with
  | zero => rfl
  | succ k ih =>
    rw [List.range_succ, List.countP_append, ih, cnt]
    cases h : p k <;> simp [h]

theorem popcount_eq (x : Nat) : popcount x = cnt (fun i => x.testBit i) 64 := countP_range _ _

/-! ## tzcnt, lzcnt, pdep -/

theorem tzcnt_eq {x t : Nat} (ht : t < 64) (h : x.testBit t = true)
    (hl : ∀ j, j < t → x.testBit j = false) : tzcnt x = t := by
  unfold tzcnt
  have : (List.range 64).find? (fun i => x.testBit i) = some t := by
    rw [List.find?_range_eq_some]
    exact ⟨h, by simpa using ht, fun j hj => by simp [hl j hj]⟩
  rw [this]; rfl

theorem tzcnt_none {x : Nat} (h : ∀ j, j < 64 → x.testBit j = false) : tzcnt x = 64 := by
  unfold tzcnt
  have : (List.range 64).find? (fun i => x.testBit i) = none := by
    rw [List.find?_eq_none]
    intro j hj
    simp [h j (List.mem_range.1 hj)]
  rw [this]; rfl

theorem tzcnt_cases (x : Nat) :
    (tzcnt x < 64 ∧ x.testBit (tzcnt x) = true ∧ ∀ j, j < tzcnt x → x.testBit j = false) ∨
    (tzcnt x = 64 ∧ ∀ j, j < 64 → x.testBit j = false) := by
  cases h : (List.range 64).find? (fun i => x.testBit i) with
  | none =>
    right
    have h2 : ∀ j, j < 64 → x.testBit j = false := by
      intro j hj
      have := (List.find?_eq_none.1 h) j (List.mem_range.2 hj)
      simpa using this
    exact ⟨tzcnt_none h2, h2⟩
  | some t =>
    left
    rw [List.find?_range_eq_some] at h
    obtain ⟨h1, h2, h3⟩ := h
    have h2 : t < 64 := by simpa using h2
    have h3 : ∀ j, j < t → x.testBit j = false := fun j hj => by simpa using h3 j hj
    have e := tzcnt_eq h2 h1 h3
    rw [e]; exact ⟨h2, h1, h3⟩

theorem highbitPos_zero : highbitPos 0 = -1 := by simp [highbitPos, lzcnt]

theorem highbitPos_ne {x : Nat} (h0 : x ≠ 0) (hx : x < 2 ^ 64) :
    highbitPos x = x.log2 ∧ x.testBit x.log2 = true ∧ ∀ j, x.log2 < j → x.testBit j = false := by
  have hlog : x.log2 < 64 := (Nat.log2_lt h0).2 hx
  refine ⟨?_, Nat.testBit_log2 h0, ?_⟩
  · unfold highbitPos lzcnt
    rw [if_neg h0]; omega
  · intro j hj
    apply Nat.testBit_lt_two_pow
    exact Nat.lt_of_lt_of_le Nat.lt_log2_self (Nat.pow_le_pow_right (by decide) hj)

theorem testBit_foldl_or (L : List Nat) (acc j : Nat) :
    (L.foldl (fun acc i => acc ||| 1 <<< i) acc).testBit j = (acc.testBit j || decide (j ∈ L)) := by
  induction L generalizing acc with
  | nil => simp
  | cons a L ih =>
    rw [List.foldl_cons, ih, Nat.testBit_or, Nat.testBit_shiftLeft, testBit_one']
    have : (decide (j ≥ a) && decide (j - a = 0)) = decide (j = a) := by
      rw [Bool.eq_iff_iff]; simp; omega
    rw [this]
    simp [Bool.or_assoc]

theorem testBit_pdep (src mask j : Nat) :
    (pdep src mask).testBit j =
      (decide (j < 64) && (mask.testBit j && src.testBit (cnt (fun i => mask.testBit i) j))) := by
  unfold pdep
  rw [testBit_foldl_or]
  simp only [Nat.zero_testBit, Bool.false_or, List.mem_filter, List.mem_range, countP_range]
  rw [Bool.eq_iff_iff]; simp

/-- `bit_select` returns the position of the `k`-th set bit. -/
theorem bitSelect_eq {w k t : Nat} (ht : t < 64) (hb : w.testBit t = true)
    (hk : cnt (fun i => w.testBit i) t = k) : bitSelect w k = t := by
  have hk64 : k < 64 := by
    have := cnt_le (fun i => w.testBit i) t
    omega
  unfold bitSelect
  apply tzcnt_eq ht
  · rw [testBit_pdep, testBit_bit64 _ _ hk64]; simp [ht, hb, hk]
  · intro j hj
    rw [testBit_pdep, testBit_bit64 _ _ hk64]
    by_cases h1 : w.testBit j = true
    · have := cnt_lt (fun i => w.testBit i) hj h1
      have : ¬ cnt (fun i => w.testBit i) j = k := by omega
      simp [this]
    · simp [h1]

/-- `bit_select` returns 64 if there are not enough set bits. -/
theorem bitSelect_none {w k : Nat} (hk64 : k < 64) (h : cnt (fun i => w.testBit i) 64 ≤ k) :
    bitSelect w k = 64 := by
  unfold bitSelect
  apply tzcnt_none
  intro j hj
  rw [testBit_pdep, testBit_bit64 _ _ hk64]
  by_cases h1 : w.testBit j = true
  · have := cnt_lt (fun i => w.testBit i) hj h1
    have : ¬ cnt (fun i => w.testBit i) j = k := by omega
    simp [this]
  · simp [h1]

theorem bitRank_eq (w i : Nat) (h : i ≤ 64) : bitRank w i = cnt (fun j => w.testBit j) i := by
  rw [bitRank, popcount_eq]
  have e : (64 : Nat) = i + (64 - i) := by omega
  rw [e, cnt_add]
  have h2 : cnt (fun j => (w &&& bitmask i).testBit (i + j)) (64 - i) = 0 := by
    apply cnt_zero_of
    intro j _
    rw [Nat.testBit_and, testBit_bitmask _ _ h]; simp
  rw [h2, Nat.add_zero]
  apply cnt_congr
  intro j hj
  rw [Nat.testBit_and, testBit_bitmask _ _ h]; simp [hj]

/-! ## Rank and select over several words -/

theorem popcount_getW (m w : Nat) :
    popcount (getW m w) = cnt (fun i => m.testBit (64 * w + i)) 64 := by
  rw [popcount_eq]
  apply cnt_congr
  intro i hi
  rw [testBit_getW]; simp [hi]

theorem popSum_eq (m b i k : Nat) :
    popSum m b i k = cnt (fun j => m.testBit (64 * (b + i) + j)) (64 * k) := by
  induction k generalizing i with
  | zero => rfl
  | succ k ih =>
    rw [popSum, popcount_getW, ih, show 64 * (k + 1) = 64 + 64 * k by omega, cnt_add]
    congr 1
    apply cnt_congr
    intro j _
    congr 1; omega

/-- `RankOccupieds` counts the `occupieds` bits below `pos`, given an exact first counter. -/
theorem rankOccupieds_eq (m pos : Nat)
    (h0 : pop0 m = cnt (fun q => m.testBit (64 + q)) 512) :
    rankOccupieds m pos = cnt (fun q => m.testBit (64 + q)) pos := by
  have hm : pos % 64 < 64 := Nat.mod_lt _ (by decide)
  unfold rankOccupieds
  dsimp only
  rw [bitRank_eq _ _ (by omega), popSum_eq]
  have hr : cnt (fun j => (getW m (1 + pos / 64)).testBit j) (pos % 64) =
      cnt (fun i => m.testBit (64 + (64 * (pos / 64) + i))) (pos % 64) := by
    apply cnt_congr
    intro j hj
    rw [testBit_getW]
    have : j < 64 := by omega
    simp only [this, decide_true, Bool.true_and]
    congr 1; omega
  rw [hr]
  by_cases hc : 512 ≤ pos
  · simp only [hc, decide_true, if_true]
    rw [h0]
    have e1 : pos = 512 + (64 * (pos / 64 - 8) + pos % 64) := by omega
    conv_rhs => rw [e1, cnt_add, cnt_add]
    rw [Nat.add_assoc]
    congr 1
    congr 1
    · apply cnt_congr; intro j _; congr 1; omega
    · apply cnt_congr; intro j _; congr 1; omega
  · simp only [hc, decide_false, Bool.false_eq_true, if_false]
    have e1 : pos = 64 * (pos / 64) + pos % 64 := by omega
    conv_rhs => rw [e1, cnt_add]
    rw [Nat.zero_add]
    congr 1

theorem selectLoop_spec (m rank tw p : Nat) (hp : p < 64 * tw)
    (hb : m.testBit (1088 + p) = true) (hk : cnt (fun j => m.testBit (1088 + j)) p = rank) :
    ∀ (fuel i old total : Nat), i ≤ tw → tw - i < fuel →
      total = cnt (fun j => m.testBit (1088 + j)) (64 * i) →
      (i ≤ p / 64 ∨ (i = p / 64 + 1 ∧ old = cnt (fun j => m.testBit (1088 + j)) (64 * (p / 64)))) →
      selectLoop m rank tw fuel i old total =
        (p / 64 + 1, cnt (fun j => m.testBit (1088 + j)) (64 * (p / 64))) := by
  intro fuel
  induction fuel with
  | zero => intro i old total h1 h2; omega
  | succ fuel ih =>
    intro i old total h1 h2 h3 h4
    rw [selectLoop]
    rcases h4 with h4 | ⟨h4, h5⟩
    · have hle : total ≤ rank := by
        rw [h3, ← hk]; exact cnt_mono _ (by omega)
      rw [if_pos ⟨hle, by omega⟩]
      apply ih _ _ _ (by omega) (by omega)
      · rw [h3, popcount_getW, show 64 * (i + 1) = 64 * i + 64 by omega, cnt_add]
        congr 1
        apply cnt_congr; intro j _; congr 1; omega
      · by_cases h6 : i = p / 64
        · right; subst h6; exact ⟨rfl, h3⟩
        · left; omega
    · have hgt : ¬ total ≤ rank := by
        have : cnt (fun j => m.testBit (1088 + j)) p <
            cnt (fun j => m.testBit (1088 + j)) (64 * i) := cnt_lt _ (by omega) hb
        omega
      rw [if_neg (by tauto), h4, h5]

/-- `SelectRunends` finds the `runends` bit of the given rank, given an exact second counter. -/
theorem selectRunends_eq (m n rank p : Nat) (hp : p < n)
    (hb : m.testBit (1088 + p) = true) (hk : cnt (fun j => m.testBit (1088 + j)) p = rank)
    (h1 : pop1 m = cnt (fun j => m.testBit (1088 + j)) (min 512 n)) :
    selectRunends m n rank = p := by
  unfold selectRunends
  dsimp only
  have hc : (pop1 m ≤ rank) ↔ 512 ≤ p := by
    rw [h1, ← hk]
    constructor
    · intro h
      by_contra hlt
      have := cnt_lt (fun j => m.testBit (1088 + j)) (show p < min 512 n by omega) hb
      omega
    · intro h; exact cnt_mono _ (by omega)
  have hlast : bitSelect (getW m (17 + p / 64))
      (rank - cnt (fun j => m.testBit (1088 + j)) (64 * (p / 64))) = p % 64 := by
    apply bitSelect_eq (Nat.mod_lt _ (by decide))
    · rw [testBit_getW]
      have e : 64 * (17 + p / 64) + p % 64 = 1088 + p := by omega
      rw [e, hb]; simp [Nat.mod_lt]
    · have e1 : cnt (fun i => (getW m (17 + p / 64)).testBit i) (p % 64) =
          cnt (fun i => m.testBit (1088 + (64 * (p / 64) + i))) (p % 64) := by
        apply cnt_congr
        intro j hj
        rw [testBit_getW]
        have : j < 64 := by omega
        simp only [this, decide_true, Bool.true_and]
        congr 1; omega
      rw [e1]
      have e2 := cnt_add (fun j => m.testBit (1088 + j)) (64 * (p / 64)) (p % 64)
      rw [show 64 * (p / 64) + p % 64 = p by omega, hk] at e2
      omega
  by_cases h512 : 512 ≤ p
  · have hcp := hc.2 h512
    simp only [hcp, decide_true, if_true]
    have hn : min 512 n = 512 := by omega
    rw [hn] at h1
    rw [selectLoop_spec m rank ((n + 63) / 64) p (by omega) hb hk _ _ _ _ (by omega) (by omega)
      (by rw [h1]) (by left; omega)]
    simp only [Nat.add_sub_cancel]
    rw [hlast]; omega
  · have hcp : ¬ pop1 m ≤ rank := fun h => h512 (hc.1 h)
    simp only [hcp, decide_false, Bool.false_eq_true, if_false]
    rw [selectLoop_spec m rank ((n + 63) / 64) p (by omega) hb hk _ _ _ _ (by omega) (by omega)
      (by rfl) (by left; omega)]
    simp only [Nat.add_sub_cancel]
    rw [hlast]; omega

/-! ## Scans -/

theorem nextLoop_spec (m b limit : Nat) : ∀ (fuel a : Nat), limit ≤ 64 * (a / 64) + 64 * fuel → 0 < fuel →
    a ≤ nextLoop m b limit fuel a ∧
    (∀ j, a ≤ j → j < nextLoop m b limit fuel a → m.testBit (64 * b + j) = false) ∧
    (nextLoop m b limit fuel a < limit → m.testBit (64 * b + nextLoop m b limit fuel a) = true) := by
  intro fuel
  induction fuel with
  | zero => intro a h1 h2; omega
  | succ fuel ih =>
    intro a h1 _
    rw [nextLoop]
    have hbit : ∀ j, (getW m (b + a / 64) &&& not64 (bitmask (a % 64))).testBit j =
        (decide (j < 64) && (m.testBit (64 * (b + a / 64) + j) && !decide (j < a % 64))) := by
      intro j
      rw [Nat.testBit_and, testBit_getW, testBit_not64, testBit_bitmask _ _ (by omega)]
      by_cases hj : j < 64 <;> simp [hj]
    rcases tzcnt_cases (getW m (b + a / 64) &&& not64 (bitmask (a % 64))) with ⟨h3, h4, h5⟩ | ⟨h3, h4⟩
    · rw [lowbitPos, if_neg (by omega)]
      set t := tzcnt (getW m (b + a / 64) &&& not64 (bitmask (a % 64)))
      rw [hbit] at h4
      simp only [h3, decide_true, Bool.true_and, Bool.and_eq_true, Bool.not_eq_true',
        decide_eq_false_iff_not] at h4
      refine ⟨by omega, ?_, ?_⟩
      · intro j hj1 hj2
        have h6 := h5 (j - 64 * (a / 64)) (by omega)
        rw [hbit] at h6
        have e1 : j - 64 * (a / 64) < 64 := by omega
        have e2 : ¬ j - 64 * (a / 64) < a % 64 := by omega
        simp only [e1, e2, decide_true, decide_false, Bool.true_and, Bool.not_false, Bool.and_true] at h6
        rw [← h6]; congr 1; omega
      · intro _
        rw [← h4.1]; congr 1; omega
    · rw [lowbitPos, h3]
      have hgap : ∀ j, a ≤ j → j < a + 64 - a % 64 → m.testBit (64 * b + j) = false := by
        intro j hj1 hj2
        have h6 := h4 (j - 64 * (a / 64)) (by omega)
        rw [hbit] at h6
        have e1 : j - 64 * (a / 64) < 64 := by omega
        have e2 : ¬ j - 64 * (a / 64) < a % 64 := by omega
        simp only [e1, e2, decide_true, decide_false, Bool.true_and, Bool.not_false, Bool.and_true] at h6
        rw [← h6]; congr 1; omega
      by_cases hlim : a + 64 - a % 64 < limit
      · rw [if_pos ⟨rfl, hlim⟩]
        have hf : 0 < fuel := by
          rcases fuel with _ | f
          · omega
          · omega
        have := ih (a + 64 - a % 64) (by omega) hf
        refine ⟨by omega, ?_, this.2.2⟩
        intro j hj1 hj2
        by_cases hj3 : j < a + 64 - a % 64
        · exact hgap j hj1 hj3
        · exact this.2.1 j (by omega) hj2
      · rw [if_neg (by omega)]
        exact ⟨by omega, hgap, by omega⟩

theorem prevLoop_neg (m b fuel k : Nat) : prevLoop m b fuel (.negSucc k) = .negSucc k := by
  cases fuel <;> rfl

theorem prevLoop_spec (m b : Nat) : ∀ (fuel : Nat) (a : Int), -1 ≤ a → a < 64 * fuel →
    -1 ≤ prevLoop m b fuel a ∧ prevLoop m b fuel a ≤ a ∧
    (∀ j : Nat, prevLoop m b fuel a < j → (j : Int) ≤ a → m.testBit (64 * b + j) = false) ∧
    (0 ≤ prevLoop m b fuel a → m.testBit (64 * b + (prevLoop m b fuel a).toNat) = true) := by
  intro fuel
  induction fuel with
  | zero =>
    intro a h1 h2
    have : a = -1 := by omega
    subst this
    rw [show (-1 : Int) = .negSucc 0 from rfl, prevLoop_neg]
    refine ⟨by omega, by omega, ?_, ?_⟩
    · intro j h3 h4; omega
    · intro h; omega
  | succ fuel ih =>
    intro a h1 h2
    rcases a with r | k
    · rw [prevLoop]
      have hbit : ∀ j, (getW m (b + r / 64) &&& bitmask (r % 64 + 1)).testBit j =
          (decide (j < r % 64 + 1) && m.testBit (64 * (b + r / 64) + j)) := by
        intro j
        rw [Nat.testBit_and, testBit_getW, testBit_bitmask _ _ (by omega)]
        by_cases hj : j < r % 64 + 1
        · have : j < 64 := by omega
          simp [hj, this]
        · simp [hj]
      have hlt : getW m (b + r / 64) &&& bitmask (r % 64 + 1) < 2 ^ 64 :=
        Nat.lt_of_le_of_lt Nat.and_le_left (getW_lt _ _)
      by_cases h0 : getW m (b + r / 64) &&& bitmask (r % 64 + 1) = 0
      · rw [h0, highbitPos_zero, if_pos rfl]
        have hgap : ∀ j : Nat, ((r : Int) - (r % 64 : Nat) - 1 < j) → j ≤ r → m.testBit (64 * b + j) = false := by
          intro j hj1 hj2
          have h6 := hbit (j - 64 * (r / 64))
          rw [h0, Nat.zero_testBit] at h6
          have e1 : j - 64 * (r / 64) < r % 64 + 1 := by omega
          simp only [e1, decide_true, Bool.true_and] at h6
          rw [h6]; congr 1; omega
        have h5 : (Int.ofNat r) = (r : Int) := rfl
        have := ih ((r : Int) - (r % 64 : Nat) - 1) (by omega) (by omega)
        refine ⟨this.1, by omega, ?_, this.2.2.2⟩
        intro j hj1 hj2
        by_cases hj3 : ((r : Int) - (r % 64 : Nat) - 1 < j)
        · exact hgap j hj3 (by omega)
        · exact this.2.2.1 j hj1 (by omega)
      · obtain ⟨e1, e2, e3⟩ := highbitPos_ne h0 hlt
        set t := (getW m (b + r / 64) &&& bitmask (r % 64 + 1)).log2
        rw [e1, if_neg (by omega)]
        rw [hbit] at e2
        simp only [Bool.and_eq_true, decide_eq_true_eq] at e2
        have h5 : (Int.ofNat r) = (r : Int) := rfl
        refine ⟨by omega, by omega, ?_, ?_⟩
        · intro j hj1 hj2
          have h6 := e3 (j - 64 * (r / 64)) (by omega)
          rw [hbit] at h6
          have e4 : j - 64 * (r / 64) < r % 64 + 1 := by omega
          simp only [e4, decide_true, Bool.true_and] at h6
          rw [← h6]; congr 1; omega
        · intro _
          rw [← e2.2]; congr 1; omega
    · have : k = 0 := by omega
      subst this
      rw [prevLoop_neg]
      refine ⟨by omega, by omega, ?_, ?_⟩
      · intro j h3 h4; omega
      · intro h; omega

end Verif

namespace Verif

theorem nextOccupied_spec (m pos : Nat) :
    pos < nextOccupied m pos ∧
    (∀ j, pos < j → j < nextOccupied m pos → m.testBit (64 + j) = false) ∧
    (nextOccupied m pos < 1024 → m.testBit (64 + nextOccupied m pos) = true) := by
  have := nextLoop_spec m 1 1024 17 (pos + 1) (by omega) (by omega)
  exact ⟨this.1, fun j h1 h2 => this.2.1 j h1 h2, this.2.2⟩

theorem nextRunend_spec (m n pos : Nat) :
    pos < nextRunend m n pos ∧
    (∀ j, pos < j → j < nextRunend m n pos → m.testBit (1088 + j) = false) ∧
    (nextRunend m n pos < n → m.testBit (1088 + nextRunend m n pos) = true) := by
  have := nextLoop_spec m 17 n (n / 64 + 2) (pos + 1) (by omega) (by omega)
  exact ⟨this.1, fun j h1 h2 => this.2.1 j h1 h2, this.2.2⟩

theorem previousRunend_spec (m pos : Nat) :
    -1 ≤ previousRunend m pos ∧ previousRunend m pos < pos ∧
    (∀ j : Nat, previousRunend m pos < j → j < pos → m.testBit (1088 + j) = false) ∧
    (0 ≤ previousRunend m pos → m.testBit (1088 + (previousRunend m pos).toNat) = true) := by
  have := prevLoop_spec m 17 (pos / 64 + 1) ((pos : Int) - 1) (by omega) (by omega)
  refine ⟨this.1, ?_, fun j h1 h2 => this.2.2.1 j h1 (by omega), this.2.2.2⟩
  have := this.2.1
  unfold previousRunend; omega

theorem previousOccupied_spec (m pos : Nat) :
    -1 ≤ previousOccupied m pos ∧ previousOccupied m pos < pos ∧
    (∀ j : Nat, previousOccupied m pos < j → j < pos → m.testBit (64 + j) = false) ∧
    (0 ≤ previousOccupied m pos → m.testBit (64 + (previousOccupied m pos).toNat) = true) := by
  have := prevLoop_spec m 1 (pos / 64 + 1) ((pos : Int) - 1) (by omega) (by omega)
  refine ⟨this.1, ?_, fun j h1 h2 => this.2.2.1 j h1 (by omega), this.2.2.2⟩
  have := this.2.1
  unfold previousOccupied; omega

end Verif
