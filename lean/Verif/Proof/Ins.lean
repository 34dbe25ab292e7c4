import Verif.Proof.StoreQuery

/-!
# Inserting one item into a layout, by shifting right or left
-/

namespace Verif

/-- Items of a layout in slot order. -/
def content (n : Nat) (lay : Nat → Option Nat) : List Nat := (List.range n).filterMap lay

theorem mem_content {n : Nat} {lay : Nat → Option Nat} {x : Nat} :
    x ∈ content n lay ↔ StoredIn n lay x := by
  unfold content StoredIn
  rw [List.mem_filterMap]
  simp only [List.mem_range]

/-- Items shifted right into the empty slot `ne`, `x` placed at `p`. -/
def layR (lay : Nat → Option Nat) (p ne x : Nat) : Nat → Option Nat := fun i =>
  if i = p then some x else if p < i ∧ i ≤ ne then lay (i - 1) else lay i

/-- Items shifted left into the empty slot `pe`, `x` placed at `p`. -/
def layL (lay : Nat → Option Nat) (pe p x : Nat) : Nat → Option Nat := fun i =>
  if i = p then some x else if pe ≤ i ∧ i < p then lay (i + 1) else lay i

/-- `lay'` is `lay` with `x` inserted at `p`; `σ` tells where the old items went. -/
structure Ins (n : Nat) (lay lay' : Nat → Option Nat) (p x : Nat) (σ : Nat → Nat) : Prop where
  px : p < n
  at_p : lay' p = some x
  sub : ∀ i y, i < n → lay i = some y → σ i < n ∧ σ i ≠ p ∧ lay' (σ i) = some y
  mono : ∀ i j, i < j → j < n → lay i ≠ none → lay j ≠ none → σ i < σ j
  sur : ∀ k y, k < n → lay' k = some y → (k = p ∧ y = x) ∨ ∃ i, i < n ∧ σ i = k ∧ lay i = some y

theorem ins_right {n p ne x : Nat} {lay : Nat → Option Nat} (hpn : p ≤ ne) (hne : ne < n)
    (he : lay ne = none) :
    Ins n lay (layR lay p ne x) p x (fun i => if p ≤ i ∧ i < ne then i + 1 else i) := by
  refine ⟨by omega, by simp [layR], ?_, ?_, ?_⟩
  · intro i y hi hy
    have hine : i ≠ ne := by rintro rfl; rw [he] at hy; simp at hy
    split_ifs with h
    · refine ⟨by omega, by omega, ?_⟩
      rw [layR, if_neg (by omega), if_pos (by omega), Nat.add_sub_cancel, hy]
    · refine ⟨hi, by omega, ?_⟩
      rw [layR, if_neg (by omega), if_neg (by omega), hy]
  · intro i j hij hj hi hj'
    have hine : i ≠ ne := by rintro rfl; exact hi he
    have hjne : j ≠ ne := by rintro rfl; exact hj' he
    split_ifs <;> omega
  · intro k y hk hy
    unfold layR at hy
    split_ifs at hy with h1 h2
    · left; injection hy with hy; exact ⟨h1, hy.symm⟩
    · right; refine ⟨k - 1, by omega, ?_, hy⟩
      rw [if_pos (by omega)]; omega
    · right
      have hkne : k ≠ ne := by rintro rfl; rw [he] at hy; simp at hy
      refine ⟨k, hk, ?_, hy⟩
      rw [if_neg (by omega)]

theorem ins_left {n p pe x : Nat} {lay : Nat → Option Nat} (hpn : pe ≤ p) (hp : p < n)
    (he : lay pe = none) :
    Ins n lay (layL lay pe p x) p x (fun i => if pe < i ∧ i ≤ p then i - 1 else i) := by
  refine ⟨by omega, by simp [layL], ?_, ?_, ?_⟩
  · intro i y hi hy
    have hine : i ≠ pe := by rintro rfl; rw [he] at hy; simp at hy
    split_ifs with h
    · refine ⟨by omega, by omega, ?_⟩
      rw [layL, if_neg (by omega), if_pos (by omega), Nat.sub_add_cancel (by omega), hy]
    · refine ⟨hi, by omega, ?_⟩
      rw [layL, if_neg (by omega), if_neg (by omega), hy]
  · intro i j hij hj hi hj'
    have hine : i ≠ pe := by rintro rfl; exact hi he
    have hjne : j ≠ pe := by rintro rfl; exact hj' he
    split_ifs <;> omega
  · intro k y hk hy
    unfold layL at hy
    split_ifs at hy with h1 h2
    · left; injection hy with hy; exact ⟨h1, hy.symm⟩
    · right; refine ⟨k + 1, by omega, ?_, hy⟩
      rw [if_pos (by omega)]; omega
    · right
      have hkne : k ≠ pe := by rintro rfl; rw [he] at hy; simp at hy
      refine ⟨k, hk, ?_, hy⟩
      rw [if_neg (by omega)]

/-! ## Content -/

theorem content_split (lay : Nat → Option Nat) {a n : Nat} (h : a ≤ n) :
    content n lay = (List.range' 0 a).filterMap lay ++ (List.range' a (n - a)).filterMap lay := by
  unfold content
  rw [← List.filterMap_append, List.range_eq_range']
  congr 1
  have := List.range'_append_1 (s := 0) (m := a) (n := n - a)
  rw [Nat.zero_add] at this
  rw [this]; congr 1; omega

theorem filterMap_range'_congr {f g : Nat → Option Nat} {a k : Nat}
    (h : ∀ i, a ≤ i → i < a + k → f i = g i) :
    (List.range' a k).filterMap f = (List.range' a k).filterMap g := by
  apply List.filterMap_congr
  intro i hi
  rw [List.mem_range'_1] at hi
  exact h i hi.1 hi.2

theorem filterMap_range'_shift (f : Nat → Option Nat) (a k : Nat) :
    (List.range' (a + 1) k).filterMap (fun i => f (i - 1)) = (List.range' a k).filterMap f := by
  induction k generalizing a with
  | zero => rfl
  | succ k ih =>
    rw [List.range'_succ, List.range'_succ, List.filterMap_cons, List.filterMap_cons, ih]
    simp

theorem range'_split (lay : Nat → Option Nat) (a b k : Nat) (h : a ≤ b) (hk : b ≤ a + k) :
    (List.range' a k).filterMap lay =
      (List.range' a (b - a)).filterMap lay ++ (List.range' b (a + k - b)).filterMap lay := by
  rw [← List.filterMap_append]
  congr 1
  have := List.range'_append_1 (s := a) (m := b - a) (n := a + k - b)
  rw [show a + (b - a) = b by omega] at this
  rw [this]; congr 1; omega

theorem content_layR {n p ne x : Nat} {lay : Nat → Option Nat} (hpn : p ≤ ne) (hne : ne < n)
    (he : lay ne = none) :
    ∃ A B, content n lay = A ++ B ∧ content n (layR lay p ne x) = A ++ x :: B := by
  refine ⟨(List.range' 0 p).filterMap lay, (List.range' p (n - p)).filterMap lay,
    content_split lay (by omega), ?_⟩
  rw [content_split _ (show p ≤ n by omega)]
  congr 1
  · apply filterMap_range'_congr
    intro i _ hi
    rw [layR, if_neg (by omega), if_neg (by omega)]
  · have e1 : n - p = (ne - p) + 1 + (n - ne - 1) := by omega
    rw [range'_split _ p (ne + 1) (n - p) (by omega) (by omega),
      range'_split lay p (ne + 1) (n - p) (by omega) (by omega), ← List.cons_append]
    congr 1
    · rw [show ne + 1 - p = (ne - p) + 1 by omega, List.range'_succ, List.filterMap_cons]
      have e2 : layR lay p ne x p = some x := by simp [layR]
      rw [e2]
      dsimp only
      congr 1
      rw [show p :: List.range' (p + 1) (ne - p) = List.range' p (ne - p + 1) from (List.range'_succ).symm]
      rw [List.range'_1_concat, List.filterMap_append, show p + (ne - p) = ne by omega]
      simp only [List.filterMap_cons, he, List.filterMap_nil, List.append_nil]
      rw [← filterMap_range'_shift lay]
      apply filterMap_range'_congr
      intro i h1 h2
      rw [layR, if_neg (by omega), if_pos (by omega)]
    · apply filterMap_range'_congr
      intro i h1 h2
      rw [layR, if_neg (by omega), if_neg (by omega)]

theorem content_layL {n p pe x : Nat} {lay : Nat → Option Nat} (hpn : pe ≤ p) (hp : p < n)
    (he : lay pe = none) :
    ∃ A B, content n lay = A ++ B ∧ content n (layL lay pe p x) = A ++ x :: B := by
  refine ⟨(List.range' 0 (p + 1)).filterMap lay, (List.range' (p + 1) (n - (p + 1))).filterMap lay,
    content_split lay (by omega), ?_⟩
  rw [content_split _ (show p + 1 ≤ n by omega)]
  have h2 : (List.range' (p + 1) (n - (p + 1))).filterMap (layL lay pe p x) =
      (List.range' (p + 1) (n - (p + 1))).filterMap lay := by
    apply filterMap_range'_congr
    intro i h1 h2
    rw [layL, if_neg (by omega), if_neg (by omega)]
  rw [h2]
  have h3 : (List.range' 0 (p + 1)).filterMap (layL lay pe p x) =
      (List.range' 0 (p + 1)).filterMap lay ++ [x] := by
    rw [List.range'_1_concat, List.filterMap_append]
    have e2 : layL lay pe p x (0 + p) = some x := by simp [layL]
    simp only [List.filterMap_cons, e2, List.filterMap_nil]
    congr 1
    rw [show List.range' 0 p ++ [0 + p] = List.range' 0 (p + 1) from (List.range'_1_concat).symm]
    rw [range'_split _ 0 pe p (by omega) (by omega), range'_split lay 0 pe (p + 1) (by omega) (by omega)]
    congr 1
    · apply filterMap_range'_congr
      intro i h1 h2
      rw [layL, if_neg (by omega), if_neg (by omega)]
    · rw [show 0 + (p + 1) - pe = (p - pe) + 1 by omega, List.range'_succ, List.filterMap_cons, he]
      dsimp only
      rw [← filterMap_range'_shift (layL lay pe p x), show 0 + p - pe = p - pe by omega]
      apply filterMap_range'_congr
      intro i h1 h2
      rw [layL, if_neg (by omega), if_pos (by omega), Nat.sub_add_cancel (by omega)]
  rw [h3]; simp

/-! ## Well-formedness -/

section
variable {n s T p x : Nat} {mp : Nat → Nat} {lay lay' : Nat → Option Nat} {σ : Nat → Nat}

theorem Ins.item (I : Ins n lay lay' p x σ) (h : LayWF n s T mp lay)
    (hx : x % 2 ^ s ≠ 0 ∧ x / 2 ^ s < T) :
    ∀ i y, i < n → lay' i = some y → y % 2 ^ s ≠ 0 ∧ y / 2 ^ s < T := by
  intro i y hi hy
  rcases I.sur i y hi hy with ⟨_, rfl⟩ | ⟨j, hj, _, hjy⟩
  · exact hx
  · exact h.item j y hj hjy

theorem Ins.lt_of (I : Ins n lay lay' p x σ) {i j : Nat} (hi : i < n) (hi' : lay i ≠ none)
    (hj' : lay j ≠ none) (h : σ i < σ j) : i < j := by
  by_contra hc
  rcases Nat.lt_or_ge j i with h1 | h1
  · have := I.mono j i h1 hi hj' hi'; omega
  · have : i = j := by omega
    rw [this] at h; omega

theorem Ins.sorted (I : Ins n lay lay' p x σ) (h : LayWF n s T mp lay)
    (hb : ∀ i y, i < n → lay i = some y → (σ i < p → ile y x) ∧ (p < σ i → ile x y)) :
    ∀ i j y z, i < j → j < n → lay' i = some y → lay' j = some z → ile y z := by
  intro i j y z hij hj hy hz
  rcases I.sur i y (by omega) hy with ⟨h1, h2⟩ | ⟨a, ha, hai, hay⟩
  · rcases I.sur j z hj hz with ⟨h3, _⟩ | ⟨b, hb', hbj, hbz⟩
    · omega
    · rw [h2]; exact (hb b z hb' hbz).2 (by omega)
  · rcases I.sur j z hj hz with ⟨h3, h4⟩ | ⟨b, hb', hbj, hbz⟩
    · rw [h4]; exact (hb a y ha hay).1 (by omega)
    · exact h.sorted a b y z (I.lt_of ha (by simp [hay]) (by simp [hbz]) (by omega)) hb' hay hbz

theorem layWF_right {ne : Nat} (h : LayWF n s T mp lay) (hpn : p ≤ ne) (hne : ne < n)
    (he : lay ne = none) (hfill : ∀ k, p ≤ k → k < ne → lay k ≠ none)
    (hx : x % 2 ^ s ≠ 0 ∧ x / 2 ^ s < T)
    (hlo : ∀ i y, i < p → lay i = some y → ile y x)
    (hhi : ∀ i y, p ≤ i → i < n → lay i = some y → ile x y)
    (hc1 : ∀ j y, j < n → lay j = some y → y / 2 ^ s = x / 2 ^ s →
      (∀ k, p ≤ k → k < j → lay k ≠ none) ∧ (∀ k, j < k → k < p → lay k ≠ none))
    (hleft : ∀ k, mp (x / 2 ^ s) ≤ k → k < p → lay k ≠ none)
    (hright : mp (x / 2 ^ s) ≤ p) : LayWF n s T mp (layR lay p ne x) := by
  have I := ins_right (x := x) hpn hne he
  have hfilled : ∀ k, k < n → (layR lay p ne x k ≠ none ↔ lay k ≠ none ∨ k = ne) := by
    intro k hk
    unfold layR
    split_ifs with h1 h2
    · simp only [ne_eq, reduceCtorEq, not_false_eq_true, true_iff]
      by_cases h3 : k = ne
      · right; exact h3
      · left; exact hfill k (by omega) (by omega)
    · have := hfill (k - 1) (by omega) (by omega)
      simp only [this, ne_eq, not_false_eq_true, true_iff]
      by_cases h3 : k = ne
      · right; exact h3
      · left; exact hfill k (by omega) (by omega)
    · constructor
      · intro h3; left; exact h3
      · rintro (h3 | h3)
        · exact h3
        · exfalso; omega
  refine ⟨I.item h hx, I.sorted h ?_, ?_, ?_, ?_⟩
  · intro i y hi hy
    constructor
    · intro h1
      apply hlo i y _ hy
      split_ifs at h1 <;> omega
    · intro h1
      apply hhi i y _ hi hy
      split_ifs at h1 <;> omega
  · intro i j k y z hik hkj hj hy hz hq
    rw [hfilled k (by omega)]
    by_contra hcon
    rw [not_or, not_not] at hcon
    obtain ⟨hk0, hkne⟩ := hcon
    have hk : k < p ∨ ne < k := by
      by_contra hc
      exact hfill k (by omega) (by omega) hk0
    rcases I.sur i y (by omega) hy with ⟨h1, h2⟩ | ⟨a, ha, hai, hay⟩
    · rcases I.sur j z hj hz with ⟨h3, _⟩ | ⟨b, hb', hbj, hbz⟩
      · omega
      · subst h2
        refine (hc1 b z hb' hbz hq.symm).1 k (by omega) ?_ hk0
        split_ifs at hbj <;> omega
    · rcases I.sur j z hj hz with ⟨h3, h4⟩ | ⟨b, hb', hbj, hbz⟩
      · subst h4
        refine (hc1 a y ha hay hq).2 k ?_ (by omega) hk0
        split_ifs at hai <;> omega
      · refine h.contig a b k y z ?_ ?_ hb' hay hbz hq hk0
        · split_ifs at hai <;> omega
        · split_ifs at hbj <;> omega
  · intro i k y hi hy hk1 hk2
    rw [hfilled k (by omega)]
    rcases I.sur i y hi hy with ⟨h1, h2⟩ | ⟨a, ha, hai, hay⟩
    · subst h2; left; exact hleft k hk1 (by omega)
    · by_cases h3 : k < a
      · left; exact h.left a k y ha hay hk1 h3
      · by_cases h4 : k = ne
        · right; exact h4
        · left; apply hfill k
          · split_ifs at hai <;> omega
          · split_ifs at hai <;> omega
  · intro i k y hi hy hk1 hk2 hk3
    rw [hfilled k (by omega)]
    rcases I.sur i y hi hy with ⟨h1, h2⟩ | ⟨a, ha, hai, hay⟩
    · subst h2; omega
    · left
      apply h.right a k y ha hay _ _ hk3
      · split_ifs at hai <;> omega
      · split_ifs at hai <;> omega

theorem layWF_left {pe : Nat} (h : LayWF n s T mp lay) (hpn : pe ≤ p) (hp : p < n)
    (he : lay pe = none) (hfull : ∀ k, pe < k → k < n → lay k ≠ none)
    (hx : x % 2 ^ s ≠ 0 ∧ x / 2 ^ s < T)
    (hlo : ∀ i y, i ≤ p → lay i = some y → ile y x)
    (hhi : ∀ i y, p < i → i < n → lay i = some y → ile x y)
    (hc1 : ∀ j y, j < pe → lay j = some y → y / 2 ^ s ≠ x / 2 ^ s)
    (hhome : pe < mp (x / 2 ^ s)) : LayWF n s T mp (layL lay pe p x) := by
  have I := ins_left (x := x) hpn hp he
  have hfilled : ∀ k, k < n → (layL lay pe p x k ≠ none ↔ lay k ≠ none ∨ k = pe) := by
    intro k hk
    unfold layL
    split_ifs with h1 h2
    · simp only [ne_eq, reduceCtorEq, not_false_eq_true, true_iff]
      by_cases h3 : k = pe
      · right; exact h3
      · left; exact hfull k (by omega) (by omega)
    · have := hfull (k + 1) (by omega) (by omega)
      simp only [this, ne_eq, not_false_eq_true, true_iff]
      by_cases h3 : k = pe
      · right; exact h3
      · left; exact hfull k (by omega) (by omega)
    · constructor
      · intro h3; left; exact h3
      · rintro (h3 | h3)
        · exact h3
        · exfalso; omega
  refine ⟨I.item h hx, I.sorted h ?_, ?_, ?_, ?_⟩
  · intro i y hi hy
    constructor
    · intro h1
      apply hlo i y _ hy
      split_ifs at h1 <;> omega
    · intro h1
      apply hhi i y _ hi hy
      split_ifs at h1 <;> omega
  · intro i j k y z hik hkj hj hy hz hq
    rw [hfilled k (by omega)]
    by_contra hcon
    rw [not_or, not_not] at hcon
    obtain ⟨hk0, hkne⟩ := hcon
    have hk : k < pe := by
      by_contra hc
      exact hfull k (by omega) (by omega) hk0
    rcases I.sur i y (by omega) hy with ⟨h1, h2⟩ | ⟨a, ha, hai, hay⟩
    · omega
    · rcases I.sur j z hj hz with ⟨h3, h4⟩ | ⟨b, hb', hbj, hbz⟩
      · subst h4
        refine hc1 a y ?_ hay hq
        split_ifs at hai <;> omega
      · refine h.contig a b k y z ?_ ?_ hb' hay hbz hq hk0
        · split_ifs at hai <;> omega
        · split_ifs at hbj <;> omega
  · intro i k y hi hy hk1 hk2
    rw [hfilled k (by omega)]
    rcases Nat.lt_trichotomy k pe with h5 | h5 | h5
    · rcases I.sur i y hi hy with ⟨h1, h2⟩ | ⟨a, ha, hai, hay⟩
      · subst h2; omega
      · left
        apply h.left a k y ha hay hk1
        split_ifs at hai <;> omega
    · right; exact h5
    · left; exact hfull k h5 (by omega)
  · intro i k y hi hy hk1 hk2 hk3
    rw [hfilled k (by omega)]
    rcases Nat.lt_trichotomy k pe with h5 | h5 | h5
    · rcases I.sur i y hi hy with ⟨h1, h2⟩ | ⟨a, ha, hai, hay⟩
      · omega
      · left
        apply h.right a k y ha hay _ _ hk3
        · split_ifs at hai <;> omega
        · split_ifs at hai <;> omega
    · right; exact h5
    · left; exact hfull k h5 (by omega)

/-! ## Bits -/

/-- The runend bits of the new layout. -/
theorem ins_rend {r r' : Nat → Bool} (I : Ins n lay lay' p x σ)
    (hr : ∀ i, i < n → (r i = true ↔ ∃ y, lay i = some y ∧
      ∀ j z, i < j → j < n → lay j = some z → z / 2 ^ s ≠ y / 2 ^ s))
    (h1 : ∀ i y, i < n → lay i = some y → y / 2 ^ s = x / 2 ^ s → σ i < p → r' (σ i) = false)
    (h2 : ∀ i y, i < n → lay i = some y → (y / 2 ^ s ≠ x / 2 ^ s ∨ p < σ i) → r' (σ i) = r i)
    (h3 : r' p = true ↔ ∀ i y, i < n → lay i = some y → p < σ i → y / 2 ^ s ≠ x / 2 ^ s)
    (h4 : ∀ k, k < n → lay' k = none → r' k = false) :
    ∀ i, i < n → (r' i = true ↔ ∃ y, lay' i = some y ∧
      ∀ j z, i < j → j < n → lay' j = some z → z / 2 ^ s ≠ y / 2 ^ s) := by
  intro i hi
  rcases hli : lay' i with _ | y
  · rw [h4 i hi hli]; simp
  · rcases I.sur i y hi hli with ⟨e1, e2⟩ | ⟨a, ha, hai, hay⟩
    · rw [e1, h3]
      constructor
      · intro h
        refine ⟨y, rfl, ?_⟩
        intro j z hj1 hj2 hz
        rw [e2]
        rcases I.sur j z hj2 hz with ⟨f1, f2⟩ | ⟨b, hb, hbj, hbz⟩
        · omega
        · exact h b z hb hbz (by omega)
      · rintro ⟨y', e, h⟩
        injection e with e; subst e
        intro b z hb hbz hlt
        rw [← e2]
        exact h (σ b) z hlt (I.sub b z hb hbz).1 (I.sub b z hb hbz).2.2
    · by_cases hq : y / 2 ^ s = x / 2 ^ s ∧ i < p
      · rw [← hai, h1 a y ha hay hq.1 (by omega)]
        constructor
        · intro h; simp at h
        · rintro ⟨y', e, h⟩
          injection e with e; subst e
          exact absurd hq.1.symm (h p x (by omega) I.px I.at_p)
      · have hip : i ≠ p := by rw [← hai]; exact (I.sub a y ha hay).2.1
        rw [← hai, h2 a y ha hay (by by_contra hc; apply hq; constructor <;> omega), hr a ha]
        constructor
        · rintro ⟨y', e, h⟩
          rw [hay] at e; injection e with e; subst e
          refine ⟨y, rfl, ?_⟩
          intro j z hj1 hj2 hz
          rcases I.sur j z hj2 hz with ⟨f1, f2⟩ | ⟨b, hb, hbj, hbz⟩
          · rw [f2]; intro hc; exact hq ⟨hc.symm, by omega⟩
          · exact h b z (I.lt_of ha (by simp [hay]) (by simp [hbz]) (by omega)) hb hbz
        · rintro ⟨y', e, h⟩
          injection e with e; subst e
          refine ⟨y, hay, ?_⟩
          intro b z hab hb hbz
          have := I.mono a b hab hb (by simp [hay]) (by simp [hbz])
          exact h (σ b) z this (I.sub b z hb hbz).1 (I.sub b z hb hbz).2.2

/-- The occupied bits of the new layout. -/
theorem ins_occ (I : Ins n lay lay' p x σ) (q : Nat) :
    (∃ i y, i < n ∧ lay' i = some y ∧ y / 2 ^ s = q) ↔
      (∃ i y, i < n ∧ lay i = some y ∧ y / 2 ^ s = q) ∨ q = x / 2 ^ s := by
  constructor
  · rintro ⟨i, y, hi, hy, hq⟩
    rcases I.sur i y hi hy with ⟨_, rfl⟩ | ⟨a, ha, _, hay⟩
    · right; exact hq.symm
    · left; exact ⟨a, y, ha, hay, hq⟩
  · rintro (⟨i, y, hi, hy, hq⟩ | hq)
    · exact ⟨σ i, y, (I.sub i y hi hy).1, (I.sub i y hi hy).2.2, hq⟩
    · exact ⟨p, x, I.px, I.at_p, hq.symm⟩

end

/-- Number of filled slots. -/
theorem cnt_content (n : Nat) (lay : Nat → Option Nat) :
    cnt (fun i => (lay i).isSome) n = (content n lay).length := by
  induction n with
  | zero => rfl
  | succ n ih =>
    unfold content at *
    rw [cnt, ih, List.range_succ, List.filterMap_append, List.length_append]
    cases h : lay n <;> simp [h]

/-! ## Counting shifted bits -/

theorem cnt_shiftR {b b' : Nat → Bool} {l r : Nat} (hlr : l ≤ r)
    (h : ∀ i, b' i = if i = l then false else if l < i ∧ i ≤ r then b (i - 1) else b i)
    (hr : b r = false) : ∀ K, cnt b' K = if l < K ∧ K ≤ r then cnt b (K - 1) else cnt b K := by
  intro K
  induction K with
  | zero => simp [cnt]
  | succ K ih =>
    rw [cnt, ih, h K]
    by_cases h1 : K < l
    · rw [if_neg (by omega), if_neg (by omega), if_neg (by omega), if_neg (by omega), cnt]
    · by_cases h2 : K = l
      · rw [if_neg (by omega), if_pos h2]
        by_cases h3 : K + 1 ≤ r
        · rw [if_pos (by omega)]; simp
        · have : K = r := by omega
          rw [if_neg (by omega), cnt, this, hr]
      · rw [if_neg h2]
        by_cases h3 : K < r
        · rw [if_pos (by omega), if_pos (by omega), if_pos (by omega)]
          obtain ⟨K', rfl⟩ : ∃ K', K = K' + 1 := ⟨K - 1, by omega⟩
          rw [Nat.add_sub_cancel, Nat.add_sub_cancel, cnt]
        · by_cases h4 : K = r
          · rw [if_pos (by omega), if_pos (by omega), if_neg (by omega)]
            obtain ⟨K', rfl⟩ : ∃ K', K = K' + 1 := ⟨K - 1, by omega⟩
            rw [Nat.add_sub_cancel, cnt, cnt, h4, hr]; simp
          · rw [if_neg (by omega), if_neg (by omega), if_neg (by omega), cnt]

theorem cnt_shiftL {b b' : Nat → Bool} {l r : Nat} (hl : 1 ≤ l) (hlr : l ≤ r)
    (h : ∀ i, b' i = if i + 1 = r then false else if l ≤ i + 1 ∧ i + 1 < r then b (i + 1) else b i)
    (hr : b (l - 1) = false) : ∀ K, cnt b' K = if l ≤ K ∧ K < r then cnt b (K + 1) else cnt b K := by
  intro K
  induction K with
  | zero => rw [if_neg (by omega)]; rfl
  | succ K ih =>
    rw [cnt, ih, h K]
    by_cases h1 : K + 1 < l
    · rw [if_neg (by omega), if_neg (by omega), if_neg (by omega), if_neg (by omega), cnt]
    · by_cases h2 : K + 1 = r
      · rw [if_pos h2, if_neg (show ¬ (l ≤ K + 1 ∧ K + 1 < r) by omega)]
        by_cases h3 : l ≤ K
        · rw [if_pos (by omega)]; simp
        · have : l - 1 = K := by omega
          rw [if_neg (by omega), cnt, ← this, hr]
      · rw [if_neg h2]
        by_cases h3 : K + 1 < r
        · rw [if_pos (show l ≤ K + 1 ∧ K + 1 < r by omega), if_pos (show l ≤ K + 1 ∧ K + 1 < r by omega)]
          by_cases h4 : l ≤ K
          · rw [if_pos (by omega)]; rfl
          · have : l - 1 = K := by omega
            rw [if_neg (by omega)]
            conv_rhs => rw [cnt, cnt]
            rw [← this, hr]; simp
        · rw [if_neg (by omega), if_neg (by omega), if_neg (by omega), cnt]

end Verif
