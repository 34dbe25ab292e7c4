import Verif.Proof.StoreInsert

/-!
# Removing one item from a layout, by shifting left or right
-/

namespace Verif

/-- Slot `p` removed, slots up to `e` shifted left, slot `e` becomes empty. -/
def layDL (lay : Nat → Option Nat) (p e : Nat) : Nat → Option Nat := fun i =>
  if i = e then none else if p ≤ i ∧ i < e then lay (i + 1) else lay i

/-- Slot `p` removed, slots from `b` shifted right, slot `b` becomes empty. -/
def layDR (lay : Nat → Option Nat) (b p : Nat) : Nat → Option Nat := fun i =>
  if i = b then none else if b < i ∧ i ≤ p then lay (i - 1) else lay i

theorem layR_layDL {lay : Nat → Option Nat} {p e y : Nat} (hpe : p ≤ e) (hp : lay p = some y) :
    layR (layDL lay p e) p e y = lay := by
  funext i
  unfold layR layDL
  by_cases h1 : i = p
  · rw [if_pos h1, h1, hp]
  · rw [if_neg h1]
    by_cases h2 : p < i ∧ i ≤ e
    · rw [if_pos h2, if_neg (by omega), if_pos (by omega), Nat.sub_add_cancel (by omega)]
    · rw [if_neg h2, if_neg (by omega), if_neg (by omega)]

theorem layL_layDR {lay : Nat → Option Nat} {p b y : Nat} (hbp : b ≤ p) (hp : lay p = some y) :
    layL (layDR lay b p) b p y = lay := by
  funext i
  unfold layL layDR
  by_cases h1 : i = p
  · rw [if_pos h1, h1, hp]
  · rw [if_neg h1]
    by_cases h2 : b ≤ i ∧ i < p
    · rw [if_pos h2, if_neg (by omega), if_pos (by omega), Nat.add_sub_cancel]
    · rw [if_neg h2, if_neg (by omega), if_neg (by omega)]

section
variable {n s T p e b y : Nat} {mp : Nat → Nat} {lay : Nat → Option Nat}

theorem layDL_e : layDL lay p e e = none := by simp [layDL]
theorem layDR_b : layDR lay b p b = none := by simp [layDR]

theorem ins_layDL (hpe : p ≤ e) (he : e < n) (hp : lay p = some y) :
    Ins n (layDL lay p e) lay p y (fun i => if p ≤ i ∧ i < e then i + 1 else i) := by
  have := ins_right (x := y) hpe he (layDL_e (lay := lay) (p := p))
  rwa [layR_layDL hpe hp] at this

theorem ins_layDR (hbp : b ≤ p) (hpn : p < n) (hp : lay p = some y) :
    Ins n (layDR lay b p) lay p y (fun i => if b < i ∧ i ≤ p then i - 1 else i) := by
  have := ins_left (x := y) hbp hpn (layDR_b (lay := lay) (p := p))
  rwa [layL_layDR hbp hp] at this

theorem content_layDL (hpe : p ≤ e) (he : e < n) (hp : lay p = some y) :
    ∃ A B, content n lay = A ++ y :: B ∧ content n (layDL lay p e) = A ++ B := by
  obtain ⟨A, B, h1, h2⟩ := content_layR (x := y) hpe he (layDL_e (lay := lay) (p := p))
  rw [layR_layDL hpe hp] at h2
  exact ⟨A, B, h2, h1⟩

theorem content_layDR (hbp : b ≤ p) (hpn : p < n) (hp : lay p = some y) :
    ∃ A B, content n lay = A ++ y :: B ∧ content n (layDR lay b p) = A ++ B := by
  obtain ⟨A, B, h1, h2⟩ := content_layL (x := y) hbp hpn (layDR_b (lay := lay) (p := p))
  rw [layL_layDR hbp hp] at h2
  exact ⟨A, B, h2, h1⟩

/-- Any sorted layout with contiguous runs is well-formed for the home slots "first slot of the run". -/
theorem layWF_weak (item : ∀ i x, i < n → lay i = some x → x % 2 ^ s ≠ 0 ∧ x / 2 ^ s < T)
    (sorted : ∀ i j x y, i < j → j < n → lay i = some x → lay j = some y → ile x y)
    (contig : ∀ i j k x y, i < k → k < j → j < n → lay i = some x → lay j = some y →
      x / 2 ^ s = y / 2 ^ s → lay k ≠ none) : ∃ mp, LayWF n s T mp lay := by
  classical
  let P : Nat → Nat → Prop := fun q i => i < n ∧ ∃ x, lay i = some x ∧ x / 2 ^ s = q
  refine ⟨fun q => if h : ∃ i, P q i then Nat.find h else 0, item, sorted, contig, ?_, ?_⟩
  · intro i k x hi hx h1 h2
    have hex : ∃ i, P (x / 2 ^ s) i := ⟨i, hi, x, hx, rfl⟩
    rw [dif_pos hex] at h1
    obtain ⟨g1, z, g2, g3⟩ := Nat.find_spec hex
    rcases Nat.lt_or_ge (Nat.find hex) k with h3 | h3
    · exact contig _ i k z x h3 h2 hi g2 hx g3
    · have : k = Nat.find hex := by omega
      rw [this, g2]; simp
  · intro i k x hi hx h1
    have hex : ∃ i, P (x / 2 ^ s) i := ⟨i, hi, x, hx, rfl⟩
    rw [dif_pos hex] at h1
    have := Nat.find_min' hex (show P (x / 2 ^ s) i from ⟨hi, x, hx, rfl⟩)
    omega

theorem Ins.item_rev {lay' : Nat → Option Nat} {σ : Nat → Nat} (I : Ins n lay' lay p y σ) (h : LayWF n s T mp lay) :
    ∀ i x, i < n → lay' i = some x → x % 2 ^ s ≠ 0 ∧ x / 2 ^ s < T := by
  intro i x hi hx
  obtain ⟨a, _, c⟩ := I.sub i x hi hx
  exact h.item _ x a c

theorem Ins.sorted_rev {lay' : Nat → Option Nat} {σ : Nat → Nat} (I : Ins n lay' lay p y σ) (h : LayWF n s T mp lay) :
    ∀ i j x z, i < j → j < n → lay' i = some x → lay' j = some z → ile x z := by
  intro i j x z hij hj hx hz
  obtain ⟨_, _, c⟩ := I.sub i x (by omega) hx
  obtain ⟨a', _, c'⟩ := I.sub j z hj hz
  exact h.sorted _ _ x z (I.mono i j hij hj (by simp [hx]) (by simp [hz])) a' c c'

/-- No run straddles the border before slot `b`. -/
def Cut (n s : Nat) (lay : Nat → Option Nat) (b : Nat) : Prop :=
  ∀ i j x z, i < b → b ≤ j → j < n → lay i = some x → lay j = some z → x / 2 ^ s ≠ z / 2 ^ s

theorem contig_layDL (h : LayWF n s T mp lay) (he : e < n)
    (hcut : Cut n s lay (e + 1)) (hfill : ∀ k, p ≤ k → k ≤ e → lay k ≠ none) :
    ∀ i j k x z, i < k → k < j → j < n → layDL lay p e i = some x → layDL lay p e j = some z →
      x / 2 ^ s = z / 2 ^ s → layDL lay p e k ≠ none := by
  intro i j k x z hik hkj hj hx hz hq hk
  unfold layDL at hk hx hz
  by_cases h1 : k = e
  · rw [if_neg (by omega)] at hx hz
    rw [if_neg (by omega)] at hz
    split_ifs at hx with c1
    · exact hcut _ j x z (by omega) (by omega) hj hx hz hq
    · exact hcut _ j x z (by omega) (by omega) hj hx hz hq
  · rw [if_neg h1] at hk
    by_cases h2 : p ≤ k ∧ k < e
    · rw [if_pos h2] at hk
      exact hfill (k + 1) (by omega) (by omega) hk
    · rw [if_neg h2] at hk
      have h3 : ∃ i', i' < k ∧ lay i' = some x := by
        split_ifs at hx with c1 c2
        · exact ⟨i + 1, by omega, hx⟩
        · exact ⟨i, hik, hx⟩
      have h4 : ∃ j', k < j' ∧ j' < n ∧ lay j' = some z := by
        split_ifs at hz with c1 c2
        · exact ⟨j + 1, by omega, by omega, hz⟩
        · exact ⟨j, hkj, hj, hz⟩
      obtain ⟨i', a1, a2⟩ := h3
      obtain ⟨j', b1, b2, b3⟩ := h4
      exact h.contig i' j' k x z a1 b1 b2 a2 b3 hq hk

theorem contig_layDR (h : LayWF n s T mp lay)
    (hcut : Cut n s lay b) (hfill : ∀ k, b < k → k ≤ p → lay k ≠ none) :
    ∀ i j k x z, i < k → k < j → j < n → layDR lay b p i = some x → layDR lay b p j = some z →
      x / 2 ^ s = z / 2 ^ s → layDR lay b p k ≠ none := by
  intro i j k x z hik hkj hj hx hz hq hk
  unfold layDR at hk hx hz
  by_cases h1 : k = b
  · rw [if_neg (by omega)] at hx hz
    rw [if_neg (by omega)] at hx
    split_ifs at hz with c1
    · exact hcut i _ x z (by omega) (by omega) (by omega) hx hz hq
    · exact hcut i _ x z (by omega) (by omega) (by omega) hx hz hq
  · rw [if_neg h1] at hk
    by_cases h2 : b < k ∧ k ≤ p
    · rw [if_pos h2] at hk
      by_cases h3 : k - 1 = b
      · -- the slot before is the (possibly empty) border slot
        have hib : i < b := by
          rcases Nat.lt_or_ge i b with h4 | h4
          · exact h4
          · exfalso
            have : i = b := by omega
            rw [if_pos this] at hx; simp at hx
        have hx' : lay i = some x := by
          rwa [if_neg (by omega), if_neg (by omega)] at hx
        have h4 : ∃ j', b ≤ j' ∧ j' < n ∧ lay j' = some z := by
          split_ifs at hz with c1 c2
          · exact ⟨j - 1, by omega, by omega, hz⟩
          · exact ⟨j, by omega, hj, hz⟩
        obtain ⟨j', b1, b2, b3⟩ := h4
        exact hcut i j' x z hib b1 b2 hx' b3 hq
      · exact hfill (k - 1) (by omega) (by omega) hk
    · rw [if_neg h2] at hk
      have h3 : ∃ i', i' < k ∧ lay i' = some x := by
        split_ifs at hx with c1 c2
        · exact ⟨i - 1, by omega, hx⟩
        · exact ⟨i, hik, hx⟩
      have h4 : ∃ j', k < j' ∧ j' < n ∧ lay j' = some z := by
        split_ifs at hz with c1 c2
        · exact ⟨j - 1, by omega, by omega, hz⟩
        · exact ⟨j, hkj, hj, hz⟩
      obtain ⟨i', a1, a2⟩ := h3
      obtain ⟨j', b1, b2, b3⟩ := h4
      exact h.contig i' j' k x z a1 b1 b2 a2 b3 hq hk

theorem layWF_layDL_weak (h : LayWF n s T mp lay) (hpe : p ≤ e) (he : e < n) (hp : lay p = some y)
    (hcut : Cut n s lay (e + 1)) (hfill : ∀ k, p ≤ k → k ≤ e → lay k ≠ none) :
    ∃ mp', LayWF n s T mp' (layDL lay p e) := by
  have I := ins_layDL hpe he hp
  exact layWF_weak (I.item_rev h) (I.sorted_rev h) (contig_layDL h he hcut hfill)

theorem layWF_layDR_weak (h : LayWF n s T mp lay) (hbp : b ≤ p) (hpn : p < n) (hp : lay p = some y)
    (hcut : Cut n s lay b) (hfill : ∀ k, b < k → k ≤ p → lay k ≠ none) :
    ∃ mp', LayWF n s T mp' (layDR lay b p) := by
  have I := ins_layDR hbp hpn hp
  exact layWF_weak (I.item_rev h) (I.sorted_rev h) (contig_layDR h hcut hfill)

/-- The home slots stay valid if the shifted items are to the right of them. -/
theorem layWF_layDL (h : LayWF n s T mp lay) (hpe : p ≤ e) (he : e < n) (hp : lay p = some y)
    (hcut : Cut n s lay (e + 1)) (hfill : ∀ k, p ≤ k → k ≤ e → lay k ≠ none)
    (hlo : ∀ i x, i < p → lay i = some x → mp (x / 2 ^ s) ≤ i)
    (hmid : ∀ i x, p < i → i ≤ e → lay i = some x → mp (x / 2 ^ s) < i)
    (hhi : ∀ i x, e < i → i < n → lay i = some x → e < mp (x / 2 ^ s)) :
    LayWF n s T mp (layDL lay p e) := by
  have I := ins_layDL hpe he hp
  refine ⟨I.item_rev h, I.sorted_rev h, contig_layDL h he hcut hfill, ?_, ?_⟩
  · intro i k x hi hx hk1 hk2 hk
    unfold layDL at hk hx
    split_ifs at hx with c1 c2
    · have hk3 : k < e := by omega
      rw [if_neg (by omega)] at hk
      split_ifs at hk with c3
      · exact hfill (k + 1) (by omega) (by omega) hk
      · exact h.left (i + 1) k x (by omega) hx hk1 (by omega) hk
    · by_cases c3 : k = e
      · have := hhi i x (by omega) hi hx
        omega
      · rw [if_neg c3] at hk
        split_ifs at hk with c4
        · exact hfill (k + 1) (by omega) (by omega) hk
        · exact h.left i k x hi hx hk1 hk2 hk
  · intro i k x hi hx hk1 hk2 hk3 hk
    unfold layDL at hk hx
    split_ifs at hx with c1 c2
    · have := hmid (i + 1) x (by omega) (by omega) hx
      omega
    · have hei : e < i := by
        by_contra hc
        have := hlo i x (by omega) hx
        omega
      rw [if_neg (by omega), if_neg (by omega)] at hk
      exact h.right i k x hi hx hk1 hk2 hk3 hk

end
end Verif
