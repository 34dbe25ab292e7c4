import Verif.Model.WhStr
import Verif.Proof.WhHashSet

/-!
# The slots of a leaf of the string tree
-/

namespace Verif

variable {hs : List (Option Slot)}

theorem slotAt_lt {i : Nat} {s : Slot} (h : slotAt hs i = some s) : i < hs.length := by
  by_contra hn
  rw [slotAt, List.getD_eq_getElem?_getD, List.getElem?_eq_none (by omega)] at h
  simp at h

theorem slotAt_set {i j : Nat} (hi : i < hs.length) (v : Option Slot) :
    slotAt (hs.set i v) j = if j = i then v else slotAt hs j := by
  unfold slotAt
  rw [List.getD_eq_getElem?_getD, List.getD_eq_getElem?_getD, List.getElem?_set]
  by_cases h : j = i
  · subst h; simp [hi]
  · rw [if_neg (fun e => h e.symm), if_neg h]

theorem slotAt_move {dst src nr j : Nat} (h1 : dst + nr ≤ hs.length) :
    slotAt (moveSlots hs dst src nr) j = if dst ≤ j ∧ j < dst + nr then slotAt hs (j - dst + src) else slotAt hs j := by
  unfold moveSlots
  by_cases hj : j < hs.length
  · rw [slotAt, List.getD_eq_getElem?_getD, List.getElem?_map, List.getElem?_range hj]
    rfl
  · rw [if_neg (by omega)]
    rw [slotAt, slotAt, List.getD_eq_getElem?_getD, List.getD_eq_getElem?_getD, List.getElem?_eq_none (by simp; omega),
      List.getElem?_eq_none (by omega)]

theorem moveSlots_length {dst src nr : Nat} : (moveSlots hs dst src nr).length = hs.length := by simp [moveSlots]

theorem inShift_iff {src nr v : Nat} (h : src + nr ≤ 32) (hv : v < 32) :
    inShift src nr v = true ↔ src ≤ v ∧ v < src + nr := by
  unfold inShift s8
  rw [decide_eq_true_eq]
  split_ifs <;> omega

theorem scanDown_spec (c : Nat → Slot → Bool) : ∀ i, scanDown hs c i ≤ i ∧
    (∀ j, scanDown hs c i ≤ j → j < i → ∃ s, slotAt hs j = some s ∧ c j s = true) ∧
    (∀ j, scanDown hs c i = j + 1 → ∀ s, slotAt hs j = some s → c j s = false)
  | 0 => ⟨Nat.le_refl _, fun j _ h => by omega, fun j h => by simp [scanDown] at h⟩
  | i + 1 => by
    have ih := scanDown_spec c i
    rw [scanDown]
    cases hi : slotAt hs i with
    | none =>
      dsimp only
      refine ⟨Nat.le_refl _, fun j h1 h2 => by omega, fun j h s hs' => ?_⟩
      obtain rfl : i = j := by simpa using h
      rw [hi] at hs'; simp at hs'
    | some s =>
      dsimp only
      by_cases hc : c i s = true
      · rw [if_pos hc]
        refine ⟨by omega, fun j h1 h2 => ?_, ih.2.2⟩
        rcases Nat.lt_or_ge j i with h | h
        · exact ih.2.1 j h1 h
        · obtain rfl : j = i := by omega
          exact ⟨s, hi, hc⟩
      · rw [if_neg hc]
        refine ⟨Nat.le_refl _, fun j h1 h2 => by omega, fun j h s' hs' => ?_⟩
        obtain rfl : i = j := by simpa using h
        rw [hi] at hs'
        obtain rfl := Option.some.inj hs'
        simpa using hc

theorem scanUp_spec (c : Nat → Slot → Bool) : ∀ fuel i, hs.length ≤ i + fuel → i ≤ scanUp hs c fuel i ∧
    (∀ j, i ≤ j → j < scanUp hs c fuel i → ∃ s, slotAt hs j = some s ∧ c j s = true) ∧
    (∀ s, slotAt hs (scanUp hs c fuel i) = some s → c (scanUp hs c fuel i) s = false)
  | 0, i, hf => ⟨Nat.le_refl _, fun j h1 h2 => by rw [scanUp] at h2; omega, fun s h => by
      have := slotAt_lt h; rw [scanUp] at this; omega⟩
  | fuel + 1, i, hf => by
    have ih := scanUp_spec c fuel (i + 1) (by omega)
    rw [scanUp]
    cases hi : slotAt hs i with
    | none =>
      dsimp only
      exact ⟨Nat.le_refl _, fun j h1 h2 => by omega, fun s h => by rw [hi] at h; simp at h⟩
    | some s =>
      dsimp only
      by_cases hc : c i s = true
      · rw [if_pos hc]
        refine ⟨by omega, fun j h1 h2 => ?_, ih.2.2⟩
        rcases Nat.lt_or_ge i j with h | h
        · exact ih.2.1 j h h2
        · obtain rfl : j = i := by omega
          exact ⟨s, hi, hc⟩
      · rw [if_neg hc]
        refine ⟨Nat.le_refl _, fun j h1 h2 => by omega, fun s' h => ?_⟩
        rw [hi] at h
        obtain rfl := Option.some.inj h
        simpa using hc

/-- Nothing lies between a slot and the home of its tag but used slots. -/
def Magnet (f : Nat → Option Slot) : Prop :=
  ∀ i s, f i = some s → ∀ j, (home s.tag ≤ j ∧ j ≤ i) ∨ (i ≤ j ∧ j ≤ home s.tag) → f j ≠ none

/-- Tags in order. -/
def TagInc (f : Nat → Option Slot) : Prop := ∀ i j a b, i < j → f i = some a → f j = some b → a.tag ≤ b.tag

/-- What the slots of every leaf satisfy. -/
structure HsOK (hs : List (Option Slot)) : Prop where
  len : hs.length = 32
  tag : ∀ i s, slotAt hs i = some s → s.tag = kvTag s.kv.1
  inc : TagInc (slotAt hs)
  mag : Magnet (slotAt hs)

theorem kvTag_range (k : Key) : 0 < kvTag k ∧ kvTag k < 65536 := pkey16_range _

theorem home_lt {p : Nat} (h : p < 65536) : home p < 32 := by unfold home; omega

theorem home_mono {p q : Nat} (h : p ≤ q) : home p ≤ home q := Nat.div_le_div_right h

/-- Slots on the left of an empty slot belong there. -/
theorem Magnet.left {f : Nat → Option Slot} (h : Magnet f) {g i : Nat} {s : Slot} (hg : f g = none) (hi : f i = some s)
    (hlt : i < g) : home s.tag < g := by
  by_contra hn
  exact h i s hi g (Or.inr ⟨by omega, by omega⟩) hg

theorem Magnet.right {f : Nat → Option Slot} (h : Magnet f) {g i : Nat} {s : Slot} (hg : f g = none) (hi : f i = some s)
    (hlt : g < i) : g < home s.tag := by
  by_contra hn
  exact h i s hi g (Or.inl ⟨by omega, by omega⟩) hg

/-! ## Insertion -/

/-- The slots after a push to the left: the ones in `(g, pos]` move down by one. -/
def pushL (f : Nat → Option Slot) (g pos : Nat) (e : Slot) (j : Nat) : Option Slot :=
  if j = pos then some e else if g ≤ j ∧ j < pos then f (j + 1) else f j

/-- The slots after a push to the right: the ones in `[pos, g)` move up by one. -/
def pushR (f : Nat → Option Slot) (g pos : Nat) (e : Slot) (j : Nat) : Option Slot :=
  if j = pos then some e else if pos < j ∧ j ≤ g then f (j - 1) else f j

section
variable {f : Nat → Option Slot} {g pos : Nat} {e : Slot}

theorem pushL_used (hle : g ≤ pos) (hu : ∀ j, g < j → j ≤ pos → f j ≠ none) {j : Nat} (h : f j ≠ none ∨ j = g) :
    pushL f g pos e j ≠ none := by
  unfold pushL
  split_ifs with h1 h2
  · simp
  · exact hu _ (by omega) (by omega)
  · rcases h with h | h
    · exact h
    · omega

theorem pushL_from {j : Nat} {s : Slot} (h : pushL f g pos e j = some s) :
    (j = pos ∧ s = e) ∨ (g ≤ j ∧ j < pos ∧ f (j + 1) = some s) ∨ ((j < g ∨ pos < j) ∧ f j = some s) := by
  unfold pushL at h
  split_ifs at h with h1 h2
  · exact Or.inl ⟨h1, (Option.some.inj h).symm⟩
  · exact Or.inr (Or.inl ⟨h2.1, h2.2, h⟩)
  · exact Or.inr (Or.inr ⟨by omega, h⟩)

theorem pushL_ok (hm : Magnet f) (hi : TagInc f) (hle : g ≤ pos)
    (hu : ∀ j, g < j → j ≤ pos → f j ≠ none)
    (lo : ∀ j s, j ≤ pos → f j = some s → s.tag ≤ e.tag) (hi' : ∀ j s, pos < j → f j = some s → e.tag ≤ s.tag)
    (path : ∀ j, (home e.tag ≤ j ∧ j ≤ pos) ∨ (pos ≤ j ∧ j ≤ home e.tag) → f j ≠ none ∨ j = g) :
    Magnet (pushL f g pos e) ∧ TagInc (pushL f g pos e) := by
  constructor
  · intro i s h j hj
    apply pushL_used hle hu
    rcases pushL_from h with ⟨rfl, rfl⟩ | ⟨h1, h2, h3⟩ | ⟨h1, h3⟩
    · exact path j hj
    · by_cases hjg : j = g
      · exact Or.inr hjg
      · by_cases hji : j = i
        · subst hji
          exact Or.inl (hu j (by omega) (by omega))
        · exact Or.inl (hm _ s h3 j (by omega))
    · by_cases hjg : j = g
      · exact Or.inr hjg
      · exact Or.inl (hm _ s h3 j (by omega))
  · intro i j a b hij ha hb
    rcases pushL_from ha with ⟨rfl, rfl⟩ | ⟨h1, h2, h3⟩ | ⟨h1, h3⟩ <;>
    rcases pushL_from hb with ⟨rfl, rfl⟩ | ⟨h4, h5, h6⟩ | ⟨h4, h6⟩
    · omega
    · omega
    · exact hi' j b (by omega) h6
    · exact lo _ a (by omega) h3
    · exact hi _ _ a b (by omega) h3 h6
    · exact hi _ _ a b (by omega) h3 h6
    · rcases h1 with h1 | h1
      · exact lo _ a (by omega) h3
      · omega
    · exact hi _ _ a b (by omega) h3 h6
    · exact hi _ _ a b (by omega) h3 h6

theorem pushR_used (hle : pos ≤ g) (hu : ∀ j, pos ≤ j → j < g → f j ≠ none) {j : Nat} (h : f j ≠ none ∨ j = g) :
    pushR f g pos e j ≠ none := by
  unfold pushR
  split_ifs with h1 h2
  · simp
  · exact hu _ (by omega) (by omega)
  · rcases h with h | h
    · exact h
    · omega

theorem pushR_from {j : Nat} {s : Slot} (h : pushR f g pos e j = some s) :
    (j = pos ∧ s = e) ∨ (pos < j ∧ j ≤ g ∧ f (j - 1) = some s) ∨ ((j < pos ∨ g < j) ∧ f j = some s) := by
  unfold pushR at h
  split_ifs at h with h1 h2
  · exact Or.inl ⟨h1, (Option.some.inj h).symm⟩
  · exact Or.inr (Or.inl ⟨h2.1, h2.2, h⟩)
  · exact Or.inr (Or.inr ⟨by omega, h⟩)

theorem pushR_ok (hm : Magnet f) (hi : TagInc f) (hle : pos ≤ g)
    (hu : ∀ j, pos ≤ j → j < g → f j ≠ none)
    (lo : ∀ j s, j < pos → f j = some s → s.tag ≤ e.tag) (hi' : ∀ j s, pos ≤ j → f j = some s → e.tag ≤ s.tag)
    (path : ∀ j, (home e.tag ≤ j ∧ j ≤ pos) ∨ (pos ≤ j ∧ j ≤ home e.tag) → f j ≠ none ∨ j = g) :
    Magnet (pushR f g pos e) ∧ TagInc (pushR f g pos e) := by
  constructor
  · intro i s h j hj
    apply pushR_used hle hu
    rcases pushR_from h with ⟨rfl, rfl⟩ | ⟨h1, h2, h3⟩ | ⟨h1, h3⟩
    · exact path j hj
    · by_cases hjg : j = g
      · exact Or.inr hjg
      · by_cases hji : j = i
        · subst hji
          exact Or.inl (hu j (by omega) (by omega))
        · exact Or.inl (hm _ s h3 j (by omega))
    · by_cases hjg : j = g
      · exact Or.inr hjg
      · exact Or.inl (hm _ s h3 j (by omega))
  · intro i j a b hij ha hb
    rcases pushR_from ha with ⟨rfl, rfl⟩ | ⟨h1, h2, h3⟩ | ⟨h1, h3⟩ <;>
    rcases pushR_from hb with ⟨rfl, rfl⟩ | ⟨h4, h5, h6⟩ | ⟨h4, h6⟩
    · omega
    · exact hi' _ b (by omega) h6
    · rcases h4 with h4 | h4
      · omega
      · exact hi' _ b (by omega) h6
    · omega
    · exact hi _ _ a b (by omega) h3 h6
    · exact hi _ _ a b (by omega) h3 h6
    · rcases h1 with h1 | h1
      · exact lo _ a (by omega) h3
      · omega
    · exact hi _ _ a b (by omega) h3 h6
    · exact hi _ _ a b (by omega) h3 h6

end

/-! ## Removal -/

/-- The slots after slot `ih` is emptied and the ones in `[i, ih)` move up by one. -/
def pullL (f : Nat → Option Slot) (i ih j : Nat) : Option Slot :=
  if j = i then none else if i < j ∧ j ≤ ih then f (j - 1) else f j

/-- The slots after slot `ih` is emptied and the ones in `(ih, i]` move down by one. -/
def pullR (f : Nat → Option Slot) (i ih j : Nat) : Option Slot :=
  if j = i then none else if ih ≤ j ∧ j < i then f (j + 1) else f j

section
variable {f : Nat → Option Slot} {i ih : Nat}

theorem pullL_from {j : Nat} {s : Slot} (h : pullL f i ih j = some s) :
    (i < j ∧ j ≤ ih ∧ f (j - 1) = some s) ∨ (j ≠ i ∧ (j < i ∨ ih < j) ∧ f j = some s) := by
  unfold pullL at h
  split_ifs at h with h1 h2
  · exact Or.inl ⟨h2.1, h2.2, h⟩
  · exact Or.inr ⟨h1, by omega, h⟩

theorem pullL_ok (hm : Magnet f) (hi : TagInc f) {e : Slot} (he : f ih = some e) (hle : i ≤ ih)
    (hu : ∀ j, i ≤ j → j < ih → ∃ s, f j = some s ∧ home s.tag > j)
    (hl : ∀ j s, i = j + 1 → f j = some s → home s.tag ≤ j)
    (hr : i < ih ∨ ∀ s, f (ih + 1) = some s → ih + 1 ≤ home s.tag) :
    Magnet (pullL f i ih) ∧ TagInc (pullL f i ih) := by
  -- homes below `i`
  have low : ∀ j s, j < i → f j = some s → home s.tag < i := by
    intro j s hj hs
    by_contra hn
    have hu1 : f (i - 1) ≠ none := hm j s hs (i - 1) (Or.inr ⟨by omega, by omega⟩)
    obtain ⟨s', hs'⟩ := Option.ne_none_iff_exists'.1 hu1
    have h1 := hl (i - 1) s' (by omega) hs'
    rcases Nat.lt_or_ge j (i - 1) with h | h
    · have := home_mono (hi j (i - 1) s s' h hs hs')
      omega
    · obtain rfl : j = i - 1 := by omega
      rw [hs] at hs'
      obtain rfl := Option.some.inj hs'
      omega
  have high : ∀ j s, ih < j → f j = some s → i < home s.tag := by
    intro j s hj hs
    rcases Nat.lt_or_ge i ih with h | h
    · obtain ⟨s', hs', h1⟩ := hu i (Nat.le_refl _) h
      have := home_mono (hi i j s' s (by omega) hs' hs)
      omega
    · obtain rfl : i = ih := by omega
      rcases hr with hr | hr
      · omega
      by_contra hn
      have hu1 : f (i + 1) ≠ none := hm j s hs (i + 1) (Or.inl ⟨by omega, by omega⟩)
      obtain ⟨s', hs'⟩ := Option.ne_none_iff_exists'.1 hu1
      have h1 := hr s' hs'
      rcases Nat.lt_or_ge (i + 1) j with h2 | h2
      · have := home_mono (hi (i + 1) j s' s h2 hs' hs)
        omega
      · obtain rfl : j = i + 1 := by omega
        rw [hs] at hs'
        obtain rfl := Option.some.inj hs'
        omega
  have used : ∀ j, j ≠ i → f j ≠ none → pullL f i ih j ≠ none := by
    intro j hj hf
    unfold pullL
    rw [if_neg hj]
    split_ifs with h2
    · obtain ⟨s, hs, _⟩ := hu (j - 1) (by omega) (by omega)
      rw [hs]; simp
    · exact hf
  constructor
  · intro x s h j hj
    rcases pullL_from h with ⟨h1, h2, h3⟩ | ⟨h1, h2, h3⟩
    · obtain ⟨s', hs', hh⟩ := hu (x - 1) (by omega) (by omega)
      rw [h3] at hs'
      obtain rfl := Option.some.inj hs'
      exact used j (by omega) (hm _ s h3 j (by omega))
    · rcases h2 with h2 | h2
      · have := low x s h2 h3
        exact used j (by omega) (hm _ s h3 j (by omega))
      · have := high x s h2 h3
        exact used j (by omega) (hm _ s h3 j (by omega))
  · intro x y a b hxy ha hb
    rcases pullL_from ha with ⟨h1, h2, h3⟩ | ⟨h1, h2, h3⟩ <;> rcases pullL_from hb with ⟨h4, h5, h6⟩ | ⟨h4, h5, h6⟩
    · exact hi _ _ a b (by omega) h3 h6
    · exact hi _ _ a b (by omega) h3 h6
    · exact hi _ _ a b (by omega) h3 h6
    · exact hi _ _ a b (by omega) h3 h6

theorem pullR_from {j : Nat} {s : Slot} (h : pullR f i ih j = some s) :
    (ih ≤ j ∧ j < i ∧ f (j + 1) = some s) ∨ (j ≠ i ∧ (j < ih ∨ i < j) ∧ f j = some s) := by
  unfold pullR at h
  split_ifs at h with h1 h2
  · exact Or.inl ⟨h2.1, h2.2, h⟩
  · exact Or.inr ⟨h1, by omega, h⟩

theorem pullR_ok (hm : Magnet f) (hi : TagInc f) (hle : ih < i)
    (hu : ∀ j, ih < j → j ≤ i → ∃ s, f j = some s ∧ home s.tag < j)
    (hr : ∀ s, f (i + 1) = some s → i + 1 ≤ home s.tag) :
    Magnet (pullR f i ih) ∧ TagInc (pullR f i ih) := by
  have high : ∀ j s, i < j → f j = some s → i < home s.tag := by
    intro j s hj hs
    by_contra hn
    have hu1 : f (i + 1) ≠ none := hm j s hs (i + 1) (Or.inl ⟨by omega, by omega⟩)
    obtain ⟨s', hs'⟩ := Option.ne_none_iff_exists'.1 hu1
    have h1 := hr s' hs'
    rcases Nat.lt_or_ge (i + 1) j with h2 | h2
    · have := home_mono (hi (i + 1) j s' s h2 hs' hs)
      omega
    · obtain rfl : j = i + 1 := by omega
      rw [hs] at hs'
      obtain rfl := Option.some.inj hs'
      omega
  have low : ∀ j s, j < ih → f j = some s → home s.tag < i := by
    intro j s hj hs
    obtain ⟨s', hs', h1⟩ := hu i hle (Nat.le_refl _)
    have := home_mono (hi j i s s' (by omega) hs hs')
    omega
  have used : ∀ j, j ≠ i → f j ≠ none → pullR f i ih j ≠ none := by
    intro j hj hf
    unfold pullR
    rw [if_neg hj]
    split_ifs with h2
    · obtain ⟨s, hs, _⟩ := hu (j + 1) (by omega) (by omega)
      rw [hs]; simp
    · exact hf
  constructor
  · intro x s h j hj
    rcases pullR_from h with ⟨h1, h2, h3⟩ | ⟨h1, h2, h3⟩
    · obtain ⟨s', hs', hh⟩ := hu (x + 1) (by omega) (by omega)
      rw [h3] at hs'
      obtain rfl := Option.some.inj hs'
      exact used j (by omega) (hm _ s h3 j (by omega))
    · rcases h2 with h2 | h2
      · have := low x s h2 h3
        exact used j (by omega) (hm _ s h3 j (by omega))
      · have := high x s h2 h3
        exact used j (by omega) (hm _ s h3 j (by omega))
  · intro x y a b hxy ha hb
    rcases pullR_from ha with ⟨h1, h2, h3⟩ | ⟨h1, h2, h3⟩ <;> rcases pullR_from hb with ⟨h4, h5, h6⟩ | ⟨h4, h5, h6⟩
    · exact hi _ _ a b (by omega) h3 h6
    · exact hi _ _ a b (by omega) h3 h6
    · exact hi _ _ a b (by omega) h3 h6
    · exact hi _ _ a b (by omega) h3 h6

end

end Verif
