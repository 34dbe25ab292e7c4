import Verif.Proof.StoreInsert
import Verif.Model.Scale

/-!
# Facts about the scaling tables
-/

namespace Verif

/-- What the code relies on about the tables built by `SetupScaleFactors`. -/
structure Cfg.WF (c : Cfg) : Prop where
  s1 : 1 ≤ c.infixSize
  s2 : c.infixSize ≤ 46
  grow : ∀ g, g < 255 → c.size g < c.size (g + 1)
  exc : c.exceptionSize < c.size 0
  scalar : ∀ g, c.Fine g → c.sizeScalar g < 2 ^ 34
  step : ∀ g, g < 255 → c.size g < 2 ^ 20 → c.size (g + 1) < 2 ^ 21
  top : 2 ^ 11 < c.size 254
  sep1 : 2 ^ 15 ≤ c.sizeScalar growSep
  sep2 : c.sizeScalar growSep ≤ 2 ^ 16

/-- The tables for load factor 0.95 satisfy the requirements. -/
theorem cfg95_wf (s : Nat) (h1 : 1 ≤ s) (h2 : s ≤ 46) : (cfg95 s).WF where
  s1 := h1
  s2 := h2
  grow := by
    have : ∀ g, g < 255 → (cfg95 0).size g < (cfg95 0).size (g + 1) := by decide +kernel
    exact this
  exc := by
    have : (cfg95 0).exceptionSize < (cfg95 0).size 0 := by decide +kernel
    exact this
  scalar := by
    have : ∀ g, g < 256 → (cfg95 0).sizeScalar g < 2 ^ 34 := by decide +kernel
    exact fun g hg => this g hg.1
  step := by
    have : ∀ g, g < 255 → (cfg95 0).size g < 2 ^ 20 → (cfg95 0).size (g + 1) < 2 ^ 21 := by decide +kernel
    exact this
  top := by
    have : 2 ^ 11 < (cfg95 0).size 254 := by decide +kernel
    exact this
  sep1 := by
    have : 2 ^ 15 ≤ (cfg95 0).sizeScalar growSep := by decide +kernel
    exact this
  sep2 := by
    have : (cfg95 0).sizeScalar growSep ≤ 2 ^ 16 := by decide +kernel
    exact this

/-- For load factor 0.95 only the counter limits a region. -/
theorem cfg95_cap (s : Nat) : (cfg95 s).cap = 2 ^ 20 := by
  have : (cfg95 0).cap = 2 ^ 20 := by decide +kernel
  exact this

section
variable {c : Cfg}

theorem Cfg.WF.size_pos (h : c.WF) : 0 < c.size 0 := by have := h.exc; omega

theorem Cfg.WF.size_mono (h : c.WF) {a b : Nat} (hab : a ≤ b) (hb : b < 256) : c.size a ≤ c.size b := by
  induction b with
  | zero => rw [show a = 0 by omega]
  | succ b ih =>
    rcases Nat.eq_or_lt_of_le hab with h1 | h1
    · rw [h1]
    · have := ih (by omega) (by omega)
      have := h.grow b (by omega); omega

theorem Cfg.WF.size_pos' (h : c.WF) {g : Nat} (hg : g < 256) : 0 < c.size g :=
  Nat.lt_of_lt_of_le h.size_pos (h.size_mono (Nat.zero_le _) hg)

theorem Cfg.WF.size_lt (h : c.WF) {g : Nat} (hg : c.Fine g) : c.size g < 2 ^ 31 := by
  have := h.scalar g hg
  rw [Cfg.size, Nat.shiftRight_eq_div_pow]; omega

theorem Cfg.WF.fine_sep (h : c.WF) : c.Fine growSep := by
  refine ⟨by decide, Or.inr ?_⟩
  have h1 := h.grow (growSep - 1) (by decide)
  have h2 := h.sep2
  rw [show growSep - 1 + 1 = growSep from rfl] at h1
  unfold Cfg.size at h1
  rw [Nat.shiftRight_eq_div_pow, Nat.shiftRight_eq_div_pow] at h1
  unfold Cfg.size
  rw [Nat.shiftRight_eq_div_pow]
  omega

theorem Cfg.WF.fine_pred (h : c.WF) {g : Nat} (hg : c.Fine g) : c.Fine (g - 1) := by
  obtain ⟨h1, h2⟩ := hg
  refine ⟨by omega, ?_⟩
  by_cases h0 : g ≤ 1
  · exact Or.inl (by omega)
  · right
    have := h.size_mono (show g - 1 - 1 ≤ g - 1 by omega) (by omega)
    omega

theorem Cfg.WF.cap_ge (h : c.WF) : 1024 ≤ c.cap := by
  have := h.top
  unfold Cfg.cap
  omega

theorem implicitScalars_le (i : Nat) : implicitScalars i ≤ 2 ^ 16 := by
  unfold implicitScalars
  have h1 : (512 : Nat) ≤ 512 + i := by omega
  exact Nat.le_trans (Nat.div_le_div_left h1 (by decide)) (by decide)

theorem homeSlot_lt (h : c.WF) {g T : Nat} (hg : c.Fine g) (q : Nat) : homeSlot c g T q < c.size g := by
  unfold homeSlot getMappedPos
  have h1 := h.size_pos' hg.1
  have h2 := h.size_lt hg
  dsimp only
  omega

theorem homeSlot_mono (h : c.WF) {g T a b : Nat} (hg : c.Fine g) (hT : T ≤ 1024) (hab : a ≤ b) (hb : b < T) :
    homeSlot c g T a ≤ homeSlot c g T b := by
  unfold homeSlot getMappedPos
  dsimp only
  have h1 := h.scalar g hg
  have h2 := implicitScalars_le (T - 512)
  generalize implicitScalars (T - 512) = I at *
  generalize c.sizeScalar g = S at *
  have hb' : b * S * I < 2 ^ 60 + 1 := by
    have : b * S ≤ 2 ^ 10 * 2 ^ 34 := Nat.mul_le_mul (by omega) (by omega)
    have : b * S * I ≤ 2 ^ 10 * 2 ^ 34 * 2 ^ 16 := Nat.mul_le_mul this h2
    omega
  have hab' : a * S * I ≤ b * S * I := Nat.mul_le_mul (Nat.mul_le_mul hab (Nat.le_refl _)) (Nat.le_refl _)
  rw [Nat.shiftRight_eq_div_pow, Nat.shiftRight_eq_div_pow]
  generalize a * S * I = x at *
  generalize b * S * I = y at *
  omega

theorem sizeGrade_lt (st : Store) : st.sizeGrade < 256 := by
  rw [sizeGrade_eq]; exact Nat.mod_lt _ (by decide)

theorem newItem_of (h : c.WF) {g T x : Nat} (hg : c.Fine g) (hT : T ≤ 1024) (hq : x / 2 ^ c.infixSize < T)
    (ho : x % 2 = 1) : NewItem (c.size g) c.infixSize T (homeSlot c g T) x :=
  ⟨h.s1, h.s2, hT, hq, ho, homeSlot_lt h hg, fun _ _ hab hb => homeSlot_mono h hg hT hab hb⟩

theorem incElemCount_fields {st : Store} (h : st.elemCount + 1 < 2 ^ 20) (hs : st.status < 2 ^ 32) :
    st.incElemCount.elemCount = st.elemCount + 1 ∧ st.incElemCount.sizeGrade = st.sizeGrade ∧
    st.incElemCount.status < 2 ^ 32 ∧ st.incElemCount.invalidBits = st.invalidBits ∧
    st.incElemCount.isPartial = st.isPartial := by
  have e : st.incElemCount.status = st.status + 1 := by
    rw [elemCount_eq] at h
    unfold Store.incElemCount add32
    dsimp only
    omega
  simp only [elemCount_eq, sizeGrade_eq, invalidBits_eq, isPartial_eq, e] at *
  refine ⟨by omega, by omega, by omega, by omega, ?_⟩
  congr 1
  rw [show (st.status + 1) / 2 ^ 31 = st.status / 2 ^ 31 by omega]

theorem cnt_lt_room {p : Nat → Bool} {k : Nat} (h : cnt p k < k) : ∃ i, i < k ∧ p i = false := by
  induction k with
  | zero => omega
  | succ k ih =>
    rw [cnt] at h
    by_cases hp : p k = false
    · exact ⟨k, by omega, hp⟩
    · have hp : p k = true := by simpa using hp
      rw [hp] at h
      obtain ⟨i, h1, h2⟩ := ih (by simpa using h)
      exact ⟨i, by omega, h2⟩

/-- The sorted list of stored items of a region, from a witness layout. -/
def StoreHas (c : Cfg) (T : Nat) (st : Store) (L : List Nat) : Prop :=
  ∃ lay, StoreInv c T st lay ∧ content (c.size st.sizeGrade) lay = L

/-- Placing an item, when there is a free slot. -/
theorem insertPlace_spec (h : c.WF) {T x : Nat} {st : Store} {lay : Nat → Option Nat}
    (I : StoreInv c T st lay) (hT : T ≤ 1024) (hq : x / 2 ^ c.infixSize < T) (ho : x % 2 = 1)
    (hroom : st.elemCount < c.size st.sizeGrade) (hcnt : st.elemCount + 1 < 2 ^ 20) :
    (insertPlace c st x T).sizeGrade = st.sizeGrade ∧
    (insertPlace c st x T).invalidBits = st.invalidBits ∧
    (insertPlace c st x T).isPartial = st.isPartial ∧
    Outside (c.size st.sizeGrade) c.infixSize st.mem (insertPlace c st x T).mem ∧
    ∃ lay', StoreInv c T (insertPlace c st x T) lay' ∧
      ∃ A B, content (c.size st.sizeGrade) lay = A ++ B ∧ content (c.size st.sizeGrade) lay' = A ++ x :: B := by
  have N := newItem_of h I.fine hT hq ho
  obtain ⟨wf, rep, cn, hst, hfine⟩ := I
  have hroom' : ∃ k, k < c.size st.sizeGrade ∧ lay k = none := by
    rw [cn] at hroom
    obtain ⟨i, h1, h2⟩ := cnt_lt_room hroom
    exact ⟨i, h1, by simpa using h2⟩
  have key : ∃ m', insertPlace c st x T = Store.incElemCount ⟨st.status, m'⟩ ∧
      Inserted (c.size st.sizeGrade) c.infixSize T (homeSlot c st.sizeGrade T) lay x st.mem m' := by
    refine ⟨_, rfl, ?_⟩
    have hs2 := h.s2
    have hs64 : c.infixSize ≤ 64 := by omega
    rw [Nat.shiftRight_eq_div_pow, and_bitmask _ _ hs64]
    have hocc : getBit st.mem 1 (x / 2 ^ c.infixSize) ≠ 0 ↔ occ st.mem (x / 2 ^ c.infixSize) = true :=
      getBit_ne_zero _ _ _
    have hslot : getSlot st.mem (c.size st.sizeGrade) c.infixSize (homeSlot c st.sizeGrade T (x / 2 ^ c.infixSize)) ≠ 0 ↔
        lay (homeSlot c st.sizeGrade T (x / 2 ^ c.infixSize)) ≠ none := by
      rw [getSlot_eq _ _ _ _ (by omega)]
      exact rep.slot_ne_zero wf (N.home _)
    change Inserted _ _ _ _ _ _ _ (setBit (if (getBit st.mem 1 (x / 2 ^ c.infixSize) != 0) = false ∧
      getSlot st.mem (c.size st.sizeGrade) c.infixSize (homeSlot c st.sizeGrade T (x / 2 ^ c.infixSize)) = 0 then _ else _) _ _)
    by_cases h1 : occ st.mem (x / 2 ^ c.infixSize) = true
    · have h1' := hocc.2 h1
      have hb : (getBit st.mem 1 (x / 2 ^ c.infixSize) != 0) = true := by simpa using h1'
      rw [if_neg (by rw [hb]; simp), if_pos hb]
      exact occupied_insert rep wf N h1 hroom'
    · have h1' : getBit st.mem 1 (x / 2 ^ c.infixSize) = 0 := by
        by_contra hc; exact h1 (hocc.1 hc)
      have h1f : occ st.mem (x / 2 ^ c.infixSize) = false := by simpa using h1
      have hb : (getBit st.mem 1 (x / 2 ^ c.infixSize) != 0) = false := by simpa using h1'
      by_cases h2 : lay (homeSlot c st.sizeGrade T (x / 2 ^ c.infixSize)) = none
      · rw [if_pos ⟨hb, by by_contra hc; exact hslot.1 hc h2⟩]
        exact free_insert rep wf N h1f h2
      · rw [if_neg (by rintro ⟨_, hc⟩; exact hslot.2 h2 hc), if_neg (by rw [hb]; simp)]
        exact newrun_insert rep wf N h1f h2 hroom'
  obtain ⟨m', e, ⟨lay', wf', rep', hAB⟩, hout⟩ := key
  obtain ⟨f1, f2, f3, f4, f5⟩ := incElemCount_fields (st := ⟨st.status, m'⟩) hcnt hst
  rw [e]
  refine ⟨f2, f4, f5, hout, lay', ⟨?_, ?_, ?_, f3, by rw [f2]; exact hfine⟩, hAB⟩
  · rw [f2]; exact wf'
  · rw [f2]; exact rep'
  · rw [f2, f1]
    obtain ⟨A, B, hA, hB⟩ := hAB
    change st.elemCount + 1 = cnt _ (c.size st.sizeGrade)
    rw [cn, cnt_content, cnt_content, hA, hB]
    simp; omega

end

end Verif
