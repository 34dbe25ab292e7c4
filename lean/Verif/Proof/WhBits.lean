import Verif.Model.WhMeta
import Verif.Proof.Count
import Verif.Proof.Tree

/-!
# The children of an index node
-/

namespace Verif

theorem testBit_bmWord (b ix j : Nat) : (bmWord b ix).testBit j = (decide (j < 64) && b.testBit (64 * ix + j)) := by
  unfold bmWord
  rw [Nat.testBit_mod_two_pow, Nat.testBit_div_two_pow, Nat.add_comm]

theorem bmWord_zero {b ix : Nat} (h : bmWord b ix = 0) {i : Nat} (hi : i / 64 = ix) : b.testBit i = false := by
  have := testBit_bmWord b ix (i % 64)
  rw [h, Nat.zero_testBit, show 64 * ix + i % 64 = i by omega] at this
  have h64 : i % 64 < 64 := Nat.mod_lt _ (by decide)
  simpa [h64] using this.symm

theorem log2_spec {x : Nat} (h0 : x ≠ 0) : x.testBit x.log2 = true ∧ ∀ j, x.log2 < j → x.testBit j = false := by
  refine ⟨Nat.testBit_log2 h0, fun j hj => ?_⟩
  apply Nat.testBit_lt_two_pow
  exact Nat.lt_of_lt_of_le Nat.lt_log2_self (Nat.pow_le_pow_right (by decide) hj)

theorem bmDown_spec (b : Nat) : ∀ ix, ix ≤ 4 →
    (bmDown b ix < 64 * ix ∧ b.testBit (bmDown b ix) = true ∧ ∀ i, bmDown b ix < i → i < 64 * ix → b.testBit i = false) ∨
    (bmDown b ix = 256 ∧ ∀ i, i < 64 * ix → b.testBit i = false)
  | 0, _ => Or.inr ⟨rfl, fun i hi => by omega⟩
  | ix + 1, h => by
    rw [bmDown]
    by_cases h0 : bmWord b ix = 0
    · rw [if_neg (by simpa using h0)]
      have hz : ∀ i, 64 * ix ≤ i → i < 64 * (ix + 1) → b.testBit i = false :=
        fun i h1 h2 => bmWord_zero h0 (by omega)
      rcases bmDown_spec b ix (by omega) with ⟨h1, h2, h3⟩ | ⟨h1, h2⟩
      · refine Or.inl ⟨by omega, h2, fun i hi hi2 => ?_⟩
        by_cases hc : i < 64 * ix
        · exact h3 i hi hc
        · exact hz i (by omega) hi2
      · refine Or.inr ⟨h1, fun i hi => ?_⟩
        by_cases hc : i < 64 * ix
        · exact h2 i hc
        · exact hz i (by omega) hi
    · rw [if_pos h0]
      left
      obtain ⟨h1, h2⟩ := log2_spec h0
      rw [testBit_bmWord, Bool.and_eq_true, decide_eq_true_eq] at h1
      refine ⟨by omega, h1.2, fun i hi hi2 => ?_⟩
      have := h2 (i - 64 * ix) (by omega)
      rw [testBit_bmWord, show 64 * ix + (i - 64 * ix) = i by omega] at this
      have h64 : i - 64 * ix < 64 := by omega
      simpa [h64] using this

theorem bmLt_spec (b : Nat) {id0 : Nat} (h : id0 < 256) :
    (bmLt b id0 < id0 ∧ b.testBit (bmLt b id0) = true ∧ ∀ i, bmLt b id0 < i → i < id0 → b.testBit i = false) ∨
    (bmLt b id0 = 256 ∧ ∀ i, i < id0 → b.testBit i = false) := by
  have hm : id0 % 64 < 64 := Nat.mod_lt _ (by decide)
  have hbit : ∀ j, (bmWord b (id0 / 64) &&& bitmask (id0 % 64)).testBit j =
      (b.testBit (64 * (id0 / 64) + j) && decide (j < id0 % 64)) := by
    intro j
    rw [Nat.testBit_and, testBit_bmWord, testBit_bitmask _ _ (by omega)]
    by_cases hj : j < id0 % 64
    · have : j < 64 := by omega
      simp [hj, this]
    · simp [hj]
  unfold bmLt
  dsimp only
  by_cases h0 : bmWord b (id0 / 64) &&& bitmask (id0 % 64) = 0
  · rw [if_neg (by simpa using h0)]
    have hz : ∀ i, 64 * (id0 / 64) ≤ i → i < id0 → b.testBit i = false := by
      intro i h1 h2
      have := hbit (i - 64 * (id0 / 64))
      rw [h0, Nat.zero_testBit, show 64 * (id0 / 64) + (i - 64 * (id0 / 64)) = i by omega] at this
      have h64 : i - 64 * (id0 / 64) < id0 % 64 := by omega
      simpa [h64] using this.symm
    rcases bmDown_spec b (id0 / 64) (by omega) with ⟨h1, h2, h3⟩ | ⟨h1, h2⟩
    · refine Or.inl ⟨by omega, h2, fun i hi hi2 => ?_⟩
      by_cases hc : i < 64 * (id0 / 64)
      · exact h3 i hi hc
      · exact hz i (by omega) hi2
    · refine Or.inr ⟨h1, fun i hi => ?_⟩
      by_cases hc : i < 64 * (id0 / 64)
      · exact h2 i hc
      · exact hz i (by omega) hi
  · rw [if_pos h0]
    left
    obtain ⟨h1, h2⟩ := log2_spec h0
    rw [hbit, Bool.and_eq_true, decide_eq_true_eq] at h1
    refine ⟨by omega, h1.1, fun i hi hi2 => ?_⟩
    have := h2 (i - 64 * (id0 / 64)) (by omega)
    rw [hbit, show 64 * (id0 / 64) + (i - 64 * (id0 / 64)) = i by omega] at this
    have h64 : i - 64 * (id0 / 64) < id0 % 64 := by omega
    simpa [h64] using this

theorem tzcnt_ne {x : Nat} (h0 : x ≠ 0) (hx : x < 2 ^ 64) :
    tzcnt x < 64 ∧ x.testBit (tzcnt x) = true ∧ ∀ j, j < tzcnt x → x.testBit j = false := by
  rcases tzcnt_cases x with h | ⟨_, h⟩
  · exact h
  · exfalso
    apply h0
    apply Nat.eq_of_testBit_eq
    intro j
    rw [Nat.zero_testBit]
    by_cases hj : j < 64
    · exact h j hj
    · exact Nat.testBit_lt_two_pow (Nat.lt_of_lt_of_le hx (Nat.pow_le_pow_right (by decide) (by omega)))

theorem bmWord_lt (b ix : Nat) : bmWord b ix < 2 ^ 64 := Nat.mod_lt _ (by decide)

theorem bmUp_spec (b : Nat) : ∀ fuel ix, 4 ≤ fuel + ix →
    (64 * ix ≤ bmUp b fuel ix ∧ bmUp b fuel ix < 256 ∧ b.testBit (bmUp b fuel ix) = true ∧
      ∀ i, i < bmUp b fuel ix → 64 * ix ≤ i → b.testBit i = false) ∨
    (bmUp b fuel ix = 256 ∧ ∀ i, 64 * ix ≤ i → i < 256 → b.testBit i = false)
  | 0, ix, h => Or.inr ⟨rfl, fun i hi hi2 => by omega⟩
  | fuel + 1, ix, h => by
    rw [bmUp]
    by_cases hix : ix < 4
    · rw [if_pos hix]
      by_cases h0 : bmWord b ix = 0
      · rw [if_neg (by simpa using h0)]
        have hz : ∀ i, 64 * ix ≤ i → i < 64 * (ix + 1) → b.testBit i = false :=
          fun i h1 h2 => bmWord_zero h0 (by omega)
        rcases bmUp_spec b fuel (ix + 1) (by omega) with ⟨h1, h2, h3, h4⟩ | ⟨h1, h2⟩
        · refine Or.inl ⟨by omega, h2, h3, fun i hi hi2 => ?_⟩
          by_cases hc : i < 64 * (ix + 1)
          · exact hz i hi2 hc
          · exact h4 i hi (by omega)
        · refine Or.inr ⟨h1, fun i hi hi2 => ?_⟩
          by_cases hc : i < 64 * (ix + 1)
          · exact hz i hi hc
          · exact h2 i (by omega) hi2
      · rw [if_pos h0]
        left
        obtain ⟨h1, h2, h3⟩ := tzcnt_ne h0 (bmWord_lt _ _)
        rw [testBit_bmWord, Bool.and_eq_true] at h2
        refine ⟨by omega, by omega, h2.2, fun i hi hi2 => ?_⟩
        have := h3 (i - 64 * ix) (by omega)
        rw [testBit_bmWord, show 64 * ix + (i - 64 * ix) = i by omega] at this
        have h64 : i - 64 * ix < 64 := by omega
        simpa [h64] using this
    · rw [if_neg hix]
      exact Or.inr ⟨rfl, fun i hi hi2 => by omega⟩

theorem bmGt_spec (b : Nat) {id0 : Nat} (h : id0 < 256) :
    (id0 ≤ bmGt b id0 ∧ bmGt b id0 < 256 ∧ b.testBit (bmGt b id0) = true ∧
      ∀ i, i < bmGt b id0 → id0 ≤ i → b.testBit i = false) ∨
    (bmGt b id0 = 256 ∧ ∀ i, id0 ≤ i → i < 256 → b.testBit i = false) := by
  have hm : id0 % 64 < 64 := Nat.mod_lt _ (by decide)
  have hbit : ∀ j, j < 64 → (bmWord b (id0 / 64) &&& not64 (bitmask (id0 % 64))).testBit j =
      (b.testBit (64 * (id0 / 64) + j) && decide (id0 % 64 ≤ j)) := by
    intro j hj
    rw [Nat.testBit_and, testBit_bmWord, testBit_not64, testBit_bitmask _ _ (by omega)]
    by_cases hj2 : j < id0 % 64
    · have : ¬ id0 % 64 ≤ j := by omega
      simp [hj, hj2]
    · have : id0 % 64 ≤ j := by omega
      simp [hj, this]
  have hlt : bmWord b (id0 / 64) &&& not64 (bitmask (id0 % 64)) < 2 ^ 64 :=
    Nat.lt_of_le_of_lt Nat.and_le_left (bmWord_lt _ _)
  unfold bmGt
  dsimp only
  by_cases h0 : bmWord b (id0 / 64) &&& not64 (bitmask (id0 % 64)) = 0
  · rw [if_neg (by simpa using h0)]
    have hz : ∀ i, id0 ≤ i → i < 64 * (id0 / 64 + 1) → b.testBit i = false := by
      intro i h1 h2
      have := hbit (i - 64 * (id0 / 64)) (by omega)
      rw [h0, Nat.zero_testBit, show 64 * (id0 / 64) + (i - 64 * (id0 / 64)) = i by omega] at this
      have h64 : id0 % 64 ≤ i - 64 * (id0 / 64) := by omega
      simpa [h64] using this.symm
    rcases bmUp_spec b 4 (id0 / 64 + 1) (by omega) with ⟨h1, h2, h3, h4⟩ | ⟨h1, h2⟩
    · refine Or.inl ⟨by omega, h2, h3, fun i hi hi2 => ?_⟩
      by_cases hc : i < 64 * (id0 / 64 + 1)
      · exact hz i hi2 hc
      · exact h4 i hi (by omega)
    · refine Or.inr ⟨h1, fun i hi hi2 => ?_⟩
      by_cases hc : i < 64 * (id0 / 64 + 1)
      · exact hz i hi hc
      · exact h2 i (by omega) hi2
  · rw [if_pos h0]
    left
    obtain ⟨h1, h2, h3⟩ := tzcnt_ne h0 hlt
    rw [hbit _ h1, Bool.and_eq_true, decide_eq_true_eq] at h2
    refine ⟨by omega, by omega, h2.1, fun i hi hi2 => ?_⟩
    have := h3 (i - 64 * (id0 / 64)) (by omega)
    rw [hbit _ (by omega), show 64 * (id0 / 64) + (i - 64 * (id0 / 64)) = i by omega] at this
    have h64 : id0 % 64 ≤ i - 64 * (id0 / 64) := by omega
    simpa [h64] using this

/-- The node has exactly the children `S`. -/
structure Kids (m : Meta) (S : Nat → Prop) : Prop where
  lt : ∀ b, S b → b < 256
  out : (m.bitmin = 256 ∧ m.bitmax = 256 ∧ ∀ b, ¬ S b) ∨
    (S m.bitmin ∧ S m.bitmax ∧ (∀ b, S b → m.bitmin ≤ b ∧ b ≤ m.bitmax) ∧
      (m.bitmin < m.bitmax → ∃ B, m.bitmap = some B ∧ ∀ i, B.testBit i = true ↔ S i))
  slim : m.bitmin = m.bitmax → m.bitmap = none

/-- The leaves stored in the node. -/
def SameEnds (m m' : Meta) : Prop := m'.lmost = m.lmost ∧ m'.rmost = m.rmost ∧ m'.lpath = m.lpath

theorem Kids.congr {m : Meta} {S S' : Nat → Prop} (h : Kids m S) (e : ∀ b, S b ↔ S' b) : Kids m S' := by
  have : S = S' := funext fun b => propext (e b)
  exact this ▸ h

/-- Only the three fields for the children matter. -/
theorem Kids.fields {m m' : Meta} {S : Nat → Prop} (h : Kids m S) (h1 : m'.bitmin = m.bitmin) (h2 : m'.bitmax = m.bitmax)
    (h3 : m'.bitmap = m.bitmap) : Kids m' S :=
  ⟨h.lt, by rw [h1, h2, h3]; exact h.out, by rw [h1, h2, h3]; exact h.slim⟩

theorem Kids.test {m : Meta} {S : Nat → Prop} (h : Kids m S) {id : Nat} (hid : id < 256) :
    ∃ t, m.test id = .ok t ∧ (t = true ↔ S id) := by
  unfold Meta.test
  rcases h.out with ⟨h1, h2, h3⟩ | ⟨h1, h2, h3, h4⟩
  · rw [if_pos (by omega)]
    refine ⟨_, rfl, ?_⟩
    rw [beq_iff_eq]
    exact ⟨fun e => by omega, fun hs => absurd hs (h3 _)⟩
  · by_cases he : m.bitmin = m.bitmax
    · rw [if_pos he]
      refine ⟨_, rfl, ?_⟩
      rw [beq_iff_eq]
      exact ⟨fun e => e ▸ h1, fun hs => by have := h3 _ hs; omega⟩
    · rw [if_neg he]
      obtain ⟨B, hB, hb⟩ := h4 (by have := h3 _ h1; omega)
      rw [hB]
      exact ⟨_, rfl, hb id⟩

theorem testBit_or_pow (B id i : Nat) : (B ||| 2 ^ id).testBit i = true ↔ B.testBit i = true ∨ i = id := by
  rw [Nat.testBit_or, Bool.or_eq_true, Nat.testBit_two_pow, decide_eq_true_eq]
  exact or_congr Iff.rfl eq_comm

theorem testBit_xor_pow {B id : Nat} (h : B.testBit id = true) (i : Nat) :
    (B ^^^ 2 ^ id).testBit i = true ↔ B.testBit i = true ∧ i ≠ id := by
  rw [Nat.testBit_xor, Nat.testBit_two_pow]
  by_cases hi : id = i
  · subst hi; simp [h]
  · simp [hi, Ne.symm hi]

/-- Adding a child to a node that has the bits `S` in its bitmap. -/
theorem Kids.set {m : Meta} {S : Nat → Prop} {B : Nat} (hB : m.bitmap = some B) (hb : ∀ i, B.testBit i = true ↔ S i)
    (hlt : ∀ b, S b → b < 256) (h1 : S m.bitmin) (h2 : S m.bitmax) (h3 : ∀ b, S b → m.bitmin ≤ b ∧ b ≤ m.bitmax)
    {id : Nat} (hid : id < 256) (hw : S id → m.bitmin < m.bitmax) :
    ∃ m', m.set id = .ok m' ∧ Kids m' (fun b => S b ∨ b = id) ∧ SameEnds m m' := by
  unfold Meta.set
  rw [hB]
  dsimp only
  by_cases ht : B.testBit id = true
  · rw [if_pos ht]
    have hs := (hb id).1 ht
    refine ⟨m, rfl, ?_, rfl, rfl, rfl⟩
    refine Kids.congr (S := S) ⟨hlt, Or.inr ⟨h1, h2, h3, fun _ => ⟨B, hB, hb⟩⟩, fun e => absurd e (Nat.ne_of_lt (hw hs))⟩ fun b => ⟨Or.inl, ?_⟩
    rintro (h | rfl)
    · exact h
    · exact hs
  · rw [if_neg ht]
    have hs : ¬ S id := fun h => ht ((hb id).2 h)
    have hmax := hlt _ h2
    have hne1 : m.bitmin ≠ id := fun e => hs (e ▸ h1)
    have hne2 : m.bitmax ≠ id := fun e => hs (e ▸ h2)
    refine ⟨_, rfl, ⟨?_, Or.inr ⟨?_, ?_, ?_, fun _ => ⟨_, rfl, fun i => ?_⟩⟩, fun e => ?_⟩, rfl, rfl, rfl⟩
    · rintro b (h | rfl)
      · exact hlt b h
      · exact hid
    · dsimp only
      by_cases hc : id < m.bitmin
      · rw [if_pos hc]; exact Or.inr rfl
      · rw [if_neg hc]; exact Or.inl h1
    · dsimp only
      by_cases hc : m.bitmax = 256 ∨ id > m.bitmax
      · rw [if_pos hc]; exact Or.inr rfl
      · rw [if_neg hc]; exact Or.inl h2
    · dsimp only
      have h4 := h3 _ h1
      rintro b (h | rfl)
      · have := h3 b h
        constructor
        · by_cases hc : id < m.bitmin
          · rw [if_pos hc]; omega
          · rw [if_neg hc]; omega
        · by_cases hc : m.bitmax = 256 ∨ id > m.bitmax
          · rw [if_pos hc]; omega
          · rw [if_neg hc]; omega
      · constructor
        · by_cases hc : b < m.bitmin
          · rw [if_pos hc]
          · rw [if_neg hc]; omega
        · by_cases hc : m.bitmax = 256 ∨ b > m.bitmax
          · rw [if_pos hc]
          · rw [if_neg hc]; omega
    · rw [testBit_or_pow, hb]
    · dsimp only at e
      have h4 := h3 _ h1
      split at e <;> split at e <;> omega

theorem Kids.setHelper {m : Meta} {S : Nat → Prop} (h : Kids m S) {id : Nat} (hid : id < 256) :
    ∃ m', m.setHelper id = .ok m' ∧ Kids m' (fun b => S b ∨ b = id) ∧ SameEnds m m' := by
  unfold Meta.setHelper
  rcases h.out with ⟨h1, h2, h3⟩ | ⟨h1, h2, h3, h4⟩
  · rw [if_neg (by omega), if_neg (by omega), if_pos h1]
    refine ⟨_, rfl, ⟨?_, Or.inr ⟨Or.inr rfl, Or.inr rfl, ?_, fun hl => absurd hl (Nat.lt_irrefl _)⟩, fun _ => h.slim (h1.trans h2.symm)⟩, rfl, rfl, rfl⟩
    · rintro b (hb | rfl)
      · exact absurd hb (h3 b)
      · exact hid
    · rintro b (hb | rfl)
      · exact absurd hb (h3 b)
      · exact ⟨Nat.le_refl _, Nat.le_refl _⟩
  · have h5 := h3 _ h1
    have h6 := h.lt _ h1
    by_cases hl : m.bitmin < m.bitmax
    · rw [if_pos hl]
      obtain ⟨B, hB, hb⟩ := h4 hl
      exact Kids.set hB hb h.lt h1 h2 h3 hid fun _ => hl
    · rw [if_neg hl]
      have he : m.bitmax = m.bitmin := by omega
      have hS : ∀ b, S b ↔ b = m.bitmin := fun b => ⟨fun hb => by have := h3 b hb; omega, fun e => e ▸ h1⟩
      by_cases hi : id = m.bitmin
      · rw [if_pos hi]
        refine ⟨m, rfl, h.congr fun b => ?_, rfl, rfl, rfl⟩
        rw [hS, hi]; simp
      · rw [if_neg hi, if_neg (by omega), if_neg (by rw [h.slim he.symm]; exact Bool.false_ne_true)]
        obtain ⟨m', e, k, s⟩ := Kids.set (m := { m with bitmap := some (2 ^ m.bitmin) }) (S := S) rfl (fun i => by
          rw [Nat.testBit_two_pow, decide_eq_true_eq, hS]; exact eq_comm) h.lt h1 h2 h3 hid fun hs => absurd ((hS _).1 hs) hi
        exact ⟨m', e, k, s⟩

theorem Kids.clearHelper {m : Meta} {S : Nat → Prop} (h : Kids m S) {id : Nat} (hid : S id) :
    ∃ m', m.clearHelper id = .ok m' ∧ Kids m' (fun b => S b ∧ b ≠ id) ∧ SameEnds m m' := by
  unfold Meta.clearHelper
  rcases h.out with ⟨h1, h2, h3⟩ | ⟨h1, h2, h3, h4⟩
  · exact absurd hid (h3 id)
  · by_cases he : m.bitmin = m.bitmax
    · rw [if_pos he]
      refine ⟨_, rfl, ⟨fun b hb => h.lt b hb.1, Or.inl ⟨rfl, rfl, ?_⟩, fun _ => h.slim he⟩, rfl, rfl, rfl⟩
      rintro b ⟨hb, hne⟩
      have := h3 b hb
      have := h3 id hid
      omega
    · rw [if_neg he]
      obtain ⟨B, hB, hb⟩ := h4 (by have := h3 _ h1; omega)
      have hlt := h.lt id hid
      have ht := (hb id).2 hid
      have hx := testBit_xor_pow ht
      unfold Meta.clear
      rw [hB]
      dsimp only
      rw [if_pos ht, Res.bind_ok]
      have hr := h3 id hid
      have h256 := h.lt _ h2
      -- the new bounds
      obtain ⟨g1, g2⟩ : (S (if id = m.bitmin then bmGt (B ^^^ 2 ^ id) id else m.bitmin) ∧
          (if id = m.bitmin then bmGt (B ^^^ 2 ^ id) id else m.bitmin) ≠ id) ∧
          ∀ b, S b → b ≠ id → (if id = m.bitmin then bmGt (B ^^^ 2 ^ id) id else m.bitmin) ≤ b := by
        by_cases hm : id = m.bitmin
        · rw [if_pos hm]
          rcases bmGt_spec (B ^^^ 2 ^ id) hlt with ⟨c1, c2, c3, c4⟩ | ⟨c1, c2⟩
          · rw [hx, hb] at c3
            refine ⟨c3, fun b hb' hne => ?_⟩
            by_contra hcon
            have := c4 b (by omega) (by have := h3 b hb'; omega)
            rw [← Bool.not_eq_true, hx, hb] at this
            exact this ⟨hb', hne⟩
          · have := c2 m.bitmax (by omega) h256
            rw [← Bool.not_eq_true, hx, hb] at this
            exact absurd ⟨h2, by omega⟩ this
        · rw [if_neg hm]
          exact ⟨⟨h1, by omega⟩, fun b hb' _ => (h3 b hb').1⟩
      obtain ⟨g3, g4⟩ : (S (if id = m.bitmax then bmLt (B ^^^ 2 ^ id) id else m.bitmax) ∧
          (if id = m.bitmax then bmLt (B ^^^ 2 ^ id) id else m.bitmax) ≠ id) ∧
          ∀ b, S b → b ≠ id → b ≤ (if id = m.bitmax then bmLt (B ^^^ 2 ^ id) id else m.bitmax) := by
        by_cases hm : id = m.bitmax
        · rw [if_pos hm]
          rcases bmLt_spec (B ^^^ 2 ^ id) hlt with ⟨c1, c3, c4⟩ | ⟨c1, c2⟩
          · rw [hx, hb] at c3
            refine ⟨c3, fun b hb' hne => ?_⟩
            by_contra hcon
            have := c4 b (by omega) (by have := h3 b hb'; omega)
            rw [← Bool.not_eq_true, hx, hb] at this
            exact this ⟨hb', hne⟩
          · have := c2 m.bitmin (by omega)
            rw [← Bool.not_eq_true, hx, hb] at this
            exact absurd ⟨h1, by omega⟩ this
        · rw [if_neg hm]
          exact ⟨⟨h2, by omega⟩, fun b hb' _ => (h3 b hb').2⟩
      generalize (if id = m.bitmin then bmGt (B ^^^ 2 ^ id) id else m.bitmin) = lo at *
      generalize (if id = m.bitmax then bmLt (B ^^^ 2 ^ id) id else m.bitmax) = hi at *
      refine ⟨_, rfl, ⟨fun b hb' => h.lt b hb'.1, Or.inr ?_, ?_⟩, ?_⟩
      · by_cases hc : lo = hi
        · rw [if_pos hc]
          exact ⟨g1, g3, fun b hb' => ⟨g2 b hb'.1 hb'.2, g4 b hb'.1 hb'.2⟩, fun hl => by dsimp only at hl; omega⟩
        · rw [if_neg hc]
          exact ⟨g1, g3, fun b hb' => ⟨g2 b hb'.1 hb'.2, g4 b hb'.1 hb'.2⟩, fun _ => ⟨_, rfl, fun i => by rw [hx, hb]⟩⟩
      · by_cases hc : lo = hi
        · rw [if_pos hc]; exact fun _ => rfl
        · rw [if_neg hc]; exact fun e => absurd e hc
      · by_cases hc : lo = hi
        · rw [if_pos hc]; exact ⟨rfl, rfl, rfl⟩
        · rw [if_neg hc]; exact ⟨rfl, rfl, rfl⟩

end Verif
