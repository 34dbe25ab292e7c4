import Verif.Proof.Config
import Mathlib.Algebra.Order.Field.Rat
import Mathlib.Algebra.Order.Field.Basic
import Mathlib.Tactic.Linarith
import Mathlib.Tactic.Positivity
import Mathlib.Tactic.FieldSimp
import Mathlib.Tactic.NormNum
import Mathlib.Tactic.Ring

/-!
# Rounding errors in the scaling tables
-/

namespace Verif

theorem round_bound {n d : Nat} (hn : 0 < n) (hd : 0 < d) (hlt : n < 2 ^ 52 * d) :
    2 ^ 52 * d ≤ n * 2 ^ (roundTo 53 n d).2 ∧
    (roundTo 53 n d).1 * d ≤ n * 2 ^ (roundTo 53 n d).2 + d ∧
    n * 2 ^ (roundTo 53 n d).2 ≤ (roundTo 53 n d).1 * d + d := by
  have hk : n.log2 ≤ 52 + d.log2 := by
    by_contra hc
    have h1 := Nat.log2_self_le (Nat.ne_of_gt hn)
    have h2 : d < 2 ^ (d.log2 + 1) := Nat.lt_log2_self
    have h3 : 2 ^ (52 + (d.log2 + 1)) ≤ 2 ^ n.log2 := Nat.pow_le_pow_right (by decide) (by omega)
    rw [pow_add] at h3
    omega
  have h1 := Nat.log2_self_le (Nat.ne_of_gt hn)
  have h2 : d < 2 ^ (d.log2 + 1) := Nat.lt_log2_self
  have h0 : 2 ^ 52 * d ≤ n * 2 ^ (53 + d.log2 - n.log2) := by
    have e : 2 ^ n.log2 * 2 ^ (53 + d.log2 - n.log2) = 2 ^ 52 * 2 ^ (d.log2 + 1) := by
      rw [← pow_add, ← pow_add]; congr 1; omega
    calc 2 ^ 52 * d ≤ 2 ^ 52 * 2 ^ (d.log2 + 1) := Nat.mul_le_mul_left _ (by omega)
      _ = 2 ^ n.log2 * 2 ^ (53 + d.log2 - n.log2) := e.symm
      _ ≤ n * 2 ^ (53 + d.log2 - n.log2) := Nat.mul_le_mul_right _ h1
  unfold roundTo
  dsimp only
  generalize hk0 : 53 + d.log2 - n.log2 = k0 at *
  have hmain : ∀ k, 2 ^ 52 * d ≤ n * 2 ^ k →
      2 ^ 52 * d ≤ n * 2 ^ k ∧
      (if 2 * (n * 2 ^ k % d) > d ∨ 2 * (n * 2 ^ k % d) = d ∧ n * 2 ^ k / d % 2 = 1 then n * 2 ^ k / d + 1
        else n * 2 ^ k / d) * d ≤ n * 2 ^ k + d ∧
      n * 2 ^ k ≤ (if 2 * (n * 2 ^ k % d) > d ∨ 2 * (n * 2 ^ k % d) = d ∧ n * 2 ^ k / d % 2 = 1 then n * 2 ^ k / d + 1
        else n * 2 ^ k / d) * d + d := by
    intro k hk
    have e := Nat.div_add_mod (n * 2 ^ k) d
    have hm := Nat.mod_lt (n * 2 ^ k) hd
    rw [Nat.mul_comm] at e
    refine ⟨hk, ?_, ?_⟩
    · split
      · rw [Nat.add_mul, Nat.one_mul]; omega
      · omega
    · split
      · rw [Nat.add_mul, Nat.one_mul]; omega
      · omega
  apply hmain
  by_cases hc : 2 ^ 53 ≤ n * 2 ^ k0 / d
  · rw [if_pos hc]
    rw [Nat.le_div_iff_mul_le hd] at hc
    obtain ⟨k, rfl⟩ : ∃ k, k0 = k + 1 := ⟨k0 - 1, by omega⟩
    rw [pow_succ 2 k, ← Nat.mul_assoc n] at hc
    simp only [Nat.add_sub_cancel]
    omega
  · rw [if_neg hc]; exact h0

/-- The number a pair stands for. -/
def fval (x : Nat × Nat) : ℚ := x.1 / 2 ^ x.2

theorem divD_bound {a b : Nat × Nat} (ha : 0 < a.1) (hb : 0 < b.1) (hlt : fval a / fval b < 2 ^ 52) :
    (1 - 1 / 2 ^ 52) * (fval a / fval b) ≤ fval (divD a b) ∧ fval (divD a b) ≤ (1 + 1 / 2 ^ 52) * (fval a / fval b) := by
  have hb' : 0 < b.1 * 2 ^ a.2 := Nat.mul_pos hb (Nat.two_pow_pos _)
  have hq : fval a / fval b = ((a.1 * 2 ^ b.2 : Nat) : ℚ) / ((b.1 * 2 ^ a.2 : Nat) : ℚ) := by
    unfold fval
    push_cast
    have : (b.1 : ℚ) ≠ 0 := by exact_mod_cast Nat.ne_of_gt hb
    field_simp
  have hdpos : (0 : ℚ) < ((b.1 * 2 ^ a.2 : Nat) : ℚ) := by exact_mod_cast hb'
  have hlt' : a.1 * 2 ^ b.2 < 2 ^ 52 * (b.1 * 2 ^ a.2) := by
    rw [hq, div_lt_iff₀ hdpos] at hlt
    exact_mod_cast hlt
  obtain ⟨h1, h2, h3⟩ := round_bound (Nat.mul_pos ha (Nat.two_pow_pos b.2)) hb' hlt'
  rw [hq]
  unfold divD
  generalize a.1 * 2 ^ b.2 = n at *
  generalize b.1 * 2 ^ a.2 = d at *
  generalize roundTo 53 n d = x at *
  unfold fval
  have hx : (0 : ℚ) < 2 ^ x.2 := by positivity
  have h1' : (2 : ℚ) ^ 52 * d ≤ n * 2 ^ x.2 := by exact_mod_cast h1
  have h2' : (x.1 : ℚ) * d ≤ n * 2 ^ x.2 + d := by exact_mod_cast h2
  have h3' : (n : ℚ) * 2 ^ x.2 ≤ x.1 * d + d := by exact_mod_cast h3
  constructor
  · rw [← mul_div_assoc, div_le_div_iff₀ hdpos hx]
    linarith
  · rw [← mul_div_assoc, div_le_div_iff₀ hx hdpos]
    linarith
/-- `pw` before round `i` of the second loop, had it started at 1. -/
def pwSeq (lf : Nat × Nat) : Nat → Nat × Nat
  | 0 => (1, 0)
  | i + 1 => divD (pwSeq lf i) lf

theorem pwUp_eq (lf : Nat × Nat) : ∀ i, pwUp lf i = pwSeq lf (i + 1)
  | 0 => rfl
  | i + 1 => by unfold pwUp; rw [pwUp_eq lf i]; rfl

theorem sizeScalar_up (lf : Nat × Nat) {g : Nat} (hg : 54 ≤ g) : sizeScalarOf lf g = floorScaled (pwSeq lf (g - 54)) := by
  unfold sizeScalarOf
  by_cases h : g < growSep
  · rw [if_pos h]
    have : g = 54 := by unfold growSep at h; omega
    subst this; rfl
  · rw [if_neg h, pwUp_eq]
    unfold growSep at *
    congr 2; omega

theorem fval_pos {x : Nat × Nat} : 0 < fval x ↔ 0 < x.1 := by
  unfold fval
  constructor
  · intro h
    by_contra h0
    have : x.1 = 0 := by omega
    rw [this] at h; simp at h
  · intro h
    have : (0 : ℚ) < x.1 := by exact_mod_cast h
    positivity

/-- One round. -/
theorem pw_step {lf : Nat × Nat} (h0 : 0 < fval lf) {lo hi : ℚ} (hlo : lo * fval lf ≤ 1 - 1 / 2 ^ 52)
    (hhi : 1 + 1 / 2 ^ 52 ≤ hi * fval lf) {i : Nat} (hp : 0 < fval (pwSeq lf i))
    (hlt : fval (pwSeq lf i) < 2 ^ 52 * fval lf) :
    lo * fval (pwSeq lf i) ≤ fval (pwSeq lf (i + 1)) ∧ fval (pwSeq lf (i + 1)) ≤ hi * fval (pwSeq lf i) := by
  obtain ⟨a, b⟩ := divD_bound (fval_pos.1 hp) (fval_pos.1 h0) ((div_lt_iff₀ h0).2 hlt)
  show lo * fval (pwSeq lf i) ≤ fval (divD (pwSeq lf i) lf) ∧ fval (divD (pwSeq lf i) lf) ≤ hi * fval (pwSeq lf i)
  generalize fval (divD (pwSeq lf i) lf) = z at *
  generalize fval (pwSeq lf i) = v at *
  generalize fval lf = l at *
  rw [← mul_div_assoc] at a b
  constructor
  · refine le_trans ?_ a
    rw [le_div_iff₀ h0]
    calc lo * v * l = lo * l * v := by ring
      _ ≤ _ := mul_le_mul_of_nonneg_right hlo hp.le
  · refine le_trans b ?_
    rw [div_le_iff₀ h0]
    calc _ ≤ hi * l * v := mul_le_mul_of_nonneg_right hhi hp.le
      _ = hi * v * l := by ring

theorem floorScaled_bound (x : Nat × Nat) :
    (floorScaled x : ℚ) ≤ fval x * 2 ^ 15 ∧ fval x * 2 ^ 15 < floorScaled x + 1 := by
  unfold floorScaled fval
  have h1 := Nat.div_mul_le_self (x.1 * 2 ^ 15) (2 ^ x.2)
  have h2 := Nat.lt_div_mul_add (a := x.1 * 2 ^ 15) (Nat.two_pow_pos x.2)
  generalize x.1 * 2 ^ 15 / 2 ^ x.2 = q at *
  have h1' : (q : ℚ) * 2 ^ x.2 ≤ x.1 * 2 ^ 15 := by exact_mod_cast h1
  have h2' : (x.1 : ℚ) * 2 ^ 15 < q * 2 ^ x.2 + 2 ^ x.2 := by exact_mod_cast h2
  have hx : (0 : ℚ) < 2 ^ x.2 := by positivity
  constructor
  · rw [div_mul_eq_mul_div, le_div_iff₀ hx]; exact h1'
  · rw [div_mul_eq_mul_div, div_lt_iff₀ hx]; linarith

theorem pow445 : (10753 / 10000 : ℚ) ^ 445 < 2 ^ 49 := by
  have h1 : (10753 / 10000 : ℚ) ^ 89 < 650 := by norm_num
  have h2 : ((10753 / 10000 : ℚ) ^ 89) ^ 5 < 650 ^ 5 := pow_lt_pow_left₀ h1 (by positivity) (by decide)
  rw [← pow_mul] at h2
  refine lt_trans h2 ?_
  norm_num

/-- Load factors for which the tables work. -/
def GoodLf (lf : Nat × Nat) : Prop := 93 / 100 ≤ fval lf ∧ fval lf ≤ 995 / 1000

section
variable {lf : Nat × Nat}

theorem GoodLf.step (h : GoodLf lf) {i : Nat} (hp : 0 < fval (pwSeq lf i)) (hlt : fval (pwSeq lf i) < 2 ^ 51) :
    1005 / 1000 * fval (pwSeq lf i) ≤ fval (pwSeq lf (i + 1)) ∧
    fval (pwSeq lf (i + 1)) ≤ 10753 / 10000 * fval (pwSeq lf i) := by
  obtain ⟨h1, h2⟩ := h
  refine pw_step (by linarith) ?_ ?_ hp ?_
  · norm_num; linarith
  · norm_num; linarith
  · norm_num at hlt ⊢; linarith

theorem GoodLf.bounds (h : GoodLf lf) : ∀ {i : Nat}, i ≤ 445 →
    (1005 / 1000 : ℚ) ^ i ≤ fval (pwSeq lf i) ∧ fval (pwSeq lf i) ≤ (10753 / 10000 : ℚ) ^ i
  | 0, _ => by unfold pwSeq fval; norm_num
  | i + 1, hi => by
    obtain ⟨a, b⟩ := h.bounds (i := i) (by omega)
    have hm : (10753 / 10000 : ℚ) ^ i ≤ (10753 / 10000 : ℚ) ^ 445 := pow_le_pow_right₀ (by norm_num) (by omega)
    have hb := lt_of_le_of_lt hm pow445
    clear hm
    have hpos : (0 : ℚ) < (1005 / 1000) ^ i := by positivity
    obtain ⟨c, d⟩ := h.step (i := i) (by linarith) (by norm_num at *; linarith)
    rw [pow_succ, pow_succ]
    constructor <;> linarith

theorem GoodLf.lt (h : GoodLf lf) {i : Nat} (hi : i ≤ 445) : 1 ≤ fval (pwSeq lf i) ∧ fval (pwSeq lf i) < 2 ^ 49 := by
  obtain ⟨a, b⟩ := h.bounds hi
  have hm : (10753 / 10000 : ℚ) ^ i ≤ (10753 / 10000 : ℚ) ^ 445 := pow_le_pow_right₀ (by norm_num) (by omega)
  have hb := lt_of_le_of_lt hm pow445
  clear hm
  have h1 : (1 : ℚ) ≤ (1005 / 1000) ^ i := one_le_pow₀ (by norm_num)
  constructor <;> linarith

end

/-- Slots of grade `54 + i` in terms of `pw`. -/
theorem size_bound (lf : Nat × Nat) (s i : Nat) :
    ((cfgOf lf s).size (54 + i) : ℚ) ≤ 1024 * fval (pwSeq lf i) ∧
    1024 * fval (pwSeq lf i) < (cfgOf lf s).size (54 + i) + 2 := by
  have e : (cfgOf lf s).size (54 + i) = 1024 * floorScaled (pwSeq lf i) / 2 ^ 15 := by
    unfold Cfg.size
    rw [Nat.shiftRight_eq_div_pow, show (cfgOf lf s).sizeScalar (54 + i) = sizeScalarOf lf (54 + i) from rfl,
      sizeScalar_up lf (by omega), Nat.add_sub_cancel_left]
  rw [e]
  obtain ⟨a, b⟩ := floorScaled_bound (pwSeq lf i)
  generalize floorScaled (pwSeq lf i) = q at *
  have h1 := Nat.div_mul_le_self (1024 * q) (2 ^ 15)
  have h2 := Nat.lt_div_mul_add (a := 1024 * q) (b := 2 ^ 15) (by norm_num)
  generalize 1024 * q / 2 ^ 15 = z at *
  have h1' : (z : ℚ) * 2 ^ 15 ≤ 1024 * q := by exact_mod_cast h1
  have h2' : (1024 * q : ℚ) < z * 2 ^ 15 + 2 ^ 15 := by exact_mod_cast h2
  norm_num at *
  constructor <;> linarith

theorem size_down (lf : Nat × Nat) (s : Nat) {g : Nat} (hg : g ≤ 54) : (cfgOf lf s).size g = (cfg95 0).size g := by
  unfold Cfg.size
  show (1024 * sizeScalarOf lf g) >>> 15 = (1024 * sizeScalarOf lf95 g) >>> 15
  unfold sizeScalarOf
  rw [if_pos (by unfold growSep; omega), if_pos (by unfold growSep; omega)]

theorem cfgOf_wf {lf : Nat × Nat} (h : GoodLf lf) {s : Nat} (h1 : 1 ≤ s) (h2 : s ≤ 46) : (cfgOf lf s).WF where
  s1 := h1
  s2 := h2
  grow := by
    intro g hg
    by_cases hd : g < 54
    · rw [size_down lf s (by omega), size_down lf s (by omega)]
      exact (cfg95_wf 1 (by decide) (by decide)).grow g hg
    · obtain ⟨i, rfl⟩ : ∃ i, g = 54 + i := ⟨g - 54, by omega⟩
      obtain ⟨a, _⟩ := size_bound lf s i
      obtain ⟨_, b⟩ := size_bound lf s (i + 1)
      obtain ⟨p, q⟩ := h.lt (i := i) (by omega)
      obtain ⟨c, _⟩ := h.step (i := i) (by linarith) (by norm_num at *; linarith)
      have : ((cfgOf lf s).size (54 + i) : ℚ) < (cfgOf lf s).size (54 + (i + 1)) := by linarith
      exact_mod_cast this
  exc := by
    have e : (cfgOf lf s).exceptionSize = (cfgOf lf95 1).exceptionSize := by
      unfold cfgOf
      rw [show sizeScalarOf lf 0 = sizeScalarOf lf95 0 by unfold sizeScalarOf; rw [if_pos (by decide), if_pos (by decide)]]
    have h3 : (cfgOf lf95 1).exceptionSize < (cfgOf lf95 1).size 0 := (cfg95_wf 1 (by decide) (by decide)).exc
    rw [size_down lf95 1 (by omega)] at h3
    rw [size_down lf s (by omega), e]
    exact h3
  scalar := by
    rintro g ⟨hg, hf⟩
    by_cases hd : g < 55
    · have : ∀ g, g < 55 → (cfg95 0).sizeScalar g < 2 ^ 34 := by decide +kernel
      have h3 := this g hd
      have e : (cfgOf lf s).sizeScalar g = (cfg95 0).sizeScalar g := by
        show sizeScalarOf lf g = sizeScalarOf lf95 g
        unfold sizeScalarOf
        rw [if_pos (show g < growSep from hd), if_pos (show g < growSep from hd)]
      rw [e]; exact h3
    · rcases hf with hf | hf
      · omega
      obtain ⟨i, rfl⟩ : ∃ i, g = 54 + (i + 1) := ⟨g - 55, by omega⟩
      rw [show 54 + (i + 1) - 1 = 54 + i by omega] at hf
      obtain ⟨_, b⟩ := size_bound lf s i
      obtain ⟨p, q⟩ := h.lt (i := i) (by omega)
      obtain ⟨_, d⟩ := h.step (i := i) (by linarith) (by norm_num at *; linarith)
      obtain ⟨e, _⟩ := floorScaled_bound (pwSeq lf (i + 1))
      have hf' : ((cfgOf lf s).size (54 + i) : ℚ) < 2097152 := by exact_mod_cast hf
      show sizeScalarOf lf (54 + (i + 1)) < 2 ^ 34
      rw [sizeScalar_up lf (by omega), Nat.add_sub_cancel_left]
      have : (floorScaled (pwSeq lf (i + 1)) : ℚ) < 17179869184 := by linarith
      exact_mod_cast this
  step := by
    intro g hg hs
    by_cases hd : g < 54
    · rw [size_down lf s (by omega)] at *
      exact (cfg95_wf 1 (by decide) (by decide)).step g hg hs
    · obtain ⟨i, rfl⟩ : ∃ i, g = 54 + i := ⟨g - 54, by omega⟩
      obtain ⟨_, b⟩ := size_bound lf s i
      obtain ⟨a, _⟩ := size_bound lf s (i + 1)
      obtain ⟨p, q⟩ := h.lt (i := i) (by omega)
      obtain ⟨_, d⟩ := h.step (i := i) (by linarith) (by norm_num at *; linarith)
      have hs' : ((cfgOf lf s).size (54 + i) : ℚ) < 1048576 := by exact_mod_cast hs
      have : ((cfgOf lf s).size (54 + (i + 1)) : ℚ) < 2097152 := by linarith
      exact_mod_cast this
  top := by
    obtain ⟨_, b⟩ := size_bound lf s 200
    obtain ⟨a, _⟩ := h.bounds (i := 200) (by omega)
    have hb : (27 / 10 : ℚ) < (1005 / 1000) ^ 200 := by norm_num
    have a := lt_of_lt_of_le hb a
    clear hb
    have : (2048 : ℚ) < (cfgOf lf s).size (54 + 200) := by linarith
    exact_mod_cast this
  sep1 := by
    show 2 ^ 15 ≤ sizeScalarOf lf 55
    rw [sizeScalar_up lf (by omega)]
    obtain ⟨_, e⟩ := floorScaled_bound (pwSeq lf 1)
    obtain ⟨p, _⟩ := h.lt (i := 1) (by omega)
    have : (2 : ℚ) ^ 15 < (floorScaled (pwSeq lf 1) : ℚ) + 1 := by norm_num at *; linarith
    have : 2 ^ 15 < floorScaled (pwSeq lf 1) + 1 := by exact_mod_cast this
    show 2 ^ 15 ≤ floorScaled (pwSeq lf 1)
    omega
  sep2 := by
    show sizeScalarOf lf 55 ≤ 2 ^ 16
    rw [sizeScalar_up lf (by omega)]
    obtain ⟨e, _⟩ := floorScaled_bound (pwSeq lf 1)
    obtain ⟨_, p⟩ := h.bounds (i := 1) (by omega)
    have : (floorScaled (pwSeq lf 1) : ℚ) ≤ 65536 := by linarith
    show floorScaled (pwSeq lf 1) ≤ 2 ^ 16
    exact_mod_cast this
/-- The constructor returns. -/
theorem setup_ok {lf : Nat × Nat} (h : GoodLf lf) (s : Nat) : setupScaleFactors lf s = .ok (cfgOf lf s) := by
  unfold setupScaleFactors
  rw [if_pos]
  rw [List.all_eq_true]
  intro g hg
  rw [List.mem_range] at hg
  rw [decide_eq_true_iff]
  by_cases hd : g < growSep
  · have : ∀ g, g < growSep → sizeScalarOf lf95 g < 2 ^ 64 := by decide +kernel
    have h3 := this g hd
    unfold sizeScalarOf at h3 ⊢
    rw [if_pos hd] at h3 ⊢
    exact h3
  · unfold growSep at hd
    rw [sizeScalar_up lf (by omega)]
    obtain ⟨e, _⟩ := floorScaled_bound (pwSeq lf (g - 54))
    obtain ⟨_, p⟩ := h.lt (i := g - 54) (by omega)
    have : (floorScaled (pwSeq lf (g - 54)) : ℚ) < 18446744073709551616 := by linarith
    exact_mod_cast this

/-- Small load factors: the last conversions do not fit. -/
theorem setup_ub {lf : Nat × Nat} (h1 : 1 / 2 ≤ fval lf) (h2 : fval lf ≤ 92 / 100) (s : Nat) :
    setupScaleFactors lf s = .ub := by
  unfold setupScaleFactors
  rw [if_neg]
  intro hall
  rw [List.all_eq_true] at hall
  have hlt : ∀ i, i ≤ 445 → fval (pwSeq lf i) < 562949953421313 := by
    intro i hi
    have := hall (54 + i) (by rw [List.mem_range]; omega)
    rw [decide_eq_true_iff, sizeScalar_up lf (by omega), Nat.add_sub_cancel_left] at this
    have this' : (floorScaled (pwSeq lf i) : ℚ) < 18446744073709551616 := by exact_mod_cast this
    obtain ⟨_, e⟩ := floorScaled_bound (pwSeq lf i)
    linarith
  have hlow : ∀ i, i ≤ 445 → (1086 / 1000 : ℚ) ^ i ≤ fval (pwSeq lf i) := by
    intro i
    induction i with
    | zero => intro _; unfold pwSeq fval; norm_num
    | succ i ih =>
      intro hi
      have a := ih (by omega)
      have b := hlt i (by omega)
      have hpos : (0 : ℚ) < (1086 / 1000) ^ i := by positivity
      obtain ⟨c, _⟩ := pw_step (lf := lf) (lo := 1086 / 1000) (hi := 3) (by linarith) (by norm_num; linarith)
        (by norm_num; linarith) (i := i) (by linarith) (by norm_num; linarith)
      rw [pow_succ]; linarith
  have a := hlow 445 (by omega)
  have b := hlt 445 (by omega)
  have p1 : (1500 : ℚ) < (1086 / 1000) ^ 89 := by norm_num
  have p2 : (1500 : ℚ) ^ 5 < ((1086 / 1000) ^ 89) ^ 5 := pow_lt_pow_left₀ p1 (by positivity) (by decide)
  rw [← pow_mul] at p2
  have p3 : (7593750000000000 : ℚ) < (1086 / 1000) ^ (89 * 5) := by norm_num at p2 ⊢; exact p2
  have p4 := lt_of_lt_of_le p3 a
  linarith

/-- Load factors from 1 on: no grade has more than 1024 slots. -/
theorem size_le_of_one {lf : Nat × Nat} (h1 : lf = (2 ^ 23, 23) ∨ 1 + 1 / 2 ^ 52 ≤ fval lf) (h2 : fval lf ≤ 2) (s g : Nat) :
    (cfgOf lf s).size g ≤ 1024 := by
  by_cases hd : g ≤ 54
  · rw [size_down lf s hd]
    have : ∀ g, g < 55 → (cfg95 0).size g ≤ 1024 := by decide +kernel
    exact this g (by omega)
  have key : ∀ i, 0 < fval (pwSeq lf i) ∧ fval (pwSeq lf i) ≤ 1 := by
    rcases h1 with rfl | h1
    · have e : ∀ i, pwSeq (2 ^ 23, 23) (i + 1) = (2 ^ 52, 52) := by
        intro i
        induction i with
        | zero => decide +kernel
        | succ i ih => unfold pwSeq; rw [ih]; decide +kernel
      intro i
      cases i with
      | zero => unfold pwSeq fval; norm_num
      | succ i => rw [e]; unfold fval; norm_num
    · intro i
      induction i with
      | zero => unfold pwSeq fval; norm_num
      | succ i ih =>
        obtain ⟨p, q⟩ := ih
        obtain ⟨a, b⟩ := pw_step (lf := lf) (lo := 1 / 4) (hi := 1) (by linarith) (by norm_num; linarith)
          (by linarith) (i := i) p (by norm_num at *; linarith)
        constructor <;> linarith
  obtain ⟨i, rfl⟩ : ∃ i, g = 54 + i := ⟨g - 54, by omega⟩
  obtain ⟨a, _⟩ := size_bound lf s i
  have := (key i).2
  have : ((cfgOf lf s).size (54 + i) : ℚ) ≤ 1024 := by linarith
  exact_mod_cast this

end Verif
