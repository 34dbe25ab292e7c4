import Verif.Proof.Rewrite
import Mathlib.Data.List.Perm.Basic

/-!
# Re-encoding a whole list
-/

namespace Verif

theorem lowbitPos_odd {m t : Nat} (h : (2 * m + 1) * 2 ^ t < 2 ^ 64) : lowbitPos ((2 * m + 1) * 2 ^ t) = t := by
  have g1 : ((2 * m + 1) * 2 ^ t).testBit t = true := by
    rw [Nat.mul_comm, Nat.testBit_two_pow_mul]; simp
  have g2 : ∀ j, j < t → ((2 * m + 1) * 2 ^ t).testBit j = false := by
    intro j hj
    rw [Nat.mul_comm, Nat.testBit_two_pow_mul]; simp; omega
  refine tzcnt_eq ?_ g1 g2
  by_contra hc
  have h1 : 2 ^ 64 ≤ 2 ^ t := Nat.pow_le_pow_right (by decide) (by omega)
  have h2 : 1 * 2 ^ t ≤ (2 * m + 1) * 2 ^ t := Nat.mul_le_mul_right _ (by omega)
  omega

/-! ## Sorting -/

theorem infixLess_iff {x y : Nat} : infixLess y x = false ↔ ile x y := by
  unfold infixLess ile
  rw [Bool.or_eq_false_iff, Bool.and_eq_false_iff, decide_eq_false_iff_not, beq_eq_false_iff_ne, decide_eq_false_iff_not]
  omega

theorem infixLess_ile {x y : Nat} (h : infixLess y x = true) : ile y x := by
  unfold infixLess at h
  unfold ile
  rw [Bool.or_eq_true, Bool.and_eq_true, decide_eq_true_iff, beq_iff_eq, decide_eq_true_iff] at h
  omega

theorem mem_sortInsert {x z : Nat} : ∀ {l : List Nat}, z ∈ sortInsert x l ↔ z = x ∨ z ∈ l
  | [] => by simp [sortInsert]
  | y :: l => by
    rw [sortInsert]
    split_ifs with h
    · rw [List.mem_cons, mem_sortInsert, List.mem_cons]; tauto
    · rw [List.mem_cons]

theorem sortInsert_perm (x : Nat) : ∀ l : List Nat, (sortInsert x l).Perm (x :: l)
  | [] => by simp [sortInsert]
  | y :: l => by
    rw [sortInsert]
    split_ifs with h
    · exact ((sortInsert_perm x l).cons y).trans (List.Perm.swap _ _ _)
    · exact List.Perm.refl _

theorem sortInsert_sorted (x : Nat) : ∀ {l : List Nat}, l.Pairwise ile → (sortInsert x l).Pairwise ile
  | [], _ => by simp [sortInsert]
  | y :: l, h => by
    rw [sortInsert]
    rw [List.pairwise_cons] at h
    split_ifs with hc
    · rw [List.pairwise_cons]
      refine ⟨?_, sortInsert_sorted x h.2⟩
      intro z hz
      rcases mem_sortInsert.1 hz with rfl | hz
      · exact infixLess_ile hc
      · exact h.1 z hz
    · have hxy : ile x y := infixLess_iff.1 (by simpa using hc)
      rw [List.pairwise_cons, List.pairwise_cons]
      refine ⟨?_, h⟩
      intro z hz
      rcases List.mem_cons.1 hz with rfl | hz
      · exact hxy
      · exact ile_trans hxy (h.1 z hz)

theorem sortInfixes_perm : ∀ l : List Nat, (sortInfixes l).Perm l
  | [] => by simp [sortInfixes]
  | x :: l => (sortInsert_perm x _).trans ((sortInfixes_perm l).cons x)

theorem sortInfixes_sorted : ∀ l : List Nat, (sortInfixes l).Pairwise ile
  | [] => by simp [sortInfixes]
  | x :: l => sortInsert_sorted x (sortInfixes_sorted l)

/-! ## Whole lists -/

section
variable {s sa p base : Nat} {a b : Key}

theorem expandedLength_flag (lower upper : Nat) : ∀ (list : List Nat) (acc : Nat × Bool),
    (expandedLength s sa lower upper list acc).2 = (acc.2 || list.any fun x => decide (lowbitPos x + sa ≥ s))
  | [], acc => by simp [expandedLength]
  | x :: list, acc => by
    rw [expandedLength, expandedLength_flag]
    by_cases h : lowbitPos x + sa ≥ s
    · simp [h]
    · simp [h]

/-- The list written for the new region, whatever path the code takes, has the items of all expansions. -/
theorem update_mem (R : RW s sa p base a b) {list : List Nat} (hO : ∀ x ∈ list, OldItem s p base a b x)
    {flag : Bool} (hf : flag = list.any fun x => decide (lowbitPos x + sa ≥ s)) (y : Nat) :
    y ∈ updateInfixList s sa (rwLo sa p base a * 2 ^ s) (rwLo sa p base b * 2 ^ s) flag list ↔
      ∃ x ∈ list, y ∈ expandItem s sa (rwLo sa p base a * 2 ^ s) (rwLo sa p base b * 2 ^ s) x := by
  unfold updateInfixList
  by_cases hc : flag = true
  · rw [if_pos hc, (sortInfixes_perm _).mem_iff, List.mem_flatMap]
  · rw [if_neg hc, List.mem_map]
    have hany : ∀ x ∈ list, ¬ (lowbitPos x + sa ≥ s) := by
      intro x hx h
      apply hc
      rw [hf, List.any_eq_true]
      exact ⟨x, hx, by simpa using h⟩
    constructor
    · rintro ⟨x, hx, rfl⟩
      refine ⟨x, hx, ?_⟩
      have O := hO x hx
      have h1 := hany x hx
      have hb := (item_bound (s := s) (by have := R.s2; omega) O.quot).2
      obtain ⟨m, t, rfl, ht⟩ := item_decomp O.expl
      rw [lowbitPos_odd hb] at h1
      rw [expand_keep R O (by omega)]
      simp
    · rintro ⟨x, hx, hy⟩
      refine ⟨x, hx, ?_⟩
      have O := hO x hx
      have h1 := hany x hx
      have hb := (item_bound (s := s) (by have := R.s2; omega) O.quot).2
      obtain ⟨m, t, rfl, ht⟩ := item_decomp O.expl
      rw [lowbitPos_odd hb] at h1
      rw [expand_keep R O (by omega)] at hy
      rw [List.mem_singleton] at hy
      exact hy.symm

/-- Order of kept items. -/
theorem keep_ile (R : RW s sa p base a b) {x x' : Nat} (O : OldItem s p base a b x) (O' : OldItem s p base a b x')
    (h1 : tz x + sa < s) (h2 : tz x' + sa < s) (hle : ile x x') :
    ile (sub64 (shl64 x sa) (rwLo sa p base a * 2 ^ s)) (sub64 (shl64 x' sa) (rwLo sa p base a * 2 ^ s)) := by
  have hb := (item_bound (s := s) (by have := R.s2; omega) O.quot).2
  have hb' := (item_bound (s := s) (by have := R.s2; omega) O'.quot).2
  obtain ⟨m, t, rfl, ht⟩ := item_decomp O.expl
  obtain ⟨m', t', rfl, ht'⟩ := item_decomp O'.expl
  rw [tz_odd hb] at h1
  rw [tz_odd hb'] at h2
  obtain ⟨f1, f2, f3, f4⟩ := keep_facts R O h1
  obtain ⟨g1, g2, g3, g4⟩ := keep_facts R O' h2
  have key : ∀ m t, t + sa < s → rwLo sa p base a * 2 ^ (s - 1 - (t + sa)) ≤ m →
      2 * (m - rwLo sa p base a * 2 ^ (s - 1 - (t + sa))) * 2 ^ (t + sa) + rwLo sa p base a * 2 ^ s =
        2 * m * 2 ^ t * 2 ^ sa := by
    intro m t ht hm
    obtain ⟨j, rfl⟩ : ∃ j, s = t + sa + 1 + j := ⟨s - (t + sa + 1), by omega⟩
    rw [show t + sa + 1 + j - 1 - (t + sa) = j by omega] at hm ⊢
    have e : rwLo sa p base a * 2 ^ (t + sa + 1 + j) = 2 * (rwLo sa p base a * 2 ^ j) * 2 ^ (t + sa) := by
      rw [pow_add, pow_succ]; ring
    rw [e, ← Nat.add_mul, Nat.mul_assoc (2 * m), ← pow_add]
    congr 1; omega
  have k1 := key m t h1 f1
  have k2 := key m' t' h2 g1
  unfold ile at hle ⊢
  rw [nolb64_odd hb, nolb64_odd hb', lb64_odd hb, lb64_odd hb'] at hle
  rw [f3, g3, nolb64_odd f4, nolb64_odd g4, lb64_odd f4, lb64_odd g4]
  have hp := Nat.two_pow_pos sa
  rcases hle with h | ⟨h, h'⟩
  · left
    have := Nat.mul_lt_mul_of_pos_right h hp
    omega
  · right
    rw [← h] at k2
    refine ⟨by omega, ?_⟩
    rw [pow_add, pow_add]
    exact Nat.mul_le_mul_right _ h'

theorem update_sorted (R : RW s sa p base a b) {list : List Nat} (hO : ∀ x ∈ list, OldItem s p base a b x)
    (hs : list.Pairwise ile) {flag : Bool} (hf : flag = list.any fun x => decide (lowbitPos x + sa ≥ s)) :
    (updateInfixList s sa (rwLo sa p base a * 2 ^ s) (rwLo sa p base b * 2 ^ s) flag list).Pairwise ile := by
  unfold updateInfixList
  by_cases hc : flag = true
  · rw [if_pos hc]; exact sortInfixes_sorted _
  · rw [if_neg hc, List.pairwise_map]
    have hany : ∀ x ∈ list, tz x + sa < s := by
      intro x hx
      by_contra h
      apply hc
      rw [hf, List.any_eq_true]
      refine ⟨x, hx, ?_⟩
      have O := hO x hx
      have hb := (item_bound (s := s) (by have := R.s2; omega) O.quot).2
      obtain ⟨m, t, rfl, ht⟩ := item_decomp O.expl
      rw [tz_odd hb] at h
      rw [lowbitPos_odd hb]
      simpa using h
    apply List.Pairwise.imp_of_mem _ hs
    intro x x' hx hx' hle
    exact keep_ile R (hO x hx) (hO x' hx') (hany x hx) (hany x' hx') hle

/-- Everything about the list written for the new region. -/
theorem rewrite_spec (R : RW s sa p base a b) {list : List Nat} (hO : ∀ x ∈ list, OldItem s p base a b x)
    (hs : list.Pairwise ile) {res : List Nat}
    (hr : rewriteList s sa (rwLo sa p base a * 2 ^ s) (rwLo sa p base b * 2 ^ s) list = .ok res) :
    Loadable s (pre (p + sa) b - pre (p + sa) a + 1) res ∧
    (∀ y, y ∈ res ↔ ∃ x ∈ list, y ∈ expandItem s sa (rwLo sa p base a * 2 ^ s) (rwLo sa p base b * 2 ^ s) x) ∧
    (∀ y ∈ res, Inside s (p + sa) a b y) ∧
    ∀ k, pre (p + sa) a ≤ pre (p + sa) k → pre (p + sa) k ≤ pre (p + sa) b →
      ((∃ x ∈ list, pre (ilen s p x) k = ival s base x) ↔ HitL s (p + sa) a res k) := by
  unfold rewriteList at hr
  generalize hE : expandedLength s sa (rwLo sa p base a * 2 ^ s) (rwLo sa p base b * 2 ^ s) list (list.length, false) = E at hr
  obtain ⟨len, flag⟩ := E
  have hf : flag = list.any fun x => decide (lowbitPos x + sa ≥ s) := by
    have := expandedLength_flag (s := s) (sa := sa) (rwLo sa p base a * 2 ^ s) (rwLo sa p base b * 2 ^ s) list (list.length, false)
    rw [hE] at this
    simpa using this
  dsimp only at hr
  split_ifs at hr with hlen
  obtain rfl : updateInfixList s sa (rwLo sa p base a * 2 ^ s) (rwLo sa p base b * 2 ^ s) flag list = res := by
    injection hr
  have hmem := update_mem R hO hf
  have hnew : ∀ y ∈ updateInfixList s sa (rwLo sa p base a * 2 ^ s) (rwLo sa p base b * 2 ^ s) flag list,
      SubItem s (p + sa) a b y := by
    intro y hy
    obtain ⟨x, hx, hy⟩ := (hmem y).1 hy
    exact (expand_spec R (hO x hx)).1 y hy
  refine ⟨⟨update_sorted R hO hs hf, fun y hy => ⟨(hnew y hy).expl, (hnew y hy).quot⟩⟩, hmem,
    fun y hy => ⟨(hnew y hy).lo, (hnew y hy).hi⟩, ?_⟩
  intro k hk1 hk2
  unfold HitL
  constructor
  · rintro ⟨x, hx, h⟩
    obtain ⟨y, hy, hh⟩ := ((expand_spec R (hO x hx)).2 k hk1 hk2).1 h
    exact ⟨y, (hmem y).2 ⟨x, hx, hy⟩, hh⟩
  · rintro ⟨y, hy, h⟩
    obtain ⟨x, hx, hy⟩ := (hmem y).1 hy
    exact ⟨x, hx, ((expand_spec R (hO x hx)).2 k hk1 hk2).2 ⟨y, hy, h⟩⟩

end

end Verif
