import Verif.Model.WhInt
import Verif.Proof.Key

/-!
# Order of the integer tree
-/

namespace Verif

theorem intKeyVal_eq (k : Key) : intKeyVal k = pre 64 k := by
  have := beWord_eq k 0
  rw [Nat.mul_zero, Nat.zero_add] at this
  rw [intKeyVal, this, Nat.mod_eq_of_lt (pre_lt k 64)]

theorem padEq_of_64 {a b : Key} (ha : a.length ≤ 8) (hb : b.length ≤ 8) (h : pre 64 a = pre 64 b) : PadEq a b := by
  intro p
  rw [pre_eq_iff]
  intro i _
  by_cases hi : i < 64
  · exact pre_eq_iff.1 h i hi
  · rw [kbit_of_ge (by omega), kbit_of_ge (by omega)]

theorem keyLt_eq_not_le (a b : Key) : keyLt a b = !keyLe b a := by
  rw [keyLe_iff_not_lt, Bool.not_not]

theorem compareKeys_le {a b : Key} (ha : a.length ≤ 8) (hb : b.length ≤ 8) : compareKeys a b ≤ 0 ↔ keyLe a b = true := by
  unfold compareKeys compareInt
  rw [intKeyVal_eq, intKeyVal_eq]
  by_cases h : pre 64 a = pre 64 b
  · rw [if_neg (by simpa using h)]
    have hp := padEq_of_64 ha hb h
    by_cases hl : a.length ≤ b.length
    · have : keyLe a b = true := keyLe_of_padEq hp hl
      rw [this]
      split_ifs <;> first | omega | simp
    · have h1 : keyLe b a = true := keyLe_of_padEq (fun p => (hp p).symm) (by omega)
      have h2 : ¬ keyLe a b = true := fun h3 => hl (by rw [keyLe_antisymm h3 h1])
      rw [if_neg (by omega), if_neg (by omega)]
      simpa using h2
  · rw [if_pos h]
    by_cases hlt : pre 64 a < pre 64 b
    · rw [if_pos hlt]
      have := keyLt_keyLe (keyLt_of_padLt ⟨64, hlt⟩)
      simp [this]
    · rw [if_neg hlt]
      have h3 : ¬ keyLe a b = true := fun h4 => by have := keyLe_pre h4 64; omega
      simpa using h3

theorem compareKeys_zero {a b : Key} (ha : a.length ≤ 8) (hb : b.length ≤ 8) : compareKeys a b = 0 ↔ a = b := by
  constructor
  · intro h
    have h1 := (compareKeys_le ha hb).1 (by omega)
    have h2 : keyLe b a = true := by
      rw [← compareKeys_le hb ha]
      unfold compareKeys compareInt at h ⊢
      split_ifs at h ⊢ <;> omega
    exact keyLe_antisymm h1 h2
  · rintro rfl
    unfold compareKeys compareInt
    simp

theorem leafSearchLoop_spec {leaf : List Key} {key : Key} (hk : key.length ≤ 8) (hl : ∀ k ∈ leaf, k.length ≤ 8)
    (hs : leaf.Pairwise fun a b => keyLt a b = true) : ∀ (fuel : Nat) (lo hi : Int), -1 ≤ lo → lo < hi → hi ≤ leaf.length →
    hi - lo ≤ fuel → (∀ i : Nat, (i : Int) ≤ lo → keyLt (leaf.getD i []) key = true) →
    (∀ i : Nat, hi ≤ i → i < leaf.length → keyLe key (leaf.getD i []) = true) →
    ∃ r : Nat, leafSearchLoop leaf key fuel lo hi = r ∧ r ≤ leaf.length ∧
      (∀ i, i < r → keyLt (leaf.getD i []) key = true) ∧
      ∀ i, r ≤ i → i < leaf.length → keyLe key (leaf.getD i []) = true := by
  have mono : ∀ i j : Nat, i ≤ j → j < leaf.length → keyLe (leaf.getD i []) (leaf.getD j []) = true := by
    intro i j hij hj
    rcases Nat.eq_or_lt_of_le hij with rfl | h
    · exact keyLe_refl _
    · rw [List.getD_eq_getElem?_getD, List.getD_eq_getElem?_getD, List.getElem?_eq_getElem hj,
        List.getElem?_eq_getElem (by omega)]
      exact keyLt_keyLe (List.pairwise_iff_getElem.1 hs i j (by omega) hj h)
  intro fuel
  induction fuel with
  | zero => intro lo hi h1 h2 h3 h4; omega
  | succ fuel ih =>
    intro lo hi h1 h2 h3 h4 h5 h6
    rw [leafSearchLoop]
    by_cases hgt : hi - lo > 1
    · rw [if_pos hgt]
      dsimp only
      obtain ⟨m, hm⟩ : ∃ m : Nat, (lo + hi) / 2 = m := ⟨((lo + hi) / 2).toNat, by omega⟩
      rw [hm, Int.toNat_natCast]
      have hml : m < leaf.length := by omega
      have hmem : leaf.getD m [] ∈ leaf := by
        rw [List.getD_eq_getElem?_getD, List.getElem?_eq_getElem hml]; exact List.getElem_mem _
      by_cases hc : compareKeys key (leaf.getD m []) ≤ 0
      · rw [if_pos hc]
        rw [compareKeys_le hk (hl _ hmem)] at hc
        exact ih lo m h1 (by omega) (by omega) (by omega) h5
          (fun i hi1 hi2 => keyLe_trans hc (mono m i (by omega) hi2))
      · rw [if_neg hc]
        rw [compareKeys_le hk (hl _ hmem)] at hc
        have hc' : keyLt (leaf.getD m []) key = true := by rw [keyLt_eq_not_le]; simpa using hc
        refine ih m hi (by omega) (by omega) h3 (by omega) (fun i hi1 => ?_) h6
        have := mono i m (by omega) hml
        rw [keyLt_iff] at hc' ⊢
        refine ⟨keyLe_trans this hc'.1, fun e => ?_⟩
        rw [e] at this
        exact hc'.2 (keyLe_antisymm hc'.1 this)
    · rw [if_neg hgt]
      refine ⟨hi.toNat, by omega, by omega, fun i hi1 => h5 i (by omega), fun i hi1 hi2 => h6 i (by omega) hi2⟩

theorem pre64_encode {x : Nat} (h : x < 2 ^ 64) : pre 64 (encodeInt x) = x := by
  rw [← intKeyVal_eq]
  have hb : ∀ i, i < 8 → byteAt (encodeInt x) i = x >>> (8 * (7 - i)) % 256 := by
    intro i hi
    unfold byteAt encodeInt
    rw [List.getD_eq_getElem?_getD, List.getElem?_map, List.getElem?_range hi]
    simp
  unfold intKeyVal beWord
  simp only [List.range_succ, List.range_zero, List.nil_append, List.cons_append, List.foldl, Nat.zero_add]
  rw [hb 0 (by decide), hb 1 (by decide), hb 2 (by decide), hb 3 (by decide), hb 4 (by decide), hb 5 (by decide),
    hb 6 (by decide), hb 7 (by decide)]
  simp only [Nat.shiftRight_eq_div_pow]
  omega

theorem encode_length (x : Nat) : (encodeInt x).length = 8 := by simp [encodeInt]

theorem encode_le {x y : Nat} (hx : x < 2 ^ 64) (hy : y < 2 ^ 64) : keyLe (encodeInt x) (encodeInt y) = true ↔ x ≤ y := by
  constructor
  · intro h
    have := keyLe_pre h 64
    rwa [pre64_encode hx, pre64_encode hy] at this
  · intro h
    rcases Nat.eq_or_lt_of_le h with rfl | h
    · exact keyLe_refl _
    · apply keyLt_keyLe
      apply keyLt_of_padLt
      exact ⟨64, by rw [pre64_encode hx, pre64_encode hy]; exact h⟩

theorem encode_lt {x y : Nat} (hx : x < 2 ^ 64) (hy : y < 2 ^ 64) : keyLt (encodeInt x) (encodeInt y) = true ↔ x < y := by
  rw [keyLt_eq_not_le]
  have := encode_le hy hx
  cases h : keyLe (encodeInt y) (encodeInt x)
  · rw [h] at this; simp at this ⊢; omega
  · rw [h] at this; simp at this ⊢; omega

theorem encode_inj {x y : Nat} (hx : x < 2 ^ 64) (hy : y < 2 ^ 64) (h : encodeInt x = encodeInt y) : x = y := by
  rw [← pre64_encode hx, ← pre64_encode hy, h]

end Verif
