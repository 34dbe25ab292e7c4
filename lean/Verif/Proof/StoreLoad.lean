import Verif.Proof.StoreList
import Verif.Proof.Outside

/-!
# LoadListToInfixStore stores exactly the given list
-/

namespace Verif

section
variable {n s T : Nat} {mp : Nat → Nat}

/-- Final slot of every item: first forward as far left as possible, not before the home slot, then
backward so that everything ends before slot `n`. -/
def placeI (n s : Nat) (mp : Nat → Nat) : Int → List Nat → List Int
  | _, [] => []
  | r, x :: xs =>
    min (max r (mp (x / 2 ^ s) : Int)) ((placeI n s mp (max r (mp (x / 2 ^ s) : Int) + 1) xs).headD n - 1) ::
      placeI n s mp (max r (mp (x / 2 ^ s) : Int) + 1) xs

/-- Slots after the forward pass. -/
def fwdI (s : Nat) (mp : Nat → Nat) : Int → List Nat → List Int
  | _, [] => []
  | r, x :: xs => max r (mp (x / 2 ^ s) : Int) :: fwdI s mp (max r (mp (x / 2 ^ s) : Int) + 1) xs

/-- Item by item version of the writing loop. `p` is the slot of the previous item, of quotient `old`. -/
def wrI (n s : Nat) (mp : Nat → Nat) : Nat → Int → Int → List Nat → Nat → Nat
  | _, p, _, [], m => setBit m 17 p.toNat
  | old, p, r, x :: xs, m =>
    wrI n s mp (x / 2 ^ s) ((placeI n s mp r (x :: xs)).headD n) (max r (mp (x / 2 ^ s) : Int) + 1) xs
      (setSlot (setBit (if x / 2 ^ s ≠ old then setBit m 17 p.toNat else m) 1 (x / 2 ^ s)) n s
        ((placeI n s mp r (x :: xs)).headD n).toNat (x % 2 ^ s))

theorem placeI_head_ge (xs : List Nat) : ∀ r : Int, min r ((n : Int) - xs.length) ≤ (placeI n s mp r xs).headD n := by
  induction xs with
  | nil => intro r; simp [placeI]
  | cons x xs ih =>
    intro r
    have := ih (max r (mp (x / 2 ^ s) : Int) + 1)
    simp only [placeI, List.headD_cons, List.length_cons]
    push_cast
    omega

theorem placeI_head_le (xs : List Nat) (r : Int) : (placeI n s mp r xs).headD n ≤ n := by
  induction xs generalizing r with
  | nil => simp [placeI]
  | cons x xs ih =>
    have := ih (max r (mp (x / 2 ^ s) : Int) + 1)
    simp only [placeI, List.headD_cons]
    omega

theorem loadWriteRun_append (hs : s ≤ 64) (pre : List Nat) (x : Nat) (rest : List Nat) : ∀ (m j : Nat),
    (loadWriteRun n s m j (pre.length + 1) (pre ++ x :: rest)) =
      (setSlot (setBit (loadWriteRun n s m j pre.length pre).1 1 (x / 2 ^ s)) n s (j + pre.length) (x % 2 ^ s), rest) := by
  induction pre with
  | nil =>
    intro m j
    simp only [List.length_nil, List.nil_append, loadWriteRun, Nat.add_zero]
    rw [Nat.shiftRight_eq_div_pow, and_bitmask _ _ hs]
  | cons y ys ih =>
    intro m j
    simp only [List.length_cons, List.cons_append, loadWriteRun]
    rw [ih, show j + 1 + ys.length = j + (ys.length + 1) by omega]

theorem loadWriteRun_all (pre rest : List Nat) : ∀ (m j : Nat),
    (loadWriteRun n s m j pre.length (pre ++ rest)) = ((loadWriteRun n s m j pre.length pre).1, rest) := by
  induction pre with
  | nil => intro m j; cases rest <;> simp [loadWriteRun]
  | cons y ys ih =>
    intro m j
    simp only [List.length_cons, List.cons_append, loadWriteRun]
    rw [ih]

theorem loadRuns (hs : s ≤ 64) (list : List Nat) : ∀ (old : Nat) (l r : Int), 0 ≤ l → l ≤ r → (mp old : Int) ≤ r →
    (r - l) + list.length ≤ n →
    ∃ e R, loadBackward n (loadForward s mp old l r list) =
        (l + min 0 ((placeI n s mp r list).headD n - r), e) :: R ∧
      ∀ (m : Nat) (pre : List Nat), (pre.length : Int) = r - l →
        loadWrite n s m ((l + min 0 ((placeI n s mp r list).headD n - r), e) :: R) (pre ++ list) =
        wrI n s mp old (r + min 0 ((placeI n s mp r list).headD n - r) - 1) r list
          (loadWriteRun n s m (l + min 0 ((placeI n s mp r list).headD n - r)).toNat pre.length pre).1 := by
  induction list with
  | nil =>
    intro old l r h0 hlr hold hlen
    refine ⟨r + min 0 ((n : Int) - r), [], rfl, ?_⟩
    intro m pre hpre
    have e1 : (r + min 0 ((n : Int) - r) - (l + min 0 ((n : Int) - r))).toNat = pre.length := by omega
    simp only [placeI, List.headD_nil, wrI, loadWrite]
    rw [e1, loadWriteRun_all]
  | cons x xs ih =>
    intro old l r h0 hlr hold hlen
    simp only [List.length_cons] at hlen
    push_cast at hlen
    rw [loadForward]
    dsimp only
    rw [Nat.shiftRight_eq_div_pow]
    by_cases hq : x / 2 ^ s ≠ old
    · rw [if_pos hq]
      obtain ⟨e, R, h1, h2⟩ := ih (x / 2 ^ s) (max r (mp (x / 2 ^ s) : Int)) (max r (mp (x / 2 ^ s) : Int) + 1)
        (by omega) (by omega) (by omega) (by omega)
      rw [loadBackward, h1]
      have hge := placeI_head_ge (n := n) (s := s) (mp := mp) xs (max r (mp (x / 2 ^ s) : Int) + 1)
      have hhead : (placeI n s mp r (x :: xs)).headD n = max r (mp (x / 2 ^ s) : Int) +
          min 0 ((placeI n s mp (max r (mp (x / 2 ^ s) : Int) + 1) xs).headD n - (max r (mp (x / 2 ^ s) : Int) + 1)) := by
        rw [placeI]; simp only [List.headD_cons]; omega
      rw [hhead]
      generalize (placeI n s mp (max r (mp (x / 2 ^ s) : Int) + 1) xs).headD n = H at *
      generalize hA : max r (mp (x / 2 ^ s) : Int) = A at *
      refine ⟨_, _, rfl, ?_⟩
      intro m pre hpre
      rw [loadWrite]
      have e1 : (r + min 0 (A + min 0 (H - (A + 1)) - r) - (l + min 0 (A + min 0 (H - (A + 1)) - r))).toNat
          = pre.length := by omega
      rw [e1, loadWriteRun_all]
      dsimp only
      have := h2 (setBit (loadWriteRun n s m (l + min 0 (A + min 0 (H - (A + 1)) - r)).toNat pre.length pre).1 17
        (r + min 0 (A + min 0 (H - (A + 1)) - r) - 1).toNat) [x] (by simp)
      rw [show [x] ++ xs = x :: xs from rfl] at this
      rw [this, wrI, hhead, if_pos hq, hA]
      simp only [List.length_singleton, loadWriteRun]
      rw [Nat.shiftRight_eq_div_pow, and_bitmask _ _ hs]
      rw [show A + 1 + min 0 (H - (A + 1)) - 1 = A + min 0 (H - (A + 1)) by omega]
    · rw [if_neg hq]
      have hq' : x / 2 ^ s = old := by simpa using hq
      subst hq'
      obtain ⟨e, R, h1, h2⟩ := ih (x / 2 ^ s) l (r + 1) (by omega) (by omega) (by omega) (by omega)
      have hA : max r (mp (x / 2 ^ s) : Int) = r := by omega
      have hge := placeI_head_ge (n := n) (s := s) (mp := mp) xs (r + 1)
      have hhead : (placeI n s mp r (x :: xs)).headD n = r +
          min 0 ((placeI n s mp (r + 1) xs).headD n - (r + 1)) := by
        rw [placeI, hA]; simp only [List.headD_cons]; omega
      rw [hhead]
      have hd : min 0 (r + min 0 ((placeI n s mp (r + 1) xs).headD n - (r + 1)) - r) =
          min 0 ((placeI n s mp (r + 1) xs).headD n - (r + 1)) := by omega
      rw [hd]
      refine ⟨e, R, h1, ?_⟩
      intro m pre hpre
      have := h2 m (pre ++ [x]) (by simp; omega)
      rw [List.append_assoc, show [x] ++ xs = x :: xs from rfl] at this
      rw [this, wrI, hhead, hA]
      rw [List.length_append, List.length_singleton, loadWriteRun_append hs]
      simp only [ne_eq, not_true_eq_false, if_false]
      generalize (placeI n s mp (r + 1) xs).headD n = H at *
      rw [show r + 1 + min 0 (H - (r + 1)) - 1 = r + min 0 (H - (r + 1)) by omega,
        show (l + min 0 (H - (r + 1))).toNat + pre.length = (r + min 0 (H - (r + 1))).toNat by omega]

/-! ## Positions by index -/

theorem placeI_rec (list : List Nat) : ∀ (r : Int) (k : Nat), k < list.length →
    (placeI n s mp r list).getD k n =
      min ((fwdI s mp r list).getD k 0) ((placeI n s mp r list).getD (k + 1) n - 1) := by
  induction list with
  | nil => intro r k hk; simp at hk
  | cons x xs ih =>
    intro r k hk
    cases k with
    | zero =>
      rw [placeI, fwdI]
      simp only [List.getD_cons_zero, List.getD_cons_succ]
      congr 2
      cases placeI n s mp (max r (mp (x / 2 ^ s) : Int) + 1) xs <;> rfl
    | succ k =>
      rw [placeI, fwdI]
      simp only [List.getD_cons_succ]
      apply ih
      simpa using hk

theorem placeI_length (list : List Nat) : ∀ (r : Int), (placeI n s mp r list).length = list.length := by
  induction list with
  | nil => intro r; rfl
  | cons x xs ih => intro r; rw [placeI]; simp [ih]

theorem placeI_end (list : List Nat) (r : Int) : (placeI n s mp r list).getD list.length n = n := by
  rw [List.getD_eq_getElem?_getD, List.getElem?_eq_none (by rw [placeI_length])]
  rfl

theorem fwdI_zero (list : List Nat) (r : Int) (h : 0 < list.length) :
    (fwdI s mp r list).getD 0 0 = max r (mp (list.getD 0 0 / 2 ^ s) : Int) := by
  cases list with
  | nil => simp at h
  | cons x xs => rw [fwdI]; rfl

theorem fwdI_rec (list : List Nat) : ∀ (r : Int) (k : Nat), k + 1 < list.length →
    (fwdI s mp r list).getD (k + 1) 0 =
      max ((fwdI s mp r list).getD k 0 + 1) (mp (list.getD (k + 1) 0 / 2 ^ s) : Int) := by
  induction list with
  | nil => intro r k hk; simp at hk
  | cons x xs ih =>
    intro r k hk
    simp only [List.length_cons] at hk
    rw [fwdI]
    simp only [List.getD_cons_succ]
    cases k with
    | zero => rw [fwdI_zero _ _ (by omega)]; rfl
    | succ k =>
      simp only [List.getD_cons_succ]
      exact ih _ k (by omega)

/-! ## Memory after writing -/

/-- What the writing loop does to the block, `P k` being the slot of item `k`. -/
structure Written (n s : Nat) (m : Nat) (old : Nat) (p : Int) (list : List Nat) (P : Nat → Int) (m' : Nat) : Prop where
  frame : ∀ i : Nat, i < n → (∀ k, k < list.length → P k ≠ i) → slotv m' n s i = slotv m n s i
  slot : ∀ k, k < list.length → slotv m' n s (P k).toNat = list.getD k 0 % 2 ^ s
  occ : ∀ q, q < 1024 → (occ m' q = true ↔ occ m q = true ∨ ∃ k, k < list.length ∧ list.getD k 0 / 2 ^ s = q)
  rend : ∀ i : Nat, i < n → (rend m' i = true ↔ rend m i = true ∨
    (p = i ∧ (list.length = 0 ∨ list.getD 0 0 / 2 ^ s ≠ old)) ∨
    ∃ k, k < list.length ∧ P k = i ∧ (k + 1 = list.length ∨ list.getD (k + 1) 0 / 2 ^ s ≠ list.getD k 0 / 2 ^ s))
  pop0 : Verif.pop0 m' = Verif.pop0 m
  pop1 : Verif.pop1 m' = Verif.pop1 m
  out : Outside n s m m'

theorem wrI_spec (hs1 : 1 ≤ s) (hs2 : s ≤ 46) (list : List Nat) : ∀ (old : Nat) (p r : Int) (m : Nat),
    (∀ k, k < list.length → list.getD k 0 / 2 ^ s < 1024) → 0 ≤ p → p < n →
    (∀ k, k < list.length → 0 ≤ (placeI n s mp r list).getD k n ∧ (placeI n s mp r list).getD k n < n) →
    Written n s m old p list (fun k => (placeI n s mp r list).getD k n) (wrI n s mp old p r list m) := by
  induction list with
  | nil =>
    intro old p r m _ hp0 hpn _
    rw [wrI]
    refine ⟨?_, ?_, ?_, ?_, ?_, ?_, out_setBit17 (outside_refl n s m) (by omega)⟩
    · intro i hi _; rw [slotv_setBit17 _ _ _ _ _ (by omega)]
    · intro k hk; simp at hk
    · intro q hq; rw [occ_setBit17 _ _ _ hq]; simp
    · intro i hi
      rw [rend_setBit17]
      simp only [List.length_nil, Nat.not_lt_zero, false_and, exists_false, or_false, true_or, and_true,
        Bool.or_eq_true, decide_eq_true_eq]
      constructor
      · rintro (h | h)
        · exact Or.inl h
        · exact Or.inr (by omega)
      · rintro (h | h)
        · exact Or.inl h
        · exact Or.inr (by omega)
    · exact pop0_setBit _ _ _ (by decide)
    · exact pop1_setBit _ _ _ (by decide)
  | cons x xs ih =>
    intro old p r m hq hp0 hpn hpos
    rw [wrI]
    have hx := hq 0 (by simp)
    simp only [List.getD_cons_zero] at hx
    have hh := hpos 0 (by simp)
    have hhead : (placeI n s mp r (x :: xs)).headD n = (placeI n s mp r (x :: xs)).getD 0 n := by
      rw [placeI]; rfl
    rw [hhead]
    have hlt : ∀ k, k < xs.length → (placeI n s mp r (x :: xs)).getD 0 n <
        (placeI n s mp (max r (mp (x / 2 ^ s) : Int) + 1) xs).getD k n := by
      have hstep : ∀ j, j < (x :: xs).length → (placeI n s mp r (x :: xs)).getD j n <
          (placeI n s mp r (x :: xs)).getD (j + 1) n := by
        intro j hj
        have := placeI_rec (n := n) (s := s) (mp := mp) (x :: xs) r j hj
        omega
      have hall : ∀ k, k < xs.length → (placeI n s mp r (x :: xs)).getD 0 n <
          (placeI n s mp r (x :: xs)).getD (k + 1) n := by
        intro k
        induction k with
        | zero => intro hk; exact hstep 0 (by simp)
        | succ k ihk =>
          intro hk
          exact Int.lt_trans (ihk (by omega)) (hstep (k + 1) (by simp; omega))
      intro k hk
      have := hall k hk
      rw [placeI] at this ⊢
      simpa using this
    have W := ih (x / 2 ^ s) ((placeI n s mp r (x :: xs)).getD 0 n) (max r (mp (x / 2 ^ s) : Int) + 1)
      (setSlot (setBit (if x / 2 ^ s ≠ old then setBit m 17 p.toNat else m) 1 (x / 2 ^ s)) n s
        ((placeI n s mp r (x :: xs)).getD 0 n).toNat (x % 2 ^ s)) (by
          intro k hk
          have := hq (k + 1) (by simp; omega)
          simpa using this) hh.1 hh.2 (by
          intro k hk
          have := hpos (k + 1) (by simp; omega)
          rw [placeI] at this
          simpa using this)
    have htail : ∀ k, (placeI n s mp r (x :: xs)).getD (k + 1) n =
        (placeI n s mp (max r (mp (x / 2 ^ s) : Int) + 1) xs).getD k n := by
      intro k; rw [placeI]; simp
    generalize hP0 : (placeI n s mp r (x :: xs)).getD 0 n = P0 at *
    have hv : x % 2 ^ s < 2 ^ s := Nat.mod_lt _ (Nat.two_pow_pos s)
    obtain ⟨w1, w2, w3, w4, w5, w6, w7⟩ := W
    have hout : Outside n s m (setSlot (setBit (if x / 2 ^ s ≠ old then setBit m 17 p.toNat else m) 1 (x / 2 ^ s)) n s
        P0.toNat (x % 2 ^ s)) := by
      refine out_setSlot (out_setBit1 ?_ hx) (by omega) hs1 hv (by omega)
      split_ifs
      · exact out_setBit17 (outside_refl n s m) (by omega)
      · exact outside_refl n s m
    have hslot0 : ∀ i, slotv (setSlot (setBit (if x / 2 ^ s ≠ old then setBit m 17 p.toNat else m) 1 (x / 2 ^ s)) n s
        P0.toNat (x % 2 ^ s)) n s i = if i = P0.toNat then x % 2 ^ s else slotv m n s i := by
      intro i
      rw [slotv_setSlot (by omega) hs1 hv, slotv_setBit1 _ _ _ _ _ hx]
      split_ifs
      · rfl
      · rw [slotv_setBit17 _ _ _ _ _ (by omega)]
      · rfl
    refine ⟨?_, ?_, ?_, ?_, ?_, ?_, fun j hj => (w7 j hj).trans (hout j hj)⟩
    · intro i hi hk
      rw [w1 i hi]
      · rw [hslot0, if_neg]
        have := hk 0 (by simp)
        simp only [hP0] at this
        omega
      · intro k hk'
        have := hk (k + 1) (by simp; omega)
        simp only [htail] at this
        exact this
    · intro k hk
      cases k with
      | zero =>
        simp only [hP0, List.getD_cons_zero]
        rw [w1 _ (by omega), hslot0, if_pos rfl]
        intro k hk'
        have := hlt k hk'
        omega
      | succ k =>
        simp only [htail, List.getD_cons_succ]
        apply w2
        simpa using hk
    · intro q hq'
      rw [w3 q hq', occ_setSlot (by omega) hs1 hv _ hq', occ_setBit1]
      have hoc : occ (if x / 2 ^ s ≠ old then setBit m 17 p.toNat else m) q = occ m q := by
        split_ifs
        · rw [occ_setBit17 _ _ _ hq']
        · rfl
      rw [hoc]
      simp only [Bool.or_eq_true, decide_eq_true_eq]
      constructor
      · rintro ((h | h) | ⟨k, h1, h2⟩)
        · exact Or.inl h
        · exact Or.inr ⟨0, by simp, by simp [h]⟩
        · exact Or.inr ⟨k + 1, by simp; omega, by simpa using h2⟩
      · rintro (h | ⟨k, h1, h2⟩)
        · exact Or.inl (Or.inl h)
        · cases k with
          | zero => left; right; simpa using h2.symm
          | succ k => right; exact ⟨k, by simpa using h1, by simpa using h2⟩
    · intro i hi
      rw [w4 i hi, rend_setSlot (by omega) hs1 hv _ hi, rend_setBit1 _ _ _ hx]
      have hrd : rend (if x / 2 ^ s ≠ old then setBit m 17 p.toNat else m) i = true ↔
          rend m i = true ∨ (p = i ∧ x / 2 ^ s ≠ old) := by
        split_ifs with hc
        · rw [rend_setBit17]
          simp only [Bool.or_eq_true, decide_eq_true_eq]
          constructor
          · rintro (h | h)
            · exact Or.inl h
            · exact Or.inr ⟨by omega, hc⟩
          · rintro (h | h)
            · exact Or.inl h
            · exact Or.inr (by omega)
        · simp [hc]
      rw [hrd]
      simp only [List.length_cons, List.getD_cons_zero, Nat.add_eq_zero_iff, Nat.one_ne_zero, and_false, false_or]
      constructor
      · rintro ((h | h) | h | ⟨k, h1, h2, h3⟩)
        · exact Or.inl h
        · exact Or.inr (Or.inl h)
        · refine Or.inr (Or.inr ⟨0, by omega, hP0.trans h.1, ?_⟩)
          simp only [List.getD_cons_succ, List.getD_cons_zero]
          rcases h.2 with h4 | h4
          · left; omega
          · right; simpa using h4
        · refine Or.inr (Or.inr ⟨k + 1, by omega, ?_, ?_⟩)
          · simp only [htail]; exact h2
          · simp only [List.getD_cons_succ]
            rcases h3 with h3 | h3
            · left; omega
            · right; exact h3
      · rintro (h | h | ⟨k, h1, h2, h3⟩)
        · exact Or.inl (Or.inl h)
        · exact Or.inl (Or.inr h)
        · cases k with
          | zero =>
            right; left
            simp only [hP0] at h2
            simp only [List.getD_cons_succ, List.getD_cons_zero] at h3
            refine ⟨h2, ?_⟩
            rcases h3 with h3 | h3
            · left; omega
            · right; exact h3
          | succ k =>
            right; right
            simp only [htail] at h2
            simp only [List.getD_cons_succ] at h3
            refine ⟨k, by omega, h2, ?_⟩
            rcases h3 with h3 | h3
            · left; omega
            · right; exact h3
    · rw [w5, pop0_setSlot (by omega) hs1 hv, pop0_setBit _ _ _ (by decide)]
      split_ifs
      · exact pop0_setBit _ _ _ (by decide)
      · rfl
    · rw [w6, pop1_setSlot (by omega) hs1 hv, pop1_setBit _ _ _ (by decide)]
      split_ifs
      · exact pop1_setBit _ _ _ (by decide)
      · rfl

end

end Verif
