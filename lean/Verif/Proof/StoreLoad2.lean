import Verif.Proof.StoreLoad

/-!
# LoadListToInfixStore: layout and counters
-/

namespace Verif

section
variable {n s T L : Nat} {mp pos A X : Nat → Nat}

/-- Layout with item `X k` in slot `pos k`. -/
def layOf (L : Nat) (pos X : Nat → Nat) (i : Nat) : Option Nat :=
  ((List.range L).find? fun k => decide (pos k = i)).map X

theorem pos_mono (h1 : ∀ k, k < L → pos k < pos (k + 1)) {a b : Nat} (hab : a < b) (hb : b ≤ L) :
    pos a < pos b := by
  induction b with
  | zero => omega
  | succ b ih =>
    rcases Nat.lt_or_ge a b with h | h
    · exact Nat.lt_trans (ih h (by omega)) (h1 b (by omega))
    · rw [show a = b by omega]; exact h1 b (by omega)

theorem pos_inj (h1 : ∀ k, k < L → pos k < pos (k + 1)) {a b : Nat} (ha : a ≤ L) (hb : b ≤ L)
    (h : pos a = pos b) : a = b := by
  rcases Nat.lt_trichotomy a b with h2 | h2 | h2
  · have := pos_mono h1 h2 hb; omega
  · exact h2
  · have := pos_mono h1 h2 ha; omega

theorem layOf_some (h1 : ∀ k, k < L → pos k < pos (k + 1)) {i y : Nat} :
    layOf L pos X i = some y ↔ ∃ k, k < L ∧ pos k = i ∧ X k = y := by
  unfold layOf
  constructor
  · intro h
    rw [Option.map_eq_some_iff] at h
    obtain ⟨k, hk, hy⟩ := h
    have h2 := List.mem_of_find?_eq_some hk
    have h3 := List.find?_some hk
    exact ⟨k, by simpa using h2, by simpa using h3, hy⟩
  · rintro ⟨k, hk, hp, hy⟩
    have : ∃ k', (List.range L).find? (fun k => decide (pos k = i)) = some k' := by
      cases hf : (List.range L).find? (fun k => decide (pos k = i)) with
      | some k' => exact ⟨k', rfl⟩
      | none =>
        rw [List.find?_eq_none] at hf
        have := hf k (by simpa using hk)
        simp [hp] at this
    obtain ⟨k', hk'⟩ := this
    rw [hk']
    have h2 := List.mem_of_find?_eq_some hk'
    have h3 := List.find?_some hk'
    simp only [List.mem_range, decide_eq_true_eq] at h2 h3
    have := pos_inj h1 (show k ≤ L by omega) (show k' ≤ L by omega) (by omega)
    subst this
    simp [hy]

theorem layOf_filled (h1 : ∀ k, k < L → pos k < pos (k + 1)) {i : Nat} :
    layOf L pos X i ≠ none ↔ ∃ k, k < L ∧ pos k = i := by
  constructor
  · intro h
    cases h2 : layOf L pos X i with
    | none => exact absurd h2 h
    | some y =>
      obtain ⟨k, a, b, _⟩ := (layOf_some h1).1 h2
      exact ⟨k, a, b⟩
  · rintro ⟨k, a, b⟩
    rw [(layOf_some h1).2 ⟨k, a, b, rfl⟩]; simp

/-- The slots computed by the two passes give a well-formed layout. -/
theorem layOf_wf (h1 : ∀ k, k < L → pos k < pos (k + 1)) (h2 : pos L = n)
    (h3 : ∀ k, k < L → pos k ≤ A k) (h4 : ∀ k, k < L → pos k = A k ∨ pos k + 1 = pos (k + 1))
    (h5 : ∀ k, k + 1 < L → A (k + 1) = max (A k + 1) (mp (X (k + 1) / 2 ^ s)))
    (h6 : 0 < L → A 0 = mp (X 0 / 2 ^ s))
    (hmono : ∀ a b, a ≤ b → b < T → mp a ≤ mp b)
    (hitem : ∀ k, k < L → X k % 2 ^ s ≠ 0 ∧ X k / 2 ^ s < T) (hs2 : s ≤ 46) (hT : T ≤ 1024)
    (hsort : ∀ k j, k < j → j < L → ile (X k) (X j)) :
    LayWF n s T mp (layOf L pos X) := by
  have hquot : ∀ k j, k ≤ j → j < L → X k / 2 ^ s ≤ X j / 2 ^ s := by
    intro k j hkj hj
    rcases Nat.eq_or_lt_of_le hkj with h | h
    · rw [h]
    · obtain ⟨a1, a2⟩ := hitem k (by omega)
      obtain ⟨b1, b2⟩ := hitem j hj
      exact ile_quot a1 b1 (item_lt hs2 hT a2) (item_lt hs2 hT b2) (hsort k j h hj)
  have hA : ∀ k, k < L → mp (X k / 2 ^ s) ≤ A k := by
    intro k hk
    cases k with
    | zero => rw [h6 hk]
    | succ k => rw [h5 k hk]; omega
  refine ⟨?_, ?_, ?_, ?_, ?_⟩
  · intro i x hi hx
    obtain ⟨k, hk, _, rfl⟩ := (layOf_some h1).1 hx
    exact hitem k hk
  · intro i j x y hij hj hx hy
    obtain ⟨a, ha, hpa, rfl⟩ := (layOf_some h1).1 hx
    obtain ⟨b, hb, hpb, rfl⟩ := (layOf_some h1).1 hy
    apply hsort a b _ hb
    by_contra hc
    rcases Nat.eq_or_lt_of_le (Nat.le_of_not_lt hc) with h | h
    · subst h; omega
    · have := pos_mono h1 h (by omega); omega
  · intro i j t x y hit htj hj hx hy hxy
    obtain ⟨a, ha, hpa, rfl⟩ := (layOf_some h1).1 hx
    obtain ⟨b, hb, hpb, rfl⟩ := (layOf_some h1).1 hy
    have hab : a < b := by
      by_contra hc
      rcases Nat.eq_or_lt_of_le (Nat.le_of_not_lt hc) with h | h
      · subst h; omega
      · have := pos_mono h1 h (by omega); omega
    have hstep : ∀ k, a ≤ k → k < b → pos (k + 1) = pos k + 1 := by
      intro k hak hkb
      have q1 := hquot a k hak (by omega)
      have q2 := hquot k (k + 1) (by omega) (by omega)
      have q3 := hquot (k + 1) b (by omega) hb
      have hq : X (k + 1) / 2 ^ s = X k / 2 ^ s := by omega
      have e5 := h5 k (by omega)
      rw [hq] at e5
      have := hA k (by omega)
      have := h3 (k + 1) (by omega)
      have := h1 k (by omega)
      rcases h4 k (by omega) with h | h <;> omega
    have hlin : ∀ d, a + d ≤ b → pos (a + d) = pos a + d := by
      intro d
      induction d with
      | zero => intro _; rfl
      | succ d ih =>
        intro hd
        have := hstep (a + d) (by omega) (by omega)
        have := ih (by omega)
        rw [show a + (d + 1) = a + d + 1 by omega]; omega
    rw [layOf_filled h1]
    have hb' := hlin (b - a) (by omega)
    rw [show a + (b - a) = b by omega] at hb'
    exact ⟨a + (t - pos a), by omega, by rw [hlin _ (by omega)]; omega⟩
  · intro i t x hi hx
    obtain ⟨k, hk, hpk, rfl⟩ := (layOf_some h1).1 hx
    intro ht1 ht2
    rw [layOf_filled h1]
    clear hx hi
    induction k generalizing i with
    | zero =>
      have := h3 0 hk
      have := h6 hk
      omega
    | succ k ih =>
      have a1 := h3 (k + 1) hk
      have a2 := h5 k hk
      have a3 := h1 k (by omega)
      have a4 : pos k + 1 = pos (k + 1) := by
        rcases h4 k (by omega) with h | h
        · omega
        · exact h
      by_cases ht : t = pos k
      · exact ⟨k, by omega, ht.symm⟩
      · have hm := hmono _ _ (hquot k (k + 1) (by omega) hk) (hitem (k + 1) hk).2
        exact ih (pos k) (by omega) rfl (by omega) (by omega)
  · intro i t x hi hx hlt ht1 ht2
    obtain ⟨k, hk, hpk, rfl⟩ := (layOf_some h1).1 hx
    rw [layOf_filled h1]
    have hAk := hA k hk
    have key : ∀ d k, k + d = L → k < L → pos k < A k → pos k ≤ t → ∃ k, k < L ∧ pos k = t := by
      intro d
      induction d with
      | zero => intro k h hk; omega
      | succ d ih =>
        intro k hd hk hlt htk
        have b1 : pos k + 1 = pos (k + 1) := by
          rcases h4 k hk with h | h
          · omega
          · exact h
        by_cases ht : t = pos k
        · exact ⟨k, hk, ht.symm⟩
        · by_cases hL : k + 1 = L
          · rw [hL, h2] at b1; omega
          · have := h5 k (by omega)
            exact ih (k + 1) (by omega) (by omega) (by omega) (by omega)
    exact key (L - k) k (by omega) hk (by omega) (by omega)

theorem filterMap_layOf (h1 : ∀ k, k < L → pos k < pos (k + 1)) : ∀ K, K ≤ L → ∀ N, pos K ≤ N →
    (∀ t, t < N → pos K ≤ t → layOf K pos X t = none) →
    (List.range N).filterMap (layOf K pos X) = (List.range K).map X := by
  intro K
  induction K with
  | zero =>
    intro _ N hN _
    rw [List.filterMap_eq_nil_iff.2]
    · rfl
    · intro a _; rfl
  | succ K ih =>
    intro hK N hN hnone
    have hlt := h1 K (by omega)
    have h1' : ∀ k, k < K + 1 → pos k < pos (k + 1) := fun k hk => h1 k (by omega)
    have h1'' : ∀ k, k < K → pos k < pos (k + 1) := fun k hk => h1 k (by omega)
    have e : N = pos K + (1 + (N - pos K - 1)) := by omega
    rw [e, List.range_eq_range', ← List.range'_append_1, ← List.range'_append_1, List.filterMap_append,
      List.filterMap_append, List.range_succ, List.map_append]
    have p1 : (List.range' 0 (pos K)).filterMap (layOf (K + 1) pos X) = (List.range K).map X := by
      rw [← ih (by omega) (pos K) (Nat.le_refl _) (fun t a b => by omega), List.range_eq_range']
      apply List.filterMap_congr
      intro t ht
      have ht' : t < pos K := by
        have := List.mem_range'_1.1 ht; omega
      cases h : layOf K pos X t with
      | some y =>
        obtain ⟨k, a, b, c⟩ := (layOf_some h1'').1 h
        exact (layOf_some h1').2 ⟨k, by omega, b, c⟩
      | none =>
        by_contra hc
        obtain ⟨k, a, b⟩ := (layOf_filled h1').1 hc
        have : k ≠ K := by rintro rfl; omega
        exact (layOf_filled h1'').2 ⟨k, by omega, b⟩ h
    have p2 : (List.range' (0 + pos K) 1).filterMap (layOf (K + 1) pos X) = [X K] := by
      rw [Nat.zero_add, List.range'_one, List.filterMap_cons,
        (layOf_some h1').2 ⟨K, by omega, rfl, rfl⟩]
      rfl
    have p3 : (List.range' (0 + pos K + 1) (N - pos K - 1)).filterMap (layOf (K + 1) pos X) = [] := by
      rw [List.filterMap_eq_nil_iff]
      intro t ht
      have ht' := List.mem_range'_1.1 ht
      by_contra hc
      obtain ⟨k, a, b⟩ := (layOf_filled h1').1 hc
      rcases Nat.eq_or_lt_of_le (show k ≤ K by omega) with h | h
      · subst h; omega
      · have := pos_mono h1 h (by omega); omega
    rw [p1, p2, p3]
    simp

/-- A block whose used bits are all zero. -/
structure Blank (m n s : Nat) : Prop where
  pop0 : Verif.pop0 m = 0
  pop1 : Verif.pop1 m = 0
  occ : ∀ q, q < 1024 → Verif.occ m q = false
  rend : ∀ i, i < n → Verif.rend m i = false
  slot : ∀ i, i < n → slotv m n s i = 0

theorem blank_zero (n s : Nat) : Blank 0 n s := by
  refine ⟨?_, ?_, ?_, ?_, ?_⟩
  · simp [Verif.pop0, readBits]
  · simp [Verif.pop1, readBits]
  · intro q _; simp [Verif.occ]
  · intro q _; simp [Verif.rend]
  · intro q _; simp [slotv, readBits]

theorem runendPop_eq (m n : Nat) : ∀ k i, runendPop m n i k = cnt (fun j => rend m (64 * i + j)) (min (64 * k) (n - 64 * i)) := by
  intro k
  induction k with
  | zero => intro i; simp [runendPop, cnt]
  | succ k ih =>
    intro i
    rw [runendPop, ih]
    by_cases h : 64 * i < n
    · rw [if_pos h]
      have e1 : popcount (getW m (17 + i) &&& bitmask (min 64 (n - i * 64))) =
          cnt (fun j => rend m (64 * i + j)) (min 64 (n - 64 * i)) := by
        have := bitRank_eq (getW m (17 + i)) (min 64 (n - i * 64)) (by omega)
        rw [bitRank] at this
        rw [this, Nat.mul_comm i 64]
        apply cnt_congr
        intro j hj
        rw [testBit_getW, rend, show 64 * (17 + i) + j = 1088 + (64 * i + j) by omega]
        simp [show j < 64 by omega]
      rw [e1]
      by_cases h2 : n - 64 * i ≤ 64
      · rw [show n - 64 * (i + 1) = 0 by omega, show min 64 (n - 64 * i) = min (64 * (k + 1)) (n - 64 * i) by omega]
        simp [cnt]
      · rw [show min 64 (n - 64 * i) = 64 by omega,
          show min (64 * (k + 1)) (n - 64 * i) = 64 + min (64 * k) (n - 64 * (i + 1)) by omega, cnt_add]
        congr 1
        apply cnt_congr
        intro j _
        congr 1; omega
    · rw [if_neg h, show n - 64 * (i + 1) = 0 by omega, show n - 64 * i = 0 by omega]
      simp [cnt]

/-- Assemble the representation of the loaded layout. -/
theorem load_rep {m m1 old : Nat} {p : Int} {list : List Nat} {P : Nat → Int}
    (hb : Blank m n s) (W : Written n s m old p list P m1) (hold : 0 < list.length ∧ list.getD 0 0 / 2 ^ s = old)
    (hP : ∀ k, k < list.length → 0 ≤ P k ∧ P k < n)
    (h1 : ∀ k, k < list.length → (P k).toNat < (P (k + 1)).toNat)
    (hquot : ∀ k j, k ≤ j → j < list.length → list.getD k 0 / 2 ^ s ≤ list.getD j 0 / 2 ^ s) :
    Rep (addPop1 (addPop0 m1 (popSum m1 1 0 8)) (runendPop (addPop0 m1 (popSum m1 1 0 8)) n 0 8)) n s
      (layOf list.length (fun k => (P k).toNat) (fun k => list.getD k 0)) := by
  have h1' : ∀ k, k < list.length → (fun k => (P k).toNat) k < (fun k => (P k).toNat) (k + 1) := h1
  generalize hm2 : addPop0 m1 (popSum m1 1 0 8) = m2
  generalize hm3 : addPop1 m2 (runendPop m2 n 0 8) = m3
  have ho : ∀ q, occ m3 q = occ m1 q := by
    intro q; rw [← hm3, ← hm2]; simp only [addPop0, addPop1, occ_setPop0, occ_setPop1]
  have hr : ∀ q, rend m3 q = rend m1 q := by
    intro q; rw [← hm3, ← hm2]; simp only [addPop0, addPop1, rend_setPop0, rend_setPop1]
  have hr2 : ∀ q, rend m2 q = rend m1 q := by
    intro q; rw [← hm2]; simp only [addPop0, rend_setPop0]
  have hsl : ∀ q, slotv m3 n s q = slotv m1 n s q := by
    intro q; rw [← hm3, ← hm2]; simp only [addPop0, addPop1, slotv_setPop0, slotv_setPop1]
  refine ⟨?_, ?_, ?_, ?_, ?_⟩
  · intro i hi
    rw [hsl]
    cases h : layOf list.length (fun k => (P k).toNat) (fun k => list.getD k 0) i with
    | some y =>
      obtain ⟨k, hk, hpk, rfl⟩ := (layOf_some h1').1 h
      rw [← hpk, W.slot k hk]; rfl
    | none =>
      rw [W.frame i hi, hb.slot i hi]
      · rfl
      · intro k hk hc
        exact (layOf_filled h1').2 ⟨k, hk, by omega⟩ h
  · intro q hq
    rw [ho, W.occ q hq, hb.occ q hq]
    simp only [Bool.false_eq_true, false_or]
    constructor
    · rintro ⟨k, hk, hkq⟩
      exact ⟨(P k).toNat, list.getD k 0, by have := hP k hk; omega, (layOf_some h1').2 ⟨k, hk, rfl, rfl⟩, hkq⟩
    · rintro ⟨i, x, hi, hx, hxq⟩
      obtain ⟨k, hk, hpk, rfl⟩ := (layOf_some h1').1 hx
      exact ⟨k, hk, hxq⟩
  · intro i hi
    rw [hr, W.rend i hi, hb.rend i hi]
    constructor
    · rintro (h | ⟨_, h | h⟩ | ⟨k, hk, hpk, hl⟩)
      · simp at h
      · omega
      · exact absurd hold.2 h
      · refine ⟨list.getD k 0, (layOf_some h1').2 ⟨k, hk, by omega, rfl⟩, ?_⟩
        intro j y hij hj hy
        obtain ⟨k', hk', hpk', rfl⟩ := (layOf_some h1').1 hy
        have hkk' : k < k' := by
          by_contra hc
          rcases Nat.eq_or_lt_of_le (Nat.le_of_not_lt hc) with h | h
          · subst h; omega
          · have := pos_mono h1' h (by omega)
            omega
        rcases hl with hl | hl
        · omega
        · have a1 := hquot k (k + 1) (by omega) (by omega)
          have a2 := hquot (k + 1) k' (by omega) hk'
          omega
    · rintro ⟨x, hx, hlast⟩
      obtain ⟨k, hk, hpk, rfl⟩ := (layOf_some h1').1 hx
      right; right
      refine ⟨k, hk, by have := hP k hk; omega, ?_⟩
      by_cases hkL : k + 1 = list.length
      · exact Or.inl hkL
      · right
        have hk1 : k + 1 < list.length := by omega
        have := h1 k hk
        exact hlast (P (k + 1)).toNat _ (by omega) (by have := hP (k + 1) hk1; omega)
          ((layOf_some h1').2 ⟨k + 1, hk1, rfl, rfl⟩)
  · have hle := cnt_le (occ m1) 512
    have e : popSum m1 1 0 8 = cnt (occ m1) 512 := by
      rw [popSum_eq]
      apply cnt_congr
      intro j _; rfl
    have e2 : pop0 m3 = cnt (occ m1) 512 := by
      rw [← hm3, ← hm2]
      simp only [addPop0, addPop1, pop0_setPop1]
      rw [pop0_setPop0 _ _ (add32_lt _ _), W.pop0, hb.pop0, e, add32_small (by omega)]
      omega
    rw [e2]
    apply cnt_congr
    intro i _; rw [ho]
  · have hle := cnt_le (rend m2) (min 512 n)
    have e : runendPop m2 n 0 8 = cnt (rend m2) (min 512 n) := by
      rw [runendPop_eq]
      simp
    have e2 : pop1 m3 = cnt (rend m2) (min 512 n) := by
      rw [← hm3]
      simp only [addPop1]
      rw [pop1_setPop1 _ _ (add32_lt _ _), e, ← hm2]
      simp only [addPop0, pop1_setPop0]
      rw [W.pop1, hb.pop1]
      have e3 : cnt (rend (setPop0 m1 (add32 (pop0 m1) (popSum m1 1 0 8)))) (min 512 n) ≤ min 512 n := cnt_le _ _
      rw [add32_small (by omega)]
      omega
    rw [e2]
    apply cnt_congr
    intro i _; rw [hr, hr2]

theorem setElemCount_fields {st : Store} {n : Nat} (hst : st.status < 2 ^ 32) (hn : n < 2 ^ 20) :
    (st.setElemCount n).elemCount = n ∧ (st.setElemCount n).sizeGrade = st.sizeGrade ∧
    (st.setElemCount n).status < 2 ^ 32 ∧ (st.setElemCount n).invalidBits = st.invalidBits ∧
    (st.setElemCount n).isPartial = st.isPartial := by
  have e := setElemCount_status hst hn
  simp only [elemCount_eq, sizeGrade_eq, invalidBits_eq, isPartial_eq, e] at *
  refine ⟨by omega, by omega, by omega, by omega, ?_⟩
  congr 1
  rw [show (st.status / 2 ^ 20 * 2 ^ 20 + n) / 2 ^ 31 = st.status / 2 ^ 31 by omega]

/-- A list that can be loaded: sorted items with quotients below `T`. -/
structure Loadable (s T : Nat) (list : List Nat) : Prop where
  sorted : list.Pairwise ile
  item : ∀ x ∈ list, x % 2 ^ s ≠ 0 ∧ x / 2 ^ s < T

/-- The block after `LoadListToInfixStore` represents the list. -/
theorem loadMem_spec {m : Nat} {x0 : Nat} {xs : List Nat} (hs1 : 1 ≤ s) (hs2 : s ≤ 46) (hT : T ≤ 1024)
    (hb : Blank m n s) (hl : Loadable s T (x0 :: xs)) (hlen : (x0 :: xs).length ≤ n)
    (_hhome : ∀ q, mp q < n) (hmono : ∀ a b, a ≤ b → b < T → mp a ≤ mp b) :
    ∃ lay, LayWF n s T mp lay ∧ content n lay = x0 :: xs ∧
      ∃ m1, m1 = loadWrite n s m (loadBackward n (loadForward s mp (x0 / 2 ^ s) (mp (x0 / 2 ^ s)) (mp (x0 / 2 ^ s))
        (x0 :: xs))) (x0 :: xs) ∧
      Rep (addPop1 (addPop0 m1 (popSum m1 1 0 8)) (runendPop (addPop0 m1 (popSum m1 1 0 8)) n 0 8)) n s lay ∧
      Outside n s m (addPop1 (addPop0 m1 (popSum m1 1 0 8)) (runendPop (addPop0 m1 (popSum m1 1 0 8)) n 0 8)) := by
  generalize hlist : x0 :: xs = list at *
  have hlpos : 0 < list.length := by rw [← hlist]; simp
  have hx0 : list.getD 0 0 = x0 := by rw [← hlist]; rfl
  have hget : ∀ k, k < list.length → list.getD k 0 ∈ list := by
    intro k hk
    rw [List.getD_eq_getElem?_getD, List.getElem?_eq_getElem hk]
    exact List.getElem_mem hk
  have hitem : ∀ k, k < list.length → list.getD k 0 % 2 ^ s ≠ 0 ∧ list.getD k 0 / 2 ^ s < T :=
    fun k hk => hl.item _ (hget k hk)
  have hsort : ∀ k j, k < j → j < list.length → ile (list.getD k 0) (list.getD j 0) := by
    intro k j hkj hj
    have := List.pairwise_iff_getElem.1 hl.sorted k j (by omega) hj hkj
    rw [List.getD_eq_getElem?_getD, List.getElem?_eq_getElem (show k < list.length by omega),
      List.getD_eq_getElem?_getD, List.getElem?_eq_getElem hj]
    exact this
  have hquot : ∀ k j, k ≤ j → j < list.length → list.getD k 0 / 2 ^ s ≤ list.getD j 0 / 2 ^ s := by
    intro k j hkj hj
    rcases Nat.eq_or_lt_of_le hkj with h | h
    · rw [h]
    · obtain ⟨a1, a2⟩ := hitem k (by omega)
      obtain ⟨b1, b2⟩ := hitem j hj
      exact ile_quot a1 b1 (item_lt hs2 hT a2) (item_lt hs2 hT b2) (hsort k j h hj)
  generalize hr : (mp (x0 / 2 ^ s) : Int) = r
  -- positions
  have hA0 : (fwdI s mp r list).getD 0 0 = r := by
    rw [fwdI_zero _ _ hlpos, hx0]; omega
  have hrec := placeI_rec (n := n) (s := s) (mp := mp) list r
  have hfwd := fwdI_rec (s := s) (mp := mp) list r
  have hend := placeI_end (n := n) (s := s) (mp := mp) list r
  have hAk : ∀ k, k < list.length → (k : Int) ≤ (fwdI s mp r list).getD k 0 := by
    intro k
    induction k with
    | zero => intro _; rw [hA0]; omega
    | succ k ih =>
      intro hk
      have := ih (by omega)
      rw [hfwd k hk]; push_cast; omega
  have hPk : ∀ d k, k + d = list.length → (k : Int) ≤ (placeI n s mp r list).getD k n ∧
      (placeI n s mp r list).getD k n + d ≤ n := by
    intro d
    induction d with
    | zero => intro k hk; rw [show k = list.length by omega, hend]; omega
    | succ d ih =>
      intro k hk
      have h1 := ih (k + 1) (by omega)
      have h2 := hAk k (by omega)
      rw [hrec k (by omega)]
      push_cast at *
      omega
  have hP : ∀ k, k < list.length → 0 ≤ (placeI n s mp r list).getD k n ∧ (placeI n s mp r list).getD k n < n := by
    intro k hk
    have := hPk (list.length - k) k (by omega)
    omega
  have h1 : ∀ k, k < list.length → ((placeI n s mp r list).getD k n).toNat < ((placeI n s mp r list).getD (k + 1) n).toNat := by
    intro k hk
    have a1 := hrec k hk
    have a2 := hP k hk
    omega
  obtain ⟨e, R, hB, hW⟩ := loadRuns (n := n) (mp := mp) (show s ≤ 64 by omega) list (x0 / 2 ^ s) r r (by omega)
    (Int.le_refl _) (by omega) (by omega)
  have hW' := hW m [] (by simp)
  rw [List.nil_append] at hW'
  have W := wrI_spec (n := n) (mp := mp) hs1 hs2 list (x0 / 2 ^ s)
    (r + min 0 ((placeI n s mp r list).headD n - r) - 1) r m (fun k hk => by have := (hitem k hk).2; omega)
  -- the previous-slot argument is not used because the first item continues the initial run
  have Wfix : wrI n s mp (x0 / 2 ^ s) (r + min 0 ((placeI n s mp r list).headD n - r) - 1) r list m =
      wrI n s mp (x0 / 2 ^ s) 0 r list m := by
    rw [← hlist, wrI, wrI]; simp
  have W := wrI_spec (n := n) (mp := mp) hs1 hs2 list (x0 / 2 ^ s) 0 r m
    (fun k hk => by have := (hitem k hk).2; omega) (Int.le_refl _) (by omega) hP
  refine ⟨layOf list.length (fun k => ((placeI n s mp r list).getD k n).toNat) (fun k => list.getD k 0), ?_, ?_, _, rfl, ?_⟩
  · apply layOf_wf (A := fun k => ((fwdI s mp r list).getD k 0).toNat) h1
    · show ((placeI n s mp r list).getD list.length n).toNat = n
      rw [hend]; simp
    · intro k hk
      have := hrec k hk
      have := hP k hk
      omega
    · intro k hk
      have := hrec k hk
      have := hP k hk
      have := hPk (list.length - (k + 1)) (k + 1) (by omega)
      have := hAk k hk
      omega
    · intro k hk
      have := hfwd k hk
      have := hAk k (by omega)
      omega
    · intro _
      simp only [hA0, hx0]; omega
    · exact hmono
    · exact hitem
    · exact hs2
    · exact hT
    · exact hsort
  · unfold content
    rw [filterMap_layOf h1 list.length (Nat.le_refl _) n (by rw [hend]; simp)]
    · apply List.ext_getElem
      · simp
      · intro i h1 h2
        simp only [List.getElem_map, List.getElem_range]
        rw [List.getD_eq_getElem?_getD, List.getElem?_eq_getElem h2]; rfl
    · intro t ht hge
      rw [hend] at hge
      simp at hge; omega
  · rw [hB, hW']
    simp only [List.length_nil, loadWriteRun]
    rw [Wfix]
    exact ⟨load_rep hb W ⟨hlpos, by rw [hx0]⟩ hP h1 hquot, out_addPop1 (out_addPop0 W.out)⟩

end

/-- `LoadListToInfixStore` into a blank block, or with `zero_out`. -/
theorem loadList_spec {c : Cfg} (h : c.WF) {T : Nat} {st : Store} {list : List Nat} {z : Bool} (hT : T ≤ 1024)
    (hst : st.status < 2 ^ 32) (hfine : c.Fine st.sizeGrade) (hb : z = true ∨ Blank st.mem (c.size st.sizeGrade) c.infixSize)
    (hl : Loadable c.infixSize T list) (hlen : list.length ≤ c.size st.sizeGrade) (hcnt : list.length < 2 ^ 20) :
    (loadList c st list T z).sizeGrade = st.sizeGrade ∧
    (loadList c st list T z).invalidBits = st.invalidBits ∧
    (loadList c st list T z).isPartial = st.isPartial ∧
    ∃ lay, StoreInv c T (loadList c st list T z) lay ∧ content (c.size st.sizeGrade) lay = list := by
  have hb' : Blank (if z then 0 else st.mem) (c.size st.sizeGrade) c.infixSize := by
    rcases hb with hb | hb
    · rw [hb]; exact blank_zero _ _
    · cases z
      · exact hb
      · exact blank_zero _ _
  obtain ⟨f1, f2, f3, f4, f5⟩ := setElemCount_fields (st := ⟨st.status, if z then 0 else st.mem⟩) hst hcnt
  cases list with
  | nil =>
    refine ⟨f2, f4, f5, fun _ => none, ?_, by simp [content]⟩
    have e : (loadList c st [] T z).sizeGrade = st.sizeGrade := f2
    refine ⟨?_, ?_, ?_, f3, by rw [e]; exact hfine⟩
    · refine ⟨?_, ?_, ?_, ?_, ?_⟩ <;> intros <;> simp_all
    · rw [e]
      change Rep (if z then 0 else st.mem) _ _ _
      refine ⟨?_, ?_, ?_, ?_, ?_⟩
      · intro i hi; rw [hb'.slot i hi]; rfl
      · intro q hq; rw [hb'.occ q hq]; simp
      · intro i hi; rw [hb'.rend i hi]; simp
      · rw [hb'.pop0, cnt_zero_of]; intro i hi; exact hb'.occ i (by omega)
      · rw [hb'.pop1, cnt_zero_of]; intro i hi; exact hb'.rend i (by omega)
    · rw [show (loadList c st [] T z).elemCount = 0 from f1, cnt_zero_of]
      intro i _; rfl
  | cons x0 xs =>
    obtain ⟨lay, wf, hc, m1, hm1, hrep, _⟩ := loadMem_spec (mp := homeSlot c st.sizeGrade T) h.s1 h.s2 hT hb' hl hlen
      (homeSlot_lt h hfine) (fun a b hab hb => homeSlot_mono h hfine hT hab hb)
    have e : loadList c st (x0 :: xs) T z = ⟨(Store.setElemCount ⟨st.status, if z then 0 else st.mem⟩ (x0 :: xs).length).status,
        addPop1 (addPop0 m1 (popSum m1 1 0 8)) (runendPop (addPop0 m1 (popSum m1 1 0 8)) (c.size st.sizeGrade) 0 8)⟩ := by
      rw [hm1]
      have := setElemCount_mem ⟨st.status, if z then 0 else st.mem⟩ (x0 :: xs).length
      unfold loadList
      dsimp only
      rw [Nat.shiftRight_eq_div_pow, this]
      rfl
    generalize hm3 : addPop1 (addPop0 m1 (popSum m1 1 0 8)) (runendPop (addPop0 m1 (popSum m1 1 0 8)) (c.size st.sizeGrade) 0 8) = m3 at *
    have g1 : (loadList c st (x0 :: xs) T z).sizeGrade = st.sizeGrade := by rw [e]; exact f2
    refine ⟨g1, by rw [e]; exact f4, by rw [e]; exact f5, lay, ⟨?_, ?_, ?_, by rw [e]; exact f3, by rw [g1]; exact hfine⟩, hc⟩
    · rw [g1]; exact wf
    · rw [g1, e]; exact hrep
    · rw [g1, cnt_content, hc, e]; exact f1

/-- Loading writes only to the block. -/
theorem loadList_out {c : Cfg} (h : c.WF) {T : Nat} {st : Store} {list : List Nat} {z : Bool} (hT : T ≤ 1024)
    (hfine : c.Fine st.sizeGrade) (hb : z = true ∨ Blank st.mem (c.size st.sizeGrade) c.infixSize)
    (hl : Loadable c.infixSize T list) (hlen : list.length ≤ c.size st.sizeGrade) :
    Outside (c.size st.sizeGrade) c.infixSize (if z then 0 else st.mem) (loadList c st list T z).mem := by
  have hb' : Blank (if z then 0 else st.mem) (c.size st.sizeGrade) c.infixSize := by
    rcases hb with hb | hb
    · rw [hb]; exact blank_zero _ _
    · cases z
      · exact hb
      · exact blank_zero _ _
  cases list with
  | nil =>
    have := setElemCount_mem ⟨st.status, if z then 0 else st.mem⟩ 0
    unfold loadList
    dsimp only [List.length_nil]
    rw [this]
    exact outside_refl _ _ _
  | cons x0 xs =>
    obtain ⟨lay, wf, hc, m1, hm1, _, hout⟩ := loadMem_spec (mp := homeSlot c st.sizeGrade T) h.s1 h.s2 hT hb' hl hlen
      (homeSlot_lt h hfine) (fun a b hab hb => homeSlot_mono h hfine hT hab hb)
    have := setElemCount_mem ⟨st.status, if z then 0 else st.mem⟩ (x0 :: xs).length
    unfold loadList
    dsimp only
    rw [Nat.shiftRight_eq_div_pow, this]
    rw [hm1] at hout
    exact hout

end Verif
