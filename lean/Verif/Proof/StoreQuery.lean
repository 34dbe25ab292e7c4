import Verif.Proof.Layout
import Verif.Spec.Cap

/-!
# Point and range queries on one region
-/

namespace Verif

/-- Item `x` stands for an interval that contains `k`. -/
def Covers (x k : Nat) : Prop := nolb64 x ≤ k ∧ k < x + lb64 x

/-- Item `x` stands for an interval that meets `[l, r]`. -/
def Meets (x l r : Nat) : Prop := nolb64 x ≤ r ∧ l < x + lb64 x

instance (x k : Nat) : Decidable (Covers x k) := by unfold Covers; infer_instance
instance (x l r : Nat) : Decidable (Meets x l r) := by unfold Meets; infer_instance

theorem or_mask_eq_iff (e v t : Nat) : e ||| (2 ^ t - 1) = v ||| (2 ^ t - 1) ↔ e / 2 ^ t = v / 2 ^ t := by
  constructor
  · intro h
    apply testBit_ext; intro i
    have := congrArg (fun z => z.testBit (t + i)) h
    simp only [Nat.testBit_or, Nat.testBit_two_pow_sub_one] at this
    have hlt : ¬ t + i < t := by omega
    simp only [hlt, decide_false, Bool.or_false] at this
    rw [← Nat.shiftRight_eq_div_pow, ← Nat.shiftRight_eq_div_pow, Nat.testBit_shiftRight,
      Nat.testBit_shiftRight]
    exact this
  · intro h
    apply testBit_ext; intro i
    simp only [Nat.testBit_or, Nat.testBit_two_pow_sub_one]
    by_cases hi : i < t
    · simp [hi]
    · have := congrArg (fun z => z.testBit (i - t)) h
      simp only [← Nat.shiftRight_eq_div_pow, Nat.testBit_shiftRight] at this
      rw [show t + (i - t) = i by omega] at this
      rw [this]

theorem pointMatch_iff {e v : Nat} (hv0 : 0 < v) (hv : v < 2 ^ 62) :
    pointMatch e v = true ↔ Covers v e := by
  obtain ⟨a, t, h1, h2, h3⟩ := lb64_facts hv0 (show v < 2 ^ 64 by omega)
  have hp : 0 < 2 ^ t := Nat.two_pow_pos t
  have hvt : v = 2 * a * 2 ^ t + 2 ^ t := by rw [h1, Nat.add_mul]; omega
  have ht : 2 ^ t < 2 ^ 62 := by omega
  have hmask : sub64 (shl64 (lb64 v) 1) 1 = 2 ^ (t + 1) - 1 := by
    have e2 : 2 ^ (t + 1) = 2 * 2 ^ t := by rw [pow_succ]; omega
    have e3 : shl64 (2 ^ t) 1 = 2 ^ (t + 1) := by
      unfold shl64
      rw [show 1 % 64 = 1 from rfl, Nat.shiftLeft_eq]
      omega
    rw [h2, e3, sub64_of_le (by omega) (by omega)]
  unfold pointMatch
  dsimp only
  rw [beq_iff_eq, hmask, or_mask_eq_iff]
  have e4 : v / 2 ^ (t + 1) = a := by
    have : v = 2 ^ (t + 1) * a + 2 ^ t := by rw [hvt, pow_succ]; ring
    rw [this, Nat.mul_add_div (Nat.two_pow_pos _), Nat.div_eq_of_lt, Nat.add_zero]
    rw [pow_succ]; omega
  have e5 : 2 ^ (t + 1) * a = 2 * a * 2 ^ t := by rw [pow_succ]; ring
  have e6 : 2 ^ (t + 1) = 2 * 2 ^ t := by rw [pow_succ]; omega
  rw [e4, Nat.div_eq_iff (Nat.two_pow_pos _), Covers, h2, h3, Nat.mul_comm a]
  omega

theorem or_pred {v : Nat} (hv0 : 0 < v) (hv : v < 2 ^ 64) : (v ||| sub64 v 1) + 1 = v + lb64 v := by
  obtain ⟨a, t, h1, h2, h3⟩ := lb64_facts hv0 hv
  have hp : 0 < 2 ^ t := Nat.two_pow_pos t
  have hvt : v = 2 * a * 2 ^ t + 2 ^ t := by rw [h1, Nat.add_mul]; omega
  have e1 : sub64 v 1 = 2 * a * 2 ^ t + (2 ^ t - 1) := by
    rw [sub64_of_le hv (by omega)]; omega
  have e2 : v ||| sub64 v 1 = (2 * a + 1) * 2 ^ t + (2 ^ t - 1) := by
    rw [e1]
    apply testBit_ext; intro i
    rw [Nat.testBit_or, testBit_mul_pow_add _ _ _ _ (by omega), testBit_mul_pow_add _ _ _ _ (by omega)]
    have e := testBit_mul_pow_add (2 * a + 1) t 0 i hp
    rw [Nat.add_zero] at e
    rw [h1, e]
    by_cases hi : i < t
    · simp [hi]
    · rw [if_neg hi, if_neg hi, if_neg hi]
      rcases hk : i - t with _ | k
      · simp
      · rw [Nat.testBit_succ, Nat.testBit_succ]
        rw [show (2 * a + 1) / 2 = a by omega, show 2 * a / 2 = a by omega]; simp
  rw [e2, h2, h1]; omega

theorem leftReach_iff {le v : Nat} (hv0 : 0 < v) (hv : v < 2 ^ 64) :
    leftReach le v = true ↔ le < v + lb64 v := by
  unfold leftReach
  rw [decide_eq_true_iff, ← or_pred hv0 hv]; omega

theorem rightReach_iff {re v : Nat} : rightReach re v = true ↔ nolb64 v ≤ re := by
  unfold rightReach; exact decide_eq_true_iff

/-- The interval of an item part below `2^s` stays below `2^s`. -/
theorem item_hi_le {v s : Nat} (hv0 : 0 < v) (hvs : v < 2 ^ s) (hv : v < 2 ^ 64) : v + lb64 v ≤ 2 ^ s := by
  obtain ⟨a, t, h1, h2, h3⟩ := lb64_facts hv0 hv
  have hp : 0 < 2 ^ t := Nat.two_pow_pos t
  have hts : t < s := by
    by_contra hc
    have e1 : 2 ^ s ≤ 2 ^ t := Nat.pow_le_pow_right (by decide) (by omega)
    have e2 : 1 * 2 ^ t ≤ (2 * a + 1) * 2 ^ t := Nat.mul_le_mul_right _ (by omega)
    omega
  have e1 : 2 ^ s = 2 * 2 ^ (s - t - 1) * 2 ^ t := by
    rw [← pow_succ', ← pow_add]; congr 1; omega
  rw [h2]
  have e2 : v + 2 ^ t = (2 * a + 2) * 2 ^ t := by rw [h1]; ring
  rw [e2, e1]
  apply Nat.mul_le_mul_right
  rw [h1, e1] at hvs
  have := Nat.lt_of_mul_lt_mul_right hvs
  omega

/-- An item covers only numbers with its own quotient. -/
theorem covers_iff {x k s : Nat} (h0 : x % 2 ^ s ≠ 0) (hx : x < 2 ^ 64) :
    Covers x k ↔ x / 2 ^ s = k / 2 ^ s ∧ Covers (x % 2 ^ s) (k % 2 ^ s) := by
  obtain ⟨_, h2, h3⟩ := nolb64_div h0 hx
  have hs : 0 < 2 ^ s := Nat.two_pow_pos s
  have hxs : x % 2 ^ s < 2 ^ s := Nat.mod_lt _ hs
  have hks : k % 2 ^ s < 2 ^ s := Nat.mod_lt _ hs
  have hxd : x / 2 ^ s * 2 ^ s + x % 2 ^ s = x := by rw [Nat.mul_comm]; exact Nat.div_add_mod x _
  have hkd : k / 2 ^ s * 2 ^ s + k % 2 ^ s = k := by rw [Nat.mul_comm]; exact Nat.div_add_mod k _
  have hub := item_hi_le (Nat.pos_of_ne_zero h0) hxs (by omega)
  unfold Covers
  rw [h2, h3]
  constructor
  · rintro ⟨a, b⟩
    have hq : x / 2 ^ s = k / 2 ^ s := by
      rcases Nat.lt_trichotomy (x / 2 ^ s) (k / 2 ^ s) with h | h | h
      · have := mul_succ_le (s := 2 ^ s) h; omega
      · exact h
      · have := mul_succ_le (s := 2 ^ s) h; omega
    rw [hq] at a hxd
    exact ⟨hq, by omega, by omega⟩
  · rintro ⟨a, b, c⟩
    rw [a] at hxd ⊢
    omega

section
variable {m n s T : Nat} {mp : Nat → Nat} {lay : Nat → Option Nat}

/-- The start of the run that ends at `e`. -/
theorem runStart_spec (r : Rep m n s lay) (h : LayWF n s T mp lay) (hs : s ≤ 46) (hT : T ≤ 1024)
    {e x : Nat} (he : e < n) (hx : lay e = some x) :
    ∃ y, lay (runStart m n s (cnt (occ m) (x / 2 ^ s)) e) = some y ∧ y / 2 ^ s = x / 2 ^ s ∧
      runStart m n s (cnt (occ m) (x / 2 ^ s)) e ≤ e ∧
      ∀ i z, i < n → lay i = some z → z / 2 ^ s = x / 2 ^ s →
        runStart m n s (cnt (occ m) (x / 2 ^ s)) e ≤ i := by
  have hq := (h.item e x he hx).2
  obtain ⟨b1, b2, b3, b4⟩ := findEmptySlotBefore_spec r h hs hT he (by rw [hx]; simp)
  set b := findEmptySlotBefore m n s e with hb
  -- the end of the preceding run
  obtain ⟨a, ha, ha1, ha2, ha3⟩ : ∃ a : Int,
      (if cnt (occ m) (x / 2 ^ s) ≠ 0 then (selectRunends m n (cnt (occ m) (x / 2 ^ s) - 1) : Int) else -1) = a ∧
      -1 ≤ a ∧ a < e ∧
      ∀ i y, i < n → lay i = some y → (y / 2 ^ s < x / 2 ^ s ↔ (i : Int) ≤ a) := by
    by_cases hz : cnt (occ m) (x / 2 ^ s) = 0
    · refine ⟨-1, by simp [hz], by omega, by omega, ?_⟩
      intro i y hi hy
      constructor
      · intro hlt
        have ho : occ m (y / 2 ^ s) = true := (r.occ _ (by omega)).2 ⟨i, y, hi, hy, rfl⟩
        have := cnt_lt (occ m) hlt ho
        omega
      · intro hneg; omega
    · obtain ⟨q', e', x', p1, p2, p3, p4, p5, p6, p7⟩ := pred_run r h hs hT (by omega) hz
      have hee : e' < e := h.pos_lt hs hT p2 p4 hx (by omega)
      refine ⟨e', by simp [hz, p6], by omega, by omega, ?_⟩
      intro i y hi hy
      constructor
      · intro hlt
        have h7 := p7 i y hi hy hlt
        by_contra hc
        have h8 := h.quot_le hs hT (show e' ≤ i by omega) hi p4 hy
        obtain ⟨x'', g1, g2⟩ := (r.rend e' p2).1 p3
        rw [p4] at g1; injection g1 with g1; subst g1
        exact g2 i y (by omega) hi hy (by omega)
      · intro hle
        have := h.quot_le hs hT (show i ≤ e' by omega) p2 hy p4
        omega
  have hrs : runStart m n s (cnt (occ m) (x / 2 ^ s)) e = (max a b + 1).toNat := by
    unfold runStart
    dsimp only
    rw [ha]
  rw [hrs]
  set rs := (max a b + 1).toNat with hrsd
  have hrse : rs ≤ e := by omega
  have hfill : lay rs ≠ none := by
    rcases Nat.lt_or_ge rs e with hlt | hge
    · exact b3 rs (by omega) hlt
    · have : rs = e := by omega
      rw [this, hx]; simp
  obtain ⟨y, hy⟩ := Option.ne_none_iff_exists'.1 hfill
  have hyq : y / 2 ^ s = x / 2 ^ s := by
    have h1 := h.quot_le hs hT hrse he hy hx
    by_contra hne
    have := (ha3 rs y (by omega) hy).1 (by omega)
    omega
  refine ⟨y, hy, hyq, hrse, ?_⟩
  intro i z hi hz hzq
  by_contra hc
  have hia : ¬ (i : Int) ≤ a := by
    intro hle
    have := (ha3 i z hi hz).2 hle
    omega
  have hib : (i : Int) ≤ b := by omega
  have hbe := b4 (by omega)
  rcases Nat.lt_or_ge i b.toNat with hlt | hge
  · exact h.contig i e b.toNat z x hlt (by omega) he hz hx hzq hbe
  · have : i = b.toNat := by omega
    rw [this, hbe] at hz; simp at hz

end

/-- Slots of a region by grade. -/
def Store.slots (c : Cfg) (st : Store) : Nat := c.size st.sizeGrade

/-- Home slot of a quotient in a region with `T` possible quotients. -/
def homeSlot (c : Cfg) (g T q : Nat) : Nat := getMappedPos c q g (implicitScalars (T - 512))

/-- Invariant of one region with layout `lay`. -/
structure StoreInv (c : Cfg) (T : Nat) (st : Store) (lay : Nat → Option Nat) : Prop where
  wf : LayWF (c.size st.sizeGrade) c.infixSize T (homeSlot c st.sizeGrade T) lay
  rep : Rep st.mem (c.size st.sizeGrade) c.infixSize lay
  count : st.elemCount = cnt (fun i => (lay i).isSome) (c.size st.sizeGrade)
  status : st.status < 2 ^ 32
  fine : c.Fine st.sizeGrade

/-- What of the invariant remains after arbitrary deletions: the home slots need no longer be those
the code computes. Lookups and enumeration need only this; insertion needs `StoreInv`. -/
structure StoreWeak (c : Cfg) (T : Nat) (st : Store) (lay : Nat → Option Nat) : Prop where
  wf : ∃ mp, LayWF (c.size st.sizeGrade) c.infixSize T mp lay
  rep : Rep st.mem (c.size st.sizeGrade) c.infixSize lay
  count : st.elemCount = cnt (fun i => (lay i).isSome) (c.size st.sizeGrade)
  status : st.status < 2 ^ 32
  fine : c.Fine st.sizeGrade

theorem StoreInv.weak {c : Cfg} {T : Nat} {st : Store} {lay : Nat → Option Nat} (h : StoreInv c T st lay) :
    StoreWeak c T st lay := ⟨⟨_, h.wf⟩, h.rep, h.count, h.status, h.fine⟩

/-- Item `x` is stored. -/
def StoredIn (n : Nat) (lay : Nat → Option Nat) (x : Nat) : Prop := ∃ i, i < n ∧ lay i = some x

section
variable {c : Cfg} {T : Nat} {st : Store} {lay : Nat → Option Nat}

theorem item_explicit_lt {x s : Nat} (hs : s ≤ 46) : x % 2 ^ s < 2 ^ 62 := by
  have h1 : x % 2 ^ s < 2 ^ s := Nat.mod_lt _ (Nat.two_pow_pos s)
  have h2 : 2 ^ s ≤ 2 ^ 46 := Nat.pow_le_pow_right (by decide) hs
  omega

/-- A point query hits exactly if a stored item covers the key. -/
theorem pointQueryStore_iff (I : StoreWeak c T st lay) (hs : c.infixSize ≤ 46) (hT : T ≤ 1024)
    {key : Nat} (hk : key / 2 ^ c.infixSize < 1024) :
    pointQueryStore c st key = true ↔
      ∃ x, StoredIn (c.size st.sizeGrade) lay x ∧ Covers x key := by
  obtain ⟨⟨mp, wf⟩, rep, cn, _⟩ := I
  unfold pointQueryStore
  dsimp only
  generalize c.size st.sizeGrade = n at *
  generalize c.infixSize = s at *
  rw [Nat.shiftRight_eq_div_pow, and_bitmask _ _ (show s ≤ 64 by omega)]
  split_ifs with h0
  · constructor
    · intro hf; simp at hf
    · rintro ⟨x, ⟨i, hi, hx⟩, hc⟩
      obtain ⟨g1, g2⟩ := wf.item i x hi hx
      have hq := ((covers_iff g1 (item_lt hs hT g2)).1 hc).1
      have : occ st.mem (key / 2 ^ s) = true := (rep.occ _ hk).2 ⟨i, x, hi, hx, hq⟩
      rw [getBit_eq_zero] at h0
      rw [occ, show 64 + key / 2 ^ s = 64 * 1 + key / 2 ^ s by omega, h0] at this
      simp at this
  · have ho : occ st.mem (key / 2 ^ s) = true := (getBit_ne_zero _ _ _).1 h0
    obtain ⟨e, x, e1, e2, e3, e4, e5⟩ := occ_run rep wf hs hT hk ho
    rw [rep.rank, e5, scanRun_iff rep wf hs hT _ e x e1 e3]
    constructor
    · rintro ⟨j, y, a1, a2, a3, a4⟩
      obtain ⟨g1, g2⟩ := wf.item j y (by omega) a2
      rw [pointMatch_iff (Nat.pos_of_ne_zero g1) (item_explicit_lt hs)] at a4
      exact ⟨y, ⟨j, by omega, a2⟩, (covers_iff g1 (item_lt hs hT g2)).2 ⟨by omega, a4⟩⟩
    · rintro ⟨y, ⟨j, hj, hy⟩, hc⟩
      obtain ⟨g1, g2⟩ := wf.item j y hj hy
      obtain ⟨c1, c2⟩ := (covers_iff g1 (item_lt hs hT g2)).1 hc
      refine ⟨j, y, ?_, hy, by omega, ?_⟩
      · by_contra hlt
        obtain ⟨x', f1, f2⟩ := (rep.rend e e1).1 e2
        rw [e3] at f1; injection f1 with f1; subst f1
        exact f2 j y (by omega) hj hy (by omega)
      · rw [pointMatch_iff (Nat.pos_of_ne_zero g1) (item_explicit_lt hs)]; exact c2

/-- A range query hits exactly if a stored item meets the range. -/
theorem rangeQueryStore_iff (I : StoreWeak c T st lay) (hs : c.infixSize ≤ 46) (hT : T ≤ 1024)
    {l r : Nat} (hlr : l ≤ r) (hr : r / 2 ^ c.infixSize < 1024) :
    rangeQueryStore c st l r = true ↔
      ∃ x, StoredIn (c.size st.sizeGrade) lay x ∧ Meets x l r := by
  obtain ⟨⟨mp, wf⟩, rep, cn, _⟩ := I
  unfold rangeQueryStore
  dsimp only
  generalize c.size st.sizeGrade = n at *
  generalize c.infixSize = s at *
  have hps : 0 < 2 ^ s := Nat.two_pow_pos s
  have hl' : l / 2 ^ s ≤ r / 2 ^ s := Nat.div_le_div_right hlr
  have hlm : l % 2 ^ s < 2 ^ s := Nat.mod_lt _ hps
  have hrm : r % 2 ^ s < 2 ^ s := Nat.mod_lt _ hps
  have hld : l / 2 ^ s * 2 ^ s + l % 2 ^ s = l := by rw [Nat.mul_comm]; exact Nat.div_add_mod l _
  have hrd : r / 2 ^ s * 2 ^ s + r % 2 ^ s = r := by rw [Nat.mul_comm]; exact Nat.div_add_mod r _
  -- facts about stored items
  have hitem : ∀ j y, j < n → lay j = some y → 0 < y % 2 ^ s ∧ y % 2 ^ s < 2 ^ s ∧ y < 2 ^ 64 ∧
      y / 2 ^ s * 2 ^ s + y % 2 ^ s = y ∧ nolb64 y = y / 2 ^ s * 2 ^ s + nolb64 (y % 2 ^ s) ∧
      lb64 y = lb64 (y % 2 ^ s) ∧ y % 2 ^ s + lb64 (y % 2 ^ s) ≤ 2 ^ s ∧
      nolb64 (y % 2 ^ s) ≤ y % 2 ^ s := by
    intro j y hj hy
    obtain ⟨g1, g2⟩ := wf.item j y hj hy
    have g3 := item_lt hs hT g2
    obtain ⟨_, f2, f3⟩ := nolb64_div g1 g3
    have hmod : y % 2 ^ s < 2 ^ s := Nat.mod_lt _ hps
    have hmod' : y % 2 ^ s ≤ y := Nat.mod_le _ _
    have := nolb_add_lb (Nat.pos_of_ne_zero g1) (show y % 2 ^ s < 2 ^ 64 by omega)
    exact ⟨Nat.pos_of_ne_zero g1, hmod, g3, by rw [Nat.mul_comm]; exact Nat.div_add_mod y _, f2, f3,
      item_hi_le (Nat.pos_of_ne_zero g1) hmod (by omega), by omega⟩
  have hlen : ∀ j y e x, j < n → lay j = some y → e < n → rend st.mem e = true → lay e = some x →
      y / 2 ^ s = x / 2 ^ s → j ≤ e := by
    intro j y e x hj hy he he2 hx hq
    by_contra hlt
    obtain ⟨x', f1, f2⟩ := (rep.rend e he).1 he2
    rw [hx] at f1; injection f1 with f1; subst f1
    exact f2 j y (by omega) hj hy (by omega)
  rw [Nat.shiftRight_eq_div_pow, Nat.shiftRight_eq_div_pow, and_bitmask _ _ (show s ≤ 64 by omega),
    and_bitmask _ _ (show s ≤ 64 by omega)]
  by_cases hq : l / 2 ^ s < r / 2 ^ s
  · rw [if_pos hq]
    have hmul := mul_succ_le (s := 2 ^ s) hq
    obtain ⟨n1, n2, n3⟩ := nextOccupied_spec st.mem (l / 2 ^ s)
    by_cases hnx : nextOccupied st.mem (l / 2 ^ s) < r / 2 ^ s
    · rw [if_pos hnx]
      simp only [true_iff]
      obtain ⟨i, x, i1, i2, i3⟩ := (rep.occ _ (by omega)).1 (n3 (by omega))
      obtain ⟨f1, f2, f3, f4, f5, f6, f7, f8⟩ := hitem i x i1 i2
      refine ⟨x, ⟨i, i1, i2⟩, ?_, ?_⟩
      · have := mul_succ_le (s := 2 ^ s) hnx
        rw [i3] at f4 f5; omega
      · have := mul_succ_le (s := 2 ^ s) n1
        rw [i3] at f4 f5; omega
    · rw [if_neg hnx]
      -- the right end
      have hR : ((if getBit st.mem 1 (r / 2 ^ s) ≠ 0 then
          rightReach (r % 2 ^ s) (getSlot st.mem n s (runStart st.mem n s
            (rankOccupieds st.mem (r / 2 ^ s))
            (selectRunends st.mem n (rankOccupieds st.mem (r / 2 ^ s))))) else false) = true) ↔
          ∃ x, StoredIn n lay x ∧ x / 2 ^ s = r / 2 ^ s ∧ nolb64 (x % 2 ^ s) ≤ r % 2 ^ s := by
        split_ifs with h0
        · have ho : occ st.mem (r / 2 ^ s) = true := (getBit_ne_zero _ _ _).1 h0
          obtain ⟨e, x, e1, e2, e3, e4, e5⟩ := occ_run rep wf hs hT hr ho
          obtain ⟨y, y1, y2, y3, y4⟩ := runStart_spec rep wf hs hT e1 e3
          rw [e4] at y1 y3 y4
          rw [rep.rank, e5, rightReach_iff, getSlot_eq _ _ _ _ (by omega), rep.slot _ (by omega), y1]
          constructor
          · intro hle
            exact ⟨y, ⟨_, by omega, y1⟩, by omega, hle⟩
          · rintro ⟨z, ⟨j, hj, hz⟩, hzq, hle⟩
            have hpos := y4 j z hj hz (by omega)
            rcases Nat.lt_or_ge (runStart st.mem n s (cnt (occ st.mem) (r / 2 ^ s)) e) j with hlt | hge
            · have hso := ile_nolb (wf.sorted _ _ _ _ hlt hj y1 hz)
              obtain ⟨_, _, _, _, f5, _⟩ := hitem _ y (by omega) y1
              obtain ⟨_, _, _, _, g5, _⟩ := hitem j z hj hz
              have hyq : y / 2 ^ s = z / 2 ^ s := by omega
              rw [hyq] at f5
              simp only [slotOf]
              omega
            · have : j = runStart st.mem n s (cnt (occ st.mem) (r / 2 ^ s)) e := by omega
              rw [this, y1] at hz; injection hz with hz; subst hz
              exact hle
        · constructor
          · intro hf; simp at hf
          · rintro ⟨z, ⟨j, hj, hz⟩, hzq, _⟩
            exfalso; apply h0
            rw [getBit_ne_zero]
            exact (rep.occ _ hr).2 ⟨j, z, hj, hz, hzq⟩
      -- the left end
      have hL : ((if getBit st.mem 1 (l / 2 ^ s) ≠ 0 then
          scanRun st.mem n s (leftReach (l % 2 ^ s))
            (selectRunends st.mem n (rankOccupieds st.mem (l / 2 ^ s))) else false) = true) ↔
          ∃ x, StoredIn n lay x ∧ x / 2 ^ s = l / 2 ^ s ∧ l % 2 ^ s < x % 2 ^ s + lb64 (x % 2 ^ s) := by
        split_ifs with h0
        · have ho : occ st.mem (l / 2 ^ s) = true := (getBit_ne_zero _ _ _).1 h0
          obtain ⟨e, x, e1, e2, e3, e4, e5⟩ := occ_run rep wf hs hT (by omega) ho
          rw [rep.rank, e5, scanRun_iff rep wf hs hT _ e x e1 e3]
          constructor
          · rintro ⟨j, y, a1, a2, a3, a4⟩
            obtain ⟨f1, f2, f3, _⟩ := hitem j y (by omega) a2
            have := item_explicit_lt (x := y) hs
            rw [leftReach_iff f1 (by omega)] at a4
            exact ⟨y, ⟨j, by omega, a2⟩, by omega, a4⟩
          · rintro ⟨y, ⟨j, hj, hy⟩, a3, a4⟩
            obtain ⟨f1, f2, f3, _⟩ := hitem j y hj hy
            have := item_explicit_lt (x := y) hs
            refine ⟨j, y, hlen j y e x hj hy e1 e2 e3 (by omega), hy, by omega, ?_⟩
            rw [leftReach_iff f1 (by omega)]; exact a4
        · constructor
          · intro hf; simp at hf
          · rintro ⟨z, ⟨j, hj, hz⟩, hzq, _⟩
            exfalso; apply h0
            rw [getBit_ne_zero]
            exact (rep.occ _ (by omega)).2 ⟨j, z, hj, hz, hzq⟩
      have hcomb : ∀ (a b : Bool), ((if a = true then true else b) = true) ↔ (a = true ∨ b = true) := by
        intro a b; cases a <;> simp
      rw [hcomb, hR, hL]
      constructor
      · rintro (⟨x, ⟨j, hj, hx⟩, hxq, hle⟩ | ⟨x, ⟨j, hj, hx⟩, hxq, hlt⟩)
        · obtain ⟨f1, f2, f3, f4, f5, f6, f7, f8⟩ := hitem j x hj hx
          rw [hxq] at f4 f5
          exact ⟨x, ⟨j, hj, hx⟩, by omega, by omega⟩
        · obtain ⟨f1, f2, f3, f4, f5, f6, f7, f8⟩ := hitem j x hj hx
          rw [hxq] at f4 f5
          exact ⟨x, ⟨j, hj, hx⟩, by omega, by omega⟩
      · rintro ⟨x, ⟨j, hj, hx⟩, h1, h2⟩
        obtain ⟨f1, f2, f3, f4, f5, f6, f7, f8⟩ := hitem j x hj hx
        have hxr : x / 2 ^ s ≤ r / 2 ^ s := by
          by_contra hc
          have := mul_succ_le (s := 2 ^ s) (show r / 2 ^ s < x / 2 ^ s by omega)
          omega
        have hxl : l / 2 ^ s ≤ x / 2 ^ s := by
          by_contra hc
          have := mul_succ_le (s := 2 ^ s) (show x / 2 ^ s < l / 2 ^ s by omega)
          omega
        by_cases e1 : x / 2 ^ s = r / 2 ^ s
        · left
          rw [e1] at f4 f5
          exact ⟨x, ⟨j, hj, hx⟩, e1, by omega⟩
        · by_cases e2 : x / 2 ^ s = l / 2 ^ s
          · right
            rw [e2] at f4 f5
            exact ⟨x, ⟨j, hj, hx⟩, e2, by omega⟩
          · exfalso
            have ho : occ st.mem (x / 2 ^ s) = true := (rep.occ _ (by omega)).2 ⟨j, x, hj, hx, rfl⟩
            have := n2 (x / 2 ^ s) (by omega) (by omega)
            rw [occ, this] at ho; simp at ho
  · rw [if_neg hq]
    have hqe : l / 2 ^ s = r / 2 ^ s := by omega
    have hlq : l / 2 ^ s < 1024 := by omega
    split_ifs with h0
    · constructor
      · intro hf; simp at hf
      · rintro ⟨x, ⟨j, hj, hx⟩, h1, h2⟩
        obtain ⟨f1, f2, f3, f4, f5, f6, f7, f8⟩ := hitem j x hj hx
        have hxq : x / 2 ^ s = l / 2 ^ s := by
          rcases Nat.lt_trichotomy (x / 2 ^ s) (l / 2 ^ s) with h | h | h
          · have := mul_succ_le (s := 2 ^ s) h; omega
          · exact h
          · have := mul_succ_le (s := 2 ^ s) h
            rw [hqe] at this; omega
        have : occ st.mem (l / 2 ^ s) = true := (rep.occ _ hlq).2 ⟨j, x, hj, hx, hxq⟩
        rw [getBit_eq_zero] at h0
        rw [occ, show 64 + l / 2 ^ s = 64 * 1 + l / 2 ^ s by omega, h0] at this
        simp at this
    · have ho : occ st.mem (l / 2 ^ s) = true := (getBit_ne_zero _ _ _).1 h0
      obtain ⟨e, x, e1, e2, e3, e4, e5⟩ := occ_run rep wf hs hT hlq ho
      rw [rep.rank, e5, scanRun_iff rep wf hs hT _ e x e1 e3]
      constructor
      · rintro ⟨j, y, a1, a2, a3, a4⟩
        obtain ⟨f1, f2, f3, f4, f5, f6, f7, f8⟩ := hitem j y (by omega) a2
        have := item_explicit_lt (x := y) hs
        rw [Bool.and_eq_true, leftReach_iff f1 (by omega), rightReach_iff] at a4
        rw [show y / 2 ^ s = l / 2 ^ s by omega] at f4 f5
        rw [hqe] at f4 f5 hld
        exact ⟨y, ⟨j, by omega, a2⟩, by omega, by omega⟩
      · rintro ⟨y, ⟨j, hj, hy⟩, h1, h2⟩
        obtain ⟨f1, f2, f3, f4, f5, f6, f7, f8⟩ := hitem j y hj hy
        have := item_explicit_lt (x := y) hs
        have hyq : y / 2 ^ s = l / 2 ^ s := by
          rcases Nat.lt_trichotomy (y / 2 ^ s) (l / 2 ^ s) with h | h | h
          · have := mul_succ_le (s := 2 ^ s) h; omega
          · exact h
          · have := mul_succ_le (s := 2 ^ s) h
            rw [hqe] at this; omega
        refine ⟨j, y, hlen j y e x hj hy e1 e2 e3 (by omega), hy, by omega, ?_⟩
        rw [Bool.and_eq_true, leftReach_iff f1 (by omega), rightReach_iff]
        rw [hyq] at f4 f5
        rw [hqe] at f4 f5 hld
        exact ⟨by omega, by omega⟩

end

end Verif
