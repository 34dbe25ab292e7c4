import Verif.Proof.StoreDelete
import Verif.Proof.Config

/-!
# DeleteRawFromInfixStore: the searches and the choice of the shift
-/

namespace Verif

/-! ## Search of the item to be removed -/

theorem deleteSearch_spec (m n s e : Nat) (l0 r0 : Int)
    (hdown : ∀ i j : Nat, l0 < i → i ≤ j → (j : Int) < r0 →
      nolb64 (getSlot m n s j) ≤ sub64 e 1 → nolb64 (getSlot m n s i) ≤ sub64 e 1) :
    ∀ (fuel : Nat) (l r : Int), -1 ≤ l → l0 ≤ l → l < r → r ≤ r0 → r - l ≤ fuel + 1 →
      (∀ k : Nat, r ≤ k → (k : Int) < r0 → ¬ nolb64 (getSlot m n s k) ≤ sub64 e 1) →
      l ≤ deleteSearch m n s e fuel l r ∧ deleteSearch m n s e fuel l r < r ∧
      (∀ k : Nat, deleteSearch m n s e fuel l r < k → (k : Int) < r0 →
        ¬ nolb64 (getSlot m n s k) ≤ sub64 e 1) := by
  intro fuel
  induction fuel with
  | zero =>
    intro l r h1 h2 h3 h4 h5 h7
    rw [deleteSearch]
    exact ⟨Int.le_refl _, h3, fun k a b => h7 k (by omega) b⟩
  | succ fuel ih =>
    intro l r h1 h2 h3 h4 h5 h7
    rw [deleteSearch]
    dsimp only
    split_ifs with c1 c2
    · obtain ⟨a1, a2, a3⟩ := ih ((l + r) / 2) r (by omega) (by omega) (by omega) h4 (by omega) h7
      exact ⟨by omega, a2, a3⟩
    · have hm : ((l + r) / 2).toNat = (l + r) / 2 := by omega
      obtain ⟨a1, a2, a3⟩ := ih l ((l + r) / 2) h1 h2 (by omega) (by omega) (by omega) (by
        intro k k1 k2 hc
        exact c2 (hdown ((l + r) / 2).toNat k (by omega) (by omega) k2 hc))
      exact ⟨a1, by omega, a3⟩
    · exact ⟨Int.le_refl _, h3, fun k a b => h7 k (by omega) b⟩

theorem matchDown_spec (m n s e rs : Nat) : ∀ k : Nat,
    (matchDown m n s e rs k = (rs : Int) - 1 ∧ ∀ j, rs ≤ j → j < rs + k → pointMatch e (getSlot m n s j) = false) ∨
    ∃ p : Nat, matchDown m n s e rs k = p ∧ rs ≤ p ∧ p < rs + k ∧ pointMatch e (getSlot m n s p) = true ∧
      ∀ j, p < j → j < rs + k → pointMatch e (getSlot m n s j) = false := by
  intro k
  induction k with
  | zero => exact Or.inl ⟨rfl, fun j a b => by omega⟩
  | succ k ih =>
    rw [matchDown]
    split_ifs with h
    · exact Or.inr ⟨rs + k, rfl, by omega, by omega, h, fun j a b => by omega⟩
    · have h : pointMatch e (getSlot m n s (rs + k)) = false := by simpa using h
      rcases ih with ⟨a, b⟩ | ⟨p, a, b, d, f, g⟩
      · refine Or.inl ⟨a, fun j j1 j2 => ?_⟩
        rcases Nat.lt_or_ge j (rs + k) with j3 | j3
        · exact b j j1 j3
        · rw [show j = rs + k by omega]; exact h
      · refine Or.inr ⟨p, a, b, by omega, f, fun j j1 j2 => ?_⟩
        rcases Nat.lt_or_ge j (rs + k) with j3 | j3
        · exact g j j1 j3
        · rw [show j = rs + k by omega]; exact h

theorem nolb64_even {x : Nat} (h0 : 0 < x) (h : x < 2 ^ 64) : nolb64 x % 2 = 0 := by
  obtain ⟨a, t, rfl⟩ := odd_decomp h0
  rw [nolb64_odd h, Nat.mul_assoc]
  exact Nat.mul_mod_right 2 _

section
variable {m n s T : Nat} {mp : Nat → Nat} {lay : Nat → Option Nat}

/-- The run of an occupied quotient. -/
theorem runIs_of_occ (r : Rep m n s lay) (h : LayWF n s T mp lay) (hs : s ≤ 46) (hT : T ≤ 1024) {q : Nat}
    (hq : q < 1024) (ho : occ m q = true) :
    RunIs m n s lay q (runStart m n s (rankOccupieds m q) (selectRunends m n (rankOccupieds m q)))
      (selectRunends m n (rankOccupieds m q)) := by
  obtain ⟨e, x, e1, e2, e3, e4, e5⟩ := occ_run r h hs hT hq ho
  rw [r.rank, e5]
  obtain ⟨y, y1, y2, y3, y4⟩ := runStart_spec r h hs hT e1 e3
  rw [e4] at y1 y2 y3 y4
  generalize runStart m n s (cnt (occ m) q) e = rs at *
  refine ⟨y3, e1, e2, ?_, ?_⟩
  · intro k k1 k2
    obtain ⟨z, hz⟩ : ∃ z, lay k = some z := by
      rcases Nat.eq_or_lt_of_le k1 with h1 | h1
      · subst h1; exact ⟨y, y1⟩
      · rcases Nat.eq_or_lt_of_le k2 with h2 | h2
        · subst h2; exact ⟨x, e3⟩
        · exact Option.ne_none_iff_exists'.1 (h.contig rs e k y x h1 h2 e1 y1 e3 (by omega))
    refine ⟨z, hz, ?_⟩
    have a := h.quot_le hs hT k1 (by omega) y1 hz
    have b := h.quot_le hs hT k2 e1 hz e3
    omega
  · intro j z hj hz hzq
    refine ⟨y4 j z hj hz hzq, ?_⟩
    by_contra hc
    obtain ⟨x', f1, f2⟩ := (r.rend e e1).1 e2
    rw [e3] at f1; injection f1 with f1; subst f1
    exact f2 j z (by omega) hj hz (by omega)

/-- The search for the item to delete finds the last item of the run that covers the key. -/
theorem matchPos_spec (r : Rep m n s lay) (h : LayWF n s T mp lay) (hs1 : 1 ≤ s) (hs : s ≤ 46) (hT : T ≤ 1024)
    {key rs re : Nat} (hq : key / 2 ^ s < 1024) (hodd : key % 2 = 1)
    (R : RunIs m n s lay (key / 2 ^ s) rs re)
    {fuel : Nat} (hfuel : re + 1 - rs ≤ fuel) :
    (matchDown m n s (key % 2 ^ s) rs
      (deleteSearch m n s key fuel ((rs : Int) - 1) ((re : Int) + 1) + 1 - rs).toNat = (rs : Int) - 1 ∧
      ∀ j z, j < n → lay j = some z → ¬ Covers z key) ∨
    ∃ (p : Nat) (y : Nat), matchDown m n s (key % 2 ^ s) rs
      (deleteSearch m n s key fuel ((rs : Int) - 1) ((re : Int) + 1) + 1 - rs).toNat = (p : Int) ∧
      rs ≤ p ∧ p ≤ re ∧ lay p = some y ∧ Covers y key ∧ y / 2 ^ s = key / 2 ^ s ∧
      ∀ j z, j < n → lay j = some z → Covers z key → j ≤ p := by
  have hkey : key < 2 ^ 64 := item_lt hs (Nat.le_refl _) hq
  have hRlt := R.lt
  have hRle := R.le
  have hget : ∀ j z, j < n → lay j = some z → getSlot m n s j = z % 2 ^ s := by
    intro j z hj hz
    rw [getSlot_eq _ _ _ _ (by omega), r.slot j hj, hz]; rfl
  have hsub : sub64 key 1 = key - 1 := sub64_of_le hkey (by omega)
  obtain ⟨a1, a2, a3⟩ := deleteSearch_spec m n s key ((rs : Int) - 1) ((re : Int) + 1) (by
    intro i j hi hij hj hle
    obtain ⟨x, hx, hxq⟩ := R.fill i (by omega) (by omega)
    obtain ⟨z, hz, hzq⟩ := R.fill j (by omega) (by omega)
    rw [hget j z (by omega) hz] at hle
    rw [hget i x (by omega) hx]
    refine Nat.le_trans ?_ hle
    rcases Nat.eq_or_lt_of_le hij with hij | hij
    · subst hij; rw [hx] at hz; injection hz with hz; subst hz; exact Nat.le_refl _
    · have hile := h.sorted i j x z hij (by omega) hx hz
      obtain ⟨x0, x1⟩ := h.item i x (by omega) hx
      obtain ⟨z0, z1⟩ := h.item j z (by omega) hz
      have := (ile_same_quot x0 z0 (item_lt hs hT x1) (item_lt hs hT z1) (by omega)).1 hile
      exact ile_nolb this) fuel ((rs : Int) - 1) ((re : Int) + 1) (by omega) (Int.le_refl _) (by omega)
        (Int.le_refl _) (by omega) (by intro k k1 k2; omega)
  generalize deleteSearch m n s key fuel ((rs : Int) - 1) ((re : Int) + 1) = l at *
  have hmatch : ∀ j z, j < n → lay j = some z → z / 2 ^ s = key / 2 ^ s →
      (pointMatch (key % 2 ^ s) (getSlot m n s j) = true ↔ Covers z key) := by
    intro j z hj hz hzq
    obtain ⟨z0, z1⟩ := h.item j z hj hz
    rw [hget j z hj hz, pointMatch_iff (Nat.pos_of_ne_zero z0) (item_explicit_lt hs),
      covers_iff z0 (item_lt hs hT z1)]
    simp [hzq]
  have hcov : ∀ j z, j < n → lay j = some z → Covers z key →
      z / 2 ^ s = key / 2 ^ s ∧ rs ≤ j ∧ j ≤ re ∧ (j : Int) ≤ l := by
    intro j z hj hz hc
    obtain ⟨z0, z1⟩ := h.item j z hj hz
    obtain ⟨c1, c2⟩ := (covers_iff z0 (item_lt hs hT z1)).1 hc
    obtain ⟨b1, b2⟩ := R.all j z hj hz c1
    refine ⟨c1, b1, b2, ?_⟩
    by_contra hlt
    apply a3 j (by omega) (by omega)
    rw [hget j z hj hz, hsub]
    have hev := nolb64_even (Nat.pos_of_ne_zero z0) (by have := item_explicit_lt (x := z) hs; omega)
    have hle := c2.1
    have hm : key % 2 ^ s ≤ key := Nat.mod_le _ _
    have hko : key % 2 ^ s % 2 = 1 := by
      rw [Nat.mod_mod_of_dvd _ (dvd_pow_self 2 (by omega))]; exact hodd
    omega
  rcases matchDown_spec m n s (key % 2 ^ s) rs (l + 1 - rs).toNat with ⟨b1, b2⟩ | ⟨p, b1, b2, b3, b4, b5⟩
  · refine Or.inl ⟨b1, ?_⟩
    intro j z hj hz hc
    obtain ⟨c1, c2, c3, c4⟩ := hcov j z hj hz hc
    have := b2 j c2 (by omega)
    rw [(hmatch j z hj hz c1).2 hc] at this
    simp at this
  · obtain ⟨y, hy, hyq⟩ := R.fill p b2 (by omega)
    refine Or.inr ⟨p, y, b1, b2, by omega, hy, (hmatch p y (by omega) hy hyq).1 b4, hyq, ?_⟩
    intro j z hj hz hc
    obtain ⟨c1, c2, c3, c4⟩ := hcov j z hj hz hc
    by_contra hlt
    have := b5 j (by omega) (by omega)
    rw [(hmatch j z hj hz c1).2 hc] at this
    simp at this

end

/-! ## The loop to the right -/

section
variable {c : Cfg} {m n s g isc T : Nat} {mp : Nat → Nat} {lay : Nat → Option Nat}

theorem rend_cut (r : Rep m n s lay) (h : LayWF n s T mp lay) (hs : s ≤ 46) (hT : T ≤ 1024) {e : Nat} (he : e < n)
    (hre : rend m e = true) : Cut n s lay (e + 1) := by
  intro i j x z hi hj hjn hx hz hq
  obtain ⟨y, hy, hlast⟩ := (r.rend e he).1 hre
  have a := h.quot_le hs hT (show i ≤ e by omega) he hx hy
  have b := h.quot_le hs hT (show e ≤ j by omega) hjn hy hz
  exact hlast j z (by omega) hjn hz (by omega)

theorem hole_cut (h : LayWF n s T mp lay) {f b : Nat} (hf : lay f = none) (hb : b = f ∨ b = f + 1) : Cut n s lay b := by
  intro i j x z hi hj hjn hx hz hq
  have h1 : i ≠ f := by rintro rfl; rw [hf] at hx; simp at hx
  have h2 : j ≠ f := by rintro rfl; rw [hf] at hz; simp at hz
  exact h.contig i j f x z (by omega) (by omega) hjn hx hz hq hf

/-- `e` is the end of a run right of (or equal to) the run ending at `re`, without a gap between. -/
structure GoodEnd (m n : Nat) (lay : Nat → Option Nat) (re e : Nat) : Prop where
  le : re ≤ e
  lt : e < n
  rend : Verif.rend m e = true
  fill : ∀ k, re ≤ k → k ≤ e → lay k ≠ none

theorem GoodEnd.next (r : Rep m n s lay) (h : LayWF n s T mp lay) (hs : s ≤ 46) (hT : T ≤ 1024) {re e : Nat}
    (G : GoodEnd m n lay re e) (hf : lay (e + 1) ≠ none) (hlt : nextRunend m n e < n) :
    GoodEnd m n lay re (nextRunend m n e) ∧
    ∃ x, lay (e + 1) = some x ∧ ∀ k, e < k → k ≤ nextRunend m n e → ∃ z, lay k = some z ∧ z / 2 ^ s = x / 2 ^ s := by
  obtain ⟨a1, a2, a3⟩ := nextRunend_spec m n e
  obtain ⟨x, hx⟩ := Option.ne_none_iff_exists'.1 hf
  obtain ⟨f, y, f1, f2, f3, f4, f5, f6⟩ := run_end r h hs hT (show e + 1 < n by omega) hx
  have hle : nextRunend m n e ≤ f := by
    by_contra hc
    have := a2 f (by omega) (by omega)
    simp [Verif.rend, this] at f3
  have hfill : ∀ k, e < k → k ≤ nextRunend m n e → ∃ z, lay k = some z ∧ z / 2 ^ s = x / 2 ^ s :=
    fun k k1 k2 => f6 k (by omega) (by omega)
  refine ⟨⟨by have := G.le; omega, hlt, a3 hlt, ?_⟩, x, hx, hfill⟩
  intro k k1 k2
  rcases Nat.lt_or_ge e k with k3 | k3
  · obtain ⟨z, hz, _⟩ := hfill k k3 k2; simp [hz]
  · exact G.fill k k1 k3

theorem rightLoop_weak (r : Rep m n s lay) (h : LayWF n s T mp lay) (hs : s ≤ 46) (hT : T ≤ 1024) {re : Nat} :
    ∀ (fuel cur oc prev : Nat) (se : Int), (cur < n → GoodEnd m n lay re cur) → GoodEnd m n lay re prev →
      (se = -1 ∨ ∃ e : Nat, se = e ∧ GoodEnd m n lay re e) →
      GoodEnd m n lay re (deleteRightLoop c m n s g isc fuel cur oc prev se).2.1 ∧
      ((deleteRightLoop c m n s g isc fuel cur oc prev se).2.2 = -1 ∨
        ∃ e : Nat, (deleteRightLoop c m n s g isc fuel cur oc prev se).2.2 = e ∧ GoodEnd m n lay re e) := by
  intro fuel
  induction fuel with
  | zero => intro cur oc prev se h1 h2 h3; exact ⟨h2, h3⟩
  | succ fuel ih =>
    intro cur oc prev se h1 h2 h3
    rw [deleteRightLoop]
    dsimp only
    split_ifs with c1 c2 c3
    · exact ⟨h1 c1, h3⟩
    · refine ih _ _ _ _ ?_ (h1 c1) (Or.inr ⟨cur, rfl, h1 c1⟩)
      intro hlt
      have := (nextRunend_spec m n cur).1
      refine ((h1 c1).next r h hs hT ?_ hlt).1
      have hne : getSlot m n s (cur + 1) ≠ 0 := fun hc => c2 ⟨by omega, hc⟩
      rw [getSlot_eq _ _ _ _ (by omega)] at hne
      exact (r.slot_ne_zero h (by omega)).1 hne
    · refine ih _ _ _ _ ?_ (h1 c1) h3
      intro hlt
      have := (nextRunend_spec m n cur).1
      refine ((h1 c1).next r h hs hT ?_ hlt).1
      have hne : getSlot m n s (cur + 1) ≠ 0 := fun hc => c2 ⟨by omega, hc⟩
      rw [getSlot_eq _ _ _ _ (by omega)] at hne
      exact (r.slot_ne_zero h (by omega)).1 hne
    · exact ⟨h2, h3⟩

/-- What the chosen end of a left shift must satisfy for the home slots to stay valid. -/
structure EndOK (n s : Nat) (mp : Nat → Nat) (lay : Nat → Option Nat) (re e : Nat) : Prop where
  mid : ∀ i x, re < i → i ≤ e → lay i = some x → mp (x / 2 ^ s) < i
  hi : ∀ i x, e < i → i < n → lay i = some x → e < mp (x / 2 ^ s)

/-- The next occupied quotient belongs to the next run. -/
theorem next_occ (r : Rep m n s lay) (h : LayWF n s T mp lay) (hs : s ≤ 46) (hT : T ≤ 1024) {e x y : Nat}
    (he : e + 1 < n) (hy : lay e = some y) (hre : rend m e = true) (hx : lay (e + 1) = some x) :
    nextOccupied m (y / 2 ^ s) = x / 2 ^ s := by
  obtain ⟨a1, a2, a3⟩ := nextOccupied_spec m (y / 2 ^ s)
  obtain ⟨y0, y1⟩ := h.item _ _ (by omega) hy
  obtain ⟨x0, x1⟩ := h.item _ _ he hx
  have hle := h.quot_le hs hT (show e ≤ e + 1 by omega) he hy hx
  obtain ⟨y', hy', hlast⟩ := (r.rend e (by omega)).1 hre
  rw [hy] at hy'; injection hy' with hy'; subst hy'
  have hne := hlast (e + 1) x (by omega) he hx
  have hocc : occ m (x / 2 ^ s) = true := (r.occ _ (by omega)).2 ⟨e + 1, x, he, hx, rfl⟩
  rcases Nat.lt_trichotomy (nextOccupied m (y / 2 ^ s)) (x / 2 ^ s) with h1 | h1 | h1
  · exfalso
    obtain ⟨i, z, hi, hz, hzq⟩ := (r.occ _ (by omega)).1 (a3 (by omega))
    rcases Nat.lt_or_ge e i with h2 | h2
    · have := h.quot_le hs hT (show e + 1 ≤ i by omega) hi hx hz; omega
    · have := h.quot_le hs hT h2 (by omega) hz hy; omega
  · exact h1
  · have := a2 (x / 2 ^ s) (by omega) h1
    rw [occ, this] at hocc; simp at hocc

theorem rightLoop_strong (r : Rep m n s lay) (h : LayWF n s T mp lay) (hs : s ≤ 46) (hT : T ≤ 1024) {re : Nat}
    (hmp : ∀ q, getMappedPos c q g isc = mp q) (hmono : ∀ a b, a ≤ b → b < T → mp a ≤ mp b) :
    ∀ (fuel cur oc prev : Nat) (se : Int), n ≤ fuel + cur →
      (cur < n → GoodEnd m n lay re cur ∧ ∃ y, lay cur = some y ∧ oc = y / 2 ^ s) →
      (n ≤ cur → prev + 1 = n) →
      (se = -1 → ∀ i x, re < i → i ≤ cur → i < n → lay i = some x → mp (x / 2 ^ s) < i) →
      (∀ e : Nat, se = e → EndOK n s mp lay re e) →
      ((deleteRightLoop c m n s g isc fuel cur oc prev se).1 = true →
        ∃ k, re < k ∧ k < n ∧ lay k = none) ∧
      ((deleteRightLoop c m n s g isc fuel cur oc prev se).1 = false →
        (deleteRightLoop c m n s g isc fuel cur oc prev se).2.1 + 1 = n) ∧
      ((deleteRightLoop c m n s g isc fuel cur oc prev se).2.2 = -1 →
        EndOK n s mp lay re (deleteRightLoop c m n s g isc fuel cur oc prev se).2.1) ∧
      (∀ e : Nat, (deleteRightLoop c m n s g isc fuel cur oc prev se).2.2 = e → EndOK n s mp lay re e) := by
  intro fuel
  have stop : ∀ (cur oc prev : Nat) (se : Int), n ≤ cur → (n ≤ cur → prev + 1 = n) →
      (se = -1 → ∀ i x, re < i → i ≤ cur → i < n → lay i = some x → mp (x / 2 ^ s) < i) →
      (se = -1 → EndOK n s mp lay re prev) := by
    intro cur oc prev se a b d hse
    have := b a
    exact ⟨fun i x i1 i2 hx => d hse i x i1 (by omega) (by omega) hx, fun i x i1 i2 hx => by omega⟩
  induction fuel with
  | zero =>
    intro cur oc prev se h0 h1 h2 h3 h4
    rw [deleteRightLoop]
    exact ⟨by simp, fun _ => h2 (by omega), stop cur oc prev se (by omega) h2 h3, h4⟩
  | succ fuel ih =>
    intro cur oc prev se h0 h1 h2 h3 h4
    rw [deleteRightLoop]
    dsimp only
    by_cases c1 : cur < n
    · rw [if_pos c1]
      obtain ⟨G, y, hy, hoc⟩ := h1 c1
      have hGle := G.le
      by_cases c2 : cur + 1 < n ∧ getSlot m n s (cur + 1) = 0
      · rw [if_pos c2]
        have hemp : lay (cur + 1) = none := by
          by_contra hc
          have := (r.slot_ne_zero h c2.1).2 hc
          rw [getSlot_eq _ _ _ _ (by omega)] at c2
          exact this c2.2
        refine ⟨fun _ => ⟨cur + 1, by omega, c2.1, hemp⟩, by simp, fun hse => ⟨?_, ?_⟩, h4⟩
        · intro i x i1 i2 hx
          have i2 : i ≤ cur := i2
          exact h3 hse i x i1 i2 (by omega) hx
        · intro i x i1 i2 hx
          have i1 : cur < i := i1
          change cur < mp (x / 2 ^ s)
          by_contra hc
          rcases Nat.lt_or_ge (cur + 1) i with i3 | i3
          · exact h.left i (cur + 1) x i2 hx (by omega) i3 hemp
          · rw [show i = cur + 1 by omega, hemp] at hx; simp at hx
      · rw [if_neg c2]
        obtain ⟨a1, a2, a3⟩ := nextRunend_spec m n cur
        rw [hmp]
        have hlast : n ≤ nextRunend m n cur → cur + 1 = n := by
          intro hge
          by_contra hc
          have hlt : cur + 1 < n := by omega
          have hne : getSlot m n s (cur + 1) ≠ 0 := fun hc => c2 ⟨by omega, hc⟩
          rw [getSlot_eq _ _ _ _ (by omega)] at hne
          obtain ⟨x, hx⟩ := Option.ne_none_iff_exists'.1 ((r.slot_ne_zero h hlt).1 hne)
          obtain ⟨f, _, f1, f2, f3, _⟩ := run_end r h hs hT hlt hx
          have := a2 f (by omega) (by omega)
          rw [rend] at f3; rw [f3] at this; simp at this
        have hnext : cur + 1 < n → ∃ x, lay (cur + 1) = some x ∧ nextOccupied m oc = x / 2 ^ s := by
          intro hlt
          have hne : getSlot m n s (cur + 1) ≠ 0 := fun hc => c2 ⟨by omega, hc⟩
          rw [getSlot_eq _ _ _ _ (by omega)] at hne
          obtain ⟨x, hx⟩ := Option.ne_none_iff_exists'.1 ((r.slot_ne_zero h hlt).1 hne)
          exact ⟨x, hx, by rw [hoc]; exact next_occ r h hs hT hlt hy G.rend hx⟩
        have hgood : nextRunend m n cur < n → GoodEnd m n lay re (nextRunend m n cur) ∧
            ∃ z, lay (nextRunend m n cur) = some z ∧ nextOccupied m oc = z / 2 ^ s ∧
              ∀ k, cur < k → k ≤ nextRunend m n cur → ∃ w, lay k = some w ∧ w / 2 ^ s = z / 2 ^ s := by
          intro hlt
          obtain ⟨x, hx, hox⟩ := hnext (by omega)
          obtain ⟨G', x', hx', hfill⟩ := G.next r h hs hT (by simp [hx]) hlt
          rw [hx] at hx'; injection hx' with hx'; subst hx'
          obtain ⟨z, hz, hzq⟩ := hfill _ a1 (Nat.le_refl _)
          exact ⟨G', z, hz, by omega, fun k k1 k2 => by rw [hzq]; exact hfill k k1 k2⟩
        refine ih _ _ _ _ (by omega) ?_ hlast ?_ ?_
        · intro hlt
          obtain ⟨G', z, hz, hoz, _⟩ := hgood hlt
          exact ⟨G', z, hz, hoz⟩
        · intro hse i x i1 i2 i3 hx
          split_ifs at hse with hcond
          rcases Nat.lt_or_ge cur i with i4 | i4
          · have hlt : nextRunend m n cur < n ∨ n ≤ nextRunend m n cur := by omega
            rcases hlt with hlt | hge
            · obtain ⟨G', z, hz, hoz, hfill⟩ := hgood hlt
              obtain ⟨w, hw, hwq⟩ := hfill i i4 i2
              rw [hx] at hw; injection hw with hw; subst hw
              have : ¬ mp (nextOccupied m oc) ≥ cur + 1 := fun hge => hcond ⟨hse, hge⟩
              rw [hwq, ← hoz]; omega
            · have := hlast hge; omega
          · exact h3 hse i x i1 i4 i3 hx
        · intro e he
          split_ifs at he with hcond
          · have he : cur = e := by exact_mod_cast he
            subst he
            refine ⟨fun i x i1 i2 hx => h3 hcond.1 i x i1 i2 (by omega) hx, ?_⟩
            intro i x i1 i2 hx
            obtain ⟨z, hz, hoz⟩ := hnext (by omega)
            obtain ⟨_, x1⟩ := h.item i x i2 hx
            have hle := h.quot_le hs hT (show cur + 1 ≤ i by omega) i2 hz hx
            have := hmono _ _ hle x1
            have := hcond.2
            rw [hoz] at this; omega
          · exact h4 e he
    · rw [if_neg c1]
      exact ⟨by simp, fun _ => h2 (by omega), stop cur oc prev se (by omega) h2 h3, h4⟩

end

/-! ## The loop to the left -/

section
variable {c : Cfg} {m n s g isc T : Nat} {mp : Nat → Nat} {lay : Nat → Option Nat} {rs re : Nat}

/-- A possible start of a right shift. -/
structure GoodStart (n s : Nat) (lay : Nat → Option Nat) (rs re b : Nat) : Prop where
  le : b ≤ rs
  cut : Cut n s lay b
  fill : ∀ k, b < k → k ≤ re → lay k ≠ none

theorem hole_start (h : LayWF n s T mp lay) (R : RunIs m n s lay q rs re) {f : Nat}
    (hf : lay f = none) (hlt : f < re) (hfill : ∀ k, f < k → k ≤ re → lay k ≠ none) :
    GoodStart n s lay rs re f ∧ GoodStart n s lay rs re (f + 1) := by
  have : f < rs := by
    by_contra hc
    obtain ⟨z, hz, _⟩ := R.fill f (by omega) (by omega)
    rw [hf] at hz; simp at hz
  exact ⟨⟨by omega, hole_cut h hf (Or.inl rfl), hfill⟩,
    ⟨by omega, hole_cut h hf (Or.inr rfl), fun k k1 k2 => hfill k (by omega) k2⟩⟩

/-- Between two neighbouring run ends, if the slot after the first one is filled. -/
theorem prev_fill (r : Rep m n s lay) (h : LayWF n s T mp lay) (hs : s ≤ 46) (hT : T ≤ 1024) {prev : Nat}
    (hprev : prev < n) (hc : 0 ≤ previousRunend m prev)
    (hf : lay ((previousRunend m prev).toNat + 1) ≠ none) :
    ∃ x, lay ((previousRunend m prev).toNat + 1) = some x ∧
      ∀ k, (previousRunend m prev).toNat < k → k ≤ prev → ∃ z, lay k = some z ∧ z / 2 ^ s = x / 2 ^ s := by
  obtain ⟨a1, a2, a3, a4⟩ := previousRunend_spec m prev
  generalize previousRunend m prev = cur at *
  obtain ⟨x, hx⟩ := Option.ne_none_iff_exists'.1 hf
  obtain ⟨f, y, f1, f2, f3, f4, f5, f6⟩ := run_end r h hs hT (show cur.toNat + 1 < n by omega) hx
  have hle : prev ≤ f := by
    by_contra hcc
    have := a3 f (by omega) (by omega)
    simp [rend, this] at f3
  exact ⟨x, hx, fun k k1 k2 => f6 k (by omega) (by omega)⟩

theorem leftLoop_weak (r : Rep m n s lay) (h : LayWF n s T mp lay) (hs : s ≤ 46) (hT : T ≤ 1024) {q : Nat}
    (R : RunIs m n s lay q rs re) :
    ∀ (fuel prev : Nat) (oc ss : Int), prev ≤ re → rend m prev = true →
      (∀ k, prev ≤ k → k ≤ re → lay k ≠ none) →
      (ss = -1 ∨ ∃ b : Nat, ss = b ∧ GoodStart n s lay rs re b ∧ lay b ≠ none) →
      ((deleteLeftLoop c m n s g isc fuel (previousRunend m prev) prev oc ss).2.2 = -1 ∨
        ∃ b : Nat, (deleteLeftLoop c m n s g isc fuel (previousRunend m prev) prev oc ss).2.2 = b ∧
          GoodStart n s lay rs re b ∧ lay b ≠ none) := by
  intro fuel
  have hRlt := R.lt
  induction fuel with
  | zero => intro prev oc ss h1 h2 h3 h4; exact h4
  | succ fuel ih =>
    intro prev oc ss h1 h2 h3 h4
    obtain ⟨a1, a2, a3, a4⟩ := previousRunend_spec m prev
    have hpf := prev_fill r h hs hT (show prev < n by omega)
    rw [deleteLeftLoop]
    dsimp only
    generalize hcur : previousRunend m prev = cur at *
    by_cases c1 : 0 ≤ cur
    · rw [if_pos c1]
      have hslot : getSlot m n s (cur.toNat + 1) = 0 ↔ lay (cur.toNat + 1) = none := by
        rw [getSlot_eq _ _ _ _ (by omega)]
        have := r.slot_ne_zero h (show cur.toNat + 1 < n by omega)
        constructor
        · intro h0; by_contra hc; exact this.2 hc h0
        · intro h0; by_contra hc; exact this.1 hc h0
      by_cases c2 : getSlot m n s (cur.toNat + 1) = 0
      · rw [if_pos c2]
        dsimp only
        obtain ⟨b1, b2, b3, b4⟩ := findEmptySlotBefore_spec r h hs hT (show prev < n by omega) (h3 prev (Nat.le_refl _) h1)
        have hemp := hslot.1 c2
        generalize findEmptySlotBefore m n s prev = fe at *
        have hfe : (cur.toNat : Int) + 1 ≤ fe := by
          by_contra hc
          rcases Nat.eq_or_lt_of_le (show cur.toNat + 1 ≤ prev by omega) with h5 | h5
          · rw [h5] at hemp; exact h3 prev (Nat.le_refl _) h1 hemp
          · exact b3 (cur.toNat + 1) (by omega) h5 hemp
        split_ifs with c3
        · have hff : ∀ k, fe.toNat < k → k ≤ re → lay k ≠ none := by
            intro k k1 k2
            rcases Nat.lt_or_ge k prev with k3 | k3
            · exact b3 k (by omega) k3
            · exact h3 k k3 k2
          exact Or.inr ⟨fe.toNat + 1, by omega, (hole_start h R (b4 (by omega)) (by omega) hff).2,
            hff _ (by omega) (by omega)⟩
        · exact h4
      · rw [if_neg c2]
        obtain ⟨x, hx, hfill⟩ := hpf c1 (fun hc => c2 (hslot.2 hc))
        have hrc : rend m cur.toNat = true := a4 c1
        have hfill' : ∀ k, cur.toNat < k → k ≤ re → lay k ≠ none := by
          intro k k1 k2
          rcases Nat.lt_or_ge prev k with k3 | k3
          · exact h3 k (by omega) k2
          · obtain ⟨z, hz, _⟩ := hfill k k1 k3; simp [hz]
        have hcrs : cur.toNat < rs := by
          by_contra hc
          have := R.no_rend r (show rs ≤ cur.toNat by omega) (by omega)
          rw [hrc] at this; simp at this
        apply ih cur.toNat _ _ (by omega) hrc
        · intro k k1 k2
          rcases Nat.eq_or_lt_of_le k1 with k3 | k3
          · subst k3
            obtain ⟨z, hz, _⟩ := (r.rend cur.toNat (by omega)).1 hrc
            simp [hz]
          · exact hfill' k k3 k2
        · split_ifs with c3
          · exact Or.inr ⟨cur.toNat + 1, by omega, ⟨by omega,
              rend_cut r h hs hT (by omega) hrc, fun k k1 k2 => hfill' k (by omega) k2⟩, hfill' _ (by omega) (by omega)⟩
          · exact h4
    · rw [if_neg c1]
      exact h4

/-- The previous occupied quotient belongs to the previous run. -/
theorem prev_occ (r : Rep m n s lay) (h : LayWF n s T mp lay) (hs : s ≤ 46) (hT : T ≤ 1024) {prev x y : Nat}
    (hprev : prev < n) (hy : lay prev = some y) (hc : 0 ≤ previousRunend m prev)
    (hx : lay (previousRunend m prev).toNat = some x) :
    previousOccupied m (y / 2 ^ s) = (x / 2 ^ s : Nat) := by
  obtain ⟨a1, a2, a3, a4⟩ := previousRunend_spec m prev
  obtain ⟨b1, b2, b3, b4⟩ := previousOccupied_spec m (y / 2 ^ s)
  generalize previousRunend m prev = cur at *
  generalize previousOccupied m (y / 2 ^ s) = po at *
  have hrc : rend m cur.toNat = true := a4 hc
  obtain ⟨y0, y1⟩ := h.item _ _ hprev hy
  obtain ⟨x0, x1⟩ := h.item _ _ (by omega) hx
  obtain ⟨x', hx', hlast⟩ := (r.rend cur.toNat (by omega)).1 hrc
  rw [hx] at hx'; injection hx' with hx'; subst hx'
  have hle := h.quot_le hs hT (show cur.toNat ≤ prev by omega) hprev hx hy
  have hne := hlast prev y (by omega) hprev hy
  have hocc : occ m (x / 2 ^ s) = true := (r.occ _ (by omega)).2 ⟨cur.toNat, x, by omega, hx, rfl⟩
  rcases Int.lt_trichotomy po (x / 2 ^ s : Nat) with h1 | h1 | h1
  · have := b3 (x / 2 ^ s) h1 (by omega)
    simp [occ, this] at hocc
  · exact h1
  · exfalso
    have hp0 : 0 ≤ po := le_trans (Int.natCast_nonneg (x / 2 ^ s)) (le_of_lt h1)
    have h1' : x / 2 ^ s < po.toNat := (Int.lt_toNat).2 h1
    have b2' : po.toNat < y / 2 ^ s := by
      have : (po.toNat : Int) < (y / 2 ^ s : Nat) := by rw [Int.toNat_of_nonneg hp0]; exact b2
      exact_mod_cast this
    obtain ⟨i, z, hi, hz, hzq⟩ := (r.occ po.toNat (by omega)).1 (b4 hp0)
    rcases Nat.lt_or_ge cur.toNat i with h2 | h2
    · obtain ⟨f, w, f1, f2, f3, f4, f5, f6⟩ := run_end r h hs hT hi hz
      rcases Nat.lt_or_ge f prev with h3 | h3
      · have := a3 f (by omega) (by omega)
        simp [rend, this] at f3
      · have := h.quot_le hs hT h3 f2 hy f4; omega
    · have := h.quot_le hs hT h2 (by omega) hz hx; omega

/-- What the left loop guarantees about home slots. -/
theorem leftLoop_strong (r : Rep m n s lay) (h : LayWF n s T mp lay) (hs : s ≤ 46) (hT : T ≤ 1024)
    (hmp : ∀ q, getMappedPos c q g isc = mp q) (hmono : ∀ a b, a ≤ b → b < T → mp a ≤ mp b) {i0 k0 x0 : Nat}
    (hik : i0 < k0) (hx0 : lay i0 = some x0) (hk0 : lay k0 = none) (hre : re < n) :
    ∀ (fuel prev : Nat) (oc ss : Int), prev < fuel → prev ≤ re → rend m prev = true → k0 < prev →
      (∀ y, lay prev = some y → oc = (y / 2 ^ s : Nat)) →
      (∀ k, prev ≤ k → k ≤ re → lay k ≠ none) →
      (ss = -1 → ∀ i x, prev < i → i ≤ re → lay i = some x → mp (x / 2 ^ s) ≤ i) →
      (∀ b : Nat, ss = b → prev < b ∧ b ≤ re ∧ (∀ i x, prev < i → i < b → lay i = some x → mp (x / 2 ^ s) ≤ i) ∧
        ∀ i x, b ≤ i → i < n → lay i = some x → b < mp (x / 2 ^ s)) →
      0 ≤ (deleteLeftLoop c m n s g isc fuel (previousRunend m prev) prev oc ss).1 ∧
      ((deleteLeftLoop c m n s g isc fuel (previousRunend m prev) prev oc ss).2.2 = -1 →
        ∀ i x, i ≤ re → lay i = some x → mp (x / 2 ^ s) ≤ i) ∧
      (∀ b : Nat, (deleteLeftLoop c m n s g isc fuel (previousRunend m prev) prev oc ss).2.2 = b →
        (∀ i x, i < b → lay i = some x → mp (x / 2 ^ s) ≤ i) ∧
        ∀ i x, b ≤ i → i < n → lay i = some x → b < mp (x / 2 ^ s)) := by
  intro fuel
  induction fuel with
  | zero => intro prev oc ss h0; omega
  | succ fuel ih =>
    intro prev oc ss h0 h1 h2 hk h3 h4 h5 h6
    have hprevn : prev < n := by omega
    obtain ⟨y, hy, hlasty⟩ := (r.rend prev hprevn).1 h2
    have hoc := h3 y hy
    subst hoc
    have hpo := fun x => prev_occ (x := x) r h hs hT hprevn hy
    obtain ⟨a1, a2, a3, a4⟩ := previousRunend_spec m prev
    have hpf := prev_fill r h hs hT hprevn
    have hc1 : (i0 : Int) ≤ previousRunend m prev := by
      obtain ⟨f, w, f1, f2, f3, f4, f5, f6⟩ := run_end r h hs hT (show i0 < n by omega) hx0
      have hf : f < k0 := by
        by_contra hc
        obtain ⟨z, hz, _⟩ := f6 k0 (by omega) (by omega)
        rw [hk0] at hz; simp at hz
      by_contra hc
      have := a3 f (by omega) (by omega)
      simp [rend, this] at f3
    rw [deleteLeftLoop]
    dsimp only
    rw [hmp]
    generalize hcur : previousRunend m prev = cur at *
    have c1 : 0 ≤ cur := by omega
    rw [if_pos c1, Int.toNat_natCast]
    have hslot : getSlot m n s (cur.toNat + 1) = 0 ↔ lay (cur.toNat + 1) = none := by
      rw [getSlot_eq _ _ _ _ (by omega)]
      have := r.slot_ne_zero h (show cur.toNat + 1 < n by omega)
      constructor
      · intro h0; by_contra hc; exact this.2 hc h0
      · intro h0; by_contra hc; exact this.1 hc h0
    -- the run ending at `prev`, starting at `st`
    have step : ∀ st : Nat, st ≤ prev → (∀ k, st ≤ k → k ≤ prev → ∃ z, lay k = some z ∧ z / 2 ^ s = y / 2 ^ s) →
        (((if ((mp (y / 2 ^ s) : Nat) : Int) > (st : Int) then (st : Int) else ss) = -1 →
          ∀ i x, st ≤ i → i ≤ re → lay i = some x → mp (x / 2 ^ s) ≤ i) ∧
        (∀ b : Nat, (if ((mp (y / 2 ^ s) : Nat) : Int) > (st : Int) then (st : Int) else ss) = b → st ≤ b ∧ b ≤ re ∧
          (∀ i x, st ≤ i → i < b → lay i = some x → mp (x / 2 ^ s) ≤ i) ∧
          ∀ i x, b ≤ i → i < n → lay i = some x → b < mp (x / 2 ^ s))) := by
      intro st hst hfill
      constructor
      · intro hif i x i1 i2 hx
        split_ifs at hif with hc
        rcases Nat.lt_or_ge prev i with i3 | i3
        · exact h5 hif i x i3 i2 hx
        · obtain ⟨z, hz, hzq⟩ := hfill i i1 i3
          rw [hx] at hz; injection hz with hz; subst hz
          rw [hzq]; omega
      · intro b hif
        split_ifs at hif with hc
        · have hb : st = b := by exact_mod_cast hif
          subst hb
          refine ⟨Nat.le_refl _, by omega, fun i x i1 i2 _ => by omega, ?_⟩
          intro i x i1 i2 hx
          obtain ⟨z, hz, hzq⟩ := hfill st (Nat.le_refl _) hst
          have hle := h.quot_le hs hT i1 i2 hz hx
          have := hmono _ _ hle (h.item i x i2 hx).2
          rw [hzq] at this; omega
        · obtain ⟨d1, d2, d3, d4⟩ := h6 b hif
          refine ⟨by omega, d2, ?_, d4⟩
          intro i x i1 i2 hx
          rcases Nat.lt_or_ge prev i with i3 | i3
          · exact d3 i x i3 i2 hx
          · obtain ⟨z, hz, hzq⟩ := hfill i i1 i3
            rw [hx] at hz; injection hz with hz; subst hz
            rw [hzq]; omega
    by_cases c2 : getSlot m n s (cur.toNat + 1) = 0
    · rw [if_pos c2]
      dsimp only
      obtain ⟨b1, b2, b3, b4⟩ := findEmptySlotBefore_spec r h hs hT hprevn (by simp [hy])
      have hemp := hslot.1 c2
      generalize findEmptySlotBefore m n s prev = fe at *
      have hfe : (cur.toNat : Int) + 1 ≤ fe := by
        by_contra hc
        rcases Nat.eq_or_lt_of_le (show cur.toNat + 1 ≤ prev by omega) with h7 | h7
        · rw [h7, hy] at hemp; simp at hemp
        · exact b3 (cur.toNat + 1) (by omega) h7 hemp
      have hfe4 := b4 (by omega)
      obtain ⟨st, hst⟩ : ∃ st : Nat, fe + 1 = st := ⟨(fe + 1).toNat, by omega⟩
      rw [hst]
      have hrun : ∀ k, st ≤ k → k ≤ prev → ∃ z, lay k = some z ∧ z / 2 ^ s = y / 2 ^ s := by
        intro k k1 k2
        have hkf : lay k ≠ none := by
          rcases Nat.eq_or_lt_of_le k2 with k3 | k3
          · rw [k3, hy]; simp
          · exact b3 k (by omega) k3
        obtain ⟨z, hz⟩ := Option.ne_none_iff_exists'.1 hkf
        refine ⟨z, hz, ?_⟩
        obtain ⟨f, w, f1, f2, f3, f4, f5, f6⟩ := run_end r h hs hT (show k < n by omega) hz
        rcases Nat.lt_or_ge f prev with h8 | h8
        · have := a3 f (by omega) (by omega)
          simp [rend, this] at f3
        · have e1 := h.quot_le hs hT k2 hprevn hz hy
          have e2 := h.quot_le hs hT h8 f2 hy f4
          omega
      obtain ⟨s1, s2⟩ := step st (by omega) hrun
      have hleft : ∀ i x, i < st → lay i = some x → mp (x / 2 ^ s) ≤ i := by
        intro i x i1 hx
        by_contra hc
        exact h.right i fe.toNat x (by omega) hx (by omega) (by omega) (by omega) hfe4
      refine ⟨by omega, ?_, ?_⟩
      · intro hif i x i1 hx
        rcases Nat.lt_or_ge i st with i2 | i2
        · exact hleft i x i2 hx
        · exact s1 hif i x i2 i1 hx
      · intro b hif
        obtain ⟨d1, d2, d3, d4⟩ := s2 b hif
        refine ⟨?_, d4⟩
        intro i x i1 hx
        rcases Nat.lt_or_ge i st with i2 | i2
        · exact hleft i x i2 hx
        · exact d3 i x i2 i1 hx
    · rw [if_neg c2]
      obtain ⟨x, hx, hfill⟩ := hpf c1 (fun hc => c2 (hslot.2 hc))
      have hrc : rend m cur.toNat = true := a4 c1
      obtain ⟨xc, hxc, _⟩ := (r.rend cur.toNat (by omega)).1 hrc
      have hfill2 : ∀ k, cur.toNat + 1 ≤ k → k ≤ prev → ∃ z, lay k = some z ∧ z / 2 ^ s = y / 2 ^ s := by
        intro k k1 k2
        obtain ⟨z, hz, hzq⟩ := hfill k (by omega) k2
        obtain ⟨w, hw, hwq⟩ := hfill prev (by omega) (Nat.le_refl _)
        rw [hy] at hw; injection hw with hw; subst hw
        exact ⟨z, hz, by omega⟩
      have hkc : k0 < cur.toNat := by
        rcases Nat.lt_trichotomy k0 cur.toNat with h7 | h7 | h7
        · exact h7
        · rw [h7, hxc] at hk0; simp at hk0
        · obtain ⟨z, hz, _⟩ := hfill k0 h7 (by omega)
          rw [hk0] at hz; simp at hz
      obtain ⟨s1, s2⟩ := step (cur.toNat + 1) (by omega) hfill2
      have hcast : cur + 1 = ((cur.toNat + 1 : Nat) : Int) := by omega
      rw [hcast]
      apply ih cur.toNat _ _ (by omega) (by omega) hrc hkc
      · intro y' hy'
        rw [hxc] at hy'; injection hy' with hy'; subst hy'
        rw [hpo xc c1 hxc]
      · intro k k1 k2
        rcases Nat.lt_or_ge prev k with k3 | k3
        · exact h4 k (by omega) k2
        · rcases Nat.eq_or_lt_of_le k1 with k4 | k4
          · rw [← k4, hxc]; simp
          · obtain ⟨z, hz, _⟩ := hfill k k4 k3; simp [hz]
      · intro hif i x i1 i2 hx
        exact s1 hif i x (by omega) i2 hx
      · intro b hif
        obtain ⟨d1, d2, d3, d4⟩ := s2 b hif
        exact ⟨by omega, d2, fun i x i1 i2 hx => d3 i x (by omega) i2 hx, d4⟩

end

end Verif
