import Verif.Proof.Ins
import Verif.Proof.Outside
import Verif.Proof.Status

/-!
# InsertRawIntoInfixStore puts exactly the new item into the region
-/

namespace Verif

section
variable {m n s T : Nat} {mp : Nat → Nat} {lay lay' : Nat → Option Nat} {σ : Nat → Nat} {p x m' : Nat}

/-- Assemble `Rep` of the new layout. -/
theorem ins_rep (I : Ins n lay lay' p x σ) (r : Rep m n s lay) (hq : x / 2 ^ s < 1024)
    (hslot : ∀ i, i < n → slotv m' n s i = slotOf s (lay' i))
    (hocc : ∀ q, q < 1024 → occ m' q = occ m q)
    (hpop0 : pop0 m' = pop0 m + if occ m (x / 2 ^ s) = false ∧ x / 2 ^ s < 512 then 1 else 0)
    (hpop1 : pop1 m' = cnt (rend m') (min 512 n))
    (h1 : ∀ i y, i < n → lay i = some y → y / 2 ^ s = x / 2 ^ s → σ i < p → rend m' (σ i) = false)
    (h2 : ∀ i y, i < n → lay i = some y → (y / 2 ^ s ≠ x / 2 ^ s ∨ p < σ i) → rend m' (σ i) = rend m i)
    (h3 : rend m' p = true ↔ ∀ i y, i < n → lay i = some y → p < σ i → y / 2 ^ s ≠ x / 2 ^ s)
    (h4 : ∀ k, k < n → lay' k = none → rend m' k = false) :
    Rep (setBit m' 1 (x / 2 ^ s)) n s lay' := by
  refine ⟨?_, ?_, ?_, ?_, ?_⟩
  · intro i hi; rw [slotv_setBit1 _ _ _ _ _ hq]; exact hslot i hi
  · intro q hq'
    rw [occ_setBit1, hocc q hq', ins_occ I, ← r.occ q hq']
    simp
  · intro i hi
    rw [rend_setBit1 _ _ _ hq]
    exact ins_rend I r.rend h1 h2 h3 h4 i hi
  · rw [pop0_setBit _ _ _ (by decide), hpop0, r.pop0]
    split_ifs with hc
    · symm
      apply cnt_flip hc.2 hc.1
      · rw [occ_setBit1]; simp
      · intro i hi hne
        rw [occ_setBit1, hocc i (by omega)]; simp [hne]
    · rw [Nat.add_zero]
      apply cnt_congr
      intro i hi
      rw [occ_setBit1, hocc i (by omega)]
      by_cases hiq : i = x / 2 ^ s
      · have : occ m i = true := by
          rw [hiq]; by_contra hh; apply hc
          exact ⟨by simpa using hh, by omega⟩
        simp [this]
      · simp [hiq]
  · rw [pop1_setBit _ _ _ (by decide), hpop1]
    apply cnt_congr
    intro i _
    rw [rend_setBit1 _ _ _ hq]

theorem pop0_le (r : Rep m n s lay) : pop0 m ≤ 512 := by rw [r.pop0]; exact cnt_le _ _
theorem pop1_le (r : Rep m n s lay) : pop1 m ≤ 512 := by
  rw [r.pop1]; have := cnt_le (rend m) (min 512 n); omega

theorem add32_small {a b : Nat} (h : a + b < 2 ^ 32) : add32 a b = a + b := Nat.mod_eq_of_lt h
theorem sub32_small {a b : Nat} (h : b ≤ a) (ha : a < 2 ^ 32) : sub32 a b = a - b := by
  unfold sub32; omega

theorem b2n_eq (b : Prop) [Decidable b] : b2n (decide b) = if b then 1 else 0 := by
  unfold b2n; simp

theorem rend_none (r : Rep m n s lay) {i : Nat} (hi : i < n) (h : lay i = none) : rend m i = false := by
  by_contra hc
  exact r.filled_of_rend hi (by simpa using hc) h

/-- Item for the new key. -/
structure NewItem (n s T : Nat) (mp : Nat → Nat) (x : Nat) : Prop where
  s1 : 1 ≤ s
  s2 : s ≤ 46
  hT : T ≤ 1024
  q : x / 2 ^ s < T
  odd : x % 2 = 1
  home : ∀ q, mp q < n
  mono : ∀ a b, a ≤ b → b < T → mp a ≤ mp b

theorem NewItem.ne (N : NewItem n s T mp x) : x % 2 ^ s ≠ 0 := by
  intro h
  have h1 := N.s1
  have h2 : 2 ∣ 2 ^ s := dvd_pow_self 2 (by omega)
  have h3 : x % 2 ^ s % 2 = x % 2 := Nat.mod_mod_of_dvd x h2
  rw [h, N.odd] at h3; simp at h3

theorem NewItem.eodd (N : NewItem n s T mp x) : x % 2 ^ s % 2 = 1 := by
  have h1 := N.s1
  have h2 : 2 ∣ 2 ^ s := dvd_pow_self 2 (by omega)
  rw [Nat.mod_mod_of_dvd x h2, N.odd]

theorem NewItem.lt (N : NewItem n s T mp x) : x < 2 ^ 64 := item_lt N.s2 N.hT N.q

/-- What an insertion achieves. -/
def Inserted (n s T : Nat) (mp : Nat → Nat) (lay : Nat → Option Nat) (x m m' : Nat) : Prop :=
  (∃ lay', LayWF n s T mp lay' ∧ Rep m' n s lay' ∧
    ∃ A B, content n lay = A ++ B ∧ content n lay' = A ++ x :: B) ∧ Outside n s m m'

theorem free_insert (r : Rep m n s lay) (h : LayWF n s T mp lay) (N : NewItem n s T mp x)
    (ho : occ m (x / 2 ^ s) = false) (hf : lay (mp (x / 2 ^ s)) = none) :
    Inserted n s T mp lay x m
      (setBit (insertFree m n s (x / 2 ^ s) (mp (x / 2 ^ s)) (x % 2 ^ s)) 1 (x / 2 ^ s)) := by
  have hs1 := N.s1
  have hs2 := N.s2
  have hT := N.hT
  have hq := N.q
  have hv : x % 2 ^ s < 2 ^ s := Nat.mod_lt _ (Nat.two_pow_pos s)
  generalize hp : mp (x / 2 ^ s) = p at *
  have hpn : p < n := hp ▸ N.home _
  have hnoq : ∀ i y, i < n → lay i = some y → y / 2 ^ s ≠ x / 2 ^ s := by
    intro i y hi hy hc
    have := (r.occ _ (by omega)).2 ⟨i, y, hi, hy, hc⟩
    rw [ho] at this; simp at this
  have I := ins_right (x := x) (Nat.le_refl p) hpn hf
  refine ⟨⟨layR lay p p x, ?_, ?_, content_layR (Nat.le_refl p) hpn hf⟩, ?_⟩
  rotate_left 2
  · exact out_setBit1 (out_addPop1 (out_addPop0 (out_setBit17 (out_setSlot (outside_refl _ _ _) (by omega) hs1 hv hpn) hpn))) (by omega)
  · apply layWF_right h (Nat.le_refl p) hpn hf (fun k a b => by omega) ⟨N.ne, N.q⟩
    · intro i y hi hy
      obtain ⟨a1, a2⟩ := h.item i y (by omega) hy
      have := hnoq i y (by omega) hy
      rcases Nat.lt_or_gt_of_ne this with h1 | h1
      · exact ile_of_quot_lt a1 N.ne (item_lt hs2 hT a2) N.lt h1
      · exfalso
        have hm := N.mono _ _ (Nat.le_of_lt h1) a2
        rw [hp] at hm
        exact h.right i p y (by omega) hy (by omega) (by omega) hpn hf
    · intro i y hi1 hi2 hy
      obtain ⟨a1, a2⟩ := h.item i y (by omega) hy
      have hne := hnoq i y (by omega) hy
      have hip : i ≠ p := by rintro rfl; rw [hf] at hy; simp at hy
      rcases Nat.lt_or_gt_of_ne hne with h1 | h1
      · exfalso
        have hm := N.mono _ _ (Nat.le_of_lt h1) hq
        rw [hp] at hm
        exact h.left i p y hi2 hy (by omega) (by omega) hf
      · exact ile_of_quot_lt N.ne a1 N.lt (item_lt hs2 hT a2) h1
    · intro j y hj hy hc; exact absurd hc (hnoq j y hj hy)
    · rw [hp]; intro k a b; omega
    · rw [hp]
  · have hp0 := pop0_le r
    have hp1 := pop1_le r
    have hrp : rend m p = false := rend_none r hpn hf
    have hr : ∀ i, i < n → rend (insertFree m n s (x / 2 ^ s) p (x % 2 ^ s)) i = (rend m i || decide (i = p)) := by
      intro i hi
      simp only [insertFree, addPop0, addPop1, rend_setPop0, rend_setPop1, rend_setBit17]
      rw [rend_setSlot (by omega) hs1 hv _ hi]
    apply ins_rep I r (by omega)
    · intro i hi
      simp only [insertFree, addPop0, addPop1, slotv_setPop0, slotv_setPop1]
      rw [slotv_setBit17 _ _ _ _ _ hpn, slotv_setSlot (by omega) hs1 hv]
      unfold layR
      split_ifs with h1 h2
      · rfl
      · omega
      · exact r.slot i hi
    · intro q hq'
      simp only [insertFree, addPop0, addPop1, occ_setPop0, occ_setPop1]
      rw [occ_setBit17 _ _ _ hq', occ_setSlot (by omega) hs1 hv _ hq']
    · simp only [insertFree, addPop0, addPop1, pop0_setPop1]
      rw [pop0_setPop0 _ _ (add32_lt _ _), pop0_setBit _ _ _ (by decide), pop0_setSlot (by omega) hs1 hv, b2n_eq,
        add32_small (by split_ifs <;> omega)]
      simp [ho]
    · have e1 : pop1 (insertFree m n s (x / 2 ^ s) p (x % 2 ^ s)) = pop1 m + if p < 512 then 1 else 0 := by
        simp only [insertFree, addPop0, addPop1]
        rw [pop1_setPop1 _ _ (add32_lt _ _), pop1_setPop0, pop1_setBit _ _ _ (by decide),
          pop1_setSlot (by omega) hs1 hv, b2n_eq, add32_small (by split_ifs <;> omega)]
      rw [e1, r.pop1]
      split_ifs with h5
      · symm
        apply cnt_flip (a := p) (by omega) hrp
        · rw [hr p hpn]; simp
        · intro i hi hne
          rw [hr i (by omega)]; simp [hne]
      · rw [Nat.add_zero]
        apply cnt_congr
        intro i hi
        rw [hr i (by omega)]; simp [show ¬ i = p by omega]
    · intro i y hi hy hc; exact absurd hc (hnoq i y hi hy)
    · intro i y hi hy _
      have hip : i ≠ p := by rintro rfl; rw [hf] at hy; simp at hy
      rw [if_neg (by omega), hr i hi]; simp [hip]
    · rw [hr p hpn]
      simp only [decide_true, Bool.or_true, true_iff]
      intro i y hi hy _; exact hnoq i y hi hy
    · intro k hk hl
      unfold layR at hl
      split_ifs at hl with h1 h2
      · omega
      · rw [hr k hk, rend_none r hk hl]; simp [h1]

/-! ## Occupied quotient -/

theorem insertSearch_spec (m n s e : Nat) (l0 r0 : Int)
    (hdown : ∀ i j : Nat, l0 < i → i ≤ j → (j : Int) < r0 →
      nolb64 (getSlot m n s j) ≤ sub64 e 1 → nolb64 (getSlot m n s i) ≤ sub64 e 1) :
    ∀ (fuel : Nat) (l r : Int), -1 ≤ l → l0 ≤ l → l < r → r ≤ r0 → r - l ≤ fuel + 1 →
      (∀ k : Nat, l0 < k → (k : Int) ≤ l → nolb64 (getSlot m n s k) ≤ sub64 e 1) →
      (∀ k : Nat, r ≤ k → (k : Int) < r0 → ¬ nolb64 (getSlot m n s k) ≤ sub64 e 1) →
      l < insertSearch m n s e fuel l r ∧ insertSearch m n s e fuel l r ≤ r ∧
      (∀ k : Nat, l0 < k → (k : Int) < insertSearch m n s e fuel l r → nolb64 (getSlot m n s k) ≤ sub64 e 1) ∧
      (∀ k : Nat, insertSearch m n s e fuel l r ≤ k → (k : Int) < r0 →
        ¬ nolb64 (getSlot m n s k) ≤ sub64 e 1) := by
  intro fuel
  induction fuel with
  | zero =>
    intro l r h1 h2 h3 h4 h5 h6 h7
    rw [insertSearch]
    exact ⟨h3, Int.le_refl _, fun k a b => h6 k a (by omega), h7⟩
  | succ fuel ih =>
    intro l r h1 h2 h3 h4 h5 h6 h7
    rw [insertSearch]
    dsimp only
    split_ifs with c1 c2
    · have hm : ((l + r) / 2).toNat = (l + r) / 2 := by omega
      obtain ⟨a1, a2, a3, a4⟩ := ih ((l + r) / 2) r (by omega) (by omega) (by omega) h4 (by omega) (by
        intro k k1 k2
        exact hdown k ((l + r) / 2).toNat k1 (by omega) (by omega) c2) h7
      exact ⟨by omega, a2, a3, a4⟩
    · have hm : ((l + r) / 2).toNat = (l + r) / 2 := by omega
      obtain ⟨a1, a2, a3, a4⟩ := ih l ((l + r) / 2) h1 h2 (by omega) (by omega) (by omega) h6 (by
        intro k k1 k2 hc
        exact c2 (hdown ((l + r) / 2).toNat k (by omega) (by omega) k2 hc))
      exact ⟨a1, by omega, a3, a4⟩
    · exact ⟨h3, Int.le_refl _, fun k a b => h6 k a (by omega), h7⟩

theorem home_filled (r : Rep m n s lay) (h : LayWF n s T mp lay) {q : Nat} (hq : q < 1024)
    (hhome : mp q < n) (ho : occ m q = true) : lay (mp q) ≠ none := by
  obtain ⟨i, y, hi, hy, hyq⟩ := (r.occ q hq).1 ho
  subst hyq
  rcases Nat.lt_trichotomy i (mp (y / 2 ^ s)) with h1 | h1 | h1
  · exact h.right i _ y hi hy h1 (by omega) hhome
  · rw [← h1, hy]; simp
  · exact h.left i _ y hi hy (Nat.le_refl _) h1

/-- The run of quotient `q` as the code locates it for insertion. -/
theorem run_bounds (r : Rep m n s lay) (h : LayWF n s T mp lay) (hs : s ≤ 46) (hT : T ≤ 1024)
    {e xe : Nat} (he : e < n) (hre : rend m e = true) (hxe : lay e = some xe)
    (hhome : mp (xe / 2 ^ s) < n) (hf : lay (mp (xe / 2 ^ s)) ≠ none) :
    let l := max (previousRunend m e) (findEmptySlotBefore m n s (mp (xe / 2 ^ s)));
    -1 ≤ l ∧ l < e ∧ findEmptySlotBefore m n s (mp (xe / 2 ^ s)) < e ∧
    (∀ k : Nat, l < k → k ≤ e → ∃ y, lay k = some y ∧ y / 2 ^ s = xe / 2 ^ s) ∧
    (∀ j y, j < n → lay j = some y → y / 2 ^ s = xe / 2 ^ s → l < j ∧ j ≤ e) := by
  obtain ⟨b1, b2, b3, b4⟩ := findEmptySlotBefore_spec r h hs hT hhome hf
  obtain ⟨p1, p2, p3, p4⟩ := previousRunend_spec m e
  generalize findEmptySlotBefore m n s (mp (xe / 2 ^ s)) = pe at *
  generalize hpr : previousRunend m e = pr at *
  have hpe : pe < e := by
    by_contra hc
    have hlt : e < mp (xe / 2 ^ s) := by omega
    exact h.right e pe.toNat xe he hxe hlt (by omega) (by omega) (b4 (by omega))
  dsimp only
  refine ⟨by omega, by omega, hpe, ?_, ?_⟩
  · intro k k1 k2
    have hfill : lay k ≠ none := by
      by_cases hk : k = e
      · rw [hk, hxe]; simp
      · by_cases hk2 : k < mp (xe / 2 ^ s)
        · exact b3 k (by omega) hk2
        · exact h.left e k xe he hxe (by omega) (by omega)
    obtain ⟨y, hy⟩ := Option.ne_none_iff_exists'.1 hfill
    refine ⟨y, hy, ?_⟩
    obtain ⟨e', y', g1, g2, g3, g4, g5, g6⟩ := run_end r h hs hT (by omega) hy
    have : ¬ e' < e := by
      intro hlt
      have := p3 e' (by omega) hlt
      rw [rend, this] at g3; simp at g3
    obtain ⟨z, hz, hzq⟩ := g6 e k2 (by omega)
    rw [hxe] at hz; injection hz with hz; subst hz
    exact hzq.symm
  · intro j y hj hy hyq
    constructor
    · by_contra hc
      have hor : (j : Int) ≤ pr ∨ (j : Int) ≤ pe := by omega
      rcases hor with h1 | h1
      · have hrp : rend m pr.toNat = true := p4 (by omega)
        obtain ⟨z, hz, hlast⟩ := (r.rend pr.toNat (by omega)).1 hrp
        have e1 := h.quot_le hs hT (show j ≤ pr.toNat by omega) (by omega) hy hz
        have e2 := h.quot_le hs hT (show pr.toNat ≤ e by omega) he hz hxe
        exact hlast e xe (by omega) he hxe (by omega)
      · have hpe0 := b4 (by omega)
        rw [← hyq] at b2
        exact h.right j pe.toNat y hj hy (by omega) (by omega) (by omega) hpe0
    · by_contra hc
      obtain ⟨z, hz, hlast⟩ := (r.rend e he).1 hre
      rw [hxe] at hz; injection hz with hz; subst hz
      exact hlast j y (by omega) hj hy hyq

theorem getBit17 (m i : Nat) : getBit m 17 i = (rend m i).toNat := getBit_eq m 17 i

/-- Facts about a run needed for both shift directions. -/
structure RunAt (m n s : Nat) (lay : Nat → Option Nat) (x e : Nat) (l : Int) (r : Nat) : Prop where
  e_lt : e < n
  re : Verif.rend m e = true
  l_lo : -1 ≤ l
  l_hi : l < e
  r_lo : l < r
  r_hi : r ≤ e + 1
  fill : ∀ k : Nat, l < k → k ≤ e → ∃ y, lay k = some y ∧ y / 2 ^ s = x / 2 ^ s
  all : ∀ j y, j < n → lay j = some y → y / 2 ^ s = x / 2 ^ s → l < j ∧ j ≤ e
  lo : ∀ i y, i < r → lay i = some y → ile y x
  hi : ∀ i y, r ≤ i → i < n → lay i = some y → ile x y

theorem RunAt.no_rend {e l r} (R : RunAt m n s lay x e l r) (rp : Rep m n s lay) {k : Nat} (h1 : l < k)
    (h2 : k < e) : rend m k = false := by
  by_contra hc
  have hc : rend m k = true := by simpa using hc
  have := R.e_lt
  obtain ⟨y, hy, hlast⟩ := (rp.rend k (by omega)).1 hc
  obtain ⟨y', hy', hq'⟩ := R.fill k h1 (by omega)
  rw [hy] at hy'; injection hy' with hy'; subst hy'
  obtain ⟨z, hz, hzq⟩ := R.fill e R.l_hi (Nat.le_refl _)
  exact hlast e z h2 R.e_lt hz (by omega)

/-- The insertion point found by the code. -/
theorem runAt_search (r : Rep m n s lay) (h : LayWF n s T mp lay) (N : NewItem n s T mp x)
    (ho : occ m (x / 2 ^ s) = true) :
    ∃ (e : Nat) (l : Int) (rr : Nat), selectRunends m n (rankOccupieds m (x / 2 ^ s)) = e ∧
      l = max (previousRunend m e) (findEmptySlotBefore m n s (mp (x / 2 ^ s))) ∧
      (insertSearch m n s (x % 2 ^ s) (e + 3) l ((e : Int) + 1)).toNat = rr ∧
      RunAt m n s lay x e l rr := by
  have hs1 := N.s1
  have hs2 := N.s2
  have hT := N.hT
  have hq := N.q
  obtain ⟨e, xe, e1, e2, e3, e4, e5⟩ := occ_run r h hs2 hT (by omega) ho
  have hf := home_filled r h (by omega) (N.home _) ho
  rw [← e4] at hf
  obtain ⟨l1, l2, l3, l4, l5⟩ := run_bounds r h hs2 hT e1 e2 e3 (N.home _) hf
  rw [e4] at l1 l2 l3 l4 l5
  generalize hl : max (previousRunend m e) (findEmptySlotBefore m n s (mp (x / 2 ^ s))) = l at *
  have hv : x % 2 ^ s < 2 ^ s := Nat.mod_lt _ (Nat.two_pow_pos s)
  have hv62 := item_explicit_lt (x := x) hs2
  have hodd := N.eodd
  have hsub : sub64 (x % 2 ^ s) 1 = x % 2 ^ s - 1 := sub64_of_le (by omega) (by omega)
  obtain ⟨o1, o2⟩ := lb64_of_odd hodd (by omega)
  have hslot : ∀ k y, k < n → lay k = some y → getSlot m n s k = y % 2 ^ s := by
    intro k y hk hy
    rw [getSlot_eq _ _ _ _ (by omega), r.slot k hk, hy]; rfl
  have hmono : ∀ i j : Nat, l < i → i ≤ j → (j : Int) < (e : Int) + 1 →
      nolb64 (getSlot m n s j) ≤ sub64 (x % 2 ^ s) 1 → nolb64 (getSlot m n s i) ≤ sub64 (x % 2 ^ s) 1 := by
    intro i j h1 h2 h3 h4
    rcases Nat.lt_or_ge i j with h5 | h5
    · obtain ⟨y, hy, hyq⟩ := l4 i h1 (by omega)
      obtain ⟨z, hz, hzq⟩ := l4 j (by omega) (by omega)
      rw [hslot i y (by omega) hy]
      rw [hslot j z (by omega) hz] at h4
      obtain ⟨a1, a2⟩ := h.item i y (by omega) hy
      obtain ⟨b1, b2⟩ := h.item j z (by omega) hz
      have := (ile_same_quot a1 b1 (item_lt hs2 hT a2) (item_lt hs2 hT b2) (by omega)).1
        (h.sorted i j y z h5 (by omega) hy hz)
      have := ile_nolb this
      omega
    · have : i = j := by omega
      rw [this]; exact h4
  obtain ⟨g1, g2, g3, g4⟩ := insertSearch_spec m n s (x % 2 ^ s) l ((e : Int) + 1) hmono (e + 3) l
    ((e : Int) + 1) l1 (Int.le_refl _) (by omega) (Int.le_refl _) (by omega)
    (fun k a b => by omega) (fun k a b => by omega)
  generalize hri : insertSearch m n s (x % 2 ^ s) (e + 3) l ((e : Int) + 1) = ri at *
  refine ⟨e, l, ri.toNat, by rw [r.rank, e5], hl.symm, by rw [hri], ⟨e1, e2, l1, l2, by omega, by omega, l4, l5, ?_, ?_⟩⟩
  · intro i y hi hy
    obtain ⟨a1, a2⟩ := h.item i y (by omega) hy
    have hle := h.quot_le hs2 hT (show i ≤ e by omega) e1 hy e3
    by_cases hyq : y / 2 ^ s = x / 2 ^ s
    · have h5 := g3 i (l5 i y (by omega) hy hyq).1 (by omega)
      rw [hslot i y (by omega) hy, hsub] at h5
      rw [ile_same_quot a1 N.ne (item_lt hs2 hT a2) N.lt hyq]
      have hb : 0 < lb64 (y % 2 ^ s) := by
        have := item_explicit_lt (x := y) hs2
        exact lb64_pos (Nat.pos_of_ne_zero a1) (by omega)
      unfold ile; omega
    · exact ile_of_quot_lt a1 N.ne (item_lt hs2 hT a2) N.lt (by omega)
  · intro i y hi1 hi2 hy
    obtain ⟨a1, a2⟩ := h.item i y (by omega) hy
    by_cases hyq : y / 2 ^ s = x / 2 ^ s
    · have h5 := g4 i (by omega) (by have := (l5 i y (by omega) hy hyq).2; omega)
      rw [hslot i y (by omega) hy, hsub] at h5
      rw [ile_same_quot N.ne a1 N.lt (item_lt hs2 hT a2) hyq.symm]
      unfold ile; omega
    · apply ile_of_quot_lt N.ne a1 N.lt (item_lt hs2 hT a2)
      by_cases hie : i ≤ e
      · obtain ⟨z, hz, hzq⟩ := l4 i (by omega) hie
        rw [hy] at hz; injection hz with hz; subst hz; omega
      · have := h.quot_le hs2 hT (show e ≤ i by omega) hi2 e3 hy
        omega

theorem occ_insert_right (r : Rep m n s lay) (h : LayWF n s T mp lay) (N : NewItem n s T mp x)
    (ho : occ m (x / 2 ^ s) = true) {e : Nat} {l : Int} {p ne : Nat} (R : RunAt m n s lay x e l p)
    (hpne : mp (x / 2 ^ s) < ne) (hne : ne < n) (hemp : lay ne = none)
    (hfill0 : ∀ k, mp (x / 2 ^ s) ≤ k → k < ne → lay k ≠ none) :
    Inserted n s T mp lay x m (setBit (setSlot
      (if e < 512 ∧ 512 ≤ ne then
        subPop1 (shiftRunendsRight (shiftSlotsRight m n s p ne) e ne)
          (getBit (shiftRunendsRight (shiftSlotsRight m n s p ne) e ne) 17 512)
      else shiftRunendsRight (shiftSlotsRight m n s p ne) e ne) n s p (x % 2 ^ s)) 1 (x / 2 ^ s)) := by
  have hs1 := N.s1
  have hs2 := N.s2
  have hT := N.hT
  have hq := N.q
  obtain ⟨e_lt, re, l_lo, l_hi, r_lo, r_hi, fill, all, lo, hi⟩ := id R
  have hv : x % 2 ^ s < 2 ^ s := Nat.mod_lt _ (Nat.two_pow_pos s)
  generalize hP : mp (x / 2 ^ s) = P at *
  obtain ⟨xe, hxe, hxeq⟩ := fill e l_hi (Nat.le_refl _)
  have hge : ∀ k : Nat, l < k → k ≤ e → P ≤ k := by
    intro k k1 k2
    by_contra hc
    obtain ⟨y, hy, hyq⟩ := fill k k1 k2
    exact h.right k ne y (by omega) hy (by rw [hyq]; omega) (by omega) hne hemp
  have hene : e < ne := by
    by_contra hc
    rcases Nat.lt_or_ge ne e with h1 | h1
    · exact h.left e ne xe e_lt hxe (by rw [hxeq]; omega) h1 hemp
    · have : ne = e := by omega
      rw [this, hxe] at hemp; simp at hemp
  have hPe := hge e l_hi (Nat.le_refl _)
  have hPp : P ≤ p := by
    by_cases h1 : p ≤ e
    · exact hge p r_lo h1
    · omega
  have hfill : ∀ k, p ≤ k → k < ne → lay k ≠ none := fun k k1 k2 => hfill0 k (by omega) k2
  have I := ins_right (x := x) (show p ≤ ne by omega) hne hemp
  refine ⟨⟨layR lay p ne x, ?_, ?_, content_layR (by omega) hne hemp⟩, ?_⟩
  rotate_left 2
  · have ho1 := out_shiftRunendsRight (out_shiftSlotsRight (outside_refl n s m) (show p ≤ ne by omega) hne)
      (show e ≤ ne by omega) hne
    refine out_setBit1 (out_setSlot ?_ (by omega) hs1 hv (by omega)) (by omega)
    split_ifs
    · exact out_subPop1 ho1
    · exact ho1
  · apply layWF_right h (by omega) hne hemp hfill ⟨N.ne, N.q⟩ lo hi
    · intro j y hj hy hyq
      obtain ⟨j1, j2⟩ := all j y hj hy hyq
      constructor
      · intro k k1 k2
        obtain ⟨z, hz, _⟩ := fill k (by omega) (by omega)
        rw [hz]; simp
      · intro k k1 k2
        obtain ⟨z, hz, _⟩ := fill k (by omega) (by omega)
        rw [hz]; simp
    · intro k k1 k2
      exact hfill0 k (by omega) (by omega)
    · omega
  · have hp1 := pop1_le r
    generalize hma : shiftSlotsRight m n s p ne = ma
    generalize hmb : shiftRunendsRight ma e ne = mb
    have hrb : ∀ i, rend mb i = if i = e then false else if e < i ∧ i ≤ ne then rend ma (i - 1) else rend ma i := by
      intro i; rw [← hmb]; exact rend_shiftRunendsRight _ _ _
    have hra : ∀ i, i < n → rend ma i = rend m i := by
      intro i hi; rw [← hma]; exact rend_shiftSlotsRight _ _ _ hi
    generalize hmc : (if e < 512 ∧ 512 ≤ ne then subPop1 mb (getBit mb 17 512) else mb) = mc
    have hrc : ∀ i, rend mc i = rend mb i := by
      intro i; rw [← hmc]; split_ifs
      · simp only [subPop1, rend_setPop1]
      · rfl
    have hr' : ∀ i, i < n → rend (setSlot mc n s p (x % 2 ^ s)) i =
        if i = e then false else if e < i ∧ i ≤ ne then rend m (i - 1) else rend m i := by
      intro i hi
      rw [rend_setSlot (by omega) hs1 hv _ hi, hrc, hrb]
      split_ifs
      · rfl
      · exact hra _ (by omega)
      · exact hra _ hi
    apply ins_rep I r (by omega)
    · intro i hi
      rw [slotv_setSlot (by omega) hs1 hv]
      have hc : slotv mc n s i = slotv mb n s i := by
        rw [← hmc]; split_ifs
        · simp only [subPop1, slotv_setPop1]
        · rfl
      rw [hc, ← hmb, slotv_shiftRunendsRight _ _ _ _ _ (by omega) hne, ← hma,
        slotv_shiftSlotsRight _ _ _ (by omega)]
      unfold layR
      split_ifs with h1 h2
      · rfl
      · exact r.slot _ (by omega)
      · exact r.slot _ hi
    · intro q hq'
      rw [occ_setSlot (by omega) hs1 hv _ hq']
      have hc : occ mc q = occ mb q := by
        rw [← hmc]; split_ifs
        · simp only [subPop1, occ_setPop1]
        · rfl
      rw [hc, ← hmb, occ_shiftRunendsRight _ _ _ (by omega) hq', ← hma, occ_shiftSlotsRight _ _ _ hq']
    · rw [pop0_setSlot (by omega) hs1 hv]
      have hc : pop0 mc = pop0 mb := by
        rw [← hmc]; split_ifs
        · simp only [subPop1, pop0_setPop1]
        · rfl
      rw [hc, ← hmb, pop0_shiftRunendsRight _ _ (by omega), ← hma, pop0_shiftSlotsRight]
      simp [ho]
    · rw [pop1_setSlot (by omega) hs1 hv]
      have e1 : cnt (rend (setSlot mc n s p (x % 2 ^ s))) (min 512 n) = cnt (rend mb) (min 512 n) := by
        apply cnt_congr; intro i hi
        rw [rend_setSlot (by omega) hs1 hv _ (by omega), hrc]
      have e2 : pop1 mb = cnt (rend ma) (min 512 n) := by
        rw [← hmb, pop1_shiftRunendsRight _ _ (by omega), ← hma, pop1_shiftSlotsRight, r.pop1]
        apply cnt_congr; intro i hi
        rw [rend_shiftSlotsRight _ _ _ (by omega)]
      have e3 := cnt_shiftR (show e ≤ ne by omega) hrb
        (by rw [hra _ hne]; exact rend_none r hne hemp) (min 512 n)
      rw [e1, e3]
      have hlt : pop1 mb < 2 ^ 32 := pop1_lt _
      rw [← hmc]
      by_cases hcond : e < 512 ∧ 512 ≤ ne
      · rw [if_pos hcond, if_pos (by omega)]
        rw [show min 512 n = 511 + 1 by omega] at e2 ⊢
        rw [cnt] at e2
        simp only [subPop1]
        rw [pop1_setPop1 _ _ (sub32_lt _ _), getBit17, hrb 512, if_neg (by omega), if_pos (by omega)]
        simp only [Nat.reduceSub, Nat.add_sub_cancel]
        rw [sub32_small (by omega) hlt, e2]; omega
      · rw [if_neg hcond, if_neg (by omega), e2]
    · intro i y hi hy hyq hlt
      have hip : i < p := by split_ifs at hlt <;> omega
      rw [if_neg (by omega), hr' i hi]
      obtain ⟨j1, j2⟩ := all i y hi hy hyq
      by_cases h1 : i = e
      · rw [if_pos h1]
      · rw [if_neg h1, if_neg (by omega)]
        exact R.no_rend r j1 (by omega)
    · intro i y hi hy hor
      have hine : i ≠ ne := by rintro rfl; rw [hemp] at hy; simp at hy
      by_cases c1 : i < p
      · rw [if_neg (by omega)] at hor ⊢
        have hyq : y / 2 ^ s ≠ x / 2 ^ s := by
          rcases hor with h1 | h1
          · exact h1
          · omega
        have hie : i ≠ e := by
          rintro rfl
          rw [hxe] at hy; injection hy with hy; subst hy; exact hyq hxeq
        rw [hr' i hi, if_neg hie, if_neg (by omega)]
      · by_cases c2 : i < ne
        · rw [if_pos (by omega), hr' (i + 1) (by omega)]
          by_cases c3 : i ≤ e
          · by_cases c4 : i = e
            · rw [if_neg (by omega), if_pos (by omega), Nat.add_sub_cancel]
            · have hf := R.no_rend r (show l < (i : Int) by omega) (show i < e by omega)
              rw [hf]
              by_cases c5 : i + 1 = e
              · rw [if_pos c5]
              · rw [if_neg c5, if_neg (by omega)]
                exact R.no_rend r (by omega) (by omega)
          · rw [if_neg (by omega), if_pos (by omega), Nat.add_sub_cancel]
        · rw [if_neg (by omega), hr' i hi, if_neg (by omega), if_neg (by omega)]
    · rw [hr' p (by omega)]
      by_cases c1 : p ≤ e
      · have hleft : (if p = e then false else if e < p ∧ p ≤ ne then rend m (p - 1) else rend m p) = false := by
          by_cases c2 : p = e
          · rw [if_pos c2]
          · rw [if_neg c2, if_neg (by omega)]
            exact R.no_rend r r_lo (by omega)
        rw [hleft]
        simp only [Bool.false_eq_true, false_iff]
        intro hall
        have := hall e xe e_lt hxe
        rw [if_pos (by omega)] at this
        exact this (by omega) hxeq
      · rw [if_neg (by omega), if_pos (by omega), show p - 1 = e by omega, re]
        simp only [true_iff]
        intro i y hi hy hlt hyq
        have := (all i y hi hy hyq).2
        rw [if_neg (by omega)] at hlt; omega
    · intro k hk hl
      unfold layR at hl
      split_ifs at hl with h1 h2
      · exact absurd hl (hfill _ (by omega) (by omega))
      · have hke : k ≠ e := by rintro rfl; rw [hxe] at hl; simp at hl
        rw [hr' k hk, if_neg hke, if_neg (by omega)]
        exact rend_none r hk hl

theorem occ_insert_left (r : Rep m n s lay) (h : LayWF n s T mp lay) (N : NewItem n s T mp x)
    (ho : occ m (x / 2 ^ s) = true) {e : Nat} {l : Int} {rr pe : Nat} (R : RunAt m n s lay x e l rr)
    (hpl : (pe : Int) ≤ l) (hpP : pe < mp (x / 2 ^ s)) (hemp : lay pe = none)
    (hfull : ∀ k, pe < k → k < n → lay k ≠ none) :
    Inserted n s T mp lay x m (setBit (setSlot (shiftRunendsLeft
      (if pe + 1 ≤ 512 ∧ 512 < min e rr then
        addPop1 (shiftSlotsLeft m n s (pe + 1) rr) (getBit (shiftSlotsLeft m n s (pe + 1) rr) 17 512)
      else shiftSlotsLeft m n s (pe + 1) rr) (pe + 1) (min e rr)) n s (rr - 1) (x % 2 ^ s)) 1 (x / 2 ^ s)) := by
  have hs1 := N.s1
  have hs2 := N.s2
  have hT := N.hT
  have hq := N.q
  obtain ⟨e_lt, re, l_lo, l_hi, r_lo, r_hi, fill, all, lo, hi⟩ := id R
  have hv : x % 2 ^ s < 2 ^ s := Nat.mod_lt _ (Nat.two_pow_pos s)
  obtain ⟨xe, hxe, hxeq⟩ := fill e l_hi (Nat.le_refl _)
  obtain ⟨p, rfl⟩ : ∃ p, rr = p + 1 := ⟨rr - 1, by omega⟩
  rw [Nat.add_sub_cancel]
  have I := ins_left (x := x) (show pe ≤ p by omega) (show p < n by omega) hemp
  refine ⟨⟨layL lay pe p x, ?_, ?_, content_layL (by omega) (by omega) hemp⟩, ?_⟩
  rotate_left 2
  · have ho1 := out_shiftSlotsLeft (outside_refl n s m) (show 1 ≤ pe + 1 by omega) (show pe + 1 ≤ p + 1 by omega)
      (show p + 1 ≤ n by omega)
    refine out_setBit1 (out_setSlot (out_shiftRunendsLeft ?_ (by omega) (by omega) (by omega)) (by omega) hs1 hv (by omega)) (by omega)
    split_ifs
    · exact out_addPop1 ho1
    · exact ho1
  · apply layWF_left h (by omega) (by omega) hemp hfull ⟨N.ne, N.q⟩
      (fun i y h1 h2 => lo i y (by omega) h2) (fun i y h1 h2 h3 => hi i y (by omega) h2 h3)
    · intro j y hj hy hyq
      have := (all j y (by omega) hy hyq).1; omega
    · exact hpP
  · have hp1 := pop1_le r
    generalize hRR : min e (p + 1) = RR
    generalize hma : shiftSlotsLeft m n s (pe + 1) (p + 1) = ma
    have hra : ∀ i, i < n → rend ma i = rend m i := by
      intro i hi; rw [← hma]; exact rend_shiftSlotsLeft _ _ _ (by omega) (by omega) hi
    generalize hmb : (if pe + 1 ≤ 512 ∧ 512 < RR then addPop1 ma (getBit ma 17 512) else ma) = mb
    have hrb : ∀ i, rend mb i = rend ma i := by
      intro i; rw [← hmb]; split_ifs
      · simp only [addPop1, rend_setPop1]
      · rfl
    generalize hmc : shiftRunendsLeft mb (pe + 1) RR = mc
    have hrc : ∀ i, rend mc i = if i + 1 = RR then false else
        if pe + 1 ≤ i + 1 ∧ i + 1 < RR then rend ma (i + 1) else rend ma i := by
      intro i; rw [← hmc, rend_shiftRunendsLeft _ _ _ (by omega) (by omega), hrb, hrb]
    have hr' : ∀ i, i < n → rend (setSlot mc n s p (x % 2 ^ s)) i =
        if i + 1 = RR then false else if pe + 1 ≤ i + 1 ∧ i + 1 < RR then rend m (i + 1) else rend m i := by
      intro i hi
      rw [rend_setSlot (by omega) hs1 hv _ hi, hrc]
      split_ifs
      · rfl
      · exact hra _ (by omega)
      · exact hra _ hi
    apply ins_rep I r (by omega)
    · intro i hi
      rw [slotv_setSlot (by omega) hs1 hv]
      have hc : slotv mb n s i = slotv ma n s i := by
        rw [← hmb]; split_ifs
        · simp only [addPop1, slotv_setPop1]
        · rfl
      rw [← hmc, slotv_shiftRunendsLeft _ _ _ _ _ (by omega) (by omega) (by omega), hc, ← hma,
        slotv_shiftSlotsLeft _ _ _ (by omega) (by omega)]
      unfold layL
      by_cases c1 : i = p
      · rw [if_pos c1, if_pos c1]; rfl
      · rw [if_neg c1, if_neg (by omega), if_neg c1]
        by_cases c2 : pe ≤ i ∧ i < p
        · rw [if_pos (by omega), if_pos c2]; exact r.slot _ (by omega)
        · rw [if_neg (by omega), if_neg c2]; exact r.slot _ hi
    · intro q hq'
      rw [occ_setSlot (by omega) hs1 hv _ hq']
      have hc : occ mb q = occ ma q := by
        rw [← hmb]; split_ifs
        · simp only [addPop1, occ_setPop1]
        · rfl
      rw [← hmc, occ_shiftRunendsLeft _ _ _ (by omega) (by omega) hq', hc, ← hma,
        occ_shiftSlotsLeft _ _ _ (by omega) (by omega) hq']
    · rw [pop0_setSlot (by omega) hs1 hv]
      have hc : pop0 mb = pop0 ma := by
        rw [← hmb]; split_ifs
        · simp only [addPop1, pop0_setPop1]
        · rfl
      rw [← hmc, pop0_shiftRunendsLeft _ _ (by omega) (by omega), hc, ← hma,
        pop0_shiftSlotsLeft _ _ (by omega) (by omega)]
      simp [ho]
    · rw [pop1_setSlot (by omega) hs1 hv]
      have e1 : cnt (rend (setSlot mc n s p (x % 2 ^ s))) (min 512 n) = cnt (rend mc) (min 512 n) := by
        apply cnt_congr; intro i hi
        rw [rend_setSlot (by omega) hs1 hv _ (by omega)]
      have e2 : pop1 ma = cnt (rend ma) (min 512 n) := by
        rw [← hma, pop1_shiftSlotsLeft _ _ (by omega) (by omega), r.pop1]
        apply cnt_congr; intro i hi
        rw [rend_shiftSlotsLeft _ _ _ (by omega) (by omega) (by omega)]
      have e3 := cnt_shiftL (show 1 ≤ pe + 1 by omega) (show pe + 1 ≤ RR by omega) hrc
        (by rw [Nat.add_sub_cancel, hra _ (by omega)]; exact rend_none r (by omega) hemp) (min 512 n)
      rw [e1, e3]
      have hlt : pop1 ma ≤ 512 := by
        rw [e2]; have := cnt_le (rend ma) (min 512 n); omega
      rw [← hmc, pop1_shiftRunendsLeft _ _ (by omega) (by omega), ← hmb]
      by_cases hcond : pe + 1 ≤ 512 ∧ 512 < RR
      · rw [if_pos hcond, if_pos (by omega)]
        rw [show min 512 n = 512 by omega] at e2 ⊢
        simp only [addPop1]
        have hb : (rend ma 512).toNat ≤ 1 := Bool.toNat_le _
        rw [pop1_setPop1 _ _ (add32_lt _ _), getBit17, add32_small (by omega), e2]
        rfl
      · rw [if_neg hcond, if_neg (by omega), e2]
    · intro i y hi hy hyq hlt
      obtain ⟨j1, j2⟩ := all i y hi hy hyq
      have hip : i ≤ p := by
        by_contra hc
        rw [if_neg (by omega)] at hlt; omega
      rw [if_pos (by omega), hr' (i - 1) (by omega), Nat.sub_add_cancel (by omega)]
      by_cases c1 : i = RR
      · rw [if_pos c1]
      · rw [if_neg c1, if_pos (by omega)]
        exact R.no_rend r j1 (by omega)
    · intro i y hi hy hor
      have hine : i ≠ pe := by rintro rfl; rw [hemp] at hy; simp at hy
      by_cases c1 : i < pe
      · rw [if_neg (by omega), hr' i hi, if_neg (by omega), if_neg (by omega)]
      · by_cases c2 : i ≤ p
        · rw [if_pos (by omega)] at hor ⊢
          have hyq : y / 2 ^ s ≠ x / 2 ^ s := by
            rcases hor with h1 | h1
            · exact h1
            · omega
          have hil : (i : Int) ≤ l := by
            by_contra hc
            obtain ⟨z, hz, hzq⟩ := fill i (by omega) (by omega)
            rw [hy] at hz; injection hz with hz; subst hz; exact hyq hzq
          rw [hr' (i - 1) (by omega), Nat.sub_add_cancel (by omega), if_neg (by omega), if_pos (by omega)]
        · rw [if_neg (by omega), hr' i hi, if_neg (by omega), if_neg (by omega)]
    · rw [hr' p (by omega)]
      by_cases c1 : p + 1 ≤ e
      · rw [if_pos (by omega)]
        simp only [Bool.false_eq_true, false_iff]
        intro hall
        have := hall e xe e_lt hxe
        rw [if_neg (by omega)] at this
        exact this (by omega) hxeq
      · have hpe : p = e := by omega
        rw [if_neg (by omega), if_neg (by omega), hpe, re]
        simp only [true_iff]
        intro i y hi hy hlt hyq
        have := (all i y hi hy hyq)
        rw [if_pos (by omega)] at hlt; omega
    · intro k hk hl
      unfold layL at hl
      split_ifs at hl with h1 h2
      · exact absurd hl (hfull _ (by omega) (by omega))
      · have hkpe : k < pe := by
          by_contra hc
          exact hfull k (by omega) hk hl
        rw [hr' k hk, if_neg (by omega), if_neg (by omega)]
        exact rend_none r hk hl

/-! ## New quotient, home slot taken -/

theorem newrun_right (r : Rep m n s lay) (h : LayWF n s T mp lay) (N : NewItem n s T mp x)
    (ho : occ m (x / 2 ^ s) = false) {p ne : Nat}
    (hnoq : ∀ i y, i < n → lay i = some y → y / 2 ^ s ≠ x / 2 ^ s)
    (hpne : p ≤ ne) (hne : ne < n) (hemp : lay ne = none)
    (hfill : ∀ k, p ≤ k → k < ne → lay k ≠ none)
    (lo : ∀ i y, i < p → lay i = some y → ile y x)
    (hi : ∀ i y, p ≤ i → i < n → lay i = some y → ile x y)
    (hleft : ∀ k, mp (x / 2 ^ s) ≤ k → k < p → lay k ≠ none)
    (hright : mp (x / 2 ^ s) ≤ p) :
    Inserted n s T mp lay x m (setBit (addPop0 (addPop1 (setBit (setSlot
      (if p < 512 ∧ 512 ≤ ne then
        subPop1 (shiftRunendsRight (shiftSlotsRight m n s p ne) p ne)
          (getBit (shiftRunendsRight (shiftSlotsRight m n s p ne) p ne) 17 512)
      else shiftRunendsRight (shiftSlotsRight m n s p ne) p ne) n s p (x % 2 ^ s)) 17 p)
        (b2n (p < 512))) (b2n (x / 2 ^ s < 512))) 1 (x / 2 ^ s)) := by
  have hs1 := N.s1
  have hs2 := N.s2
  have hT := N.hT
  have hq := N.q
  have hv : x % 2 ^ s < 2 ^ s := Nat.mod_lt _ (Nat.two_pow_pos s)
  have I := ins_right (x := x) hpne hne hemp
  refine ⟨⟨layR lay p ne x, ?_, ?_, content_layR (by omega) hne hemp⟩, ?_⟩
  rotate_left 2
  · have ho1 := out_shiftRunendsRight (out_shiftSlotsRight (outside_refl n s m) hpne hne) hpne hne
    refine out_setBit1 (out_addPop0 (out_addPop1 (out_setBit17 (out_setSlot ?_ (by omega) hs1 hv (by omega)) (by omega)))) (by omega)
    split_ifs
    · exact out_subPop1 ho1
    · exact ho1
  · apply layWF_right h (by omega) hne hemp hfill ⟨N.ne, N.q⟩ lo hi _ hleft hright
    intro j y hj hy hyq; exact absurd hyq (hnoq j y hj hy)
  · have hp0 := pop0_le r
    have hp1 := pop1_le r
    generalize hma : shiftSlotsRight m n s p ne = ma
    generalize hmb : shiftRunendsRight ma p ne = mb
    have hrb : ∀ i, rend mb i = if i = p then false else if p < i ∧ i ≤ ne then rend ma (i - 1) else rend ma i := by
      intro i; rw [← hmb]; exact rend_shiftRunendsRight _ _ _
    have hra : ∀ i, i < n → rend ma i = rend m i := by
      intro i hi; rw [← hma]; exact rend_shiftSlotsRight _ _ _ hi
    generalize hmc : (if p < 512 ∧ 512 ≤ ne then subPop1 mb (getBit mb 17 512) else mb) = mc
    have hrc : ∀ i, rend mc i = rend mb i := by
      intro i; rw [← hmc]; split_ifs
      · simp only [subPop1, rend_setPop1]
      · rfl
    generalize hmd : addPop0 (addPop1 (setBit (setSlot mc n s p (x % 2 ^ s)) 17 p) (b2n (p < 512)))
      (b2n (x / 2 ^ s < 512)) = md
    have hrd : ∀ i, i < n → rend md i = (rend mb i || decide (i = p)) := by
      intro i hi
      rw [← hmd]
      simp only [addPop0, addPop1, rend_setPop0, rend_setPop1, rend_setBit17]
      rw [rend_setSlot (by omega) hs1 hv _ hi, hrc]
    have hr' : ∀ i, i < n → rend md i =
        if i = p then true else if p < i ∧ i ≤ ne then rend m (i - 1) else rend m i := by
      intro i hi
      rw [hrd i hi, hrb]
      split_ifs with c1 c2
      · simp [c1]
      · rw [hra _ (by omega)]; simp [c1]
      · rw [hra _ hi]; simp [c1]
    apply ins_rep I r (by omega)
    · intro i hi
      rw [← hmd]
      simp only [addPop0, addPop1, slotv_setPop0, slotv_setPop1]
      rw [slotv_setBit17 _ _ _ _ _ (by omega), slotv_setSlot (by omega) hs1 hv]
      have hc : slotv mc n s i = slotv mb n s i := by
        rw [← hmc]; split_ifs
        · simp only [subPop1, slotv_setPop1]
        · rfl
      rw [hc, ← hmb, slotv_shiftRunendsRight _ _ _ _ _ (by omega) hne, ← hma,
        slotv_shiftSlotsRight _ _ _ (by omega)]
      unfold layR
      split_ifs with h1 h2
      · rfl
      · exact r.slot _ (by omega)
      · exact r.slot _ hi
    · intro q hq'
      rw [← hmd]
      simp only [addPop0, addPop1, occ_setPop0, occ_setPop1]
      rw [occ_setBit17 _ _ _ hq', occ_setSlot (by omega) hs1 hv _ hq']
      have hc : occ mc q = occ mb q := by
        rw [← hmc]; split_ifs
        · simp only [subPop1, occ_setPop1]
        · rfl
      rw [hc, ← hmb, occ_shiftRunendsRight _ _ _ (by omega) hq', ← hma, occ_shiftSlotsRight _ _ _ hq']
    · have hc : pop0 mc = pop0 m := by
        have : pop0 mc = pop0 mb := by
          rw [← hmc]; split_ifs
          · simp only [subPop1, pop0_setPop1]
          · rfl
        rw [this, ← hmb, pop0_shiftRunendsRight _ _ (by omega), ← hma, pop0_shiftSlotsRight]
      rw [← hmd]
      simp only [addPop0, addPop1, pop0_setPop1]
      rw [pop0_setPop0 _ _ (add32_lt _ _), pop0_setBit _ _ _ (by decide),
        pop0_setSlot (by omega) hs1 hv, hc, b2n_eq, add32_small (by split_ifs <;> omega)]
      simp [ho]
    · have e2 : pop1 mb = cnt (rend ma) (min 512 n) := by
        rw [← hmb, pop1_shiftRunendsRight _ _ (by omega), ← hma, pop1_shiftSlotsRight, r.pop1]
        apply cnt_congr; intro i hi
        rw [rend_shiftSlotsRight _ _ _ (by omega)]
      have e3 := cnt_shiftR hpne hrb
        (by rw [hra _ hne]; exact rend_none r hne hemp) (min 512 n)
      have hlt : pop1 mb < 2 ^ 32 := pop1_lt _
      have e4 : pop1 mc = cnt (rend mb) (min 512 n) := by
        rw [e3, ← hmc]
        by_cases hcond : p < 512 ∧ 512 ≤ ne
        · rw [if_pos hcond, if_pos (by omega)]
          rw [show min 512 n = 511 + 1 by omega] at e2 ⊢
          rw [cnt] at e2
          simp only [subPop1]
          rw [pop1_setPop1 _ _ (sub32_lt _ _), getBit17, hrb 512, if_neg (by omega), if_pos (by omega)]
          simp only [Nat.reduceSub, Nat.add_sub_cancel]
          rw [sub32_small (by omega) hlt, e2]; omega
        · rw [if_neg hcond, if_neg (by omega), e2]
      have hle : pop1 mc ≤ 512 := by
        rw [e4]; have := cnt_le (rend mb) (min 512 n); omega
      have e5 : pop1 md = pop1 mc + if p < 512 then 1 else 0 := by
        rw [← hmd]
        simp only [addPop0, addPop1]
        rw [pop1_setPop0, pop1_setPop1 _ _ (add32_lt _ _), pop1_setBit _ _ _ (by decide),
          pop1_setSlot (by omega) hs1 hv, b2n_eq, add32_small (by split_ifs <;> omega)]
      rw [e5, e4]
      split_ifs with h5
      · symm
        apply cnt_flip (a := p) (by omega)
        · rw [hrb]; simp
        · rw [hrd p (by omega)]; simp
        · intro i hi hne
          rw [hrd i (by omega)]; simp [hne]
      · rw [Nat.add_zero]
        apply cnt_congr
        intro i hi
        rw [hrd i (by omega)]; simp [show ¬ i = p by omega]
    · intro i y hi hy hyq; exact absurd hyq (hnoq i y hi hy)
    · intro i y hi hy _
      have hine : i ≠ ne := by rintro rfl; rw [hemp] at hy; simp at hy
      by_cases c1 : p ≤ i ∧ i < ne
      · rw [if_pos c1, hr' _ (by omega), if_neg (by omega), if_pos (by omega), Nat.add_sub_cancel]
      · rw [if_neg c1, hr' _ hi]
        by_cases c2 : i < p
        · rw [if_neg (by omega), if_neg (by omega)]
        · rw [if_neg (by omega), if_neg (by omega)]
    · rw [hr' p (by omega), if_pos rfl]
      simp only [true_iff]
      intro i y hi hy _; exact hnoq i y hi hy
    · intro k hk hl
      unfold layR at hl
      split_ifs at hl with h1 h2
      · exact absurd hl (hfill _ (by omega) (by omega))
      · rw [hr' k hk, if_neg h1, if_neg h2]
        exact rend_none r hk hl

theorem newrun_left (r : Rep m n s lay) (h : LayWF n s T mp lay) (N : NewItem n s T mp x)
    (ho : occ m (x / 2 ^ s) = false) {p pe : Nat}
    (hnoq : ∀ i y, i < n → lay i = some y → y / 2 ^ s ≠ x / 2 ^ s)
    (hpp : pe ≤ p) (hp : p < n) (hemp : lay pe = none)
    (hfull : ∀ k, pe < k → k < n → lay k ≠ none)
    (lo : ∀ i y, i ≤ p → lay i = some y → ile y x)
    (hi : ∀ i y, p < i → i < n → lay i = some y → ile x y)
    (hhome : pe < mp (x / 2 ^ s)) :
    Inserted n s T mp lay x m (setBit (addPop0 (addPop1 (setBit (setSlot (shiftRunendsLeft
      (if pe + 1 ≤ 512 ∧ 512 < p + 1 then
        addPop1 (shiftSlotsLeft m n s (pe + 1) (p + 1)) (getBit (shiftSlotsLeft m n s (pe + 1) (p + 1)) 17 512)
      else shiftSlotsLeft m n s (pe + 1) (p + 1)) (pe + 1) (p + 1)) n s p (x % 2 ^ s)) 17 p)
        (b2n (p < 512))) (b2n (x / 2 ^ s < 512))) 1 (x / 2 ^ s)) := by
  have hs1 := N.s1
  have hs2 := N.s2
  have hT := N.hT
  have hq := N.q
  have hv : x % 2 ^ s < 2 ^ s := Nat.mod_lt _ (Nat.two_pow_pos s)
  have I := ins_left (x := x) hpp hp hemp
  refine ⟨⟨layL lay pe p x, ?_, ?_, content_layL (by omega) (by omega) hemp⟩, ?_⟩
  rotate_left 2
  · have ho1 := out_shiftSlotsLeft (outside_refl n s m) (show 1 ≤ pe + 1 by omega) (show pe + 1 ≤ p + 1 by omega)
      (show p + 1 ≤ n by omega)
    refine out_setBit1 (out_addPop0 (out_addPop1 (out_setBit17 (out_setSlot (out_shiftRunendsLeft ?_ (by omega) (by omega)
      (by omega)) (by omega) hs1 hv (by omega)) (by omega)))) (by omega)
    split_ifs
    · exact out_addPop1 ho1
    · exact ho1
  · apply layWF_left h (by omega) (by omega) hemp hfull ⟨N.ne, N.q⟩ lo hi _ hhome
    intro j y hj hy hyq
    exact hnoq j y (by omega) hy hyq
  · have hp0 := pop0_le r
    have hp1 := pop1_le r
    generalize hma : shiftSlotsLeft m n s (pe + 1) (p + 1) = ma
    have hra : ∀ i, i < n → rend ma i = rend m i := by
      intro i hi; rw [← hma]; exact rend_shiftSlotsLeft _ _ _ (by omega) (by omega) hi
    generalize hmb : (if pe + 1 ≤ 512 ∧ 512 < p + 1 then addPop1 ma (getBit ma 17 512) else ma) = mb
    have hrb : ∀ i, rend mb i = rend ma i := by
      intro i; rw [← hmb]; split_ifs
      · simp only [addPop1, rend_setPop1]
      · rfl
    generalize hmc : shiftRunendsLeft mb (pe + 1) (p + 1) = mc
    have hrc : ∀ i, rend mc i = if i + 1 = p + 1 then false else
        if pe + 1 ≤ i + 1 ∧ i + 1 < p + 1 then rend ma (i + 1) else rend ma i := by
      intro i; rw [← hmc, rend_shiftRunendsLeft _ _ _ (by omega) (by omega), hrb, hrb]
    generalize hmd : addPop0 (addPop1 (setBit (setSlot mc n s p (x % 2 ^ s)) 17 p) (b2n (p < 512)))
      (b2n (x / 2 ^ s < 512)) = md
    have hrd : ∀ i, i < n → rend md i = (rend mc i || decide (i = p)) := by
      intro i hi
      rw [← hmd]
      simp only [addPop0, addPop1, rend_setPop0, rend_setPop1, rend_setBit17]
      rw [rend_setSlot (by omega) hs1 hv _ hi]
    have hr' : ∀ i, i < n → rend md i =
        if i = p then true else if pe ≤ i ∧ i < p then rend m (i + 1) else rend m i := by
      intro i hi
      rw [hrd i hi, hrc]
      by_cases c1 : i = p
      · simp [c1]
      · rw [if_neg (by omega), if_neg c1]
        by_cases c2 : pe ≤ i ∧ i < p
        · rw [if_pos (by omega), if_pos c2, hra _ (by omega)]; simp [c1]
        · rw [if_neg (by omega), if_neg c2, hra _ hi]; simp [c1]
    apply ins_rep I r (by omega)
    · intro i hi
      rw [← hmd]
      simp only [addPop0, addPop1, slotv_setPop0, slotv_setPop1]
      rw [slotv_setBit17 _ _ _ _ _ (by omega), slotv_setSlot (by omega) hs1 hv]
      have hc : slotv mb n s i = slotv ma n s i := by
        rw [← hmb]; split_ifs
        · simp only [addPop1, slotv_setPop1]
        · rfl
      rw [← hmc, slotv_shiftRunendsLeft _ _ _ _ _ (by omega) (by omega) (by omega), hc, ← hma,
        slotv_shiftSlotsLeft _ _ _ (by omega) (by omega)]
      unfold layL
      by_cases c1 : i = p
      · rw [if_pos c1, if_pos c1]; rfl
      · rw [if_neg c1, if_neg (by omega), if_neg c1]
        by_cases c2 : pe ≤ i ∧ i < p
        · rw [if_pos (by omega), if_pos c2]; exact r.slot _ (by omega)
        · rw [if_neg (by omega), if_neg c2]; exact r.slot _ hi
    · intro q hq'
      rw [← hmd]
      simp only [addPop0, addPop1, occ_setPop0, occ_setPop1]
      rw [occ_setBit17 _ _ _ hq', occ_setSlot (by omega) hs1 hv _ hq']
      have hc : occ mb q = occ ma q := by
        rw [← hmb]; split_ifs
        · simp only [addPop1, occ_setPop1]
        · rfl
      rw [← hmc, occ_shiftRunendsLeft _ _ _ (by omega) (by omega) hq', hc, ← hma,
        occ_shiftSlotsLeft _ _ _ (by omega) (by omega) hq']
    · have hc : pop0 mc = pop0 m := by
        have : pop0 mb = pop0 ma := by
          rw [← hmb]; split_ifs
          · simp only [addPop1, pop0_setPop1]
          · rfl
        rw [← hmc, pop0_shiftRunendsLeft _ _ (by omega) (by omega), this, ← hma,
          pop0_shiftSlotsLeft _ _ (by omega) (by omega)]
      rw [← hmd]
      simp only [addPop0, addPop1, pop0_setPop1]
      rw [pop0_setPop0 _ _ (add32_lt _ _), pop0_setBit _ _ _ (by decide),
        pop0_setSlot (by omega) hs1 hv, hc, b2n_eq, add32_small (by split_ifs <;> omega)]
      simp [ho]
    · have e2 : pop1 ma = cnt (rend ma) (min 512 n) := by
        rw [← hma, pop1_shiftSlotsLeft _ _ (by omega) (by omega), r.pop1]
        apply cnt_congr; intro i hi
        rw [rend_shiftSlotsLeft _ _ _ (by omega) (by omega) (by omega)]
      have e3 := cnt_shiftL (show 1 ≤ pe + 1 by omega) (show pe + 1 ≤ p + 1 by omega) hrc
        (by rw [Nat.add_sub_cancel, hra _ (by omega)]; exact rend_none r (by omega) hemp) (min 512 n)
      have hlt : pop1 ma ≤ 512 := by
        rw [e2]; have := cnt_le (rend ma) (min 512 n); omega
      have e4 : pop1 mc = cnt (rend mc) (min 512 n) := by
        rw [e3, ← hmc, pop1_shiftRunendsLeft _ _ (by omega) (by omega), ← hmb]
        by_cases hcond : pe + 1 ≤ 512 ∧ 512 < p + 1
        · rw [if_pos hcond, if_pos (by omega)]
          rw [show min 512 n = 512 by omega] at e2 ⊢
          simp only [addPop1]
          have hb : (rend ma 512).toNat ≤ 1 := Bool.toNat_le _
          rw [pop1_setPop1 _ _ (add32_lt _ _), getBit17, add32_small (by omega), e2]
          rfl
        · rw [if_neg hcond, if_neg (by omega), e2]
      have hle : pop1 mc ≤ 512 := by
        rw [e4]; have := cnt_le (rend mc) (min 512 n); omega
      have e5 : pop1 md = pop1 mc + if p < 512 then 1 else 0 := by
        rw [← hmd]
        simp only [addPop0, addPop1]
        rw [pop1_setPop0, pop1_setPop1 _ _ (add32_lt _ _), pop1_setBit _ _ _ (by decide),
          pop1_setSlot (by omega) hs1 hv, b2n_eq, add32_small (by split_ifs <;> omega)]
      rw [e5, e4]
      split_ifs with h5
      · symm
        apply cnt_flip (a := p) (by omega)
        · rw [hrc]; simp
        · rw [hrd p (by omega)]; simp
        · intro i hi hne
          rw [hrd i (by omega)]; simp [hne]
      · rw [Nat.add_zero]
        apply cnt_congr
        intro i hi
        rw [hrd i (by omega)]; simp [show ¬ i = p by omega]
    · intro i y hi hy hyq; exact absurd hyq (hnoq i y hi hy)
    · intro i y hi hy _
      have hine : i ≠ pe := by rintro rfl; rw [hemp] at hy; simp at hy
      by_cases c1 : pe < i ∧ i ≤ p
      · rw [if_pos c1, hr' _ (by omega), if_neg (by omega), if_pos (by omega), Nat.sub_add_cancel (by omega)]
      · rw [if_neg c1, hr' _ hi, if_neg (by omega), if_neg (by omega)]
    · rw [hr' p (by omega), if_pos rfl]
      simp only [true_iff]
      intro i y hi hy _; exact hnoq i y hi hy
    · intro k hk hl
      unfold layL at hl
      split_ifs at hl with h1 h2
      · exact absurd hl (hfull _ (by omega) (by omega))
      · rw [hr' k hk, if_neg h1, if_neg h2]
        exact rend_none r hk hl

/-! ## All cases together -/

theorem occupied_insert (r : Rep m n s lay) (h : LayWF n s T mp lay) (N : NewItem n s T mp x)
    (ho : occ m (x / 2 ^ s) = true) (hroom : ∃ k, k < n ∧ lay k = none) :
    Inserted n s T mp lay x m (setBit (insertOccupied m n s (mp (x / 2 ^ s))
      (rankOccupieds m (x / 2 ^ s)) (x % 2 ^ s)) 1 (x / 2 ^ s)) := by
  have hs2 := N.s2
  have hT := N.hT
  have hq := N.q
  have hhome := N.home (x / 2 ^ s)
  have hf := home_filled r h (by omega) hhome ho
  obtain ⟨e, l, rr, h1, h2, h3, R⟩ := runAt_search r h N ho
  obtain ⟨a1, a2, a3⟩ := findEmptySlotAfter_spec r h hs2 hT (mp (x / 2 ^ s))
  obtain ⟨b1, b2, b3, b4⟩ := findEmptySlotBefore_spec r h hs2 hT hhome hf
  unfold insertOccupied
  dsimp only
  rw [h1, ← h2, h3]
  generalize findEmptySlotAfter m n s (mp (x / 2 ^ s)) = ne at *
  generalize findEmptySlotBefore m n s (mp (x / 2 ^ s)) = pe at *
  by_cases c : ne < n
  · have := occ_insert_right r h N ho R a1 c (a3 c) (by
      intro k k1 k2
      rcases Nat.lt_or_ge (mp (x / 2 ^ s)) k with k3 | k3
      · exact a2 k k3 k2 (by omega)
      · have : k = mp (x / 2 ^ s) := by omega
        rw [this]; exact hf)
    rw [if_pos c]
    exact this
  · rw [if_neg c]
    have hfull : ∀ k : Nat, pe < k → k < n → lay k ≠ none := by
      intro k k1 k2
      rcases Nat.lt_trichotomy k (mp (x / 2 ^ s)) with k3 | k3 | k3
      · exact b3 k k1 k3
      · rw [k3]; exact hf
      · exact a2 k k3 (by omega) k2
    obtain ⟨k, k1, k2⟩ := hroom
    have hpe : 0 ≤ pe := by
      by_contra hc
      exact hfull k (by omega) k1 k2
    obtain ⟨pn, rfl⟩ : ∃ pn : Nat, pe = pn := ⟨pe.toNat, by omega⟩
    have hpl : (pn : Int) ≤ l := by rw [h2]; exact le_max_right _ _
    have hemp : lay pn = none := by simpa using b4 hpe
    have := occ_insert_left r h N ho R hpl (by omega) hemp
      (fun k k1 k2 => hfull k (by omega) k2)
    rw [show ((pn : Int) + 1).toNat = pn + 1 by omega]
    exact this

theorem newrun_insert (r : Rep m n s lay) (h : LayWF n s T mp lay) (N : NewItem n s T mp x)
    (ho : occ m (x / 2 ^ s) = false) (hf : lay (mp (x / 2 ^ s)) ≠ none)
    (hroom : ∃ k, k < n ∧ lay k = none) :
    Inserted n s T mp lay x m (setBit (insertNewRun m n s (x / 2 ^ s) (mp (x / 2 ^ s))
      (rankOccupieds m (x / 2 ^ s)) (x % 2 ^ s)) 1 (x / 2 ^ s)) := by
  have hs2 := N.s2
  have hT := N.hT
  have hq := N.q
  have hhome := N.home (x / 2 ^ s)
  obtain ⟨a1, a2, a3⟩ := findEmptySlotAfter_spec r h hs2 hT (mp (x / 2 ^ s))
  obtain ⟨b1, b2, b3, b4⟩ := findEmptySlotBefore_spec r h hs2 hT hhome hf
  have hnoq : ∀ i y, i < n → lay i = some y → y / 2 ^ s ≠ x / 2 ^ s := by
    intro i y hi hy hc
    have := (r.occ _ (by omega)).2 ⟨i, y, hi, hy, hc⟩
    rw [ho] at this; simp at this
  have hR : ∃ R : Int, (if rankOccupieds m (x / 2 ^ s) = 0 then (-1 : Int) else
      (selectRunends m n (rankOccupieds m (x / 2 ^ s) - 1) : Int)) = R ∧ -1 ≤ R ∧ R < n ∧
      (0 ≤ R → ∃ y, lay R.toNat = some y ∧ y / 2 ^ s < x / 2 ^ s) ∧
      (∀ i y, i < n → lay i = some y → ((i : Int) ≤ R → y / 2 ^ s < x / 2 ^ s) ∧
        (R < i → x / 2 ^ s < y / 2 ^ s)) := by
    rw [r.rank]
    by_cases hz : cnt (occ m) (x / 2 ^ s) = 0
    · refine ⟨-1, by rw [if_pos hz], by omega, by omega, by omega, ?_⟩
      intro i y hi hy
      refine ⟨by omega, fun _ => ?_⟩
      by_contra hc
      have hne := hnoq i y hi hy
      have hoy : occ m (y / 2 ^ s) = true := (r.occ _ (by omega)).2 ⟨i, y, hi, hy, rfl⟩
      have := cnt_lt (occ m) (show y / 2 ^ s < x / 2 ^ s by omega) hoy
      omega
    · obtain ⟨q', e, z, g1, g2, g3, g4, g5, g6, g7⟩ := pred_run r h hs2 hT (show x / 2 ^ s ≤ 1024 by omega) hz
      refine ⟨e, by rw [if_neg hz, g6], by omega, by omega, ?_, ?_⟩
      · intro _; exact ⟨z, by simpa using g4, by omega⟩
      · intro i y hi hy
        refine ⟨fun hie => ?_, fun hie => ?_⟩
        · have := h.quot_le hs2 hT (show i ≤ e by omega) g2 hy g4
          omega
        · by_contra hc
          have hne := hnoq i y hi hy
          have h1 := g7 i y hi hy (by omega)
          have h2 := h.quot_le hs2 hT (show e ≤ i by omega) hi g4 hy
          obtain ⟨z', hz', hlast⟩ := (r.rend e g2).1 g3
          rw [g4] at hz'; injection hz' with hz'; subst hz'
          exact hlast i y (by omega) hi hy (by omega)
  obtain ⟨R, hRe, R1, R2, R3, R4⟩ := hR
  unfold insertNewRun
  dsimp only
  rw [hRe]
  have qlt : ∀ i y, i < n → lay i = some y → y / 2 ^ s < x / 2 ^ s → ile y x := by
    intro i y hi hy hlt
    obtain ⟨c1, c2⟩ := h.item i y hi hy
    exact ile_of_quot_lt c1 N.ne (item_lt hs2 hT c2) N.lt hlt
  have qgt : ∀ i y, i < n → lay i = some y → x / 2 ^ s < y / 2 ^ s → ile x y := by
    intro i y hi hy hlt
    obtain ⟨c1, c2⟩ := h.item i y hi hy
    exact ile_of_quot_lt N.ne c1 N.lt (item_lt hs2 hT c2) hlt
  have hgap : ∀ i y k : Nat, i < n → lay i = some y → R < i → i < mp (x / 2 ^ s) → i ≤ k → k < n →
      lay k ≠ none := by
    intro i y k hi hy hRi hiP hik hk
    have c2 := (h.item i y hi hy).2
    have := N.mono _ _ (Nat.le_of_lt ((R4 i y hi hy).2 hRi)) c2
    exact h.right i k y hi hy (by omega) hik hk
  generalize findEmptySlotAfter m n s (mp (x / 2 ^ s)) = ne at *
  generalize findEmptySlotBefore m n s (mp (x / 2 ^ s)) = pe at *
  by_cases c : ne < n
  · rw [if_pos c]
    have hemp := a3 c
    have hRne : R < ne := by
      by_contra hc
      obtain ⟨y, hy, hyq⟩ := R3 (by omega)
      have hm := N.mono _ _ (Nat.le_of_lt hyq) hq
      rcases Nat.lt_or_ge ne R.toNat with h5 | h5
      · exact h.left R.toNat ne y (by omega) hy (by omega) h5 hemp
      · have : ne = R.toNat := by omega
        rw [← this, hemp] at hy; simp at hy
    have hfill0 : ∀ k, mp (x / 2 ^ s) ≤ k → k < ne → lay k ≠ none := by
      intro k k1 k2
      rcases Nat.lt_or_ge (mp (x / 2 ^ s)) k with k3 | k3
      · exact a2 k k3 k2 (by omega)
      · have : k = mp (x / 2 ^ s) := by omega
        rw [this]; exact hf
    generalize hp : (max (R + 1) (mp (x / 2 ^ s) : Int)).toNat = p
    apply newrun_right r h N ho hnoq (show p ≤ ne by omega) c hemp (fun k k1 k2 => hfill0 k (by omega) k2)
    · intro i y hi hy
      by_cases hiR : (i : Int) ≤ R
      · exact qlt i y (by omega) hy ((R4 i y (by omega) hy).1 hiR)
      · exact absurd hemp (hgap i y ne (by omega) hy (by omega) (by omega) (by omega) c)
    · intro i y hi1 hi2 hy
      exact qgt i y hi2 hy ((R4 i y hi2 hy).2 (by omega))
    · intro k k1 k2
      exact hfill0 k k1 (by omega)
    · omega
  · rw [if_neg c]
    have hfull : ∀ k : Nat, pe < k → k < n → lay k ≠ none := by
      intro k k1 k2
      rcases Nat.lt_trichotomy k (mp (x / 2 ^ s)) with k3 | k3 | k3
      · exact b3 k k1 k3
      · rw [k3]; exact hf
      · exact a2 k k3 (by omega) k2
    obtain ⟨k, k1, k2⟩ := hroom
    have hpe : 0 ≤ pe := by
      by_contra hc
      exact hfull k (by omega) k1 k2
    obtain ⟨pn, rfl⟩ : ∃ pn : Nat, pe = pn := ⟨pe.toNat, by omega⟩
    have hemp : lay pn = none := by simpa using b4 hpe
    rw [show ((pn : Int) + 1).toNat = pn + 1 by omega]
    generalize hp : (max R (pn : Int)).toNat = p
    apply newrun_left r h N ho hnoq (show pn ≤ p by omega) (by omega) hemp
      (fun k k1 k2 => hfull k (by omega) k2)
    · intro i y hi hy
      by_cases hiR : (i : Int) ≤ R
      · exact qlt i y (by omega) hy ((R4 i y (by omega) hy).1 hiR)
      · exact absurd hemp (hgap i y pn (by omega) hy (by omega) (by omega) (by omega) (by omega))
    · intro i y hi1 hi2 hy
      exact qgt i y hi2 hy ((R4 i y hi2 hy).2 (by omega))
    · omega

end

end Verif
