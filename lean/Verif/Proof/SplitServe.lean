import Verif.Proof.Hold

/-!
# Inserts keep every key served
-/

namespace Verif

section
variable {s sa p base : Nat} {a b : Key}

theorem expand_length_eq (R : RW s sa p base a b) {x y : Nat} (O : OldItem s p base a b x)
    (hy : y ∈ expandItem s sa (rwLo sa p base a * 2 ^ s) (rwLo sa p base b * 2 ^ s) x) :
    ilen s (p + sa) y = max (ilen s p x) (p + sa) := by
  have hx := (item_bound (s := s) (by have := R.s2; omega) O.quot).2
  obtain ⟨m, t, rfl, ht⟩ := item_decomp O.expl
  by_cases hc : t + sa < s
  · rw [expand_keep R O hc, List.mem_singleton] at hy
    rw [(keep_new R O hc hy).2.1, ilen_odd hx]
    omega
  · obtain ⟨v, hv1, hv2, hv3, hv4⟩ := (expand_wide R O (by omega) y).1 hy
    rw [(wide_new R hv2 hv3 hv4).2.1, ilen_odd hx]
    omega

/-- The list written for the new region is a permutation of all expansions. -/
theorem update_perm (R : RW s sa p base a b) {list : List Nat} (hO : ∀ x ∈ list, OldItem s p base a b x)
    {flag : Bool} (hf : flag = list.any fun x => decide (lowbitPos x + sa ≥ s)) :
    (updateInfixList s sa (rwLo sa p base a * 2 ^ s) (rwLo sa p base b * 2 ^ s) flag list).Perm
      (list.flatMap (expandItem s sa (rwLo sa p base a * 2 ^ s) (rwLo sa p base b * 2 ^ s))) := by
  unfold updateInfixList
  by_cases hc : flag = true
  · rw [if_pos hc]; exact sortInfixes_perm _
  · rw [if_neg hc]
    have hany : ∀ x ∈ list, ¬ (lowbitPos x + sa ≥ s) := by
      intro x hx h
      apply hc
      rw [hf, List.any_eq_true]
      exact ⟨x, hx, by simpa using h⟩
    clear hf hc
    induction list with
    | nil => exact .refl _
    | cons x l ih =>
      rw [List.map_cons, List.flatMap_cons]
      have O := hO x (by simp)
      have h1 := hany x (by simp)
      have hb := (item_bound (s := s) (by have := R.s2; omega) O.quot).2
      have hk : expandItem s sa (rwLo sa p base a * 2 ^ s) (rwLo sa p base b * 2 ^ s) x =
          [sub64 (shl64 x sa) (rwLo sa p base a * 2 ^ s)] := by
        obtain ⟨m, t, rfl, ht⟩ := item_decomp O.expl
        rw [lowbitPos_odd hb] at h1
        exact expand_keep R O (by omega)
      rw [hk, List.singleton_append]
      exact (ih (fun x hx => hO x (List.mem_cons_of_mem _ hx)) fun x hx => hany x (List.mem_cons_of_mem _ hx)).cons _

theorem rewrite_perm (R : RW s sa p base a b) {list : List Nat} (hO : ∀ x ∈ list, OldItem s p base a b x)
    {res : List Nat}
    (hr : rewriteList s sa (rwLo sa p base a * 2 ^ s) (rwLo sa p base b * 2 ^ s) list = .ok res) :
    res.Perm (list.flatMap (expandItem s sa (rwLo sa p base a * 2 ^ s) (rwLo sa p base b * 2 ^ s))) := by
  unfold rewriteList at hr
  generalize hE : expandedLength s sa (rwLo sa p base a * 2 ^ s) (rwLo sa p base b * 2 ^ s) list (list.length, false) = E at hr
  obtain ⟨len, flag⟩ := E
  have hf : flag = list.any fun x => decide (lowbitPos x + sa ≥ s) := by
    have := expandedLength_flag (s := s) (sa := sa) (rwLo sa p base a * 2 ^ s) (rwLo sa p base b * 2 ^ s) list (list.length, false)
    rw [hE] at this
    simpa using this
  dsimp only at hr
  split_ifs at hr with hlen
  injection hr with hr
  rw [← hr]
  exact update_perm R hO hf

/-- Of two prefixes of the same key the longer one is not smaller, so it is equal if it comes first. -/
theorem ile_hits_eq {s p : Nat} {prev k : Key} {y w : Nat} (hy0 : y % 2 ^ s ≠ 0) (hy : y < 2 ^ 64) (hw0 : w % 2 ^ s ≠ 0)
    (hw : w < 2 ^ 64) (hk : pre p prev ≤ pre p k) (h1 : pre (ilen s p y) k = ival s (pre p prev) y)
    (h2 : pre (ilen s p w) k = ival s (pre p prev) w) (hle : ile y w) (hlen : ilen s p w ≤ ilen s p y) : y = w := by
  obtain ⟨m, t, rfl, ht⟩ := item_decomp hy0
  obtain ⟨m', t', rfl, ht'⟩ := item_decomp hw0
  rw [ilen_odd hy, ilen_odd hw] at hlen
  rw [ilen_odd hy, ival_odd hy, ← relVal_cut hk ht] at h1
  rw [ilen_odd hw, ival_odd hw, ← relVal_cut hk ht'] at h2
  have e1 : m = relVal s p prev k / 2 ^ (t + 1) := by omega
  have e2 : m' = relVal s p prev k / 2 ^ (t' + 1) := by omega
  unfold ile at hle
  rw [nolb64_odd hy, nolb64_odd hw, lb64_odd hy, lb64_odd hw] at hle
  have htt : t ≤ t' := by omega
  obtain ⟨d, rfl⟩ := Nat.exists_eq_add_of_le htt
  have e3 : m' = m / 2 ^ d := by
    rw [e1, e2, show t + d + 1 = t + 1 + d by omega, pow_add 2 (t + 1) d, Nat.div_div_eq_div_mul]
  have e4 : 2 * m' * 2 ^ (t + d) ≤ 2 * m * 2 ^ t := by
    rw [e3, pow_add, show 2 * (m / 2 ^ d) * (2 ^ t * 2 ^ d) = m / 2 ^ d * 2 ^ d * (2 * 2 ^ t) by ring,
      show 2 * m * 2 ^ t = m * (2 * 2 ^ t) by ring]
    exact Nat.mul_le_mul_right _ (Nat.div_mul_le_self _ _)
  rcases hle with h | ⟨_, h⟩
  · omega
  · rw [Nat.pow_le_pow_iff_right (by decide)] at h
    obtain rfl : d = 0 := by omega
    rw [pow_zero, Nat.div_one] at e3
    rw [e3]; rfl

end

section
variable {f : Filter} {key : Key} {d : SplitPlan} {A B : Tree} {next : Key} {st' : Store}
  {sh ig imp : Nat} {L : List Nat} {sp shL igL impL shG igG impG : Nat}

/-- The head of the right list starts at the new boundary. -/
theorem SplitInfo.head_hits (I : SplitInfo f key d A next st' B sh ig imp L sp shL igL impL shG igG impG)
    (hf : f.cfg.WF) {y1 h : Nat} {rest : List Nat} (hr : d.right = h :: rest) (hy1 : y1 ∈ d.right)
    (hy1e : Hits f.cfg.infixSize (shG + igG + impG) d.edited y1 d.edited) :
    Hits f.cfg.infixSize (shG + igG + impG) d.edited h d.edited ∧ ile h y1 ∧ h % 2 ^ f.cfg.infixSize ≠ 0 ∧ h < 2 ^ 64 ∧
      y1 % 2 ^ f.cfg.infixSize ≠ 0 ∧ y1 < 2 ^ 64 := by
  obtain ⟨s1, s2, s3⟩ := I.specG
  have hmem : h ∈ d.right := by rw [hr]; simp
  obtain ⟨a1, a2⟩ := s1.item h hmem
  obtain ⟨b1, b2⟩ := s1.item y1 hy1
  have hT := I.T_leG
  have a64 := (item_bound (s := f.cfg.infixSize) (by have := hf.s2; omega) (show h / 2 ^ f.cfg.infixSize < 1024 by omega)).2
  have b64 := (item_bound (s := f.cfg.infixSize) (by have := hf.s2; omega) (show y1 / 2 ^ f.cfg.infixSize < 1024 by omega)).2
  have hle : ile h y1 := by
    rw [hr] at hy1
    rcases List.mem_cons.1 hy1 with rfl | hy1
    · exact ile_refl _
    · have := s1.sorted
      rw [hr, List.pairwise_cons] at this
      exact this.1 _ hy1
  refine ⟨?_, hle, a1, a64, b1, b64⟩
  have hlo := (s2 h hmem).1
  have hn := ile_nolb hle
  unfold Hits at hy1e ⊢
  obtain ⟨m, t, e, ht⟩ := item_decomp a1
  obtain ⟨m', t', e', ht'⟩ := item_decomp b1
  rw [e] at hlo hn a64 ⊢
  rw [e'] at hy1e hn b64
  rw [ilen_odd b64, ival_odd b64, ← relVal_cut (Nat.le_refl _) ht'] at hy1e
  rw [ilen_odd a64, ival_odd a64, ← relVal_cut (Nat.le_refl _) ht] at hlo ⊢
  have h1 : nolb64 ((2 * m' + 1) * 2 ^ t') ≤ relVal f.cfg.infixSize (shG + igG + impG) d.edited d.edited := by
    rw [nolb_le_iff b64]; omega
  have h2 := Nat.le_trans hn h1
  rw [nolb_le_iff a64] at h2
  omega

/-- The item of the key keeps the key if the new boundary agrees with it up to the new level. -/
theorem SplitInfo.keyItem_hits (I : SplitInfo f key d A next st' B sh ig imp L sp shL igL impL shG igG impG)
    (hf : f.cfg.WF) (he : pre (shG + igG + impG) key = pre (shG + igG + impG) d.edited) :
    Hits f.cfg.infixSize (shG + igG + impG) d.edited d.keyItem key := by
  have hs1 := hf.s1
  have hs2 := hf.s2
  have himp := I.lenG.imp_cases
  have hv : d.keyItem = (pre (shG + igG + impG + f.cfg.infixSize) key % 2 ^ f.cfg.infixSize ||| 1) := by
    rw [I.keyItem, extract_eq _ _ _ _ _ _ (by omega) (by omega) (by omega), and_bitmask_mod (by omega), Nat.zero_mul,
      Nat.zero_add, Nat.mod_mod_of_dvd]
    exact pow_dvd_pow 2 (by omega)
  obtain ⟨j, hj⟩ : ∃ j, f.cfg.infixSize = j + 1 := ⟨f.cfg.infixSize - 1, by omega⟩
  have hhalf : pre (shG + igG + impG + (j + 1)) key % 2 ^ (j + 1) / 2 = pre (shG + igG + impG + j) key % 2 ^ j := by
    have h1 : pre (shG + igG + impG + (j + 1)) key = 2 * pre (shG + igG + impG + j) key + kbit key (shG + igG + impG + j) := rfl
    have h2 := kbit_lt key (shG + igG + impG + j)
    rw [pow_succ, Nat.mul_comm (2 ^ j) 2, Nat.mod_mul_right_div_self, h1]
    congr 1; omega
  have hodd : d.keyItem = (2 * (pre (shG + igG + impG + j) key % 2 ^ j) + 1) * 2 ^ 0 := by
    rw [hv, or_one, hj, pow_zero, Nat.mul_one]
    omega
  have hltj : pre (shG + igG + impG + j) key % 2 ^ j < 2 ^ j := Nat.mod_lt _ (Nat.two_pow_pos _)
  have h64 : (2 * (pre (shG + igG + impG + j) key % 2 ^ j) + 1) * 2 ^ 0 < 2 ^ 64 := by
    have : 2 ^ j ≤ 2 ^ 46 := Nat.pow_le_pow_right (by decide) (by omega)
    rw [pow_zero]; omega
  unfold Hits
  rw [hodd, ilen_odd h64, ival_odd h64, hj, show shG + igG + impG + (j + 1) - 1 - 0 = shG + igG + impG + j by omega,
    show j + 1 - 1 - 0 = j by omega]
  have e1 := pre_split key (shG + igG + impG) j
  rw [← he]
  omega

/-- Keys of the lower items lie below the new boundary. -/
theorem SplitInfo.take_lt (I : SplitInfo f key d A next st' B sh ig imp L sp shL igL impL shG igG impG) {x : Nat}
    (hx : x ∈ L.take sp) {k : Key} (hk : Hits f.cfg.infixSize (sh + ig + imp) d.prev x k) : keyLt k d.edited = true := by
  have h1 := I.cut.left x hx
  rw [← I.edited] at h1
  unfold Hits at hk
  exact keyLt_of_padLt ⟨_, by rw [hk]; exact h1⟩

/-- Keys of the upper items lie above the new boundary. -/
theorem SplitInfo.drop_ge (I : SplitInfo f key d A next st' B sh ig imp L sp shL igL impL shG igG impG) {x : Nat}
    (hx : x ∈ L.drop sp) {k : Key} (hk : Hits f.cfg.infixSize (sh + ig + imp) d.prev x k)
    (hkl : k.length = key.length) : keyLe d.edited k = true := by
  rcases keyLe_or_lt d.edited k with hc | hc
  · exact hc
  exfalso
  unfold Hits at hk
  have h3 := I.cut.right x hx
  rw [← I.edited] at h3
  have h4 := keyLe_pre (keyLt_keyLe hc)
  have h5 := h4 (ilen f.cfg.infixSize (sh + ig + imp) x)
  have h6 : pre (ilen f.cfg.infixSize (sh + ig + imp) x) d.edited =
      ival f.cfg.infixSize (pre (sh + ig + imp) d.prev) x := by omega
  have h7 := (I.cut.zeros x hx (by rw [← I.edited]; exact h6)).1
  rw [← I.edited] at h7
  have heq : PadEq d.edited k := by
    intro q
    have := h4 q
    by_cases hq : q ≤ ilen f.cfg.infixSize (sh + ig + imp) x
    · exact pre_eq_len hq (by omega)
    · obtain ⟨j, rfl⟩ := Nat.exists_eq_add_of_le (show ilen f.cfg.infixSize (sh + ig + imp) x ≤ q by omega)
      have e1 := pre_zeros h7 j
      have e2 := pre_split k (ilen f.cfg.infixSize (sh + ig + imp) x) j
      rw [h6] at e1
      rw [hk] at e2
      omega
  rw [I.edited] at heq hc
  obtain ⟨p1, p2⟩ := prefix_of_editKey heq hc
  exact p2 (p1.eq_of_length hkl)

theorem SplitInfo.edited_le (I : SplitInfo f key d A next st' B sh ig imp L sp shL igL impL shG igG impG) :
    keyLe d.edited key = true := by
  have hlen := editKey_length_le key d.zeroPos
  rw [← I.edited] at hlen
  have hle : ∀ q, pre q d.edited ≤ pre q key := by
    intro q
    rw [I.edited]
    cases hz : d.zeroPos with
    | none => exact Nat.le_refl _
    | some z => exact editKey_le key z (I.zpos z hz) q
  rcases pad_trichotomy d.edited key with g | g | ⟨q, g⟩
  · exact keyLt_keyLe (keyLt_of_padLt g)
  · exact keyLe_of_padEq g hlen
  · have := hle q; omega

end
theorem Serve.expand {i1 i2 : Nat → Hold} {ex : Nat → List Nat} {l : List Nat} {S : List Key}
    (h : ∀ x ∈ l, ∀ k ∈ S, i1 x k → ∃ y ∈ ex x, i2 y k) (hs : Serve (l.map i1) S) : Serve ((l.flatMap ex).map i2) S := by
  have e : (l.flatMap ex).map i2 = (l.map fun x => (ex x).map i2).flatten := by
    rw [List.map_flatMap, List.flatMap_def]
  rw [e]
  refine hs.transfer ?_
  rw [List.forall₂_map_left_iff, List.forall₂_map_right_iff, List.forall₂_same]
  intro x hx k hk hik
  obtain ⟨y, hy, hyk⟩ := h x hx k hk hik
  exact ⟨i2 y, List.mem_map_of_mem hy, hyk⟩

theorem Serve.one {H : List Hold} {g : Hold} (hm : g ∈ H) {k : Key} (hk : g k) : Serve H [k] := by
  obtain ⟨s, t, rfl⟩ := List.append_of_mem hm
  exact .cons List.perm_middle hk .nil

section
variable {f : Filter} {key : Key}

/-- A split keeps every key served, and the new key as well. -/
theorem serve_split (hwf : f.cfg.WF) {d : SplitPlan} {A B : Tree} {next : Key} {stN storeL storeG : Store}
    {sh ig imp : Nat} {L LG : List Nat} {sp shL igL impL shG igG impG : Nat}
    (D : SplitLists f key d A next stN B storeL storeG sh ig imp L sp shL igL impL shG igG impG LG) {S : List Key}
    (hS : ∀ k ∈ S, k.length = key.length) (hs : Serve (holds f.cfg f.tree) S) :
    Serve (holds f.cfg (A ++ (d.prev, storeL) :: (d.edited, storeG) :: (next, stN) :: B)) (key :: S) := by
  have I := D.info
  have l0 := I.region.list hwf
  have l1 := D.lower.list hwf
  have l2 := D.upper.list hwf
  set E := d.edited with hE
  set s := f.cfg.infixSize with hsd
  have bE : ∀ k, keyLe E k = true → keyLt k next = true → Between E k next := fun k a b => between_of_le a (keyLt_keyLe b)
  have hpE := keyLt_of_padLt I.ltL
  have hEn := keyLt_of_padLt I.ltG
  rw [I.tree, holds_mid] at hs
  unfold rHolds at hs
  dsimp only at hs
  rw [l0, ← List.take_append_drop sp L, List.map_append] at hs
  obtain ⟨SA, S1, p1, sA, hs⟩ := hs.split
  obtain ⟨S2, SB, p2, hs, sB⟩ := hs.split
  obtain ⟨Sb, S3, p3, sb, hs⟩ := Serve.split (H := [bHold (d.prev, d.store) next]) hs
  obtain ⟨St, Sd, p4, st, sd⟩ := hs.split
  have m1 : ∀ x ∈ S1, x ∈ S := fun x hx => p1.mem_iff.2 (List.mem_append_right _ hx)
  have m2 : ∀ x ∈ S2, x ∈ S := fun x hx => m1 x (p2.mem_iff.2 (List.mem_append_left _ hx))
  have mb : ∀ x ∈ Sb, x ∈ S := fun x hx => m2 x (p3.mem_iff.2 (List.mem_append_left _ hx))
  have m3 : ∀ x ∈ S3, x ∈ S := fun x hx => m2 x (p3.mem_iff.2 (List.mem_append_right _ hx))
  have mt : ∀ x ∈ St, x ∈ S := fun x hx => m3 x (p4.mem_iff.2 (List.mem_append_left _ hx))
  have md : ∀ x ∈ Sd, x ∈ S := fun x hx => m3 x (p4.mem_iff.2 (List.mem_append_right _ hx))
  -- the lower boundary
  have sb' : Serve [bHold (d.prev, storeL) E] Sb := by
    refine sb.weaken (.cons ?_ .nil)
    intro k hk hh
    rcases hh with rfl | ⟨c1, c2, c3, c4⟩
    · exact .inl rfl
    · right
      dsimp only at c1 c2 c3 c4 ⊢
      rw [D.part, D.ib]
      refine ⟨c1, c2, ?_, c4⟩
      rcases keyLe_or_lt E k with hc | hc
      · rw [I.no_prefix hc c1] at c4
        exact absurd c4 (by decide)
      · exact hc
  -- the lower items
  have st' : Serve (d.left.map (iHold s d.prev E)) St := by
    refine Serve.perm (Serve.expand ?_ st) ((rewrite_perm I.rwL I.oldL I.left).symm.map _)
    intro x hx k hk hh
    obtain ⟨c1, c2, c3⟩ := (iHold_iff I.region.toRegionBase).1 hh
    have c4 := I.take_lt hx c3
    have bt := between_of_le c1 (keyLt_keyLe c4)
    have hex := (expand_spec I.rwL (I.oldL x hx)).2
    rw [I.levelL] at hex
    obtain ⟨y, hy, hyk⟩ := (hex k (bt _).1 (bt _).2).1 c3
    exact ⟨y, hy, (iHold_iff D.lower.toRegionBase).2 ⟨c1, c4, hyk⟩⟩
  -- one upper item
  have up : ∀ x ∈ L.drop sp, ∀ k ∈ S, iHold s d.prev next x k → keyLe E k = true ∧ keyLt k next = true ∧
      ∃ y ∈ expandItem s d.shamtG (rwLo d.shamtG (sh + ig + imp) (pre (sh + ig + imp) d.prev) E * 2 ^ s)
        (rwLo d.shamtG (sh + ig + imp) (pre (sh + ig + imp) d.prev) next * 2 ^ s) x, iHold s E next y k := by
    intro x hx k hk hh
    obtain ⟨c1, c2, c3⟩ := (iHold_iff I.region.toRegionBase).1 hh
    have c4 := I.drop_ge hx c3 (hS k hk)
    have bt := bE k c4 c2
    have hex := (expand_spec I.rwG (I.oldG x hx)).2
    rw [I.levelG] at hex
    obtain ⟨y, hy, hyk⟩ := (hex k (bt _).1 (bt _).2).1 c3
    exact ⟨c4, c2, y, hy, (iHold_iff D.upper.toRegionBase).2 ⟨c4, c2, hyk⟩⟩
  -- the upper region
  have sd' : Serve (bHold (E, storeG) next :: LG.map (iHold s E next)) (key :: Sd) := by
    have hsh := D.shape
    have hper := rewrite_perm I.rwG I.oldG I.right
    cases hz : d.zeroPos with
    | none =>
      rw [hz] at hsh
      dsimp only at hsh
      have hEk : E = key := by rw [hE, I.edited, hz]; rfl
      have g1 : Serve [bHold (E, storeG) next] [key] := .one (g := bHold (E, storeG) next) (by simp) (Or.inl hEk.symm)
      have g2 : Serve (LG.map (iHold s E next)) Sd := by
        rw [hsh.2]
        refine Serve.perm (Serve.expand ?_ sd) (hper.symm.map _)
        exact fun x hx k hk hh => (up x hx k (md k hk) hh).2.2
      exact g1.append g2
    | some z =>
      rw [hz] at hsh
      dsimp only at hsh
      obtain ⟨pG, iG, y0, X, Y, hr, hLG⟩ := hsh
      obtain ⟨hzp, x0, tl, hd, hx0, hl0, hv0, hrest⟩ := I.cut.head z hz
      have hz1 := I.zpos z hz
      have hEz : ∀ q, q ≤ z → pre q E = pre q key := by
        intro q hq
        rw [hE, I.edited, hz]; exact editKey_pre key z hz1 hq
      have hx0d : x0 ∈ L.drop sp := by rw [hd]; simp
      have x0E : Hits s (sh + ig + imp) d.prev x0 E := by
        unfold Hits; rw [hl0, hv0, hEz z (Nat.le_refl _)]
      have x0k : Hits s (sh + ig + imp) d.prev x0 key := by
        unfold Hits; rw [hl0, hv0]
      have hex := (expand_spec I.rwG (I.oldG x0 hx0d)).2
      rw [I.levelG] at hex
      have bEE : Between E E next := between_left I.ltG
      obtain ⟨w0, hw0, hw0E⟩ := (hex E (bEE _).1 (bEE _).2).1 x0E
      set ex := expandItem s d.shamtG (rwLo d.shamtG (sh + ig + imp) (pre (sh + ig + imp) d.prev) E * 2 ^ s)
        (rwLo d.shamtG (sh + ig + imp) (pre (sh + ig + imp) d.prev) next * 2 ^ s) with hexd
      have hw0r : w0 ∈ d.right := hper.mem_iff.2 (List.mem_flatMap.2 ⟨x0, hx0d, hw0⟩)
      obtain ⟨y0E, hle, f1, f2, f3, f4⟩ := I.head_hits hwf hr hw0r hw0E
      have hy0w : y0 = w0 := by
        refine ile_hits_eq f1 f2 f3 f4 (Nat.le_refl _) y0E hw0E hle ?_
        have hy0r : y0 ∈ d.right := by rw [hr]; simp
        obtain ⟨x, hx, hy⟩ := List.mem_flatMap.1 (hper.mem_iff.1 hy0r)
        have e1 := expand_length_eq I.rwG (I.oldG x0 hx0d) hw0
        have e2 := expand_length_eq I.rwG (I.oldG x hx) hy
        have hexx := (expand_spec I.rwG (I.oldG x hx)).2
        rw [I.levelG] at e1 e2 hexx
        have xE := (hexx E (bEE _).1 (bEE _).2).2 ⟨y0, hy, y0E⟩
        have hzl := (I.cut.zeros x hx (by rw [← I.edited]; exact xE)).2 z hz
        rw [e1, e2, hl0]
        omega
      rw [← hy0w] at hw0
      obtain ⟨W1, W2, hW⟩ := List.append_of_mem hw0
      have hXY : (X ++ Y).Perm ((W1 ++ W2) ++ tl.flatMap ex) := by
        have h1 : (y0 :: (X ++ Y)).Perm (y0 :: ((W1 ++ W2) ++ tl.flatMap ex)) := by
          rw [← hr]
          refine hper.trans ?_
          rw [hd, List.flatMap_cons, hW, List.append_assoc, List.append_assoc]
          exact List.perm_middle
        exact h1.cons_inv
      have hLGp : LG.Perm ((d.keyItem :: (W1 ++ W2)) ++ tl.flatMap ex) := by
        rw [hLG]
        exact List.perm_middle.trans (hXY.cons _)
      -- the new key
      have kE := I.edited_le
      have kn := I.lt
      have sk : Serve ((d.keyItem :: (W1 ++ W2)).map (iHold s E next)) [key] := by
        by_cases hpk : pre (shG + igG + impG) key = pre (shG + igG + impG) E
        · refine .one (g := iHold s E next d.keyItem) (by simp) ?_
          exact (iHold_iff D.upper.toRegionBase).2 ⟨kE, kn, I.keyItem_hits hwf hpk⟩
        · have bt := bE key kE kn
          obtain ⟨yq, hyq, hyqk⟩ := (hex key (bt _).1 (bt _).2).1 x0k
          have hne : yq ≠ y0 := by
            rintro rfl
            apply hpk
            have e2 := expand_length_eq I.rwG (I.oldG x0 hx0d) hyq
            rw [I.levelG] at e2
            unfold Hits at y0E
            exact pre_eq_len (Nat.le_trans (Nat.le_max_right _ _) (Nat.le_of_eq e2.symm)) (by rw [hyqk, y0E])
          have hyW : yq ∈ W1 ++ W2 := by
            rw [hW] at hyq
            rcases List.mem_append.1 hyq with h | h
            · exact List.mem_append_left _ h
            · rcases List.mem_cons.1 h with h | h
              · exact absurd h hne
              · exact List.mem_append_right _ h
          refine .one (g := iHold s E next yq) (List.mem_map_of_mem (List.mem_cons_of_mem _ hyW)) ?_
          exact (iHold_iff D.upper.toRegionBase).2 ⟨kE, kn, hyqk⟩
      -- the other keys
      have so : Serve (bHold (E, storeG) next :: (tl.flatMap ex).map (iHold s E next)) Sd := by
        rw [hd, List.map_cons] at sd
        obtain ⟨T1, T2, q, t1, t2⟩ := Serve.split (H := [iHold s d.prev next x0]) sd
        refine Serve.permS ?_ q.symm
        have u1 : Serve [bHold (E, storeG) next] T1 := by
          refine t1.weaken (.cons ?_ .nil)
          intro k hk hh
          obtain ⟨c1, c2, _⟩ := up x0 hx0d k (md k (q.mem_iff.2 (List.mem_append_left _ hk))) hh
          have c3 := ((iHold_iff I.region.toRegionBase).1 hh).2.2
          by_cases hke : E = k
          · exact .inl hke.symm
          · refine .inr ⟨pG, c1, c2, ?_⟩
            dsimp only
            rw [iG]
            refine I.prefix_of hz (keyLt_iff.2 ⟨c1, hke⟩) ?_
            unfold Hits at c3
            rw [hl0, hv0] at c3
            exact c3
        have u2 : Serve ((tl.flatMap ex).map (iHold s E next)) T2 := by
          refine Serve.expand ?_ t2
          intro x hx k hk hh
          exact (up x (by rw [hd]; exact List.mem_cons_of_mem _ hx) k (md k (q.mem_iff.2 (List.mem_append_right _ hk))) hh).2.2
        exact u1.append u2
      have hfin := sk.append so
      refine hfin.perm ?_
      rw [List.singleton_append] at *
      have h1 : ((d.keyItem :: (W1 ++ W2)).map (iHold s E next) ++ bHold (E, storeG) next :: (tl.flatMap ex).map (iHold s E next)).Perm
          (bHold (E, storeG) next :: ((d.keyItem :: (W1 ++ W2)).map (iHold s E next) ++ (tl.flatMap ex).map (iHold s E next))) :=
        List.perm_middle
      refine h1.trans (List.Perm.cons _ ?_)
      rw [← List.map_append]
      exact hLGp.symm.map _
  -- all together
  have hfin := sA.append ((sb'.append st').append (sd'.append sB))
  have hperm : (SA ++ ((Sb ++ St) ++ ((key :: Sd) ++ SB))).Perm (key :: S) := by
    have q1 : S.Perm (SA ++ ((Sb ++ (St ++ Sd)) ++ SB)) :=
      p1.trans ((p2.trans ((p3.trans (p4.append_left Sb)).append_right SB)).append_left SA)
    refine List.Perm.trans ?_ (q1.symm.cons key)
    have : SA ++ ((Sb ++ St) ++ ((key :: Sd) ++ SB)) = (SA ++ (Sb ++ St)) ++ key :: (Sd ++ SB) := by simp
    rw [this]
    refine List.perm_middle.trans (List.Perm.cons _ ?_)
    simp
  refine Serve.perm (hfin.permS hperm) ?_
  rw [holds_mid]
  unfold rHolds
  dsimp only
  rw [l1, show holds f.cfg ((E, storeG) :: (next, stN) :: B) = rHolds f.cfg (E, storeG) next ++ holds f.cfg ((next, stN) :: B) from rfl]
  unfold rHolds
  dsimp only
  rw [l2]
  simp
  exact List.Perm.refl _

end
section
variable {f : Filter} {key : Key}

/-- A simple insert keeps every key served, and the new key as well. -/
theorem serve_simple (h : FilterOK f) {f' : Filter} (hi : insertSimple f key = .ok f') (hfit : SimpleFits f key)
    {S : List Key} (hs : Serve (holds f.cfg f.tree) S) : Serve (holds f'.cfg f'.tree) (key :: S) := by
  obtain ⟨A, prev, st, st2, next, st', B, sh, ig, imp, X, Y, ht, ht', hcfg, h1, h2, e1, e2, R, R2, hok⟩ :=
    insertSimple_spec h hi hfit
  have hk := between_of_le h1 (keyLt_keyLe h2)
  have l1 := R.list h.wf
  have l2 := R2.list h.wf
  have hpre := R.item_prefix h.wf hk
  rw [ht, holds_mid] at hs
  rw [ht', hcfg, holds_mid]
  unfold rHolds at hs ⊢
  dsimp only at hs ⊢
  rw [l1] at hs
  rw [l2]
  have eb : bHold (prev, st2) next = bHold (prev, st) next := by
    unfold bHold
    dsimp only
    rw [e1, e2]
  rw [eb]
  set it := iHold f.cfg.infixSize prev next with hit
  set x := relVal f.cfg.infixSize (sh + ig + imp) prev key ||| 1 with hx
  have hp : (fHolds f.cfg A prev ++ (bHold (prev, st) next :: (X ++ x :: Y).map it ++ holds f.cfg ((next, st') :: B))).Perm
      (it x :: (fHolds f.cfg A prev ++ (bHold (prev, st) next :: (X ++ Y).map it ++ holds f.cfg ((next, st') :: B)))) := by
    rw [List.map_append, List.map_append, List.map_cons]
    have : ((bHold (prev, st) next :: (X.map it ++ it x :: Y.map it)) ++ holds f.cfg ((next, st') :: B)) =
      (bHold (prev, st) next :: X.map it) ++ it x :: (Y.map it ++ holds f.cfg ((next, st') :: B)) := by simp
    rw [this, ← List.append_assoc]
    refine List.perm_middle.trans ?_
    simp
  refine .cons hp ?_ hs
  refine (iHold_iff R.toRegionBase).2 ⟨h1, h2, ?_⟩
  unfold Hits
  rw [hpre.1, hpre.2]

/-- `Insert` keeps every key served, and the new key as well. -/
theorem serve_insert (h : FilterOK f) {split : Bool} (hfit : InsertFits f key split) {n : Nat}
    (hn : n < 2 ^ 28) (hkn : key.length = n) (htn : LenLe n f) {f' : Filter} (hi : insert f key split = .ok f')
    {S : List Key} (hS : ∀ k ∈ S, k.length = n) (hs : Serve (holds f.cfg f.tree) S) :
    Serve (holds f'.cfg f'.tree) (key :: S) := by
  cases split with
  | false =>
    unfold insert at hi
    simp only [Bool.false_eq_true, if_false] at hi
    exact serve_simple h hi (by unfold InsertFits at hfit; exact hfit) hs
  | true =>
    unfold insert at hi
    simp only [if_true] at hi
    unfold insertSplit at hi
    unfold InsertFits at hfit
    cases hp : planSplit f key with
    | ub => rw [hp] at hi; exact absurd hi (by simp)
    | hang => rw [hp] at hi; exact absurd hi (by simp)
    | ok o =>
      rw [hp] at hi hfit
      cases o with
      | none => exact serve_simple h hi hfit hs
      | some d =>
        simp only [Res.bind_ok] at hi
        obtain ⟨A, next, st', B, storeL, storeG, D, sh, ig, imp, L, sp, shL, igL, impL, shG, igG, impG, LG, SL⟩ :=
          applySplit_full h hp hfit hn (Nat.le_of_eq hkn) htn hi
        rw [D.tree', D.cfg]
        exact serve_split h.wf SL (fun k hk => by rw [hS k hk, hkn]) hs

end

/-! ## Bulk loading -/

theorem filter_single {K : List Key} (a : Key) (hn : K.count a ≤ 1) (p : Key → Bool) (hp : ∀ k ∈ K, p k = true → k = a) :
    K.filter p = [] ∨ K.filter p = [a] := by
  have h1 : ∀ k ∈ K.filter p, k = a := fun k hk => hp k (List.mem_filter.1 hk).1 (List.mem_filter.1 hk).2
  have h2 : (K.filter p).count a ≤ 1 := Nat.le_trans (List.filter_sublist.count_le a) hn
  rw [List.eq_replicate_iff.2 ⟨rfl, h1⟩, List.count_replicate_self] at h2
  cases hf : K.filter p with
  | nil => exact .inl rfl
  | cons x l =>
    rw [hf] at h1 h2
    obtain rfl := h1 x (by simp)
    obtain rfl : l = [] := List.length_eq_zero_iff.1 (by rw [List.length_cons] at h2; omega)
    exact .inr rfl

theorem Serve.sub {H G : List Hold} {S : List Key} (h : Serve H S) (hs : H.Sublist G) : Serve G S := by
  induction hs generalizing S with
  | slnil => exact h
  | cons g _ ih => exact (ih h).mono g
  | cons_cons g _ ih =>
    obtain h | ⟨k, S', p, hk, h⟩ := h.cons_split
    · exact (ih h).mono g
    · exact Serve.permS (.cons (.refl _) hk (ih h)) p.symm

theorem serve_chain {c : Cfg} (hc : c.WF) {K0 K : List Key} (hsub : ∀ k, K.count k ≤ K0.count k) :
    ∀ {p : Key × Store} {T : Tree}, (∀ e ∈ p :: T, K.count e.1 ≤ 1) →
    (p :: T).IsChain (fun e e' => RegionIn c K0 e.1 e.2 e'.1) → (∀ k ∈ K, ∀ l, (p :: T).getLast? = some l → keyLe k l.1 = true) →
    Serve (holds c (p :: T)) (K.filter fun k => keyLe p.1 k)
  | p, [], hK, _, hl => by
    rw [holds]
    rcases filter_single p.1 (hK p (by simp)) (fun k => keyLe p.1 k) (fun k hk h => keyLe_antisymm (hl k hk p rfl) h) with h | h
    · rw [h]; exact .nil
    · rw [h]; exact .one (g := fun k => k = p.1) (by simp) rfl
  | p, e :: T, hK, hch, hl => by
    rw [List.isChain_cons_cons] at hch
    obtain ⟨⟨sh, ig, imp, M, R, hpart, _, hM, _⟩, hch⟩ := hch
    have ih := serve_chain hc hsub (fun x hx => hK x (List.mem_cons_of_mem _ hx)) hch (fun k hk l h => hl k hk l (by rw [List.getLast?_cons_cons]; exact h))
    have hlt := keyLt_of_padLt R.lt
    rw [holds]
    have hp1 := List.filter_append_perm (fun k => keyLt k e.1) (K.filter fun k => keyLe p.1 k)
    rw [List.filter_filter, List.filter_filter] at hp1
    have e1 : (K.filter fun k => (!keyLt k e.1) && keyLe p.1 k) = K.filter fun k => keyLe e.1 k := by
      apply List.filter_congr
      intro k hk
      rw [← keyLe_iff_not_lt]
      cases h : keyLe e.1 k with
      | false => rfl
      | true => rw [keyLe_trans (keyLt_keyLe hlt) h]; rfl
    rw [e1] at hp1
    refine Serve.permS ?_ hp1
    refine Serve.append ?_ ih
    have hp2 := List.filter_append_perm (fun k => keyLt p.1 k) (K.filter fun k => keyLt k e.1 && keyLe p.1 k)
    rw [List.filter_filter, List.filter_filter] at hp2
    have e2 : (K.filter fun k => keyLt p.1 k && (keyLt k e.1 && keyLe p.1 k)) =
        K.filter fun k => keyLt p.1 k && keyLt k e.1 := by
      apply List.filter_congr
      intro k hk
      cases h : keyLt p.1 k with
      | false => rfl
      | true => rw [keyLt_keyLe h, Bool.and_true]
    rw [e2] at hp2
    refine Serve.permS ?_ hp2
    unfold rHolds
    rw [R.list hc]
    refine Serve.perm (Serve.append (H := (M.map (itemOf c.infixSize (sh + ig + imp) p.1)).map
      (iHold c.infixSize p.1 e.1)) (G := [bHold p e.1]) ?_ ?_) ?_
    · have key : ∀ l : List Key, (∀ k ∈ l, keyLt p.1 k = true ∧ keyLt k e.1 = true) →
          Serve ((l.map (itemOf c.infixSize (sh + ig + imp) p.1)).map (iHold c.infixSize p.1 e.1)) l := by
        intro l
        induction l with
        | nil => exact fun _ => .nil
        | cons k l ih =>
          intro h
          refine .cons (.refl _) ?_ (ih fun x hx => h x (List.mem_cons_of_mem _ hx))
          obtain ⟨a, b⟩ := h k (by simp)
          refine (iHold_iff R.toRegionBase).2 ⟨keyLt_keyLe a, b, ?_⟩
          have := R.item_prefix hc (between_of_le (keyLt_keyLe a) (keyLt_keyLe b))
          unfold Hits itemOf
          rw [this.1, this.2]
      have hin : ∀ k ∈ K.filter (fun k => keyLt p.1 k && keyLt k e.1), keyLt p.1 k = true ∧ keyLt k e.1 = true := fun k hk => by
        rw [List.mem_filter, Bool.and_eq_true] at hk
        exact hk.2
      obtain ⟨M', hp', hs'⟩ := (List.subperm_ext_iff (l₂ := M) (l₁ := K.filter fun k => keyLt p.1 k && keyLt k e.1)).2
        fun k hk => Nat.le_trans (Nat.le_trans (List.filter_sublist.count_le k) (hsub k)) (hM k (hin k hk).1 (hin k hk).2)
      exact ((key M' fun k hk => hin k (hp'.mem_iff.1 hk)).permS hp').sub ((hs'.map _).map _)
    · rcases filter_single p.1 (hK p (by simp)) (fun k => (!keyLt p.1 k) && (keyLt k e.1 && keyLe p.1 k)) (by
        intro k _ h
        rw [Bool.and_eq_true, Bool.and_eq_true, ← keyLe_iff_not_lt] at h
        exact keyLe_antisymm h.1 h.2.2) with h | h
      · rw [h]; exact .nil
      · rw [h]; exact .one (g := bHold p e.1) (by simp) (Or.inl rfl)
    · exact List.perm_append_comm

theorem LoadedIn.serve {c : Cfg} (hc : c.WF) {K0 K : List Key} {f : Filter} (h : LoadedIn c K0 f) {n : Nat} (hs : Spans n f)
    (hK : ∀ e ∈ f.tree, K.count e.1 ≤ 1) (hsub : ∀ k, K.count k ≤ K0.count k) (hn : ∀ k ∈ K, k.length = n) : Serve (holds f.cfg f.tree) K := by
  have hpw := (h.ok hc).pairwise
  have hch := h.chain
  rw [h.cfg]
  cases ht : f.tree with
  | nil =>
    have h0 := hs.1
    rw [ht] at h0
    simp at h0
  | cons p T =>
    rw [ht] at hch hpw hK
    have hfst : ∀ k ∈ K, keyLe p.1 k = true := by
      intro k hk
      have h0 := hs.1
      rw [ht] at h0
      obtain ⟨e, he, hee⟩ := List.mem_map.1 h0
      have h1 : keyLe e.1 k = true := by
        rw [hee, ← hn k hk]; exact zeros_le k
      rcases List.mem_cons.1 he with rfl | he
      · exact h1
      · exact keyLe_trans (keyLt_keyLe (keyLt_of_padLt ((List.pairwise_cons.1 hpw).1 e he))) h1
    have hlast : ∀ k ∈ K, ∀ l, (p :: T).getLast? = some l → keyLe k l.1 = true := by
      intro k hk l hl
      have h0 := hs.2
      rw [ht] at h0
      obtain ⟨e, he, hee⟩ := List.mem_map.1 h0
      have h1 : keyLe k e.1 = true := by
        rw [hee, ← hn k hk]; exact le_ones k
      obtain ⟨T', hT'⟩ := List.getLast?_eq_some_iff.1 hl
      rw [hT'] at he hpw
      rcases List.mem_append.1 he with he | he
      · exact keyLe_trans h1 (keyLt_keyLe (keyLt_of_padLt ((List.pairwise_append.1 hpw).2.2 e he l (by simp))))
      · rw [List.mem_singleton] at he
        rw [← he]; exact h1
    have := serve_chain hc hsub hK hch hlast
    rwa [List.filter_eq_self.2 hfst] at this

end Verif
