import Verif.Proof.Split
import Verif.Proof.Rewrite3
import Verif.Proof.Defined
import Verif.Proof.Reach

/-!
# A splitting insert inside the widths is defined
-/

namespace Verif

theorem Res.bind_cases {α β : Type} {r : Res α} {g : α → Res β} {x : Res β} (h : r.bind g = x) :
    (r = .ub ∧ x = .ub) ∨ (r = .hang ∧ x = .hang) ∨ ∃ a, r = .ok a ∧ g a = x := by
  cases r with
  | ok a => exact Or.inr (Or.inr ⟨a, rfl, h⟩)
  | ub => exact Or.inl ⟨rfl, h.symm⟩
  | hang => exact Or.inr (Or.inl ⟨rfl, h.symm⟩)

variable {s sa p base : Nat} {a b : Key}

theorem siiFrom_not_ub {d : Nat} {k1 k2 : Key} : siiFrom d k1 k2 ≠ .ub := by
  unfold siiFrom
  split <;> simp

theorem siiFrom_hang {d : Nat} {k1 k2 : Key} (h : siiFrom d k1 k2 = .hang)
    (hp : pre (8 * d) k1 = pre (8 * d) k2) : PadEq k1 k2 := by
  unfold siiFrom at h
  cases e : sharedIgnoreImplicit (k1.drop d) (k2.drop d) with
  | some v => rw [e] at h; simp at h
  | none =>
    rw [sii_none] at e
    intro p
    rw [pre_eq_iff]
    intro i hi
    by_cases hc : i < 8 * d
    · exact pre_eq_iff.1 hp i hc
    · have := pre_eq_iff.1 (e (i - 8 * d + 1)) (i - 8 * d) (by omega)
      rwa [kbit_drop, kbit_drop, Nat.sub_add_cancel (by omega)] at this

theorem expandedLength_le (R : RW s sa p base a b) {list : List Nat} (hO : ∀ x ∈ list, OldItem s p base a b x)
    {res : List Nat} (hr : rewriteList s sa (rwLo sa p base a * 2 ^ s) (rwLo sa p base b * 2 ^ s) list = .ok res) :
    res.length ≤ 1024 * list.length := by
  have hlen : ∀ l : List Nat, (∀ x ∈ l, OldItem s p base a b x) →
      (l.flatMap (expandItem s sa (rwLo sa p base a * 2 ^ s) (rwLo sa p base b * 2 ^ s))).length ≤ 1024 * l.length := by
    intro l hl
    induction l with
    | nil => simp
    | cons x l ih =>
      have h1 := ih fun y hy => hl y (List.mem_cons_of_mem _ hy)
      have h2 := (expand_len R (hl x (by simp))).2.1
      rw [List.flatMap_cons, List.length_append, List.length_cons, Nat.mul_add_one]
      omega
  unfold rewriteList at hr
  generalize expandedLength s sa (rwLo sa p base a * 2 ^ s) (rwLo sa p base b * 2 ^ s) list (list.length, false) = E at hr
  obtain ⟨len, flag⟩ := E
  dsimp only at hr
  split_ifs at hr
  injection hr with hr
  subst hr
  unfold updateInfixList
  by_cases hc : flag = true
  · rw [if_pos hc, (sortInfixes_perm _).length_eq]
    exact hlen list hO
  · rw [if_neg hc, List.length_map]
    omega

/-- What planning a split of a region can lead to if the levels fit. -/
theorem planSplit_cases {f : Filter} (h : FilterOK f) {key : Key} (hlev : LevelsFit f key)
    {A B : Tree} {prev next : Key} {st st' : Store} (ht : f.tree = A ++ (prev, st) :: (next, st') :: B)
    (h1 : keyLe prev key = true) (h2 : keyLt key next = true) (hcnt : st.elemCount < 2 ^ 20)
    {n : Nat} (hn : n < 2 ^ 28) (hkn : key.length ≤ n) (htn : ∀ e ∈ f.tree, e.1.length ≤ n) :
    planSplit f key = .ok none ∨
    (∃ d, planSplit f key = .ok (some d) ∧ d.shamtL + f.cfg.infixSize ≤ 54 ∧ d.shamtG + f.cfg.infixSize ≤ 54 ∧
      d.left.length ≤ 1024 * st.elemCount ∧ d.right.length ≤ 1024 * st.elemCount) ∨
    (planSplit f key = .hang ∧ ∃ p E, Level prev next p ∧ CutOf p key E ∧ (PadEq prev E ∨ PadEq E next)) := by
  generalize hp : planSplit f key = r
  unfold planSplit at hp
  simp only [planAt] at hp
  rw [locate_of h ht h1 h2, Res.bind_ok] at hp
  obtain ⟨sh, ig, imp, L, R⟩ := h.region ht
  simp only at R
  have hwf := h.wf
  have hs1 := hwf.s1
  have hs2 := hwf.s2
  have hLen := R.lengths
  have himp := hLen.imp_cases
  have hk := between_of_le h1 (keyLt_keyLe h2)
  dsimp only at hp
  by_cases hpart : (st.isPartial && isPrefixOf prev key st.invalidBits) = true
  · rw [if_pos hpart] at hp; exact Or.inl hp.symm
  rw [if_neg hpart, R.sii, R.list hwf] at hp
  dsimp only at hp
  have hsep : sub64 (extractPartialKey f.cfg.infixSize key sh ig imp (keyBit key sh) ||| 1)
      (extractPartialKey f.cfg.infixSize prev sh ig imp 0 &&& shl64 (bitmask imp) f.cfg.infixSize) =
      (relVal f.cfg.infixSize (sh + ig + imp) prev key ||| 1) := by
    rw [and_shl_mask (extract_lt _ _ (by omega) (by omega) (by omega)) (by omega)]
    exact hLen.itemVal R.lt hk hs1 hs2
  rw [hsep] at hp
  generalize hz : zeroScan L f.cfg.infixSize (relVal f.cfg.infixSize (sh + ig + imp) prev key ||| 1)
      (sh + ig + imp + f.cfg.infixSize)
      (sepSearch L (relVal f.cfg.infixSize (sh + ig + imp) prev key ||| 1) (L.length + 2) (-1) L.length).toNat
      ((sepSearch L (relVal f.cfg.infixSize (sh + ig + imp) prev key ||| 1) (L.length + 2) (-1) L.length).toNat, none) = Z at hp
  obtain ⟨sp, zp⟩ := Z
  have hT := hLen.total R.lt
  have hkp := hk (sh + ig + imp)
  have C := cut_spec (k := key) hs1 hs2 R.has.loadable R.T_le (by omega) hkp.1 (by omega) hz
  dsimp only at hp
  -- the edited key
  have hEk : ∀ q, pre q (editKey key zp) ≤ pre q key := by
    intro q
    cases zp with
    | none => exact Nat.le_refl _
    | some z => exact editKey_le key z (by have := (C.head z rfl).1; omega) q
  have hEp : ∀ q, q ≤ sh + ig + imp → pre q (editKey key zp) = pre q key := by
    intro q hq
    cases zp with
    | none => rfl
    | some z => exact editKey_pre key z (by have := (C.head z rfl).1; omega) (by have := (C.head z rfl).1; omega)
  have hsame : pre sh prev = pre sh key ∧ pre sh key = pre sh next := by
    have := hk sh
    have := hLen.pre_same
    omega
  have hswb : 8 * (sh / 64 * 8) ≤ sh := by omega
  have eL : pre (8 * (sh / 64 * 8)) prev = pre (8 * (sh / 64 * 8)) (editKey key zp) := by
    rw [hEp _ (by omega)]; exact pre_eq_len hswb hsame.1
  have eG : pre (8 * (sh / 64 * 8)) (editKey key zp) = pre (8 * (sh / 64 * 8)) next := by
    rw [hEp _ (by omega)]; exact pre_eq_len hswb hsame.2
  have hcut : CutOf (sh + ig + imp) key (editKey key zp) := by
    cases zp with
    | none => exact Or.inl rfl
    | some z =>
      have hz1 : 1 ≤ z := by have := (C.head z rfl).1; omega
      exact Or.inr ⟨z, (C.head z rfl).1, editKey_pre key z hz1 (Nat.le_refl _), editKey_zeros key z hz1⟩
  rcases Res.bind_cases hp with ⟨hp, _⟩ | ⟨hp, hr⟩ | ⟨⟨shL, igL, impL⟩, sL, hp⟩
  · exact absurd hp siiFrom_not_ub
  · exact Or.inr (Or.inr ⟨hr, _, editKey key zp, R.level, hcut, Or.inl (siiFrom_hang hp eL)⟩)
  rcases Res.bind_cases hp with ⟨hp, _⟩ | ⟨hp, hr⟩ | ⟨⟨shG, igG, impG⟩, sG, hp⟩
  · exact absurd hp siiFrom_not_ub
  · exact Or.inr (Or.inr ⟨hr, _, editKey key zp, R.level, hcut, Or.inr (siiFrom_hang hp eG)⟩)
  dsimp only at hp
  by_cases hab : (zp.isSome && decide (zp.getD 0 ≤ max shL shG)) = true
  · rw [if_pos hab] at hp; exact Or.inl hp.symm
  rw [if_neg hab] at hp
  have hab' : ∀ z, zp = some z → shL < z ∧ shG < z := by
    rintro z rfl
    simp only [Option.isSome_some, Option.getD_some, Bool.true_and, decide_eq_true_iff] at hab
    omega
  have lenL := siiFrom_ok sL eL
  have lenG := siiFrom_ok sG eG
  have ltG : PadLt (editKey key zp) next := by
    rcases pad_trichotomy (editKey key zp) next with g | g | g
    · exact g
    · exact absurd g lenG.not_padEq
    · obtain ⟨q, hq⟩ := g
      have := hEk q
      have := (hk q).2
      omega
  have ltL : PadLt prev (editKey key zp) := by
    rcases pad_trichotomy prev (editKey key zp) with g | g | g
    · exact g
    · exact absurd g lenL.not_padEq
    · exfalso
      cases zp with
      | none =>
        obtain ⟨q, hq⟩ := g
        have := (hk q).1
        simp only [editKey] at hq
        omega
      | some z =>
        have hz1 : 1 ≤ z := by have := (C.head z rfl).1; omega
        have e1 := g.le z
        have e2 := (hk z).1
        rw [editKey_pre key z hz1 (Nat.le_refl _)] at e1
        have e3 : pre z prev = pre z (editKey key (some z)) := by
          rw [editKey_pre key z hz1 (Nat.le_refl _)]; omega
        have := (hab' z rfl).1
        exact lenL.diff (pre_eq_iff.1 e3 shL this)
  have bE : Between prev (editKey key zp) next := fun q => ⟨ltL.le q, ltG.le q⟩
  have leL := hLen.level_mono R.lt lenL ltL (between_left R.lt) bE
  have leG := hLen.level_mono R.lt lenG ltG bE (between_right R.lt)
  have hx : (if zp.isSome then extractPartialKey f.cfg.infixSize (editKey key zp) sh ig imp (keyBit (editKey key zp) sh)
      else extractPartialKey f.cfg.infixSize key sh ig imp (keyBit key sh)) =
      extractPartialKey f.cfg.infixSize (editKey key zp) sh ig imp (keyBit (editKey key zp) sh) := by
    cases zp <;> rfl
  rw [hx] at hp
  obtain ⟨fitL, fitG⟩ := hlev prev next (editKey key zp) _ (adjacent_of ht) h1 h2 R.level hcut
  have fL : shL + igL + impL - (sh + ig + imp) + f.cfg.infixSize ≤ 54 := by
    have := fitL _ (lenL.level ltL); omega
  have fG : shG + igG + impG - (sh + ig + imp) + f.cfg.infixSize ≤ 54 := by
    have := fitG _ (lenG.level ltG); omega
  have nE : (editKey key zp).length ≤ n := Nat.le_trans (editKey_length_le _ _) hkn
  have bL := lenL.bound (htn (prev, st) (by rw [ht]; simp)) nE
  have bG := lenG.bound nE (htn (next, st') (by rw [ht]; simp))
  rw [sub32_of_le leL (by omega)] at hp
  rw [sub32_of_le leG (by omega)] at hp
  obtain ⟨iE, iE64⟩ := hLen.implicit R.lt bE hs2
  have iP := hLen.prevImplicit R.lt hs2
  have iN := hLen.nextImplicit R.lt hs2
  obtain ⟨_, iN64⟩ := hLen.implicit R.lt (between_right R.lt) hs2
  rw [keyBit_eq, (hLen.bits R.lt).2] at iN64
  have hEp' := hEp (sh + ig + imp) (Nat.le_refl _)
  have hbE := bE (sh + ig + imp)
  obtain ⟨saL, hsaL⟩ := Nat.exists_eq_add_of_le leL
  obtain ⟨saG, hsaG⟩ := Nat.exists_eq_add_of_le leG
  have eL' : shL + igL + impL - (sh + ig + imp) = saL := by omega
  have eG' : shG + igG + impG - (sh + ig + imp) = saG := by omega
  have tL := lenL.total ltL
  have tG := lenG.total ltG
  have low : ∀ sa, ∀ k, pre (sh + ig + imp) prev ≤ pre (sh + ig + imp) k →
      pre (sh + ig + imp) prev * 2 ^ sa ≤ pre (sh + ig + imp + sa) k := by
    intro sa k hle
    have h3 := pre_split k (sh + ig + imp) sa
    have h4 := Nat.mul_le_mul_right (2 ^ sa) hle
    omega
  have top : ∀ sa, ∀ k, pre (sh + ig + imp) k ≤ pre (sh + ig + imp) prev + 1023 →
      pre (sh + ig + imp + sa) k < (pre (sh + ig + imp) prev + 1024) * 2 ^ sa := by
    intro sa k hle
    rw [← Nat.div_lt_iff_lt_mul (Nat.two_pow_pos _), pre_add]
    omega
  have hTle := R.T_le
  rw [rw_start fL hs1, rw_end fL hs1 iE iP iE64 (by omega) (by omega)] at hp
  have hlenL := R.has.count
  have RL : RW f.cfg.infixSize (shL + igL + impL - (sh + ig + imp)) (sh + ig + imp) (pre (sh + ig + imp) prev) prev
      (editKey key zp) := by
    refine ⟨hs1, hs2, fL, low _ prev (Nat.le_refl _), ltL.le, ?_, top _ (editKey key zp) (by omega)⟩
    rw [eL', ← hsaL]; exact tL.2
  have RG : RW f.cfg.infixSize (shG + igG + impG - (sh + ig + imp)) (sh + ig + imp) (pre (sh + ig + imp) prev)
      (editKey key zp) next := by
    refine ⟨hs1, hs2, fG, low _ (editKey key zp) (by omega), ltG.le, ?_, top _ next (by omega)⟩
    rw [eG', ← hsaG]; exact tG.2
  have OL : ∀ x ∈ L.take sp, OldItem f.cfg.infixSize (sh + ig + imp) (pre (sh + ig + imp) prev) prev (editKey key zp) x := by
    intro x hx
    have hx' := List.mem_of_mem_take hx
    obtain ⟨a, b⟩ := R.has.loadable.item x hx'
    exact ⟨a, by omega, (R.inside x hx').1, Nat.le_of_lt (C.left x hx)⟩
  have OG : ∀ x ∈ L.drop sp, OldItem f.cfg.infixSize (sh + ig + imp) (pre (sh + ig + imp) prev) (editKey key zp) next x := by
    intro x hx
    have hx' := List.mem_of_mem_drop hx
    obtain ⟨a, b⟩ := R.has.loadable.item x hx'
    exact ⟨a, by omega, C.right x hx, (R.inside x hx').2⟩
  have cL : (L.take sp).length ≤ st.elemCount := by rw [List.length_take]; omega
  have cG : (L.drop sp).length ≤ st.elemCount := by rw [List.length_drop]; omega
  obtain ⟨left, eL2⟩ := rewrite_ok RL OL (by omega)
  obtain ⟨right, eG2⟩ := rewrite_ok RG OG (by omega)
  rw [rw_end fG hs1 iE iP iE64 (by omega) (by omega), rw_end fG hs1 iN iP iN64 (by omega) (by omega), eL2, Res.bind_ok,
    eG2, Res.bind_ok] at hp
  refine Or.inr (Or.inl ⟨_, hp.symm, fL, fG, ?_, ?_⟩)
  · exact Nat.le_trans (expandedLength_le RL OL eL2) (Nat.mul_le_mul_left _ cL)
  · exact Nat.le_trans (expandedLength_le RG OG eG2) (Nat.mul_le_mul_left _ cG)

/-- An insert into a region of few items whose levels fit stays inside the widths. It returns
unless `key` or a shortened `key` is one of the two boundaries apart from trailing zeros. -/
theorem insert_defined {f : Filter} (h : FilterOK f) {key : Key} (hlev : LevelsFit f key)
    {A B : Tree} {prev next : Key} {st st' : Store} (ht : f.tree = A ++ (prev, st) :: (next, st') :: B)
    (h1 : keyLe prev key = true) (h2 : keyLt key next = true) (hcnt : 1024 * (st.elemCount + 1) < f.cfg.cap)
    {n : Nat} (hn : n < 2 ^ 28) (hkn : key.length ≤ n) (htn : ∀ e ∈ f.tree, e.1.length ≤ n) (split : Bool) :
    InsertFits f key split ∧ ((∃ f', insert f key split = .ok f') ∨ (insert f key split = .hang ∧ split = true ∧
      ∃ p E, Level prev next p ∧ CutOf p key E ∧ (PadEq prev E ∨ PadEq E next))) := by
  have hsf : SimpleFits f key := by
    intro i p s nx hl
    rw [locate_of h ht h1 h2] at hl
    injection hl with hl
    simp only [Prod.mk.injEq] at hl
    obtain ⟨_, _, rfl, _⟩ := hl
    omega
  have hsimple : ∃ f', insertSimple f key = .ok f' :=
    (insertSimple_defined h key).2.2 ⟨prev, next, adjacent_of ht, h1, h2⟩
  cases split with
  | false =>
    refine ⟨by unfold InsertFits; exact hsf, Or.inl ?_⟩
    unfold insert
    simpa using hsimple
  | true =>
    unfold InsertFits insert insertSplit
    simp only [if_true]
    rcases planSplit_cases h hlev ht h1 h2 (by have := f.cfg.cap_le; omega) hn hkn htn with hp | ⟨d, hp, d1, d2, d3, d4⟩ | ⟨hp, hx⟩
    · rw [hp]
      exact ⟨hsf, Or.inl hsimple⟩
    · have hfit : SplitFits f d := ⟨d1, d2, by omega, by omega⟩
      rw [hp]
      refine ⟨hfit, Or.inl ?_⟩
      rw [Res.bind_ok]
      obtain ⟨A', next', st'', B', sh, ig, imp, L, sp, shL, igL, impL, shG, igG, impG, I⟩ :=
        planSplit_spec h hp d1 d2 hn hkn htn
      unfold applySplit
      dsimp only
      cases hz : d.zeroPos with
      | none => exact ⟨_, rfl⟩
      | some z =>
        obtain ⟨y0, rest, hr, _⟩ := I.head h.wf hz
        dsimp only
        rw [if_neg (by rw [hr]; simp)]
        exact ⟨_, rfl⟩
    · rw [hp]
      exact ⟨hsf, Or.inr ⟨rfl, trivial, hx⟩⟩

end Verif
