import Verif.Proof.Cut

/-!
# What `InsertSplit` computes before it writes
-/

namespace Verif

/-! ## Values -/

section
variable {s p sa imp : Nat}

theorem and_shl_mask {x : Nat} (h : x < 2 ^ (imp + s)) (hi : imp + s < 64) :
    x &&& shl64 (bitmask imp) s = shl64 (x >>> s) s := by
  apply Nat.eq_of_testBit_eq
  intro i
  unfold shl64
  rw [Nat.mod_eq_of_lt (show s < 64 by omega), Nat.testBit_and, Nat.testBit_mod_two_pow, Nat.testBit_mod_two_pow,
    Nat.testBit_shiftLeft, Nat.testBit_shiftLeft, Nat.testBit_shiftRight]
  by_cases h1 : s ≤ i
  · rw [testBit_bitmask _ _ (by omega)]
    by_cases h2 : i < imp + s
    · have e1 : s + (i - s) = i := by omega
      have e2 : decide (i - s < imp) = true := by simp; omega
      have e3 : decide (i < 64) = true := by simp; omega
      simp [h1, e1, e3]; omega
    · have : x.testBit i = false :=
        Nat.testBit_lt_two_pow (Nat.lt_of_lt_of_le h (Nat.pow_le_pow_right (by decide) (by omega)))
      have e1 : s + (i - s) = i := by omega
      simp [this, e1]
  · simp [h1]

theorem bitsAt_rw {k : Key} (hfit : sa + s ≤ 54) (hs : 1 ≤ s) : shl64 (bitsAt k p sa) s = pre (p + sa) k % 2 ^ sa * 2 ^ s := by
  rw [bitsAt_eq _ _ _ (by omega)]
  have h1 : pre (p + sa) k % 2 ^ sa < 2 ^ sa := Nat.mod_lt _ (Nat.two_pow_pos _)
  unfold shl64
  rw [Nat.mod_eq_of_lt (show s < 64 by omega), Nat.shiftLeft_eq, Nat.mod_eq_of_lt]
  have h2 : pre (p + sa) k % 2 ^ sa * 2 ^ s < 2 ^ sa * 2 ^ s := Nat.mul_lt_mul_of_pos_right h1 (Nat.two_pow_pos _)
  rw [← pow_add] at h2
  exact Nat.lt_of_lt_of_le h2 (Nat.pow_le_pow_right (by decide) (by omega))

theorem rw_start {prev : Key} (hfit : sa + s ≤ 54) (hs : 1 ≤ s) :
    shl64 (bitsAt prev p sa) s = rwLo sa p (pre p prev) prev * 2 ^ s := by
  rw [bitsAt_rw hfit hs]
  unfold rwLo
  have := pre_split prev p sa
  congr 1; omega

theorem rw_end {prev k : Key} {X P C : Nat} (hfit : sa + s ≤ 54) (hs : 1 ≤ s) (hX : X + C = pre p k)
    (hP : P + C = pre p prev) (hX64 : X < 2 ^ 64) (h1 : pre p prev ≤ pre p k) (h2 : pre p k ≤ pre p prev + 1023) :
    (shl64 (sub64 X P) (s + sa) ||| shl64 (bitsAt k p sa) s) = rwLo sa p (pre p prev) k * 2 ^ s := by
  rw [bitsAt_rw hfit hs, sub64_of_le hX64 (by omega)]
  have e := pre_split k p sa
  have hlt : pre (p + sa) k % 2 ^ sa < 2 ^ sa := Nat.mod_lt _ (Nat.two_pow_pos _)
  obtain ⟨D, hD⟩ := Nat.exists_eq_add_of_le h1
  have hD2 : X - P = D := by omega
  have hrw : rwLo sa p (pre p prev) k = D * 2 ^ sa + pre (p + sa) k % 2 ^ sa := by
    unfold rwLo
    rw [hD, Nat.add_mul] at e
    omega
  rw [hD2, hrw]
  have hb : D * 2 ^ (s + sa) < 2 ^ 64 := by
    have h3 : D * 2 ^ (s + sa) < 2 ^ 10 * 2 ^ (s + sa) := Nat.mul_lt_mul_of_pos_right (by omega) (Nat.two_pow_pos _)
    rw [← pow_add] at h3
    exact Nat.lt_of_lt_of_le h3 (Nat.pow_le_pow_right (by decide) (by omega))
  have hsh : shl64 D (s + sa) = D <<< (s + sa) := by
    unfold shl64
    rw [Nat.mod_eq_of_lt (show s + sa < 64 by omega), Nat.mod_eq_of_lt]
    rwa [Nat.shiftLeft_eq]
  have hlt2 : pre (p + sa) k % 2 ^ sa * 2 ^ s < 2 ^ (s + sa) := by
    rw [pow_add, Nat.mul_comm]
    exact Nat.mul_lt_mul_of_pos_left hlt (Nat.two_pow_pos _)
  rw [hsh, ← Nat.shiftLeft_add_eq_or_of_lt hlt2, Nat.shiftLeft_eq, pow_add]
  ring

end

section
variable {k1 k2 : Key} {sh ig imp : Nat}

/-- The implicit part of any key of the region. -/
theorem Lengths.implicit (L : Lengths k1 k2 sh ig imp) (hlt : PadLt k1 k2) {k : Key} (hk : Between k1 k k2)
    {s : Nat} (hs : s ≤ 46) :
    (extractPartialKey s k sh ig imp (keyBit k sh) >>> s) + pre (sh + ig + 1) k1 * 2 ^ (imp - 1) =
      pre (sh + ig + imp) k ∧ extractPartialKey s k sh ig imp (keyBit k sh) >>> s < 2 ^ 64 := by
  have himp := L.imp_cases
  have h := L.extract hlt hk hs
  have hb := kbit_lt k sh
  have b := extract_lt s k (msb := keyBit k sh) (show 1 ≤ imp by omega) (by rw [keyBit_eq]; omega)
    (show imp + s + (sh + ig) % 8 ≤ 64 by omega)
  have hp : 2 ^ (imp + s) ≤ 2 ^ 64 := Nat.pow_le_pow_right (by decide) (by omega)
  rw [pow_imp, ← Nat.mul_assoc] at h
  rw [Nat.shiftRight_eq_div_pow]
  refine ⟨?_, Nat.lt_of_le_of_lt (Nat.div_le_self _ _) (by omega)⟩
  rw [← pre_add k (sh + ig + imp) s, ← h, Nat.add_mul_div_right _ _ (Nat.two_pow_pos s)]

end

theorem siiFrom_ok {d : Nat} {k1 k2 : Key} {sh ig imp : Nat} (h : siiFrom d k1 k2 = .ok (sh, ig, imp))
    (hp : pre (8 * d) k1 = pre (8 * d) k2) : Lengths k1 k2 sh ig imp := by
  unfold siiFrom at h
  cases e : sharedIgnoreImplicit (k1.drop d) (k2.drop d) with
  | none => rw [e] at h; simp at h
  | some v =>
    obtain ⟨a, b, g⟩ := v
    rw [e] at h
    simp only [Res.ok.injEq, Prod.mk.injEq] at h
    obtain ⟨rfl, rfl, rfl⟩ := h
    have := (sii_spec e).undrop hp
    rwa [Nat.mul_comm 8 d] at this

theorem Lengths.not_padEq {k1 k2 : Key} {sh ig imp : Nat} (L : Lengths k1 k2 sh ig imp) : ¬ PadEq k1 k2 :=
  fun h => L.diff (pre_eq_iff.1 (h (sh + 1)) sh (by omega))

theorem Lengths.bound {k1 k2 : Key} {sh ig imp n : Nat} (L : Lengths k1 k2 sh ig imp) (h1 : k1.length ≤ n)
    (h2 : k2.length ≤ n) : sh + ig + imp ≤ 8 * n + 10 := by
  have hsh : sh < 8 * n := by
    by_contra hc
    exact L.diff (by rw [kbit_of_ge (by omega), kbit_of_ge (by omega)])
  have := L.imp_cases
  by_cases h : ig = 0
  · omega
  · by_contra hc
    have := (L.skip (sh + ig) (by omega) (by omega)).1
    rw [kbit_of_ge (by omega)] at this
    omega

theorem sub32_of_le {a b : Nat} (h : b ≤ a) (ha : a < 2 ^ 32) : sub32 a b = a - b := by
  unfold sub32; omega

/-- Everything known about a successful plan. `p` is the level of the split region; `pL`, `pG` the
levels of the two new regions. -/
structure SplitInfo (f : Filter) (key : Key) (d : SplitPlan) (A : Tree) (next : Key) (st' : Store) (B : Tree)
    (sh ig imp : Nat) (L : List Nat) (sp shL igL impL shG igG impG : Nat) : Prop where
  tree : f.tree = A ++ (d.prev, d.store) :: (next, st') :: B
  le : keyLe d.prev key = true
  lt : keyLt key next = true
  region : RegionHas f.cfg d.prev d.store next sh ig imp L
  nopart : ¬ (d.store.isPartial = true ∧ isPrefixOf d.prev key d.store.invalidBits = true)
  edited : d.edited = editKey key d.zeroPos
  cut : CutSpec f.cfg.infixSize (sh + ig + imp) (pre (sh + ig + imp) d.prev) key L sp d.zeroPos
  ltL : PadLt d.prev d.edited
  ltG : PadLt d.edited next
  lenL : Lengths d.prev d.edited shL igL impL
  lenG : Lengths d.edited next shG igG impG
  above : ∀ z, d.zeroPos = some z → shL < z ∧ shG < z
  leL : sh + ig + imp ≤ shL + igL + impL
  leG : sh + ig + imp ≤ shG + igG + impG
  shamtL : d.shamtL = shL + igL + impL - (sh + ig + imp)
  shamtG : d.shamtG = shG + igG + impG - (sh + ig + imp)
  totalL : d.totalL = pre (shL + igL + impL) d.edited - pre (shL + igL + impL) d.prev + 1
  totalG : d.totalG = pre (shG + igG + impG) next - pre (shG + igG + impG) d.edited + 1
  rwL : RW f.cfg.infixSize d.shamtL (sh + ig + imp) (pre (sh + ig + imp) d.prev) d.prev d.edited
  rwG : RW f.cfg.infixSize d.shamtG (sh + ig + imp) (pre (sh + ig + imp) d.prev) d.edited next
  oldL : ∀ x ∈ L.take sp, OldItem f.cfg.infixSize (sh + ig + imp) (pre (sh + ig + imp) d.prev) d.prev d.edited x
  oldG : ∀ x ∈ L.drop sp, OldItem f.cfg.infixSize (sh + ig + imp) (pre (sh + ig + imp) d.prev) d.edited next x
  left : rewriteList f.cfg.infixSize d.shamtL (rwLo d.shamtL (sh + ig + imp) (pre (sh + ig + imp) d.prev) d.prev * 2 ^ f.cfg.infixSize)
    (rwLo d.shamtL (sh + ig + imp) (pre (sh + ig + imp) d.prev) d.edited * 2 ^ f.cfg.infixSize) (L.take sp) = .ok d.left
  right : rewriteList f.cfg.infixSize d.shamtG (rwLo d.shamtG (sh + ig + imp) (pre (sh + ig + imp) d.prev) d.edited * 2 ^ f.cfg.infixSize)
    (rwLo d.shamtG (sh + ig + imp) (pre (sh + ig + imp) d.prev) next * 2 ^ f.cfg.infixSize) (L.drop sp) = .ok d.right
  keyItem : d.keyItem = extractPartialKey f.cfg.infixSize key shG igG impG 0 &&& bitmask f.cfg.infixSize ||| 1

theorem Res.bind_eq_ok {α β : Type} {r : Res α} {g : α → Res β} {b : β} (h : r.bind g = .ok b) :
    ∃ a, r = .ok a ∧ g a = .ok b := by
  cases r with
  | ok a => exact ⟨a, rfl, h⟩
  | ub => exact absurd h (by simp)
  | hang => exact absurd h (by simp)

theorem planSplit_spec {f : Filter} (h : FilterOK f) {key : Key} {d : SplitPlan}
    (hp : planSplit f key = .ok (some d)) (fL : d.shamtL + f.cfg.infixSize ≤ 54)
    (fG : d.shamtG + f.cfg.infixSize ≤ 54) {n : Nat} (hn : n < 2 ^ 28) (hkn : key.length ≤ n)
    (htn : ∀ e ∈ f.tree, e.1.length ≤ n) :
    ∃ A next st' B sh ig imp L sp shL igL impL shG igG impG,
      SplitInfo f key d A next st' B sh ig imp L sp shL igL impL shG igG impG := by
  unfold planSplit at hp
  simp only [planAt] at hp
  obtain ⟨⟨i, prev, st, next⟩, hl, hp⟩ := Res.bind_eq_ok hp
  obtain ⟨A, st', B, ht, hA, h1, h2⟩ := locate_spec h hl
  obtain ⟨sh, ig, imp, L, R⟩ := h.region ht
  simp only at R
  have hwf := h.wf
  have hs1 := hwf.s1
  have hs2 := hwf.s2
  have hLen := R.lengths
  have himp := hLen.imp_cases
  have hk := between_of_le h1 (keyLt_keyLe h2)
  dsimp only at hp
  by_cases hpart : (st.isPartial && isPrefixOf prev key st.invalidBits) = true
  · rw [if_pos hpart] at hp; exact absurd hp (by simp)
  rw [if_neg hpart, R.sii, R.list hwf] at hp
  dsimp only at hp
  have hsep : sub64 (extractPartialKey f.cfg.infixSize key sh ig imp (keyBit key sh) ||| 1)
      (extractPartialKey f.cfg.infixSize prev sh ig imp 0 &&& shl64 (bitmask imp) f.cfg.infixSize) =
      (relVal f.cfg.infixSize (sh + ig + imp) prev key ||| 1) := by
    rw [and_shl_mask (extract_lt _ _ (by omega) (by omega) (by omega)) (by omega)]
    exact hLen.itemVal R.lt hk hs1 hs2
  rw [hsep] at hp
  generalize hz : zeroScan L f.cfg.infixSize (relVal f.cfg.infixSize (sh + ig + imp) prev key ||| 1)
      (sh + ig + imp + f.cfg.infixSize)
      (sepSearch L (relVal f.cfg.infixSize (sh + ig + imp) prev key ||| 1) (L.length + 2) (-1) L.length).toNat
      ((sepSearch L (relVal f.cfg.infixSize (sh + ig + imp) prev key ||| 1) (L.length + 2) (-1) L.length).toNat, none) = Z at hp
  obtain ⟨sp, zp⟩ := Z
  have hT := hLen.total R.lt
  have hkp := hk (sh + ig + imp)
  have C := cut_spec (k := key) hs1 hs2 R.has.loadable R.T_le (by omega) hkp.1 (by omega) hz
  dsimp only at hp
  obtain ⟨⟨shL, igL, impL⟩, sL, hp⟩ := Res.bind_eq_ok hp
  obtain ⟨⟨shG, igG, impG⟩, sG, hp⟩ := Res.bind_eq_ok hp
  dsimp only at hp
  by_cases hab : (zp.isSome && decide (zp.getD 0 ≤ max shL shG)) = true
  · rw [if_pos hab] at hp; exact absurd hp (by simp)
  rw [if_neg hab] at hp
  have hab' : ∀ z, zp = some z → shL < z ∧ shG < z := by
    rintro z rfl
    simp only [Option.isSome_some, Option.getD_some, Bool.true_and, decide_eq_true_iff] at hab
    omega
  -- the edited key
  have hEk : ∀ q, pre q (editKey key zp) ≤ pre q key := by
    intro q
    cases zp with
    | none => exact Nat.le_refl _
    | some z => exact editKey_le key z (by have := (C.head z rfl).1; omega) q
  have hEp : ∀ q, q ≤ sh + ig + imp → pre q (editKey key zp) = pre q key := by
    intro q hq
    cases zp with
    | none => rfl
    | some z => exact editKey_pre key z (by have := (C.head z rfl).1; omega) (by have := (C.head z rfl).1; omega)
  have hsame : pre sh prev = pre sh key ∧ pre sh key = pre sh next := by
    have := hk sh
    have := hLen.pre_same
    omega
  have hswb : 8 * (sh / 64 * 8) ≤ sh := by omega
  have eL : pre (8 * (sh / 64 * 8)) prev = pre (8 * (sh / 64 * 8)) (editKey key zp) := by
    rw [hEp _ (by omega)]; exact pre_eq_len hswb hsame.1
  have eG : pre (8 * (sh / 64 * 8)) (editKey key zp) = pre (8 * (sh / 64 * 8)) next := by
    rw [hEp _ (by omega)]; exact pre_eq_len hswb hsame.2
  have lenL := siiFrom_ok sL eL
  have lenG := siiFrom_ok sG eG
  have ltG : PadLt (editKey key zp) next := by
    rcases pad_trichotomy (editKey key zp) next with g | g | g
    · exact g
    · exact absurd g lenG.not_padEq
    · obtain ⟨q, hq⟩ := g
      have := hEk q
      have := (hk q).2
      omega
  have ltL : PadLt prev (editKey key zp) := by
    rcases pad_trichotomy prev (editKey key zp) with g | g | g
    · exact g
    · exact absurd g lenL.not_padEq
    · exfalso
      cases zp with
      | none =>
        obtain ⟨q, hq⟩ := g
        have := (hk q).1
        simp only [editKey] at hq
        omega
      | some z =>
        have hz1 : 1 ≤ z := by have := (C.head z rfl).1; omega
        have e1 := g.le z
        have e2 := (hk z).1
        rw [editKey_pre key z hz1 (Nat.le_refl _)] at e1
        have e3 : pre z prev = pre z (editKey key (some z)) := by
          rw [editKey_pre key z hz1 (Nat.le_refl _)]; omega
        have := (hab' z rfl).1
        exact lenL.diff (pre_eq_iff.1 e3 shL this)
  have bE : Between prev (editKey key zp) next := fun q => ⟨ltL.le q, ltG.le q⟩
  have leL := hLen.level_mono R.lt lenL ltL (between_left R.lt) bE
  have leG := hLen.level_mono R.lt lenG ltG bE (between_right R.lt)
  have hx : (if zp.isSome then extractPartialKey f.cfg.infixSize (editKey key zp) sh ig imp (keyBit (editKey key zp) sh)
      else extractPartialKey f.cfg.infixSize key sh ig imp (keyBit key sh)) =
      extractPartialKey f.cfg.infixSize (editKey key zp) sh ig imp (keyBit (editKey key zp) sh) := by
    cases zp <;> rfl
  rw [hx] at hp
  obtain ⟨left, hleft, hp⟩ := Res.bind_eq_ok hp
  obtain ⟨right, hright, hp⟩ := Res.bind_eq_ok hp
  simp only [Res.ok.injEq, Option.some.injEq] at hp
  have nE : (editKey key zp).length ≤ n := Nat.le_trans (editKey_length_le _ _) hkn
  have bL := lenL.bound (htn (prev, st) (by rw [ht]; simp)) nE
  have bG := lenG.bound nE (htn (next, st') (by rw [ht]; simp))
  rw [sub32_of_le leL (by omega)] at hp hleft
  rw [sub32_of_le leG (by omega)] at hp hright
  rw [lenL.totalImplicit ltL hs2, lenG.totalImplicit ltG hs2] at hp
  subst hp
  dsimp only at fL fG
  obtain ⟨iE, iE64⟩ := hLen.implicit R.lt bE hs2
  have iP := hLen.prevImplicit R.lt hs2
  have iN := hLen.nextImplicit R.lt hs2
  obtain ⟨_, iN64⟩ := hLen.implicit R.lt (between_right R.lt) hs2
  rw [keyBit_eq, (hLen.bits R.lt).2] at iN64
  have hEp' := hEp (sh + ig + imp) (Nat.le_refl _)
  have hbE := bE (sh + ig + imp)
  rw [rw_start fL hs1, rw_end fL hs1 iE iP iE64 (by omega) (by omega)] at hleft
  rw [rw_end fG hs1 iE iP iE64 (by omega) (by omega), rw_end fG hs1 iN iP iN64 (by omega) (by omega)] at hright
  obtain ⟨saL, hsaL⟩ := Nat.exists_eq_add_of_le leL
  obtain ⟨saG, hsaG⟩ := Nat.exists_eq_add_of_le leG
  have eL' : shL + igL + impL - (sh + ig + imp) = saL := by omega
  have eG' : shG + igG + impG - (sh + ig + imp) = saG := by omega
  have tL := lenL.total ltL
  have tG := lenG.total ltG
  have low : ∀ sa, ∀ k, pre (sh + ig + imp) prev ≤ pre (sh + ig + imp) k →
      pre (sh + ig + imp) prev * 2 ^ sa ≤ pre (sh + ig + imp + sa) k := by
    intro sa k hle
    have h3 := pre_split k (sh + ig + imp) sa
    have h4 := Nat.mul_le_mul_right (2 ^ sa) hle
    omega
  have top : ∀ sa, ∀ k, pre (sh + ig + imp) k ≤ pre (sh + ig + imp) prev + 1023 →
      pre (sh + ig + imp + sa) k < (pre (sh + ig + imp) prev + 1024) * 2 ^ sa := by
    intro sa k hle
    rw [← Nat.div_lt_iff_lt_mul (Nat.two_pow_pos _), pre_add]
    omega
  have hTle := R.T_le
  refine ⟨A, next, st', B, sh, ig, imp, L, sp, shL, igL, impL, shG, igG, impG, ?_⟩
  refine ⟨ht, h1, h2, R, by simpa using hpart, rfl, C, ltL, ltG, lenL, lenG, hab', leL, leG, rfl, rfl, rfl, rfl,
    ?_, ?_, ?_, ?_, hleft, hright, rfl⟩
  · refine ⟨hs1, hs2, fL, low _ prev (Nat.le_refl _), ltL.le, ?_, top _ (editKey key zp) (by omega)⟩
    dsimp only; rw [eL', ← hsaL]; exact tL.2
  · refine ⟨hs1, hs2, fG, low _ (editKey key zp) (by omega), ltG.le, ?_, top _ next (by omega)⟩
    dsimp only; rw [eG', ← hsaG]; exact tG.2
  · intro x hx
    have hx' := List.mem_of_mem_take hx
    obtain ⟨a, b⟩ := R.has.loadable.item x hx'
    exact ⟨a, by omega, (R.inside x hx').1, Nat.le_of_lt (C.left x hx)⟩
  · intro x hx
    have hx' := List.mem_of_mem_drop hx
    obtain ⟨a, b⟩ := R.has.loadable.item x hx'
    exact ⟨a, by omega, C.right x hx, (R.inside x hx').2⟩

end Verif
