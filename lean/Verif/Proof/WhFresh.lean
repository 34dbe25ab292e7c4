import Verif.Proof.WhFilter

/-!
# A split never meets a boundary that is already there, in whatever state
-/

namespace Verif

section
variable {m : Tree} {key : Key}

theorem locate_inc (hpw : (keysOf m).Pairwise fun a b => keyLt a b = true) {prev next : Key} {i : Nat} {st : Store}
    (hl : locate m key = .ok (i, prev, st, next)) :
    ∃ A st' B, m = A ++ (prev, st) :: (next, st') :: B ∧ keyLe prev key = true ∧ keyLt key next = true := by
  unfold locate at hl
  cases he : treePeek m (treeSeek m key) with
  | ub => simp [he] at hl
  | hang => simp [he] at hl
  | ok e =>
    obtain ⟨A, B, ht, hA, hlt, hle⟩ := seek_split he
    simp only [he, Res.bind_ok] at hl
    by_cases heq : e.1 = key
    · rw [if_pos (by simpa using heq)] at hl
      cases he' : treePeek m (treeSeek m key + 1) with
      | ub => simp [he'] at hl
      | hang => simp [he'] at hl
      | ok e' =>
        simp only [he', Res.bind_ok, Res.ok.injEq, Prod.mk.injEq] at hl
        obtain ⟨rfl, rfl, rfl, rfl⟩ := hl
        cases B with
        | nil =>
          rw [← hA, ht] at he'
          unfold treePeek at he'
          rw [List.getElem?_eq_none (by simp)] at he'
          exact absurd he' (by simp)
        | cons b B =>
          rw [← hA, ht, peek_append_succ] at he'
          obtain rfl : b = e' := by injection he'
          refine ⟨A, b.2, B, ht, by rw [heq]; exact keyLe_refl _, ?_⟩
          rw [← heq]
          rw [ht, keysOf, List.map_append, List.map_cons] at hpw
          exact (List.pairwise_cons.1 (List.pairwise_append.1 hpw).2.1).1 _ (by simp)
    · rw [if_neg (by simpa using heq)] at hl
      rcases List.eq_nil_or_concat A with rfl | ⟨A', p, rfl⟩
      · simp only [List.length_nil] at hA
        rw [if_pos hA.symm] at hl
        exact absurd hl (by simp)
      · simp only [List.length_append, List.concat_eq_append, List.length_cons, List.length_nil] at hA
        rw [if_neg (by omega), ← hA] at hl
        have ht' : m = A' ++ p :: e :: B := by simpa using ht
        rw [show A'.length + (0 + 1) - 1 = A'.length by omega, ht', peek_append] at hl
        simp only [Res.bind_ok, Res.ok.injEq, Prod.mk.injEq] at hl
        obtain ⟨rfl, rfl, rfl, rfl⟩ := hl
        exact ⟨A', e.2, B, ht', keyLt_keyLe (hlt p (by simp)), keyLt_iff.2 ⟨hle, fun hh => heq hh.symm⟩⟩

/-- The new boundary lies strictly between the two old ones. -/
theorem planAt_between {c : Cfg} {prev next : Key} {st : Store} (h1 : keyLe prev key = true) (h2 : keyLt key next = true)
    {d : SplitPlan} (hp : planAt c key prev st next = .ok (some d)) : PadLt prev (d.boundary key) ∧ PadLt (d.boundary key) next := by
  simp only [planAt] at hp
  by_cases hpart : (st.isPartial && isPrefixOf prev key st.invalidBits) = true
  · rw [if_pos hpart] at hp; exact absurd hp (by simp)
  rw [if_neg hpart] at hp
  cases hsii : sharedIgnoreImplicit prev next with
  | none => rw [hsii] at hp; exact absurd hp (by simp)
  | some v =>
    obtain ⟨sh, ig, imp⟩ := v
    rw [hsii] at hp
    dsimp only at hp
    have hLen := sii_spec hsii
    have hk := between_of_le h1 (keyLt_keyLe h2)
    generalize zeroScan _ _ _ _ _ _ = Z at hp
    obtain ⟨sp, zp⟩ := Z
    dsimp only at hp
    obtain ⟨⟨shL, igL, impL⟩, sL, hp⟩ := Res.bind_eq_ok hp
    obtain ⟨⟨shG, igG, impG⟩, sG, hp⟩ := Res.bind_eq_ok hp
    dsimp only at hp
    by_cases hab : (zp.isSome && decide (zp.getD 0 ≤ max shL shG)) = true
    · rw [if_pos hab] at hp; exact absurd hp (by simp)
    rw [if_neg hab] at hp
    have hab' : ∀ z, zp = some z → shL < z ∧ shG < z := by
      rintro z rfl
      simp only [Option.isSome_some, Option.getD_some, Bool.true_and, decide_eq_true_iff] at hab
      omega
    obtain ⟨left, _, hp⟩ := Res.bind_eq_ok hp
    obtain ⟨right, _, hp⟩ := Res.bind_eq_ok hp
    have hb : d.boundary key = editKey key zp := by
      have := Option.some.inj (Res.ok.inj hp)
      rw [← this]
      unfold SplitPlan.boundary
      cases zp <;> rfl
    rw [hb]
    have hdrop : sh / 64 * 8 * 8 ≤ shL := by
      unfold siiFrom at sL
      split at sL
      · cases sL
      · simp only [Res.ok.injEq, Prod.mk.injEq] at sL; omega
    have hEk : ∀ q, pre q (editKey key zp) ≤ pre q key := by
      intro q
      cases zp with
      | none => exact Nat.le_refl _
      | some z => exact editKey_le key z (by have := (hab' z rfl).1; omega) q
    have hEp : ∀ q, q ≤ 8 * (sh / 64 * 8) → pre q (editKey key zp) = pre q key := by
      intro q hq
      cases zp with
      | none => rfl
      | some z => exact editKey_pre key z (by have := (hab' z rfl).1; omega) (by have := (hab' z rfl).1; omega)
    have hsame : pre sh prev = pre sh key ∧ pre sh key = pre sh next := by
      have := hk sh
      have := hLen.pre_same
      omega
    have hswb : 8 * (sh / 64 * 8) ≤ sh := by omega
    have lenL := siiFrom_ok sL (by rw [hEp _ (Nat.le_refl _)]; exact pre_eq_len hswb hsame.1)
    have lenG := siiFrom_ok sG (by rw [hEp _ (Nat.le_refl _)]; exact pre_eq_len hswb hsame.2)
    constructor
    · rcases pad_trichotomy prev (editKey key zp) with g | g | g
      · exact g
      · exact absurd g lenL.not_padEq
      · exfalso
        cases zp with
        | none =>
          obtain ⟨q, hq⟩ := g
          have := (hk q).1
          simp only [editKey] at hq
          omega
        | some z =>
          have hz1 : 1 ≤ z := by have := (hab' z rfl).1; omega
          have e1 := g.le z
          have e2 := (hk z).1
          rw [editKey_pre key z hz1 (Nat.le_refl _)] at e1
          have e3 : pre z prev = pre z (editKey key (some z)) := by
            rw [editKey_pre key z hz1 (Nat.le_refl _)]; omega
          have := (hab' z rfl).1
          exact lenL.diff (pre_eq_iff.1 e3 shL this)
    · rcases pad_trichotomy (editKey key zp) next with g | g | g
      · exact g
      · exact absurd g lenG.not_padEq
      · obtain ⟨q, hq⟩ := g
        have := hEk q
        have := (hk q).2
        omega

theorem planSplit_fresh {c : Cfg} (hi : Inc m) {d : SplitPlan}
    (hp : planSplit ⟨c, m⟩ key = .ok (some d)) : d.boundary key ∉ keysOf m := by
  have hpw : (keysOf m).Pairwise fun a b => keyLt a b = true := List.pairwise_map.2 hi
  unfold planSplit at hp
  obtain ⟨⟨i, prev, st, next⟩, hl, hp⟩ := Res.bind_eq_ok hp
  obtain ⟨A, st', B, rfl, h1, h2⟩ := locate_inc hpw hl
  obtain ⟨h3, h4⟩ := planAt_between h1 h2 hp
  have h3 := keyLt_of_padLt h3
  have h4 := keyLt_of_padLt h4
  rw [keysOf, List.map_append, List.map_cons, List.map_cons] at hpw ⊢
  have irr : ∀ a : Key, ¬ keyLt a a = true := fun a => by rw [keyLt_irrefl]; simp
  intro hm
  obtain ⟨_, p2, p3⟩ := List.pairwise_append.1 hpw
  obtain ⟨p4, p5⟩ := List.pairwise_cons.1 p2
  obtain ⟨p6, _⟩ := List.pairwise_cons.1 p5
  rcases List.mem_append.1 hm with hm | hm
  · exact irr _ (keyLt_trans' (p3 _ hm _ List.mem_cons_self) h3)
  · rcases List.mem_cons.1 hm with hm | hm
    · rw [hm] at h3; exact irr _ h3
    · rcases List.mem_cons.1 hm with hm | hm
      · rw [hm] at h4; exact irr _ h4
      · exact irr _ (keyLt_trans' (p6 _ hm) h4)

/-- `Insert` on the tree and on the list, in any state. -/
theorem insert_wh {t : Wh} (c : Cfg) (h : WhRep t m) (hk : key.length ≤ 8) (split : Bool) :
    RelRes Twin (whInsert ⟨c, t⟩ key split) (insert ⟨c, m⟩ key split) := by
  cases split with
  | false => exact insertSimple_wh c h hk
  | true => exact insertSplit_wh c h hk fun d hd => Or.inl (planSplit_fresh h.inc hd)

end

end Verif
