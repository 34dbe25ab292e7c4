import Verif.Spec.Fits
import Verif.Proof.Local

/-!
# Insert without split
-/

namespace Verif

section
variable {f : Filter}

theorem FilterOK.next_lt (h : FilterOK f) {A B : Tree} {p e : Key × Store} (ht : f.tree = A ++ p :: e :: B) :
    PadLt p.1 e.1 := by
  obtain ⟨_, _, _, _, R⟩ := h.region ht
  exact R.lt

theorem locate_spec0 (hpw : f.tree.Pairwise fun e e' => PadLt e.1 e'.1) {key prev next : Key} {i : Nat} {st : Store}
    (hl : locate f.tree key = .ok (i, prev, st, next)) :
    ∃ A st' B, f.tree = A ++ (prev, st) :: (next, st') :: B ∧ A.length = i ∧ keyLe prev key = true ∧
      keyLt key next = true := by
  unfold locate at hl
  cases he : treePeek f.tree (treeSeek f.tree key) with
  | ub => simp [he] at hl
  | hang => simp [he] at hl
  | ok e =>
    obtain ⟨A, B, ht, hA, hlt, hle⟩ := seek_split he
    simp only [he, Res.bind_ok] at hl
    by_cases heq : e.1 = key
    · rw [if_pos (by simpa using heq)] at hl
      cases he' : treePeek f.tree (treeSeek f.tree key + 1) with
      | ub => simp [he'] at hl
      | hang => simp [he'] at hl
      | ok e' =>
        simp only [he', Res.bind_ok, Res.ok.injEq, Prod.mk.injEq] at hl
        obtain ⟨rfl, rfl, rfl, rfl⟩ := hl
        cases B with
        | nil =>
          rw [← hA, ht] at he'
          unfold treePeek at he'
          rw [List.getElem?_eq_none (by simp)] at he'
          exact absurd he' (by simp)
        | cons b B =>
          rw [← hA, ht, peek_append_succ] at he'
          obtain rfl : b = e' := by injection he'
          refine ⟨A, b.2, B, ht, hA, by rw [heq]; exact keyLe_refl _, ?_⟩
          rw [← heq]
          exact keyLt_of_padLt (after_of_pairwise hpw ht (by simp))
    · rw [if_neg (by simpa using heq)] at hl
      rcases List.eq_nil_or_concat A with rfl | ⟨A', p, rfl⟩
      · simp only [List.length_nil] at hA
        rw [if_pos hA.symm] at hl
        exact absurd hl (by simp)
      · simp only [List.length_append, List.concat_eq_append, List.length_cons, List.length_nil] at hA
        rw [if_neg (by omega), ← hA] at hl
        have ht' : f.tree = A' ++ p :: e :: B := by simpa using ht
        rw [show A'.length + (0 + 1) - 1 = A'.length by omega, ht', peek_append] at hl
        simp only [Res.bind_ok, Res.ok.injEq, Prod.mk.injEq] at hl
        obtain ⟨rfl, rfl, rfl, rfl⟩ := hl
        exact ⟨A', e.2, B, ht', rfl, keyLt_keyLe (hlt p (by simp)), keyLt_iff.2 ⟨hle, fun hh => heq hh.symm⟩⟩

theorem locate_spec (h : FilterOK f) {key prev next : Key} {i : Nat} {st : Store}
    (hl : locate f.tree key = .ok (i, prev, st, next)) :
    ∃ A st' B, f.tree = A ++ (prev, st) :: (next, st') :: B ∧ A.length = i ∧ keyLe prev key = true ∧
      keyLt key next = true := locate_spec0 h.pairwise hl

/-- Replacing the store of one entry. -/
theorem FilterOK.replace (h : FilterOK f) {A B : Tree} {p e : Key × Store} (ht : f.tree = A ++ p :: e :: B)
    {st : Store} (hr : RegionOK f.cfg p.1 st e.1) {t' : Tree} (ht' : t' = A ++ (p.1, st) :: e :: B) :
    FilterOK { f with tree := t' } := by
  refine ⟨h.wf, ?_⟩
  have hc := h.chain
  rw [ht] at hc
  obtain ⟨h1, h2, h3⟩ := List.isChain_append_cons_cons.1 hc
  simp only [ht']
  refine List.isChain_append_cons_cons.2 ⟨?_, hr, h3⟩
  rw [List.isChain_append] at h1 ⊢
  obtain ⟨a, b, d⟩ := h1
  refine ⟨a, List.isChain_singleton _, ?_⟩
  intro x hx y hy
  simp only [List.head?_cons, Option.mem_def, Option.some.injEq] at hy
  subst hy
  exact d x hx p (by simp)

theorem insertSimple_spec (h : FilterOK f) {key : Key} {f' : Filter} (hi : insertSimple f key = .ok f')
    (hfit : SimpleFits f key) :
    ∃ A prev st st2 next st' B sh ig imp X Y,
      f.tree = A ++ (prev, st) :: (next, st') :: B ∧ f'.tree = A ++ (prev, st2) :: (next, st') :: B ∧
      f'.cfg = f.cfg ∧ keyLe prev key = true ∧ keyLt key next = true ∧
      st2.isPartial = st.isPartial ∧ st2.invalidBits = st.invalidBits ∧
      RegionHas f.cfg prev st next sh ig imp (X ++ Y) ∧
      RegionHas f.cfg prev st2 next sh ig imp
        (X ++ (relVal f.cfg.infixSize (sh + ig + imp) prev key ||| 1) :: Y) ∧ FilterOK f' := by
  unfold insertSimple at hi
  cases hl : locate f.tree key with
  | ub => simp [hl] at hi
  | hang => simp [hl] at hi
  | ok q =>
    obtain ⟨i, prev, st, next⟩ := q
    obtain ⟨A, st', B, ht, hA, h1, h2⟩ := locate_spec h hl
    have hcnt := hfit _ _ _ _ hl
    obtain ⟨sh, ig, imp, L, R⟩ := h.region ht
    simp only at R
    obtain ⟨fr, hf, _, _, _, _, hT⟩ := R.frame h.wf
    simp only [hl, Res.bind_ok, hf, Res.ok.injEq] at hi
    have hk := between_of_le h1 (keyLt_keyLe h2)
    obtain ⟨_, hv, _, hq⟩ := R.value h.wf hk hf
    rw [hv, hT] at hi
    have ho : (relVal f.cfg.infixSize (sh + ig + imp) prev key ||| 1) % 2 = 1 := by rw [or_one]; omega
    obtain ⟨e1, e2, X, Y, rfl, e3⟩ := insertRaw_has h.wf R.strong R.T_le hq ho (by rw [← R.has.count]; exact hcnt)
    have hb : (relVal f.cfg.infixSize (sh + ig + imp) prev key ||| 1) < 2 ^ 64 := by
      have hT := R.T_le
      have h4 : (relVal f.cfg.infixSize (sh + ig + imp) prev key ||| 1) < 1024 * 2 ^ f.cfg.infixSize := by
        rw [← Nat.div_lt_iff_lt_mul (Nat.two_pow_pos _)]; omega
      have h5 : 1024 * 2 ^ f.cfg.infixSize ≤ 1024 * 2 ^ 46 :=
        Nat.mul_le_mul_left _ (Nat.pow_le_pow_right (by decide) h.wf.s2)
      omega
    have R2 : RegionHas f.cfg prev (insertRaw f.cfg st (relVal f.cfg.infixSize (sh + ig + imp) prev key ||| 1)
        (pre (sh + ig + imp) next - pre (sh + ig + imp) prev + 1)) next sh ig imp
        (X ++ (relVal f.cfg.infixSize (sh + ig + imp) prev key ||| 1) :: Y) := by
      refine .make R.lt R.sii e3 ?_ (by rw [e2]; exact R.part)
      intro x hx
      rcases List.mem_append.1 hx with hx | hx
      · exact R.inside x (List.mem_append_left _ hx)
      · rcases List.mem_cons.1 hx with rfl | hx
        · unfold Inside
          obtain ⟨g1, g2⟩ := item_relVal h.wf.s1 (hk (sh + ig + imp)).1 hb
          rw [g1, g2]
          exact hk _
        · exact R.inside x (List.mem_append_right _ hx)
    subst hi
    have ht' : f.tree.set i (prev, insertRaw f.cfg st (relVal f.cfg.infixSize (sh + ig + imp) prev key ||| 1)
        (pre (sh + ig + imp) next - pre (sh + ig + imp) prev + 1)) =
        A ++ (prev, insertRaw f.cfg st (relVal f.cfg.infixSize (sh + ig + imp) prev key ||| 1)
        (pre (sh + ig + imp) next - pre (sh + ig + imp) prev + 1)) :: (next, st') :: B := by
      rw [ht, ← hA]; simp
    refine ⟨A, prev, st, _, next, st', B, sh, ig, imp, X, Y, ht, ht', rfl, h1, h2, e2, e1, R, R2, ?_⟩
    exact h.replace ht ⟨_, _, _, _, R2⟩ ht'

/-- The new content of a region after a simple insert. -/
theorem hitL_insert {s p : Nat} {prev key k : Key} {X Y : List Nat} {x : Nat}
    (hx : ilen s p x = p + s - 1 ∧ ival s (pre p prev) x = pre (p + s - 1) key) :
    HitL s p prev (X ++ x :: Y) k ↔ HitL s p prev (X ++ Y) k ∨ pre (p + s - 1) k = pre (p + s - 1) key := by
  unfold HitL
  constructor
  · rintro ⟨y, hy, e⟩
    rcases List.mem_append.1 hy with hy | hy
    · exact Or.inl ⟨y, List.mem_append_left _ hy, e⟩
    · rcases List.mem_cons.1 hy with rfl | hy
      · rw [hx.1, hx.2] at e; exact Or.inr e
      · exact Or.inl ⟨y, List.mem_append_right _ hy, e⟩
  · rintro (⟨y, hy, e⟩ | e)
    · refine ⟨y, ?_, e⟩
      rcases List.mem_append.1 hy with hy | hy
      · exact List.mem_append_left _ hy
      · exact List.mem_append_right _ (List.mem_cons_of_mem _ hy)
    · exact ⟨x, by simp, by rw [hx.1, hx.2]; exact e⟩

theorem RegionHas.item_prefix {c : Cfg} {prev next key : Key} {st : Store} {sh ig imp : Nat} {L : List Nat}
    (hc : c.WF) (R : RegionHas c prev st next sh ig imp L) (hk : Between prev key next) :
    ilen c.infixSize (sh + ig + imp) (relVal c.infixSize (sh + ig + imp) prev key ||| 1) =
      sh + ig + imp + c.infixSize - 1 ∧
    ival c.infixSize (pre (sh + ig + imp) prev) (relVal c.infixSize (sh + ig + imp) prev key ||| 1) =
      pre (sh + ig + imp + c.infixSize - 1) key := by
  obtain ⟨fr, hf, _⟩ := R.frame hc
  obtain ⟨_, _, _, hq⟩ := R.value hc hk hf
  apply item_relVal hc.s1 (hk (sh + ig + imp)).1
  have hT := R.T_le
  have h4 : (relVal c.infixSize (sh + ig + imp) prev key ||| 1) < 1024 * 2 ^ c.infixSize := by
    rw [← Nat.div_lt_iff_lt_mul (Nat.two_pow_pos _)]; omega
  have h5 : 1024 * 2 ^ c.infixSize ≤ 1024 * 2 ^ 46 :=
    Nat.mul_le_mul_left _ (Nat.pow_le_pow_right (by decide) hc.s2)
  omega

/-- How a simple insert changes point answers: exactly the keys of the same region that agree with the
new key on the bits the region retains become positive. -/
theorem insertSimple_point (h : FilterOK f) {key : Key} {f' : Filter} (hi : insertSimple f key = .ok f')
    (hfit : SimpleFits f key) : FilterOK f' ∧ f'.cfg = f.cfg ∧ pointQuery f' key = .ok true ∧
    ∃ A prev st next B q, f.tree = A ++ (prev, st) :: next :: B ∧ keyLe prev key = true ∧ keyLt key next.1 = true ∧
      f'.tree.map Prod.fst = f.tree.map Prod.fst ∧
      ∀ k, pointQuery f' k = .ok true ↔ pointQuery f k = .ok true ∨
        (keyLe prev k = true ∧ keyLt k next.1 = true ∧ pre q k = pre q key) := by
  obtain ⟨A, prev, st, st2, next, st', B, sh, ig, imp, X, Y, ht, ht', hcfg, h1, h2, e1, e2, R, R2, hok⟩ :=
    insertSimple_spec h hi hfit
  have hk := between_of_le h1 (keyLt_keyLe h2)
  have hpre := R.item_prefix h.wf hk
  have main : ∀ k, pointQuery f' k = .ok true ↔ pointQuery f k = .ok true ∨
      (keyLe prev k = true ∧ keyLt k next = true ∧ pre (sh + ig + imp + f.cfg.infixSize - 1) k =
        pre (sh + ig + imp + f.cfg.infixSize - 1) key) := by
    intro k
    by_cases hin : keyLt prev k = true ∧ keyLt k next = true
    · obtain ⟨g1, g2⟩ := hin
      obtain ⟨b, hb, hbt⟩ := pointQuery_gap h ht R g1 g2
      obtain ⟨b', hb', hbt'⟩ := pointQuery_gap hok (p := (prev, st2)) (e := (next, st')) ht' (by rw [hcfg]; exact R2) g1 g2
      rw [hb, hb']
      simp only at hbt hbt'
      rw [hcfg, hitL_insert hpre] at hbt'
      rw [Res.ok.injEq, Res.ok.injEq, hbt, hbt', e1, e2]
      simp only [keyLt_keyLe g1, g2, true_and]
      tauto
    · have S : SameOutside f f' A prev next B := ⟨hcfg, h, hok, [], [], st, st2, st', ht, ht'⟩
      have same := S.point hin
      rw [same]
      constructor
      · exact Or.inl
      · rintro (hh | ⟨g1, g2, _⟩)
        · exact hh
        · by_cases heq : prev = k
          · subst heq
            exact pointQuery_boundary h ht
          · exact absurd ⟨keyLt_iff.2 ⟨g1, heq⟩, g2⟩ hin
  refine ⟨hok, hcfg, ?_, A, prev, st, (next, st'), B, _, ht, h1, h2, ?_, main⟩
  · exact (main key).2 (Or.inr ⟨h1, h2, rfl⟩)
  · rw [ht, ht']; simp

end

end Verif
