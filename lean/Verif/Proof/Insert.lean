import Verif.Proof.Split

/-!
# Insert
-/

namespace Verif

/-- All boundary keys have at most `n` bytes. -/
def LenLe (n : Nat) (f : Filter) : Prop := ∀ e ∈ f.tree, e.1.length ≤ n

theorem not_prefix_of_length {k key : Key} (h : key.length ≤ k.length) : k <+: key → k = key :=
  fun hp => hp.eq_of_length_le h

theorem insert_spec {f : Filter} (h : FilterOK f) {key : Key} {split : Bool} (hfit : InsertFits f key split) {n : Nat}
    (hn : n < 2 ^ 28) (hkn : key.length ≤ n) (htn : LenLe n f) {f' : Filter} (hi : insert f key split = .ok f') :
    FilterOK f' ∧ f'.cfg = f.cfg ∧ LenLe n f' ∧ pointQuery f' key = .ok true ∧
      ∀ k, (split = true → k <+: key → k = key) → pointQuery f k = .ok true → pointQuery f' k = .ok true := by
  have simple : SimpleFits f key → insertSimple f key = .ok f' → FilterOK f' ∧ f'.cfg = f.cfg ∧ LenLe n f' ∧
      pointQuery f' key = .ok true ∧
      ∀ k, (split = true → k <+: key → k = key) → pointQuery f k = .ok true → pointQuery f' k = .ok true := by
    intro hs hi
    obtain ⟨h1, h2, h3, A, prev, st, nx, B, q, _, _, _, hk, hiff⟩ := insertSimple_point h hi hs
    refine ⟨h1, h2, ?_, h3, fun k _ hk => (hiff k).2 (Or.inl hk)⟩
    intro e he
    have : e.1 ∈ f'.tree.map Prod.fst := List.mem_map_of_mem he
    rw [hk] at this
    obtain ⟨e', he', heq⟩ := List.mem_map.1 this
    rw [← heq]; exact htn e' he'
  cases split with
  | false =>
    unfold insert at hi
    simp only [Bool.false_eq_true, if_false] at hi
    exact simple (by unfold InsertFits at hfit; exact hfit) hi
  | true =>
    unfold insert at hi
    simp only [if_true] at hi
    unfold insertSplit at hi
    unfold InsertFits at hfit
    cases hp : planSplit f key with
    | ub => rw [hp] at hi; exact absurd hi (by simp)
    | hang => rw [hp] at hi; exact absurd hi (by simp)
    | ok o =>
      rw [hp] at hi hfit
      cases o with
      | none => exact simple hfit hi
      | some d =>
        simp only [Res.bind_ok] at hi
        obtain ⟨A, next, st', B, storeL, storeG, D⟩ := applySplit_spec h hp hfit hn hkn htn hi
        refine ⟨D.ok, D.cfg, ?_, D.pos, fun k hk => D.keep k (hk rfl)⟩
        intro e he
        rw [D.tree'] at he
        have ht := htn
        unfold LenLe at ht
        rw [D.tree] at ht
        rcases List.mem_append.1 he with he | he
        · exact ht e (List.mem_append_left _ he)
        · rcases List.mem_cons.1 he with rfl | he
          · exact ht (d.prev, d.store) (by simp)
          · rcases List.mem_cons.1 he with rfl | he
            · exact Nat.le_trans D.len hkn
            · exact ht e (by simp [List.mem_cons.1 he])

theorem insertSimple_clean {f : Filter} (h : FilterOK f) {key : Key} {f' : Filter} (hi : insertSimple f key = .ok f')
    (hfit : SimpleFits f key) (hcl : CleanTree f.cfg f.tree) : CleanTree f.cfg f'.tree := by
  unfold insertSimple at hi
  cases hl : locate f.tree key with
  | ub => simp [hl] at hi
  | hang => simp [hl] at hi
  | ok q =>
    obtain ⟨i, prev, st, next⟩ := q
    obtain ⟨A, st', B, ht, hA, h1, h2⟩ := locate_spec h hl
    have hcnt := hfit _ _ _ _ hl
    obtain ⟨sh, ig, imp, L, R⟩ := h.region ht
    simp only at R
    obtain ⟨fr, hf, _, _, _, _, hT⟩ := R.frame h.wf
    simp only [hl, Res.bind_ok, hf, Res.ok.injEq] at hi
    have hk := between_of_le h1 (keyLt_keyLe h2)
    obtain ⟨_, hv, _, hq⟩ := R.value h.wf hk hf
    rw [hv, hT] at hi
    have ho : (relVal f.cfg.infixSize (sh + ig + imp) prev key ||| 1) % 2 = 1 := by rw [or_one]; omega
    have hc0 : CleanStore f.cfg st := hcl (prev, st) (by rw [ht]; simp)
    have := clean_insertRaw h.wf R.strong R.T_le hc0 hq ho (by rw [← R.has.count]; exact hcnt)
    subst hi
    have ht' : ∀ x, f.tree.set i (prev, x) = A ++ (prev, x) :: (next, st') :: B := by
      intro x; rw [ht, ← hA]; simp
    dsimp only
    rw [ht']
    rw [ht] at hcl
    exact CleanTree.replace (D := []) hcl this

theorem insert_clean {f : Filter} (h : FilterOK f) {key : Key} {split : Bool} (hfit : InsertFits f key split) {n : Nat}
    (hn : n < 2 ^ 28) (hkn : key.length ≤ n) (htn : LenLe n f) {f' : Filter} (hi : insert f key split = .ok f')
    (hcl : CleanTree f.cfg f.tree) : CleanTree f'.cfg f'.tree := by
  rw [(insert_spec h hfit hn hkn htn hi).2.1]
  cases split with
  | false =>
    unfold insert at hi
    simp only [Bool.false_eq_true, if_false] at hi
    exact insertSimple_clean h hi hfit hcl
  | true =>
    unfold insert at hi
    simp only [if_true] at hi
    unfold insertSplit at hi
    unfold InsertFits at hfit
    cases hp : planSplit f key with
    | ub => rw [hp] at hi; exact absurd hi (by simp)
    | hang => rw [hp] at hi; exact absurd hi (by simp)
    | ok o =>
      rw [hp] at hi hfit
      cases o with
      | none => exact insertSimple_clean h hi hfit hcl
      | some d =>
        simp only [Res.bind_ok] at hi
        obtain ⟨A, next, st', B, storeL, storeG, D⟩ := applySplit_spec h hp hfit hn hkn htn hi
        exact D.clean hcl

end Verif
