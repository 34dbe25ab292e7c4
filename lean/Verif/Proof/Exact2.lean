import Verif.Proof.Exact
import Verif.Proof.Insert
import Verif.Proof.Reach2

/-!
# Positive answers of grown filters
-/

namespace Verif

/-- Every value is the prefix of a key. -/
theorem exists_key8 : ∀ (B v : Nat), v < 256 ^ B → ∃ k : Key, k.length = B ∧ pre (8 * B) k = v
  | 0, v, h => ⟨[], rfl, by simp at h; rw [h]; rfl⟩
  | B + 1, v, h => by
    obtain ⟨k, hk, hv⟩ := exists_key8 B (v % 256 ^ B) (Nat.mod_lt _ (by positivity))
    have hq : v / 256 ^ B < 256 := Nat.div_lt_of_lt_mul (by rw [pow_succ] at h; exact h)
    refine ⟨UInt8.ofNat (v / 256 ^ B) :: k, by simp [hk], ?_⟩
    rw [pre8_cons, hv, UInt8.toNat_ofNat_of_lt' (by simpa using hq)]
    exact Nat.div_add_mod' v (256 ^ B)

theorem exists_key {m v : Nat} (h : v < 2 ^ m) : ∃ k : Key, pre m k = v := by
  have h8 : v * 2 ^ (7 * m) < 256 ^ m := by
    rw [show (256 : Nat) = 2 ^ 8 by rfl, ← pow_mul, show 8 * m = m + 7 * m by ring, pow_add]
    exact Nat.mul_lt_mul_of_pos_right h (Nat.two_pow_pos _)
  obtain ⟨k, _, hk⟩ := exists_key8 m _ h8
  refine ⟨k, ?_⟩
  have := pre_add k m (7 * m)
  rw [show m + 7 * m = 8 * m by ring, hk, Nat.mul_div_cancel _ (Nat.two_pow_pos _)] at this
  exact this.symm

/-- A range that meets an item contains a key that the item covers. -/
theorem MeetL.hit {s p : Nat} {prev : Key} {L : List Nat} {l r : Key} (h : MeetL s p prev L l r) (hlr : keyLe l r = true) :
    ∃ k, keyLe l k = true ∧ keyLe k r = true ∧ HitL s p prev L k := by
  obtain ⟨x, hx, h1, h2⟩ := h
  by_cases e1 : pre (ilen s p x) l = ival s (pre p prev) x
  · exact ⟨l, keyLe_refl _, hlr, x, hx, e1⟩
  by_cases e2 : pre (ilen s p x) r = ival s (pre p prev) x
  · exact ⟨r, hlr, keyLe_refl _, x, hx, e2⟩
  have := pre_lt r (ilen s p x)
  obtain ⟨k, hk⟩ := exists_key (m := ilen s p x) (v := ival s (pre p prev) x) (by omega)
  refine ⟨k, keyLt_keyLe (keyLt_of_padLt ⟨ilen s p x, by omega⟩), keyLt_keyLe (keyLt_of_padLt ⟨ilen s p x, by omega⟩), x, hx, hk⟩

/-- A range query is positive exactly if some key in the range is. -/
theorem range_iff_point {f : Filter} (h : FilterQ f) {l r : Key} (hlr : keyLe l r = true) :
    rangeQuery false f l r = .ok true ↔ ∃ k, keyLe l k = true ∧ keyLe k r = true ∧ pointQuery f k = .ok true := by
  constructor
  · intro hq
    rcases rangeQuery_cases h hlr false with ⟨A, e, B, ht, h1, h2, _⟩ | ⟨A, p, e, B, ht, hp, he⟩ | hu
    · exact ⟨e.1, h1, h2, pointQuery_boundary0 h.pairwise ht⟩
    · obtain ⟨sh, ig, imp, L, R⟩ := h.region ht
      obtain ⟨b, hb, hbt⟩ := rangeQuery_gap0 h.wf h.pairwise ht R hp hlr he
      rw [hq] at hb
      obtain rfl : b = true := by injection hb with hb; exact hb.symm
      have pt : ∀ k, keyLe l k = true → keyLe k r = true →
          ((p.2.isPartial = true ∧ isPrefixOf p.1 k p.2.invalidBits = true) ∨ HitL f.cfg.infixSize (sh + ig + imp) p.1 L k) →
          ∃ k, keyLe l k = true ∧ keyLe k r = true ∧ pointQuery f k = .ok true := by
        intro k g1 g2 hh
        have hpk : keyLt p.1 k = true := by
          rcases keyLe_or_lt k p.1 with g | g
          · have := keyLe_trans g1 g
            rw [keyLe_iff_not_lt, hp] at this; cases this
          · exact g
        obtain ⟨b', hb', hbt'⟩ := pointQuery_gap0 h.wf h.pairwise ht R hpk (keyLt_of_le_of_lt g2 he)
        exact ⟨k, g1, g2, by rw [hb', hbt'.2 hh]⟩
      rcases hbt.1 rfl with hh | hh
      · exact pt l (keyLe_refl _) hlr (Or.inl hh)
      · obtain ⟨k, g1, g2, hk⟩ := hh.hit hlr
        exact pt k g1 g2 (Or.inr hk)
    · rw [hu] at hq; cases hq
  · rintro ⟨k, h1, h2, hk⟩
    exact range_of_point h h1 h2 hk

section
variable {f f' : Filter} {key : Key} {split : Bool} {n : Nat}

/-- What an insert adds to the positive answers. -/
theorem insert_back (h : FilterOK f) (hfit : InsertFits f key split) (hn : n < 2 ^ 28) (hkn : key.length ≤ n)
    (htn : LenLe n f) (hlong : split = true → LongKey f key) (hi : insert f key split = .ok f') :
    (boundaries f' = boundaries f ∧ ∀ k, pointQuery f' k = .ok true ↔ pointQuery f k = .ok true ∨ SameCell f key k) ∨
    (boundaries f' ≠ boundaries f ∧ (∀ k, pointQuery f' k = .ok true → pointQuery f k = .ok true ∨ k = key) ∧
      ∀ x k, SameCell f' x k → SameCell f x k) := by
  have simple : SimpleFits f key → insertSimple f key = .ok f' →
      (boundaries f' = boundaries f ∧ ∀ k, pointQuery f' k = .ok true ↔ pointQuery f k = .ok true ∨ SameCell f key k) := by
    intro hs hi
    obtain ⟨_, _, h3, _, h5, _⟩ := insertSimple_cells h hi hs
    exact ⟨h3, h5⟩
  cases split with
  | false =>
    unfold insert at hi
    simp only [Bool.false_eq_true, if_false] at hi
    exact Or.inl (simple (by unfold InsertFits at hfit; exact hfit) hi)
  | true =>
    unfold insert at hi
    simp only [if_true] at hi
    unfold insertSplit at hi
    unfold InsertFits at hfit
    cases hp : planSplit f key with
    | ub => rw [hp] at hi; exact absurd hi (by simp)
    | hang => rw [hp] at hi; exact absurd hi (by simp)
    | ok o =>
      rw [hp] at hi hfit
      cases o with
      | none => exact Or.inl (simple hfit hi)
      | some d =>
        simp only [Res.bind_ok] at hi
        obtain ⟨A, next, st', B, storeL, storeG, D, sh, ig, imp, L, sp, shL, igL, impL, shG, igG, impG, LG, S⟩ :=
          applySplit_full h hp hfit hn hkn htn hi
        have I := S.info
        refine Or.inr ⟨?_, fun k => S.back h D ?_, fun x k => S.cell h D⟩
        · intro he
          have := congrArg List.length he
          unfold boundaries at this
          rw [D.tree, D.tree'] at this
          simp at this
        · exact hlong rfl _ _ _ (adjacent_of D.tree) I.le I.lt I.region.level

/-- The positive answers after any inserts. -/
theorem Grown.back (h : FilterOK f) (hn : n < 2 ^ 28) (htn : LenLe n f) {X : List Key} (hg : Grown n f f' X) :
    FilterOK f' ∧ f'.cfg = f.cfg ∧ LenLe n f' ∧ (∀ x k, SameCell f' x k → SameCell f x k) ∧
      ∀ k, pointQuery f' k = .ok true → pointQuery f k = .ok true ∨ k ∈ X ∨ ∃ x ∈ X, SameCell f x k := by
  induction hg with
  | refl => exact ⟨h, rfl, htn, fun _ _ h => h, fun k hk => Or.inl hk⟩
  | @insert g f' X key split _ hk hfit hlong hi ih =>
    obtain ⟨i1, i2, i3, i4, i5⟩ := ih
    obtain ⟨s1, s2, s3, _⟩ := insert_spec i1 hfit hn hk i3 hi
    rcases insert_back i1 hfit hn hk i3 hlong hi with ⟨b1, b2⟩ | ⟨_, b2, b3⟩
    · refine ⟨s1, s2.trans i2, s3, fun x k hc => i4 x k ((SameCell.congr b1 s2).1 hc), fun k hk => ?_⟩
      rcases (b2 k).1 hk with hk | hk
      · rcases i5 k hk with hk | hk | ⟨x, hx, hk⟩
        · exact Or.inl hk
        · exact Or.inr (Or.inl (List.mem_cons_of_mem _ hk))
        · exact Or.inr (Or.inr ⟨x, List.mem_cons_of_mem _ hx, hk⟩)
      · exact Or.inr (Or.inr ⟨key, List.mem_cons_self .., i4 _ _ hk⟩)
    · refine ⟨s1, s2.trans i2, s3, fun x k hc => i4 x k (b3 x k hc), fun k hk => ?_⟩
      rcases b2 k hk with hk | rfl
      · rcases i5 k hk with hk | hk | ⟨x, hx, hk⟩
        · exact Or.inl hk
        · exact Or.inr (Or.inl (List.mem_cons_of_mem _ hk))
        · exact Or.inr (Or.inr ⟨x, List.mem_cons_of_mem _ hx, hk⟩)
      · exact Or.inr (Or.inl (List.mem_cons_self ..))

end

end Verif
