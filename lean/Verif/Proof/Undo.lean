import Verif.Proof.DeleteItem
import Verif.Proof.Answers
import Verif.Proof.RegionRun

/-!
# Deleting a key that was just inserted
-/

namespace Verif

/-- Same boundaries, same items. -/
structure Alike (f f' : Filter) : Prop where
  cfg : f'.cfg = f.cfg
  bound : boundaries f' = boundaries f
  region : ∀ A p e B, f.tree = A ++ p :: e :: B → ∃ A' p' e' B', f'.tree = A' ++ p' :: e' :: B' ∧ p'.1 = p.1 ∧ e'.1 = e.1 ∧
    p'.2.isPartial = p.2.isPartial ∧ p'.2.invalidBits = p.2.invalidBits ∧
    ∃ sh ig imp L, RegionBase f.cfg p.1 p.2 e.1 sh ig imp L ∧ RegionBase f.cfg p.1 p'.2 e.1 sh ig imp L

theorem split_at {α : Type} {t : List α} {i : Nat} {p e : α} (h1 : t[i]? = some p) (h2 : t[i + 1]? = some e) :
    ∃ A B, t = A ++ p :: e :: B := by
  obtain ⟨l1, rfl⟩ := List.getElem?_eq_some_iff.1 h1
  obtain ⟨l2, rfl⟩ := List.getElem?_eq_some_iff.1 h2
  refine ⟨t.take i, t.drop (i + 1 + 1), ?_⟩
  rw [← List.drop_eq_getElem_cons l2, ← List.drop_eq_getElem_cons l1, List.take_append_drop]

section
variable {f f' : Filter}

/-- Replacing the block of one region by another with the same items. -/
theorem alike_replace (h : FilterQ f) {A B : Tree} {p e : Key × Store} {st : Store} (ht : f.tree = A ++ p :: e :: B)
    {sh ig imp : Nat} {L : List Nat} (R : RegionBase f.cfg p.1 p.2 e.1 sh ig imp L) (R' : RegionBase f.cfg p.1 st e.1 sh ig imp L)
    (h1 : st.isPartial = p.2.isPartial) (h2 : st.invalidBits = p.2.invalidBits) :
    Alike f { f with tree := A ++ (p.1, st) :: e :: B } := by
  refine ⟨rfl, boundaries_replace ht, fun A1 p1 e1 B1 ht1 => ?_⟩
  have hs : A ++ (p.1, st) :: e :: B = f.tree.set A.length (p.1, st) := by rw [ht]; simp
  dsimp only
  rw [hs]
  have g0 : f.tree[A.length]? = some p := by rw [ht]; simp
  have g1 : f.tree[A1.length]? = some p1 := by rw [ht1]; simp
  have g2 : f.tree[A1.length + 1]? = some e1 := by rw [ht1]; simp
  by_cases hi : A.length = A1.length
  · rw [← hi] at g1 g2
    rw [g0] at g1
    obtain rfl : p = p1 := by injection g1
    have g3 : f.tree[A.length + 1]? = some e := by rw [ht]; simp
    rw [g3] at g2
    obtain rfl : e = e1 := by injection g2
    exact ⟨A, _, _, B, hs.symm, rfl, rfl, h1, h2, sh, ig, imp, L, R, R'⟩
  · obtain ⟨sh, ig, imp, L, R1⟩ := h.region ht1
    have k1 : (f.tree.set A.length (p.1, st))[A1.length]? = some p1 := by rw [List.getElem?_set, if_neg hi, g1]
    by_cases hj : A.length = A1.length + 1
    · rw [← hj, g0] at g2
      obtain rfl : p = e1 := by injection g2
      have k2 : (f.tree.set A.length (p.1, st))[A1.length + 1]? = some (p.1, st) := by
        rw [List.getElem?_set, if_pos hj, if_pos (List.getElem?_eq_some_iff.1 g0).1]
      obtain ⟨A', B', hAB⟩ := split_at k1 k2
      exact ⟨A', _, _, B', hAB, rfl, rfl, rfl, rfl, sh, ig, imp, L, R1, R1⟩
    · have k2 : (f.tree.set A.length (p.1, st))[A1.length + 1]? = some e1 := by rw [List.getElem?_set, if_neg hj, g2]
      obtain ⟨A', B', hAB⟩ := split_at k1 k2
      exact ⟨A', _, _, B', hAB, rfl, rfl, rfl, rfl, sh, ig, imp, L, R1, R1⟩

theorem Alike.point (h : FilterQ f) (h' : FilterQ f') (a : Alike f f') (k : Key) : pointQuery f' k = pointQuery f k := by
  rcases pointQuery_cases h k with ⟨A, e, B, ht, rfl, hq⟩ | ⟨A, p, e, B, ht, h1, h2, b, hq⟩ | hu
  · have hb : e.1 ∈ boundaries f' := by rw [a.bound]; exact boundary_of ht
    obtain ⟨A', st', B', ht'⟩ := mem_boundaries hb
    have := pointQuery_boundary0 h'.pairwise ht'
    dsimp only at this
    rw [this, hq]
  · obtain ⟨A', p', e', B', ht', e0, e0', e1, e2, sh, ig, imp, L, R, R'⟩ := a.region A p e B ht
    obtain ⟨b1, q1, r1⟩ := pointQuery_gap0 h.wf h.pairwise ht R h1 h2
    obtain ⟨b2, q2, r2⟩ := pointQuery_gap0 h'.wf h'.pairwise ht' (by rw [a.cfg, e0, e0']; exact R') (by rw [e0]; exact h1)
      (by rw [e0']; exact h2)
    rw [e0, e1, e2, a.cfg] at r2
    rw [q1, q2, Bool.eq_iff_iff.2 (r2.trans r1.symm)]
  · refine point_ext h h' a.bound ?_
    have x := (pointQuery_defined h k).2
    have y := (pointQuery_defined h' k).2
    rw [a.bound] at y
    simp only [Adjacent.congr a.bound] at y
    constructor
    · intro hh
      obtain ⟨x, hx⟩ := x.2 (y.1 ⟨_, hh⟩)
      rw [hu] at hx; cases hx
    · intro hh; rw [hu] at hh; cases hh

theorem Alike.range (h : FilterQ f) (h' : FilterQ f') (a : Alike f f') {l r : Key} (hlr : keyLe l r = true) :
    rangeQuery false f' l r = rangeQuery false f l r := by
  refine range_ext h h' a.bound hlr ?_
  rcases rangeQuery_cases h hlr false with ⟨A, e, B, ht, h1, h2, hq⟩ | ⟨A, p, e, B, ht, h1, h2⟩ | hu
  · have hb : e.1 ∈ boundaries f' := by rw [a.bound]; exact boundary_of ht
    obtain ⟨A', st', B', ht'⟩ := mem_boundaries hb
    rw [hq, rangeQuery_boundary0 h'.pairwise ht' h1 h2]
  · obtain ⟨A', p', e', B', ht', e0, e0', e1, e2, sh, ig, imp, L, R, R'⟩ := a.region A p e B ht
    obtain ⟨b1, q1, r1⟩ := rangeQuery_gap0 h.wf h.pairwise ht R h1 hlr h2
    obtain ⟨b2, q2, r2⟩ := rangeQuery_gap0 h'.wf h'.pairwise ht' (by rw [a.cfg, e0, e0']; exact R') (by rw [e0]; exact h1) hlr
      (by rw [e0']; exact h2)
    rw [e0, e1, e2, a.cfg] at r2
    rw [q1, q2, Bool.eq_iff_iff.2 (r2.trans r1.symm)]
  · have x := (rangeQuery_defined h hlr).2
    have y := (rangeQuery_defined h' hlr).2
    rw [a.bound] at y
    simp only [Adjacent.congr a.bound] at y
    constructor
    · intro hh
      obtain ⟨x, hx⟩ := x.2 (y.1 ⟨_, hh⟩)
      rw [hu] at hx; cases hx
    · intro hh; rw [hu] at hh; cases hh

/-- Two items of full length that are prefixes of the same key are equal. -/
theorem hits_full {s q x y : Nat} {prev k : Key} (hs : 0 < s) (x0 : x % 2 ^ s ≠ 0) (x1 : x < 2 ^ 64) (y0 : y % 2 ^ s ≠ 0)
    (y1 : y < 2 ^ 64) (hx : Hits s q prev x k) (hy : Hits s q prev y k) (lx : ilen s q x = q + s - 1)
    (ly : ilen s q x ≤ ilen s q y) : x = y := by
  obtain ⟨a, t, rfl, ht⟩ := item_decomp x0
  obtain ⟨b, u, rfl, hu⟩ := item_decomp y0
  unfold Hits at hx hy
  rw [ilen_odd x1] at lx ly hx
  rw [ilen_odd y1] at ly hy
  rw [ival_odd x1] at hx
  rw [ival_odd y1] at hy
  obtain rfl : t = 0 := by omega
  obtain rfl : u = 0 := by omega
  rw [hx] at hy
  omega

theorem insert_delete (h : FilterOK f) (hB : BitsOK f) {n : Nat} (hn : n < 2 ^ 28) (hlen : ∀ e ∈ f.tree, e.1.length ≤ n) {key : Key}
    (hi : insertSimple f key = .ok f') (hfit : SimpleFits f key)
    (hk : ∀ e ∈ f.tree, e.1 = key → e.2.isPartial = true) :
    ∃ f'', delete f' key = .ok f'' ∧ FilterW f'' ∧ Alike f f'' ∧ ∀ b, itemsOf f'' b = itemsOf f b := by
  obtain ⟨A, prev, st, st2, next, st', B, sh, ig, imp, X, Y, ht, ht', hcfg, h1, h2, e1, e2, R, R2, hok⟩ :=
    insertSimple_spec h hi hfit
  have hkb := between_of_le h1 (keyLt_keyLe h2)
  obtain ⟨p1, p2⟩ := R.item_prefix h.wf hkb
  have hs1 := h.wf.s1
  set x := relVal f.cfg.infixSize (sh + ig + imp) prev key ||| 1 with hx
  have hxm : x ∈ X ++ x :: Y := by simp
  have hxk : Hits f.cfg.infixSize (sh + ig + imp) prev x key := by unfold Hits; rw [p1, p2]
  have hR2 : RegionHas f'.cfg prev st2 next sh ig imp (X ++ x :: Y) := by rw [hcfg]; exact R2
  obtain ⟨y, X', Y', st3, hd, hL, hy, hmax, d1, d2, R3⟩ := hok.weak.delete_item (p := (prev, st2)) (e := (next, st')) ht' hR2.toRegionW
    h1 h2 hn (hlen (prev, st) (by rw [ht]; simp)) (hlen (next, st') (by rw [ht]; simp)) ⟨x, hxm, by rw [hcfg]; exact hxk⟩ (by
      dsimp only
      split_ifs with hp
      · refine ⟨x, hxm, by rw [hcfg]; exact hxk, ?_⟩
        have hb : BitsAt f.cfg (prev, st) (next, st') := by
          have := hB; unfold BitsOK at this; rw [ht] at this
          exact (List.isChain_append_cons_cons.1 this).2.1
        have := hb sh ig imp R.sii (by rw [← e1]; exact hp)
        dsimp only at this
        rw [hcfg, p1, e2]; omega
      · intro he
        exact hp (by rw [e1]; exact hk (prev, st) (by rw [ht]; simp) he))
  dsimp only at hy hmax d1 d2 R3
  rw [hcfg] at hy hmax R3
  have hym : y ∈ X ++ x :: Y := by rw [hL]; simp
  obtain ⟨x0, x1, _⟩ := R2.item_lt h.wf hxm
  obtain ⟨y0, y1, _⟩ := R2.item_lt h.wf hym
  have hxy : x = y := hits_full hs1 x0 x1 y0 y1 hxk hy p1 (hmax x hxm hxk)
  have hperm : (X' ++ Y').Perm (X ++ Y) := by
    have q1 : (X ++ x :: Y).Perm (x :: (X ++ Y)) := List.perm_middle
    have q2 : (X' ++ y :: Y').Perm (y :: (X' ++ Y')) := List.perm_middle
    rw [hL] at q1
    have := q2.symm.trans q1
    rw [← hxy] at this
    exact this.cons_inv
  have hE : X' ++ Y' = X ++ Y := R3.has.loadable.eq_of_perm h.wf.s2 R.T_le R.has.loadable hperm
  rw [hE] at R3
  have hw := h.weak.replace (st := st3) (p := (prev, st)) ht ⟨_, _, _, _, R3⟩
  have hf : ({ f' with tree := A ++ (prev, st3) :: (next, st') :: B } : Filter) = { f with tree := A ++ (prev, st3) :: (next, st') :: B } := by
    rw [hcfg]
  rw [hf] at hd
  refine ⟨_, hd, hw, alike_replace h.q (p := (prev, st)) ht R.toRegionBase R3.toRegionBase (by rw [d1]; exact e1) (by rw [d2]; exact e2),
    fun b => ?_⟩
  by_cases hb : b = prev
  · subst hb
    rw [itemsOf_at (A := A) (p := (b, st3)) hw.pairwise rfl, itemsOf_at (p := (b, st)) h.pairwise ht]
    exact (R3.list h.wf).trans (R.list h.wf).symm
  · exact itemsOf_ne (p := (prev, st)) ht hb

end

end Verif
