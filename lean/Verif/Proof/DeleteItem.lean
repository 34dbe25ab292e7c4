import Verif.Spec.Deletes
import Verif.Proof.FilterDelete
import Verif.Proof.RegionRun

/-!
# Which item a deletion removes
-/

namespace Verif

section
variable {f : Filter} {A B : Tree} {p e : Key × Store}

theorem itemsOf_at (hpw : f.tree.Pairwise fun e e' => PadLt e.1 e'.1) (ht : f.tree = A ++ p :: B) :
    itemsOf f p.1 = getInfixList f.cfg p.2 := by
  unfold itemsOf
  rw [ht, List.find?_append, List.find?_eq_none.2, Option.none_or, List.find?_cons_of_pos]
  · simp
  · intro a ha
    rw [beq_iff_eq]
    intro he
    have := before_of_pairwise hpw ht ha
    rw [he] at this
    obtain ⟨q, hq⟩ := this
    omega

theorem itemsOf_ne {st : Store} {k : Key} (ht : f.tree = A ++ p :: B) (hk : k ≠ p.1) :
    itemsOf { f with tree := A ++ (p.1, st) :: B } k = itemsOf f k := by
  unfold itemsOf
  dsimp only
  have h : (p.1 == k) = false := by rw [beq_eq_false_iff_ne]; exact fun h => hk h.symm
  rw [ht, List.find?_append, List.find?_append, List.find?_cons_of_neg, List.find?_cons_of_neg]
  · rw [h]; decide
  · dsimp only; rw [h]; decide

theorem boundaries_replace {st : Store} (ht : f.tree = A ++ p :: B) :
    boundaries { f with tree := A ++ (p.1, st) :: B } = boundaries f := by
  unfold boundaries; rw [ht]; simp

end

theorem prefixItem_iff {s q x : Nat} {prev k : Key} (h0 : x % 2 ^ s ≠ 0) (hx : x < 2 ^ 64) :
    PrefixItem s q prev x k ↔ Hits s q prev x k := by
  have hpos : 0 < x := by
    rcases Nat.eq_zero_or_pos x with rfl | h
    · simp at h0
    · exact h
  unfold PrefixItem Hits
  rw [lowbit_eq hpos hx]
  obtain ⟨a, t, rfl, ht⟩ := item_decomp h0
  rw [ilen_odd hx, ival_odd hx, lb64_odd hx, Nat.log2_two_pow]
  have : (pre q prev * 2 ^ s + (2 * a + 1) * 2 ^ t) / (2 * 2 ^ t) = a + pre q prev * 2 ^ (s - 1 - t) := by
    obtain ⟨d, rfl⟩ : ∃ d, s = d + (t + 1) := ⟨s - (t + 1), by omega⟩
    rw [show d + (t + 1) - 1 - t = d by omega, pow_add, ← Nat.mul_assoc, show (2 * 2 ^ t : Nat) = 2 ^ (t + 1) by rw [pow_succ]; ring,
      Nat.add_comm, Nat.add_mul_div_right _ _ (Nat.two_pow_pos _), odd_div]
  rw [this]

/-- Deleting a key with a stored prefix from a region, when no boundary is removed. -/
theorem FilterW.delete_item {f : Filter} (h : FilterW f) {A B : Tree} {p e : Key × Store} (ht : f.tree = A ++ p :: e :: B)
    {sh ig imp : Nat} {L : List Nat} (R : RegionW f.cfg p.1 p.2 e.1 sh ig imp L) {k : Key}
    (h1 : keyLe p.1 k = true) (h2 : keyLt k e.1 = true) {n : Nat} (hn : n < 2 ^ 28) (hl1 : p.1.length ≤ n)
    (hl2 : e.1.length ≤ n) (hh : HitL f.cfg.infixSize (sh + ig + imp) p.1 L k)
    (hb : if p.2.isPartial then ∃ z ∈ L, Hits f.cfg.infixSize (sh + ig + imp) p.1 z k ∧
      8 * p.1.length - p.2.invalidBits ≤ ilen f.cfg.infixSize (sh + ig + imp) z else p.1 ≠ k) :
    ∃ y X Y st, delete f k = .ok { f with tree := A ++ (p.1, st) :: e :: B } ∧ L = X ++ y :: Y ∧
      Hits f.cfg.infixSize (sh + ig + imp) p.1 y k ∧
      (∀ z ∈ L, Hits f.cfg.infixSize (sh + ig + imp) p.1 z k →
        ilen f.cfg.infixSize (sh + ig + imp) z ≤ ilen f.cfg.infixSize (sh + ig + imp) y) ∧
      st.isPartial = p.2.isPartial ∧ st.invalidBits = p.2.invalidBits ∧
      RegionW f.cfg p.1 st e.1 sh ig imp (X ++ Y) := by
  have hk : Between p.1 k e.1 := between_of_le h1 (keyLt_keyLe h2)
  obtain ⟨fr, hf, _⟩ := R.frame h.wf
  obtain ⟨g1, g2, y, X, Y, hL, hy, hmax, hR, _⟩ := R.delete h.wf hk hf hh
  refine ⟨y, X, Y, _, ?_, hL, hy, hmax, g2, g1, hR⟩
  rw [delete_eq h.pairwise ht h1 h2 hf, if_neg]
  rintro (⟨c1, c2⟩ | ⟨c1, c2⟩)
  · rw [if_neg (by rw [c2]; decide)] at hb
    exact hb c1
  · rw [if_pos c1] at hb
    obtain ⟨z, hz, hzk, hlen⟩ := hb
    have := (R.merges_iff h.wf hk hf c1 hn hl1 hl2).1 c2 z hz hzk
    omega

end Verif
