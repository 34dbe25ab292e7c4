import Verif.Proof.Config

/-!
# GetInfixList reads the stored items in order
-/

namespace Verif

theorem shl64_eq {a s : Nat} (hs : s < 64) (h : a * 2 ^ s < 2 ^ 64) : shl64 a s = a * 2 ^ s := by
  rw [shl64, Nat.mod_eq_of_lt hs, Nat.shiftLeft_eq, Nat.mod_eq_of_lt h]

section
variable {m n s T : Nat} {mp : Nat → Nat} {lay : Nat → Option Nat}

theorem getListLoop_spec (r : Rep m n s lay) (h : LayWF n s T mp lay) (hs : s ≤ 46) (hT : T ≤ 1024) :
    ∀ (k i q : Nat), i + k = n →
      (∀ j y, i ≤ j → j < n → lay j = some y → (∀ t, i ≤ t → t < j → lay t = none) → y / 2 ^ s = q) →
      getListLoop m n s k i q = (List.range' i k).filterMap lay := by
  intro k
  induction k with
  | zero => intro i q _ _; rfl
  | succ k ih =>
    intro i q hik hq
    rw [getListLoop]
    have hi : i < n := by omega
    rw [List.range'_succ, List.filterMap_cons]
    have hsl : getSlot m n s i = slotOf s (lay i) := by rw [getSlot_eq _ _ _ _ (by omega), r.slot i hi]
    cases hl : lay i with
    | none =>
      have hr : getBit m 17 i = 0 := by
        rw [getBit17, rend_none r hi hl]; rfl
      rw [hl] at hsl
      have hsl : getSlot m n s i = 0 := hsl
      rw [if_neg (by omega), if_neg (by omega)]
      apply ih (i + 1) q (by omega)
      intro j y h1 h2 h3 h4
      apply hq j y (by omega) h2 h3
      intro t t1 t2
      rcases Nat.eq_or_lt_of_le t1 with t3 | t3
      · rw [← t3]; exact hl
      · exact h4 t t3 t2
    | some x =>
      obtain ⟨x1, x2⟩ := h.item i x hi hl
      have hxq : x / 2 ^ s = q := hq i x (Nat.le_refl _) hi hl (fun t _ _ => by omega)
      rw [hl] at hsl
      have hsl : getSlot m n s i = x % 2 ^ s := hsl
      rw [if_pos (by omega), hsl]
      have hx64 := item_lt hs hT x2
      have hdm : x / 2 ^ s * 2 ^ s + x % 2 ^ s = x := by rw [Nat.mul_comm]; exact Nat.div_add_mod x _
      have hval : shl64 q s ||| x % 2 ^ s = x := by
        rw [← hxq, shl64_eq (by omega) (by omega), mul_pow_or (Nat.mod_lt _ (Nat.two_pow_pos s)), hdm]
      rw [hval]
      congr 1
      apply ih (i + 1) _ (by omega)
      intro j y h1 h2 h3 h4
      obtain ⟨y1, y2⟩ := h.item j y h2 h3
      have hle := h.quot_le hs hT (show i ≤ j by omega) h2 hl h3
      rw [getBit17]
      cases hrd : rend m i with
      | false =>
        rw [if_neg (by simp)]
        by_contra hne
        have : rend m i = true := by
          rw [r.rend i hi]
          refine ⟨x, hl, ?_⟩
          intro j' y' g1 g2 g3 g4
          rcases Nat.lt_or_ge j' j with g5 | g5
          · rw [h4 j' (by omega) g5] at g3; simp at g3
          · have := h.quot_le hs hT g5 g2 h3 g3
            omega
        rw [hrd] at this; simp at this
      | true =>
        rw [if_pos (by simp)]
        obtain ⟨x', hx', hlast⟩ := (r.rend i hi).1 hrd
        rw [hl] at hx'; injection hx' with hx'; subst hx'
        have hne := hlast j y (by omega) h2 h3
        obtain ⟨n1, n2, n3⟩ := nextOccupied_spec m q
        have hocc : occ m (y / 2 ^ s) = true := (r.occ _ (by omega)).2 ⟨j, y, h2, h3, rfl⟩
        have hle2 : nextOccupied m q ≤ y / 2 ^ s := by
          by_contra hc
          have := n2 (y / 2 ^ s) (by omega) (by omega)
          unfold occ at hocc
          rw [this] at hocc; simp at hocc
        obtain ⟨i', z, z1, z2, z3⟩ := (r.occ (nextOccupied m q) (by omega)).1 (n3 (by omega))
        have hii' : i < i' := h.pos_lt hs hT hi hl z2 (by omega)
        have hji' : j ≤ i' := by
          by_contra hc
          rw [h4 i' (by omega) (by omega)] at z2; simp at z2
        have := h.quot_le hs hT hji' z1 h3 z2
        omega

end

theorem getInfixList_eq {c : Cfg} {T : Nat} {st : Store} {lay : Nat → Option Nat}
    (I : StoreWeak c T st lay) (hs : c.infixSize ≤ 46) (hT : T ≤ 1024) :
    getInfixList c st = content (c.size st.sizeGrade) lay := by
  obtain ⟨⟨mp, wf⟩, r, _, _⟩ := I
  unfold getInfixList
  dsimp only
  rw [getListLoop_spec r wf hs hT _ _ _ (by omega), content, List.range_eq_range']
  intro j y _ h2 h3 h4
  obtain ⟨y1, y2⟩ := wf.item j y h2 h3
  have hocc : occ st.mem (y / 2 ^ c.infixSize) = true := (r.occ _ (by omega)).2 ⟨j, y, h2, h3, rfl⟩
  have hleast : ∀ q, q < 1024 → occ st.mem q = true → y / 2 ^ c.infixSize ≤ q := by
    intro q hq ho
    obtain ⟨i', z, z1, z2, z3⟩ := (r.occ q hq).1 ho
    have hji' : j ≤ i' := by
      by_contra hc
      rw [h4 i' (by omega) (by omega)] at z2; simp at z2
    have := wf.quot_le hs hT hji' z1 h3 z2
    omega
  have hb : getW st.mem 1 &&& 1 ≠ 0 ↔ occ st.mem 0 = true := by
    have := getBit_ne_zero st.mem 1 0
    unfold getBit shr64 at this
    unfold occ
    simpa using this
  generalize y / 2 ^ c.infixSize = qy at *
  split_ifs with h0
  · have := hleast 0 (by decide) (hb.1 h0); omega
  · obtain ⟨n1, n2, n3⟩ := nextOccupied_spec st.mem 0
    have h0' : qy ≠ 0 := by
      intro hc; rw [hc] at hocc; exact h0 (hb.2 hocc)
    have hle2 : nextOccupied st.mem 0 ≤ qy := by
      by_contra hc
      have := n2 (qy) (by omega) (by omega)
      unfold occ at hocc
      rw [this] at hocc; simp at hocc
    have := hleast (nextOccupied st.mem 0) (by omega) (n3 (by omega))
    omega

end Verif
