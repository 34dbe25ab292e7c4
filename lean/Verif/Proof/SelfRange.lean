import Verif.Proof.Query

/-!
# One-key range queries in arbitrary states
-/

namespace Verif

theorem match_self {e v : Nat} (hv : v < 2 ^ 62) (he : e < 2 ^ 64 - 1) :
    (leftReach (e ||| 1) v && rightReach (e ||| 1) v) = pointMatch e v := by
  rcases Nat.eq_zero_or_pos v with rfl | hv0
  · have h1 : leftReach (e ||| 1) 0 = true := by
      unfold leftReach
      rw [decide_eq_true_iff, Nat.zero_or, show sub64 0 1 = 2 ^ 64 - 1 by rfl, or_one]; omega
    have h2 : rightReach (e ||| 1) 0 = true := by
      unfold rightReach
      rw [decide_eq_true_iff, show nolb64 0 = 0 by rfl]; omega
    have h3 : pointMatch e 0 = true := by
      unfold pointMatch
      rw [show sub64 (shl64 (lb64 0) 1) 1 = 2 ^ 64 - 1 by rfl]
      dsimp only
      rw [beq_iff_eq, or_mask_eq_iff, Nat.div_eq_of_lt (show e < 2 ^ 64 by omega)]
      rfl
    rw [h1, h2, h3]; rfl
  · rw [Bool.eq_iff_iff, Bool.and_eq_true, leftReach_iff hv0 (by omega), rightReach_iff, pointMatch_iff hv0 hv, and_comm]
    obtain ⟨a, t, rfl⟩ := odd_decomp hv0
    have := covers_odd (v := e ||| 1) (show (2 * a + 1) * 2 ^ t < 2 ^ 64 by omega)
    rw [or_one_div, ← covers_odd (v := e) (by omega)] at this
    exact this

theorem scanRun_congr {m n s : Nat} {p p' : Nat → Bool} (h : ∀ i, p (getSlot m n s i) = p' (getSlot m n s i)) :
    ∀ i, scanRun m n s p i = scanRun m n s p' i
  | 0 => h 0
  | i + 1 => by unfold scanRun; rw [h, scanRun_congr h i]

theorem getSlot_lt_two_pow (m n s i : Nat) (hs : s ≤ 64) : getSlot m n s i < 2 ^ s := by
  unfold getSlot
  dsimp only
  rw [and_bitmask _ _ hs]
  exact Nat.mod_lt _ (Nat.two_pow_pos _)

/-- Store level: whatever the memory holds. -/
theorem rangeQueryStore_self {c : Cfg} (h1 : 1 ≤ c.infixSize) (h2 : c.infixSize ≤ 62) (st : Store) (v : Nat) :
    rangeQueryStore c st (v ||| 1) (v ||| 1) = pointQueryStore c st v := by
  have hq : (v ||| 1) >>> c.infixSize = v >>> c.infixSize := by
    obtain ⟨s, hs⟩ : ∃ s, c.infixSize = s + 1 := ⟨c.infixSize - 1, by omega⟩
    rw [hs, Nat.shiftRight_eq_div_pow, Nat.shiftRight_eq_div_pow, or_one_div]
  have he : (v ||| 1) &&& bitmask c.infixSize = (v &&& bitmask c.infixSize) ||| 1 := by
    rw [Nat.and_or_distrib_right]
    congr 1
    rw [and_bitmask _ _ (by omega)]
    exact Nat.mod_eq_of_lt (Nat.one_lt_two_pow (by omega))
  unfold rangeQueryStore pointQueryStore
  dsimp only
  rw [hq, he, if_neg (Nat.lt_irrefl _)]
  by_cases hb : getBit st.mem 1 (v >>> c.infixSize) = 0
  · rw [if_pos hb, if_pos hb]
  · rw [if_neg hb, if_neg hb]
    apply scanRun_congr
    intro i
    apply match_self
    · exact Nat.lt_of_lt_of_le (getSlot_lt_two_pow _ _ _ _ (by omega)) (Nat.pow_le_pow_right (by decide) h2)
    · rw [and_bitmask _ _ (by omega)]
      have := Nat.mod_lt v (Nat.two_pow_pos c.infixSize)
      have h3 : 2 ^ c.infixSize ≤ 2 ^ 62 := Nat.pow_le_pow_right (by decide) h2
      omega

theorem RFrame.item_self {s : Nat} (h1 : 1 ≤ s) (h2 : s ≤ 62) (fr : RFrame) (k : Key) :
    fr.item s k = sub64 (fr.extract s k) (shl64 fr.prevImplicit s) ||| 1 := by
  unfold RFrame.item
  have heven : shl64 fr.prevImplicit s % 2 = 0 := by
    unfold shl64
    rw [Nat.mod_eq_of_lt (show s < 64 by omega), Nat.shiftLeft_eq, Nat.mod_mod_of_dvd _ (by decide)]
    obtain ⟨t, rfl⟩ : ∃ t, s = t + 1 := ⟨s - 1, by omega⟩
    rw [pow_succ, ← Nat.mul_assoc]
    omega
  generalize shl64 fr.prevImplicit s = b at *
  generalize fr.extract s k = a
  rw [or_one, or_one]
  unfold sub64
  omega

/-- In every state of a filter. -/
theorem rangeQuery_self {f : Filter} (h1 : 1 ≤ f.cfg.infixSize) (h2 : f.cfg.infixSize ≤ 62) (k : Key) :
    rangeQuery false f k k = pointQuery f k := by
  unfold rangeQuery pointQuery
  dsimp only
  cases hp : treePeek f.tree (treeSeek f.tree k) with
  | ub => rfl
  | hang => rfl
  | ok e =>
    rw [Res.bind_ok, Res.bind_ok]
    obtain ⟨A, B, ht, _, _, hle⟩ := seek_split hp
    have heq : keyLe e.1 k = (e.1 == k) := by
      rw [Bool.eq_iff_iff, beq_iff_eq]
      constructor
      · intro hh
        by_contra hne
        have := keyLt_iff.2 ⟨hle, fun x => hne x.symm⟩
        rw [keyLe_iff_not_lt, this] at hh
        cases hh
      · rintro rfl; exact keyLe_refl _
    rw [heq]
    by_cases hb : (e.1 == k) = true
    · rw [if_pos hb, if_pos hb]
    rw [if_neg hb, if_neg hb]
    by_cases h0 : treeSeek f.tree k = 0
    · rw [if_pos h0, if_pos h0]
    rw [if_neg h0, if_neg h0]
    congr 1
    funext p
    by_cases hpp : (p.2.isPartial && isPrefixOf p.1 k p.2.invalidBits) = true
    · rw [if_pos hpp, if_pos hpp]
    rw [if_neg hpp, if_neg hpp]
    congr 1
    funext fr
    rw [if_neg (by decide)]
    unfold rangeTail
    rw [fr.item_self h1 h2, rangeQueryStore_self h1 h2]

end Verif
