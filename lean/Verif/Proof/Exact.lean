import Verif.Proof.Cell
import Verif.Proof.Split
import Verif.Spec.Grow

/-!
# A split adds no positive answer but the key
-/

namespace Verif

theorem ilen_lt {s p x : Nat} (hs : 1 ≤ s) : ilen s p x ≤ p + s - 1 := by
  unfold ilen; omega

section
variable {f f' : Filter} {key : Key} {d : SplitPlan} {A : Tree} {next : Key} {st' : Store} {B : Tree} {storeL storeG : Store}
  {sh ig imp : Nat} {L : List Nat} {sp shL igL impL shG igG impG : Nat} {LG : List Nat}

/-- An item that covers the new boundary shortened to `z` bits covers all keys that agree with it on these. -/
theorem SplitInfo.cover (I : SplitInfo f key d A next st' B sh ig imp L sp shL igL impL shG igG impG) {z : Nat}
    (hz : d.zeroPos = some z) {k : Key} (hk : pre z k = pre z key) :
    HitL f.cfg.infixSize (sh + ig + imp) d.prev L k := by
  obtain ⟨_, x0, tl, _, hx0, hl0, hv0, _⟩ := I.cut.head z hz
  exact ⟨x0, hx0, by rw [hl0, hv0, hk]⟩

theorem SplitInfo.edited_pre (I : SplitInfo f key d A next st' B sh ig imp L sp shL igL impL shG igG impG) {z : Nat}
    (hz : d.zeroPos = some z) {q : Nat} (hq : q ≤ z) : pre q d.edited = pre q key := by
  rw [I.edited, hz]; exact editKey_pre key z (I.zpos z hz) hq

/-- The item for the new key covers only keys that agree with it on `z` bits. -/
theorem SplitInfo.keyItem_cover (I : SplitInfo f key d A next st' B sh ig imp L sp shL igL impL shG igG impG)
    (hf : f.cfg.WF) {z : Nat} (hz : d.zeroPos = some z) {k : Key}
    (hk : pre (ilen f.cfg.infixSize (shG + igG + impG) d.keyItem) k =
      ival f.cfg.infixSize (pre (shG + igG + impG) d.edited) d.keyItem) : pre z k = pre z key := by
  have hs1 := hf.s1
  have hs2 := hf.s2
  have himp := I.lenG.imp_cases
  have hv : d.keyItem = (pre (shG + igG + impG + f.cfg.infixSize) key % 2 ^ f.cfg.infixSize ||| 1) := by
    rw [I.keyItem, extract_eq _ _ _ _ _ _ (by omega) (by omega) (by omega), and_bitmask_mod (by omega), Nat.zero_mul,
      Nat.zero_add, Nat.mod_mod_of_dvd]
    exact pow_dvd_pow 2 (by omega)
  obtain ⟨j, hj⟩ : ∃ j, f.cfg.infixSize = j + 1 := ⟨f.cfg.infixSize - 1, by omega⟩
  have hhalf : pre (shG + igG + impG + (j + 1)) key % 2 ^ (j + 1) / 2 = pre (shG + igG + impG + j) key % 2 ^ j := by
    have h1 : pre (shG + igG + impG + (j + 1)) key = 2 * pre (shG + igG + impG + j) key + kbit key (shG + igG + impG + j) := rfl
    have h2 := kbit_lt key (shG + igG + impG + j)
    rw [pow_succ, Nat.mul_comm (2 ^ j) 2, Nat.mod_mul_right_div_self, h1]
    congr 1; omega
  have hodd : d.keyItem = (2 * (pre (shG + igG + impG + j) key % 2 ^ j) + 1) * 2 ^ 0 := by
    rw [hv, or_one, hj, pow_zero, Nat.mul_one]
    omega
  have hltj : pre (shG + igG + impG + j) key % 2 ^ j < 2 ^ j := Nat.mod_lt _ (Nat.two_pow_pos _)
  have h64 : (2 * (pre (shG + igG + impG + j) key % 2 ^ j) + 1) * 2 ^ 0 < 2 ^ 64 := by
    have : 2 ^ j ≤ 2 ^ 46 := Nat.pow_le_pow_right (by decide) (by omega)
    rw [pow_zero]; omega
  rw [hodd, ilen_odd h64, ival_odd h64, hj, show shG + igG + impG + (j + 1) - 1 - 0 = shG + igG + impG + j by omega,
    show j + 1 - 1 - 0 = j by omega] at hk
  -- the first bits are those of the boundary
  have h1 : pre (shG + igG + impG) k = pre (shG + igG + impG) d.edited := by
    have h2 := pre_add k (shG + igG + impG) j
    rw [hk, Nat.add_comm, Nat.mul_comm, Nat.mul_add_div (Nat.two_pow_pos _), Nat.div_eq_of_lt hltj] at h2
    omega
  by_cases hp : z ≤ shG + igG + impG
  · rw [← I.edited_pre hz (Nat.le_refl z)]
    exact pre_eq_len hp h1
  · have h3 : pre (shG + igG + impG + j) k = pre (shG + igG + impG + j) key := by
      have h6 := pre_split key (shG + igG + impG) j
      rw [hk, I.edited_pre hz (show shG + igG + impG ≤ z by omega)]
      omega
    obtain ⟨_, x0, tl, _, _, hl0, _, _⟩ := I.cut.head z hz
    have h4 := ilen_lt (s := f.cfg.infixSize) (p := sh + ig + imp) (x := x0) hs1
    have h5 := I.leG
    exact pre_eq_len (show z ≤ _ by omega) h3

/-- The partial flag of the new boundary covers only keys that agree with the new key on `z` bits, if the key is long
enough. -/
theorem SplitInfo.prefix_cover (I : SplitInfo f key d A next st' B sh ig imp L sp shL igL impL shG igG impG)
    {z : Nat} (hz : d.zeroPos = some z) (hlong : z ≤ 8 * key.length) {k : Key}
    (hp : isPrefixOf d.edited k (7 - (z - 1) % 8) = true) : pre z k = pre z key := by
  have hz1 := I.zpos z hz
  rw [isPrefixOf_iff (by omega)] at hp
  have hlen : d.edited.length = (z - 1) / 8 + 1 := by
    rw [I.edited, hz]
    unfold editKey
    dsimp only
    rw [if_pos (by omega)]
    simp only [List.length_append, List.length_take, List.length_cons, List.length_nil]
    omega
  have e : 8 * d.edited.length - (7 - (z - 1) % 8) = z := by omega
  rw [e] at hp
  rw [← hp.2.2, I.edited_pre hz (Nat.le_refl _)]

/-- A split adds no positive answer but the key. -/
theorem SplitLists.back (h : FilterOK f)
    (D : SplitDone f f' key A d.prev d.edited next d.store storeL storeG st' B)
    (S : SplitLists f key d A next st' B storeL storeG sh ig imp L sp shL igL impL shG igG impG LG)
    (hlong : sh + ig + imp + f.cfg.infixSize - 1 ≤ 8 * key.length) {k : Key} (hk : pointQuery f' k = .ok true) :
    pointQuery f k = .ok true ∨ k = key := by
  have I := S.info
  have hs1 := h.wf.s1
  by_cases hin : keyLt d.prev k = true ∧ keyLt k next = true
  swap
  · have SO : SameOutside f f' A d.prev next B :=
      ⟨D.cfg, h, D.ok, [], [(d.edited, storeG)], d.store, storeL, st', D.tree, by rw [D.tree']; simp⟩
    rw [← SO.point hin]; exact Or.inl hk
  obtain ⟨h1, h2⟩ := hin
  obtain ⟨b, hb, hbt⟩ := pointQuery_gap h I.tree I.region h1 h2
  have old : ((d.store.isPartial = true ∧ isPrefixOf d.prev k d.store.invalidBits = true) ∨
      HitL f.cfg.infixSize (sh + ig + imp) d.prev L k) → pointQuery f k = .ok true ∨ k = key := fun hh => by
    rw [hb, hbt.2 hh]; exact Or.inl rfl
  have zle : ∀ z, d.zeroPos = some z → z ≤ 8 * key.length := by
    intro z hz
    obtain ⟨_, x0, tl, _, _, hl0, _, _⟩ := I.cut.head z hz
    have := ilen_lt (s := f.cfg.infixSize) (p := sh + ig + imp) (x := x0) hs1
    omega
  by_cases he : k = d.edited
  · cases hz : d.zeroPos with
    | none => right; rw [he, I.edited, hz]; rfl
    | some z => exact old (Or.inr (I.cover hz (by rw [he]; exact I.edited_pre hz (Nat.le_refl _))))
  rcases keyLe_or_lt d.edited k with hc | hc
  · -- above the new boundary
    have hlt : keyLt d.edited k = true := keyLt_iff.2 ⟨hc, Ne.symm he⟩
    have ht' : f'.tree = (A ++ [(d.prev, storeL)]) ++ (d.edited, storeG) :: (next, st') :: B := by rw [D.tree']; simp
    obtain ⟨b', hb', hbt'⟩ := pointQuery_gap D.ok ht' (by rw [D.cfg]; exact S.upper) hlt h2
    rw [hk] at hb'
    obtain rfl : b' = true := by injection hb' with e; exact e.symm
    have hnew := hbt'.1 rfl
    rw [D.cfg] at hnew
    have fromRight : HitL f.cfg.infixSize (shG + igG + impG) d.edited d.right k →
        HitL f.cfg.infixSize (sh + ig + imp) d.prev L k := by
      intro hh
      obtain ⟨x, hx, hxe⟩ := (I.specG.2.2 k (between_of_le (keyLt_keyLe hlt) (keyLt_keyLe h2))).2 hh
      exact ⟨x, List.mem_of_mem_drop hx, hxe⟩
    have hsh := S.shape
    cases hz : d.zeroPos with
    | none =>
      rw [hz] at hsh
      rcases hnew with ⟨o1, _⟩ | hh
      · exfalso
        rw [hsh.1] at o1; cases o1
      · exact old (Or.inr (fromRight (by rw [← hsh.2]; exact hh)))
    | some z =>
      rw [hz] at hsh
      obtain ⟨p1, p2, y0, X, Y, hr, hLG⟩ := hsh
      rcases hnew with ⟨_, o2⟩ | ⟨y, hy, hye⟩
      · rw [p2] at o2
        exact old (Or.inr (I.cover hz (I.prefix_cover hz (zle z hz) o2)))
      · rw [hLG] at hy
        have hcase : y ∈ d.right ∨ y = d.keyItem := by
          rw [hr]
          rcases List.mem_append.1 hy with hy | hy
          · exact Or.inl (List.mem_cons_of_mem _ (List.mem_append_left _ hy))
          · rcases List.mem_cons.1 hy with hy | hy
            · exact Or.inr hy
            · exact Or.inl (List.mem_cons_of_mem _ (List.mem_append_right _ hy))
        rcases hcase with hy | rfl
        · exact old (Or.inr (fromRight ⟨y, hy, hye⟩))
        · exact old (Or.inr (I.cover hz (I.keyItem_cover h.wf hz hye)))
  · -- below
    obtain ⟨b', hb', hbt'⟩ := pointQuery_gap D.ok D.tree' (by rw [D.cfg]; exact S.lower) h1 hc
    rw [hk] at hb'
    obtain rfl : b' = true := by injection hb' with e; exact e.symm
    have hnew := hbt'.1 rfl
    dsimp only at hnew
    rw [S.part, S.ib, D.cfg] at hnew
    rcases hnew with hh | hh
    · exact old (Or.inl hh)
    · obtain ⟨x, hx, hxe⟩ := (I.specL.2.2 k (between_of_le (keyLt_keyLe h1) (keyLt_keyLe hc))).2 hh
      exact old (Or.inr ⟨x, List.mem_of_mem_take hx, hxe⟩)

theorem keyLe_or_eq_of_adjacent (h : FilterOK f) {p e k : Key} (ha : Adjacent f p e) (hk : k ∈ boundaries f) :
    keyLe k p = true ∨ keyLe e k = true := by
  obtain ⟨A, st, st', B, ht⟩ := ha.split
  have hs := h.sorted
  unfold boundaries at hk hs
  rw [ht] at hk hs
  simp only [List.map_append, List.map_cons, List.mem_append, List.mem_cons, List.pairwise_append, List.pairwise_cons] at hk hs
  rcases hk with hk | rfl | rfl | hk
  · exact Or.inl (keyLt_keyLe (hs.2.2 k hk p (Or.inl rfl)))
  · exact Or.inl (keyLe_refl _)
  · exact Or.inr (keyLe_refl _)
  · exact Or.inr (keyLt_keyLe (hs.2.1.2.1 k hk))

theorem adjacent_of_mem (h : FilterOK f) {p e : Key} (hp : p ∈ boundaries f) (he : e ∈ boundaries f) (hlt : keyLt p e = true)
    (hno : ∀ b ∈ boundaries f, keyLe b p = true ∨ keyLe e b = true) : Adjacent f p e := by
  have hs := List.pairwise_iff_getElem.1 h.sorted
  obtain ⟨i, hi, rfl⟩ := List.mem_iff_getElem.1 hp
  obtain ⟨j, hj, rfl⟩ := List.mem_iff_getElem.1 he
  have hij : i < j := by
    rcases Nat.lt_trichotomy i j with g | rfl | g
    · exact g
    · rw [keyLt_irrefl] at hlt; cases hlt
    · have := keyLt_keyLe (hs j i hj hi g)
      rw [keyLe_iff_not_lt, hlt] at this; cases this
  refine ⟨i, List.getElem?_eq_getElem hi, ?_⟩
  rcases Nat.eq_or_lt_of_le (show i + 1 ≤ j from hij) with rfl | g
  · exact List.getElem?_eq_getElem hj
  · exfalso
    rcases hno _ (List.getElem_mem (show i + 1 < _ by omega)) with hb | hb
    · rw [keyLe_iff_not_lt, hs i (i + 1) hi (by omega) (by omega)] at hb; cases hb
    · rw [keyLe_iff_not_lt, hs (i + 1) j (by omega) hj g] at hb; cases hb

theorem Adjacent.mem {p e : Key} (h : Adjacent f p e) : p ∈ boundaries f ∧ e ∈ boundaries f := by
  obtain ⟨i, h1, h2⟩ := h
  exact ⟨List.mem_of_getElem? h1, List.mem_of_getElem? h2⟩

/-- Cells of the filter after a split lie inside cells of the filter before. -/
theorem SplitLists.cell (h : FilterOK f)
    (D : SplitDone f f' key A d.prev d.edited next d.store storeL storeG st' B)
    (S : SplitLists f key d A next st' B storeL storeG sh ig imp L sp shL igL impL shG igG impG LG)
    {x k : Key} (hc : SameCell f' x k) : SameCell f x k := by
  have I := S.info
  obtain ⟨p, e, q, ha, hl, c1, c2, c3, c4, c5⟩ := hc
  rw [D.cfg] at c5
  have hEl := keyLt_of_padLt I.ltL
  have hEg := keyLt_of_padLt I.ltG
  have aL : Adjacent f' d.prev d.edited := adjacent_of D.tree'
  have aG : Adjacent f' d.edited next :=
    adjacent_of (f := f') (A := A ++ [(d.prev, storeL)]) (p := (d.edited, storeG)) (e := (next, st')) (B := B) (by rw [D.tree']; simp)
  have a0 : Adjacent f d.prev next := adjacent_of D.tree
  by_cases hin : keyLt d.prev k = true ∧ keyLt k next = true
  · by_cases hk : keyLt k d.edited = true
    · obtain ⟨rfl, rfl⟩ := ha.unique D.ok aL (keyLt_keyLe c3) c4 (keyLt_keyLe hin.1) hk
      have := S.lower.level.unique hl
      have := I.leL
      exact ⟨_, _, _, a0, I.region.level, c1, keyLt_of_le_of_lt (keyLt_keyLe c2) hEg, c3, hin.2,
        pre_eq_len (by omega) c5⟩
    · have hk' : keyLe d.edited k = true := by
        rcases keyLe_or_lt d.edited k with h | h
        · exact h
        · exact absurd h hk
      obtain ⟨rfl, rfl⟩ := ha.unique D.ok aG (keyLt_keyLe c3) c4 hk' hin.2
      have := S.upper.level.unique hl
      have := I.leG
      exact ⟨_, _, _, a0, I.region.level, keyLe_trans (keyLt_keyLe hEl) c1, c2, hin.1, c4, pre_eq_len (by omega) c5⟩
  · -- a region that was not touched
    have hadj : Adjacent f p e := by
      have hsub : ∀ b ∈ boundaries f, b ∈ boundaries f' := by
        unfold boundaries
        rw [D.tree, D.tree']
        intro b hb
        simp only [List.map_append, List.map_cons, List.mem_append, List.mem_cons] at hb ⊢
        tauto
      have hsub' : ∀ b ∈ boundaries f', b = d.edited ∨ b ∈ boundaries f := by
        unfold boundaries
        rw [D.tree, D.tree']
        intro b hb
        simp only [List.map_append, List.map_cons, List.mem_append, List.mem_cons] at hb ⊢
        tauto
      have hpe := keyLt_of_le_of_lt (keyLt_keyLe c3) c4
      refine adjacent_of_mem h ?_ ?_ hpe fun b hb => keyLe_or_eq_of_adjacent D.ok ha (hsub b hb)
      · rcases hsub' p ha.mem.1 with rfl | hp
        · obtain ⟨_, rfl⟩ := ha.unique D.ok aG (keyLe_refl _) hpe (keyLe_refl _) hEg
          exact absurd ⟨keyLt_of_le_of_lt (keyLt_keyLe hEl) c3, c4⟩ hin
        · exact hp
      · rcases hsub' e ha.mem.2 with rfl | he
        · rcases keyLe_or_eq_of_adjacent D.ok ha aL.mem.1 with g | g
          · exact absurd ⟨keyLt_of_le_of_lt g c3, keyLt_of_le_of_lt (keyLt_keyLe c4) hEg⟩ hin
          · rw [keyLe_iff_not_lt, hEl] at g; cases g
        · exact he
    exact ⟨p, e, q, hadj, hl, c1, c2, c3, c4, c5⟩

end

end Verif
