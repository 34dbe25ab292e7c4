import Verif.Proof.StoreDelete3
import Verif.Proof.Clean
import Verif.Proof.Rewrite2
import Verif.Spec.Tame

/-!
# Deleting an item of a region
-/

namespace Verif

section
variable {c : Cfg} {T : Nat} {st : Store} {L : List Nat} {lay : Nat → Option Nat}

theorem spread_of_loose {mp : Nat → Nat} (hs : c.infixSize ≤ 46)
    (wf : LayWF (c.size st.sizeGrade) c.infixSize T mp lay)
    (rep : Rep st.mem (c.size st.sizeGrade) c.infixSize lay) (h : Loose c st) : Spread (c.size st.sizeGrade) lay := by
  obtain ⟨i, k, hik, hk, h1, h2⟩ := h
  rw [getSlot_eq _ _ _ _ (by omega)] at h1 h2
  refine ⟨i, k, hik, hk, ?_, ?_⟩
  · intro hn
    rw [rep.slot i (by omega), hn] at h1
    exact h1 rfl
  · cases hl : lay k with
    | none => rfl
    | some x =>
      rw [rep.slot k hk, hl] at h2
      exact absurd h2 (wf.item k x hk hl).1

/-- What a deletion reports about the removed item and the remaining list. -/
structure Taken (L : List Nat) (key y : Nat) (A B : List Nat) : Prop where
  split : L = A ++ y :: B
  cov : Covers y key
  longest : ∀ z ∈ L, Covers z key → lb64 y ≤ lb64 z

theorem deletePlace_lay (hc : c.WF) {mp : Nat → Nat} {key : Nat} (hT : T ≤ 1024) (hodd : key % 2 = 1)
    (wf : LayWF (c.size st.sizeGrade) c.infixSize T mp lay)
    (rep : Rep st.mem (c.size st.sizeGrade) c.infixSize lay)
    (hcount : st.elemCount = cnt (fun i => (lay i).isSome) (c.size st.sizeGrade)) (hst : st.status < 2 ^ 32) (hfine : c.Fine st.sizeGrade)
    (hk : ∃ x ∈ content (c.size st.sizeGrade) lay, Covers x key) :
    (deletePlace c st key T).sizeGrade = st.sizeGrade ∧
    (deletePlace c st key T).invalidBits = st.invalidBits ∧
    (deletePlace c st key T).isPartial = st.isPartial ∧
    Outside (c.size st.sizeGrade) c.infixSize st.mem (deletePlace c st key T).mem ∧
    ∃ y A B lay', Taken (content (c.size st.sizeGrade) lay) key y A B ∧
      content (c.size st.sizeGrade) lay' = A ++ B ∧ StoreWeak c T (deletePlace c st key T) lay' ∧
      (Spread (c.size st.sizeGrade) lay → (∀ q, homeSlot c st.sizeGrade T q = mp q) →
        StoreInv c T (deletePlace c st key T) lay') := by
  have hk' : ∃ x, StoredIn (c.size st.sizeGrade) lay x ∧ Covers x key := by
    obtain ⟨x, h1, h2⟩ := hk
    exact ⟨x, mem_content.1 h1, h2⟩
  obtain ⟨m', hm, hout, y, lay', A, B, h1, h2, h3, h4, h5, h6, h7, h8⟩ :=
    deletePlace_mem hc wf rep (fun hmp a b hab hb => by
      rw [← hmp, ← hmp]; exact homeSlot_mono hc hfine hT hab hb) hT hodd hk'
  have hpos : 0 < st.elemCount := by
    rw [hcount, cnt_content, h4]; simp
  obtain ⟨f1, f2, f3, f4, f5⟩ := decElemCount_fields (st := ⟨st.status, m'⟩) hpos hst
  rw [hm]
  have g2 : (Store.decElemCount ⟨st.status, m'⟩).sizeGrade = st.sizeGrade := f2
  have gm : (Store.decElemCount ⟨st.status, m'⟩).mem = m' := rfl
  have gc : (Store.decElemCount ⟨st.status, m'⟩).elemCount =
      cnt (fun i => (lay' i).isSome) (c.size (Store.decElemCount ⟨st.status, m'⟩).sizeGrade) := by
    rw [f1, g2, cnt_content, h5]
    have : st.elemCount = (A ++ y :: B).length := by rw [hcount, cnt_content, h4]
    have e : (Store.elemCount ⟨st.status, m'⟩) = st.elemCount := rfl
    rw [e, this]; simp
  refine ⟨g2, f4, f5, by rw [gm]; exact hout, y, A, B, lay', ⟨h4, h2, ?_⟩, h5, ⟨?_, ?_, gc, f3, by rw [g2]; exact hfine⟩, ?_⟩
  · intro z hz
    exact h3 z (mem_content.1 hz)
  · rw [g2]; exact h7
  · rw [g2, gm]; exact h6
  · intro hsp hmp
    refine ⟨?_, by rw [g2, gm]; exact h6, gc, f3, by rw [g2]; exact hfine⟩
    rw [g2]
    have e : homeSlot c st.sizeGrade T = mp := funext hmp
    rw [e]
    exact h8 hsp hmp

/-- Deleting from a region that may already have seen deletions. -/
theorem deletePlace_hasW (hc : c.WF) (h : StoreHasW c T st L) (hT : T ≤ 1024) {key : Nat} (hodd : key % 2 = 1)
    (hk : ∃ x ∈ L, Covers x key) :
    (deletePlace c st key T).sizeGrade = st.sizeGrade ∧
    (deletePlace c st key T).invalidBits = st.invalidBits ∧
    (deletePlace c st key T).isPartial = st.isPartial ∧
    Outside (c.size st.sizeGrade) c.infixSize st.mem (deletePlace c st key T).mem ∧
    ∃ y A B, Taken L key y A B ∧ StoreHasW c T (deletePlace c st key T) (A ++ B) := by
  obtain ⟨lay, ⟨⟨mp, wf⟩, rep, hcount, hst, hfine⟩, rfl⟩ := h
  obtain ⟨h1, h2, h3, h4, y, A, B, lay', h5, h6, h7, _⟩ := deletePlace_lay hc hT hodd wf rep hcount hst hfine hk
  exact ⟨h1, h2, h3, h4, y, A, B, h5, lay', h7, by rw [h1]; exact h6⟩

/-- Deleting from a region whose items are not packed against its end keeps the full invariant. -/
theorem deletePlace_has (hc : c.WF) (h : StoreHas c T st L) (hT : T ≤ 1024) (hl : Loose c st) {key : Nat}
    (hodd : key % 2 = 1) (hk : ∃ x ∈ L, Covers x key) :
    ∃ y A B, Taken L key y A B ∧ StoreHas c T (deletePlace c st key T) (A ++ B) := by
  obtain ⟨lay, I, rfl⟩ := h
  obtain ⟨h1, h2, h3, h4, y, A, B, lay', h5, h6, _, h7⟩ :=
    deletePlace_lay hc hT hodd I.wf I.rep I.count I.status I.fine hk
  exact ⟨y, A, B, h5, lay', h7 (spread_of_loose hc.s2 I.wf I.rep hl) (fun _ => rfl), by rw [h1]; exact h6⟩

theorem deleteRaw_base (c : Cfg) (st : Store) (key T : Nat) :
    deleteRaw c st key T = deletePlace c (deleteBase c st T) key T := rfl

theorem deleteBase_has (hc : c.WF) (h : StoreHasW c T st L) (hT : T ≤ 1024) :
    (deleteBase c st T).invalidBits = st.invalidBits ∧ (deleteBase c st T).isPartial = st.isPartial ∧
    StoreHasW c T (deleteBase c st T) L ∧ (StoreHas c T st L → StoreHas c T (deleteBase c st T) L) := by
  unfold deleteBase
  have hg := sizeGrade_lt st
  split_ifs with h1 h2 h2
  · have hle : L.length ≤ c.size (st.sizeGrade - 1) := by
      have := hc.grow (st.sizeGrade - 2) (by omega)
      rw [show st.sizeGrade - 2 + 1 = st.sizeGrade - 1 by omega] at this
      have := h.count
      omega
    have hcnt : L.length < 2 ^ 20 := by
      rw [← h.count, elemCount_eq]; exact Nat.mod_lt _ (by decide)
    obtain ⟨r1, r2, r3, r4⟩ := resizeStore_has hc h hT (e := false) (by simpa using hc.fine_pred h.fine) (by simpa using hle) hcnt
    exact ⟨r2, r3, r4.weak, fun _ => r4⟩
  · exact ⟨rfl, rfl, h, id⟩
  · have hle : L.length ≤ c.size (st.sizeGrade - 1) := by
      have := hc.exc
      have e : st.sizeGrade = 1 := by omega
      have := h.count
      rw [e, show 1 - 1 = 0 from rfl]
      omega
    have hcnt : L.length < 2 ^ 20 := by
      rw [← h.count, elemCount_eq]; exact Nat.mod_lt _ (by decide)
    obtain ⟨r1, r2, r3, r4⟩ := resizeStore_has hc h hT (e := false) (by simpa using hc.fine_pred h.fine) (by simpa using hle) hcnt
    exact ⟨r2, r3, r4.weak, fun _ => r4⟩
  · exact ⟨rfl, rfl, h, id⟩

theorem deleteRaw_hasW (hc : c.WF) (h : StoreHasW c T st L) (hT : T ≤ 1024) {key : Nat} (hodd : key % 2 = 1)
    (hk : ∃ x ∈ L, Covers x key) :
    (deleteRaw c st key T).invalidBits = st.invalidBits ∧ (deleteRaw c st key T).isPartial = st.isPartial ∧
    ∃ y A B, Taken L key y A B ∧ StoreHasW c T (deleteRaw c st key T) (A ++ B) := by
  rw [deleteRaw_base]
  obtain ⟨b1, b2, b3, _⟩ := deleteBase_has hc h hT
  obtain ⟨_, h2, h3, _, h5⟩ := deletePlace_hasW hc b3 hT hodd hk
  exact ⟨by rw [h2, b1], by rw [h3, b2], h5⟩

theorem deleteRaw_has (hc : c.WF) (h : StoreHas c T st L) (hT : T ≤ 1024) {key : Nat} (hodd : key % 2 = 1)
    (hl : Loose c (deleteBase c st T)) (hk : ∃ x ∈ L, Covers x key) :
    (deleteRaw c st key T).invalidBits = st.invalidBits ∧ (deleteRaw c st key T).isPartial = st.isPartial ∧
    ∃ y A B, Taken L key y A B ∧ StoreHas c T (deleteRaw c st key T) (A ++ B) := by
  rw [deleteRaw_base]
  obtain ⟨b1, b2, b3, b4⟩ := deleteBase_has hc h.weak hT
  obtain ⟨_, h2, h3, _, _⟩ := deletePlace_hasW hc b3 hT hodd hk
  exact ⟨by rw [h2, b1], by rw [h3, b2], deletePlace_has hc (b4 h) hT hl hodd hk⟩

end
section
variable {c : Cfg} {T : Nat} {st : Store} {L : List Nat}

/-- `GetLongestMatchingInfixSize`: 0 if nothing matches, otherwise one more than the number of explicit bits
of the longest matching item. -/
theorem longestMatch_spec (hc : c.WF) (h : StoreHasW c T st L) (hT : T ≤ 1024) {key : Nat}
    (hq : key / 2 ^ c.infixSize < 1024) (hodd : key % 2 = 1) :
    (longestMatch c st key = 0 ∧ ∀ z ∈ L, ¬ Covers z key) ∨
    ∃ y ∈ L, Covers y key ∧ (∀ z ∈ L, Covers z key → lb64 y ≤ lb64 z) ∧
      0 < longestMatch c st key ∧ longestMatch c st key ≤ c.infixSize ∧
      lb64 y = 2 ^ (c.infixSize - longestMatch c st key) := by
  obtain ⟨lay, ⟨⟨mp, wf⟩, rep, _, _⟩, rfl⟩ := h
  have hs1 := hc.s1
  have hs2 := hc.s2
  unfold longestMatch
  dsimp only
  rw [Nat.shiftRight_eq_div_pow, and_bitmask _ _ (show c.infixSize ≤ 64 by omega)]
  generalize c.size st.sizeGrade = n at *
  generalize c.infixSize = s at *
  generalize st.mem = m at *
  have hbit : getBit m 1 (key / 2 ^ s) ≠ 0 ↔ occ m (key / 2 ^ s) = true := getBit_ne_zero m 1 _
  by_cases h0 : getBit m 1 (key / 2 ^ s) = 0
  · rw [if_pos h0]
    refine Or.inl ⟨rfl, ?_⟩
    intro z hz hzc
    obtain ⟨i, hi, hx⟩ := mem_content.1 hz
    obtain ⟨x0, x1⟩ := wf.item i z hi hx
    have hxq := ((covers_iff x0 (item_lt hs2 hT x1)).1 hzc).1
    exact hbit.2 ((rep.occ _ hq).2 ⟨i, z, hi, hx, hxq⟩) h0
  rw [if_neg h0]
  have R := runIs_of_occ rep wf hs2 hT hq (hbit.1 h0)
  generalize selectRunends m n (rankOccupieds m (key / 2 ^ s)) = re at *
  generalize runStart m n s (rankOccupieds m (key / 2 ^ s)) re = rs at *
  have hRle := R.le
  have hRlt := R.lt
  rcases matchPos_spec rep wf hs1 hs2 hT hq hodd R (fuel := re + 3) (by omega) with ⟨hm, hno⟩ | ⟨p, y, hpm, hp1, hp2, hy, hyc, hyq, hmax⟩
  · rw [hm, if_pos (by omega)]
    refine Or.inl ⟨rfl, ?_⟩
    intro z hz
    obtain ⟨i, hi, hx⟩ := mem_content.1 hz
    exact hno i z hi hx
  · rw [hpm, if_neg (by omega)]
    have hpn : p < n := by omega
    obtain ⟨y0, y1⟩ := wf.item p y hpn hy
    have hylt := item_lt hs2 hT y1
    have hpos : ∀ w, w % 2 ^ s ≠ 0 → 0 < w := by
      intro w hw; rcases Nat.eq_zero_or_pos w with h | h
      · subst h; simp at hw
      · exact h
    have hget : getSlot m n s ((p : Nat) : Int).toNat = y % 2 ^ s := by
      rw [Int.toNat_natCast, getSlot_eq _ _ _ _ (by omega), rep.slot p hpn, hy]; rfl
    have hlong : ∀ z ∈ content n lay, Covers z key → lb64 y ≤ lb64 z := by
      intro z hz hzc
      obtain ⟨j, hj, hz⟩ := mem_content.1 hz
      have hjp := hmax j z hj hz hzc
      obtain ⟨z0, z1⟩ := wf.item j z hj hz
      refine covers_nested (hpos z z0) (item_lt hs2 hT z1) (hpos y y0) hylt hzc hyc ?_
      rcases Nat.eq_or_lt_of_le hjp with h1 | h1
      · subst h1; rw [hy] at hz; injection hz with hz; subst hz; exact ile_refl _
      · exact wf.sorted j p z y h1 (by omega) hz hy
    refine Or.inr ⟨y, mem_content.2 ⟨p, hpn, hy⟩, hyc, hlong, ?_⟩
    rw [hget]
    obtain ⟨a, t, hat⟩ : ∃ a t, y % 2 ^ s = (2 * a + 1) * 2 ^ t := by
      obtain ⟨a, t, e⟩ := odd_decomp (Nat.pos_of_ne_zero y0)
      exact ⟨a, t, e⟩
    have hlt : y % 2 ^ s < 2 ^ s := Nat.mod_lt _ (Nat.two_pow_pos s)
    have hts : t < s := by
      by_contra hcc
      have h1 : 2 ^ s ≤ 2 ^ t := Nat.pow_le_pow_right (by decide) (by omega)
      have h2 : 2 ^ t ≤ (2 * a + 1) * 2 ^ t := Nat.le_mul_of_pos_left _ (by omega)
      omega
    have h64 : (2 * a + 1) * 2 ^ t < 2 ^ 64 := by
      rw [← hat]
      have := item_explicit_lt (x := y) hs2
      omega
    rw [hat, lowbitPos_odd h64]
    refine ⟨by omega, by omega, ?_⟩
    rw [show s - (s - t) = t by omega]
    have hlb : lb64 y = lb64 (y % 2 ^ s) := (nolb64_div y0 hylt).2.2
    rw [hlb, hat, lb64_odd h64]

end

theorem clean_deleteRaw {c : Cfg} {st : Store} {T : Nat} {L : List Nat} (hc : c.WF) (h : StoreHasW c T st L) (hT : T ≤ 1024)
    (hcl : CleanStore c st) {key : Nat} (hodd : key % 2 = 1) (hk : ∃ x ∈ L, Covers x key) :
    CleanStore c (deleteRaw c st key T) := by
  have hb : CleanStore c (deleteBase c st T) := by
    unfold deleteBase
    have hg := sizeGrade_lt st
    have hcnt : L.length < 2 ^ 20 := by
      rw [← h.count, elemCount_eq]; exact Nat.mod_lt _ (by decide)
    split_ifs with h1 h2 h2
    · have hle : L.length ≤ c.size (st.sizeGrade - 1) := by
        have := hc.grow (st.sizeGrade - 2) (by omega)
        rw [show st.sizeGrade - 2 + 1 = st.sizeGrade - 1 by omega] at this
        have := h.count
        omega
      exact clean_resize hc h hT (e := false) (by simpa using hc.fine_pred h.fine) (by simpa using hle) hcnt
    · exact hcl
    · have hle : L.length ≤ c.size (st.sizeGrade - 1) := by
        have := hc.exc
        have e : st.sizeGrade = 1 := by omega
        have := h.count
        rw [e, show 1 - 1 = 0 from rfl]
        omega
      exact clean_resize hc h hT (e := false) (by simpa using hc.fine_pred h.fine) (by simpa using hle) hcnt
    · exact hcl
  rw [deleteRaw_base]
  obtain ⟨_, _, b3, _⟩ := deleteBase_has hc h hT
  obtain ⟨h1, _, _, h4, y, A, B, _, hw⟩ := deletePlace_hasW hc b3 hT hodd hk
  refine ⟨hw.status, ?_⟩
  rw [h1]
  exact fun j hj => (h4 j hj).trans (hb.out j hj)

end Verif
