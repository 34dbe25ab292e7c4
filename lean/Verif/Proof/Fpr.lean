import Verif.Proof.Exact2
import Verif.Proof.Small
import Verif.Proof.Hold
import Mathlib.Order.Interval.Finset.Nat
import Mathlib.Algebra.Order.BigOperators.Group.Finset

/-!
# Counting false positives
-/

namespace Verif

/-- Every number of `8 n` bits is the value of a key of `n` bytes. -/
theorem key_of_value : ∀ (n v : Nat), v < 2 ^ (8 * n) → ∃ k : Key, k.length = n ∧ pre (8 * n) k = v
  | 0, v, h => ⟨[], rfl, by simp at h; simp [pre, h]⟩
  | n + 1, v, h => by
    have hp : 0 < 2 ^ (8 * n) := Nat.two_pow_pos _
    have hv : v / 2 ^ (8 * n) < 256 := by
      rw [Nat.div_lt_iff_lt_mul hp]
      rwa [show 8 * (n + 1) = 8 + 8 * n by omega, pow_add] at h
    obtain ⟨k, h1, h2⟩ := key_of_value n (v % 2 ^ (8 * n)) (Nat.mod_lt _ hp)
    refine ⟨UInt8.ofNat (v / 2 ^ (8 * n)) :: k, by simp [h1], ?_⟩
    have e := pre_drop (UInt8.ofNat (v / 2 ^ (8 * n)) :: k) 1 (8 * n)
    have e2 := pre_byte (UInt8.ofNat (v / 2 ^ (8 * n)) :: k) 0
    rw [byteAt_cons_zero, UInt8.toNat_ofNat_of_lt' (by simpa using hv)] at e2
    simp only [Nat.mul_zero, Nat.zero_add, pre, Nat.zero_mul] at e2
    rw [show 8 * (n + 1) = 8 * n + 8 * 1 by omega, e, List.drop_succ_cons, List.drop_zero, h2, Nat.mul_one]
    have e3 : pre 8 (UInt8.ofNat (v / 2 ^ (8 * n)) :: k) = v / 2 ^ (8 * n) := by simpa [pre] using e2
    rw [e3]
    exact Nat.div_add_mod' _ _

/-- A list that contains all keys of `n` bytes strictly between two such keys. -/
theorem count_between {n : Nat} {a b : Key} {A : List Key}
    (hA : ∀ k : Key, k.length = n → keyLt a k = true → keyLt k b = true → k ∈ A) :
    pre (8 * n) b - pre (8 * n) a - 1 ≤ A.length := by
  classical
  have hsub : Finset.Ioo (pre (8 * n) a) (pre (8 * n) b) ⊆ (A.map (pre (8 * n))).toFinset := by
    intro v hv
    rw [Finset.mem_Ioo] at hv
    obtain ⟨k, h1, h2⟩ := key_of_value n v (Nat.lt_trans hv.2 (pre_lt _ _))
    rw [List.mem_toFinset, List.mem_map]
    exact ⟨k, hA k h1 (keyLt_of_padLt ⟨8 * n, by omega⟩) (keyLt_of_padLt ⟨8 * n, by omega⟩), h2⟩
  have h1 := Finset.card_le_card hsub
  have h2 := (A.map (pre (8 * n))).toFinset_card_le
  rw [Nat.card_Ioo] at h1
  rw [List.length_map] at h2
  omega

theorem card_side (D w x : Nat) (hD : 0 < D) :
    (Finset.Ioo x (x / D * D + D) ∪ Finset.Ico (x / D * D + 1 - w) (x + 1 - w)).card ≤ D - 1 := by
  refine Nat.le_trans (Finset.card_union_le _ _) ?_
  rw [Nat.card_Ioo, Nat.card_Ico]
  have h1 : x / D * D ≤ x := Nat.div_mul_le_self x D
  have h2 : x < x / D * D + D := by
    have := Nat.lt_div_mul_add (a := x) hD
    omega
  omega

/-- Windows of `w` numbers that miss every `x` but meet its block of `D` numbers. -/
theorem count_windows {D w : Nat} (hD : 0 < D) {P M : List Nat} (hP : P.Nodup) (hw : 1 ≤ w)
    (h : ∀ a ∈ P, ∃ x ∈ M, a / D ≤ x / D ∧ x / D ≤ (a + w - 1) / D ∧ ¬ (a ≤ x ∧ x ≤ a + w - 1)) :
    P.length ≤ M.length * (D - 1) := by
  classical
  have hsub : P.toFinset ⊆ M.toFinset.biUnion fun x =>
      Finset.Ioo x (x / D * D + D) ∪ Finset.Ico (x / D * D + 1 - w) (x + 1 - w) := by
    intro a ha
    obtain ⟨x, hx, h1, h2, h3⟩ := h a (List.mem_toFinset.1 ha)
    rw [Finset.mem_biUnion]
    refine ⟨x, List.mem_toFinset.2 hx, ?_⟩
    rw [Finset.mem_union, Finset.mem_Ioo, Finset.mem_Ico]
    by_cases hax : a ≤ x
    · right
      have h4 : x / D * D ≤ a + w - 1 := (Nat.le_div_iff_mul_le hD).1 h2
      omega
    · left
      refine ⟨by omega, ?_⟩
      have h5 : a < (x / D + 1) * D := (Nat.div_lt_iff_lt_mul hD).1 (by omega)
      rw [Nat.add_mul, Nat.one_mul] at h5
      exact h5
  have h1 := Finset.card_le_card hsub
  rw [List.toFinset_card_of_nodup hP] at h1
  have h2 := Finset.card_biUnion_le_card_mul M.toFinset (fun x =>
      Finset.Ioo x (x / D * D + D) ∪ Finset.Ico (x / D * D + 1 - w) (x + 1 - w)) (D - 1) (fun x _ => card_side D w x hD)
  have h3 := Nat.mul_le_mul_right (D - 1) M.toFinset_card_le
  omega

/-- Two keys of `n` bytes compare as their values. -/
theorem keyLe_of_value {n : Nat} {a b : Key} (ha : a.length = n) (hb : b.length = n) (h : pre (8 * n) a ≤ pre (8 * n) b) :
    keyLe a b = true := by
  rw [keyLe_iff_not_lt, Bool.not_eq_true', ← Bool.not_eq_true]
  intro hlt
  obtain ⟨p, hp⟩ := padLt_of_keyLt hlt (by rw [ha, hb])
  by_cases hpn : p ≤ 8 * n
  · have := pre_mono_len hpn hp; omega
  · obtain ⟨j, rfl⟩ := Nat.exists_eq_add_of_le (show 8 * n ≤ p by omega)
    have z : ∀ k : Key, k.length = n → ∀ i, 8 * n ≤ i → kbit k i = 0 := by
      intro k hk i hi
      unfold kbit
      rw [byteAt_of_ge (by omega)]
      simp
    rw [pre_zeros (z a ha), pre_zeros (z b hb)] at hp
    have := Nat.lt_of_mul_lt_mul_right hp
    omega

theorem pre_long {n p : Nat} {k : Key} (hk : k.length = n) (hp : 8 * n ≤ p) : pre p k = pre (8 * n) k * 2 ^ (p - 8 * n) := by
  obtain ⟨j, rfl⟩ := Nat.exists_eq_add_of_le hp
  rw [Nat.add_sub_cancel_left]
  refine pre_zeros (fun i hi => ?_) j
  unfold kbit
  rw [byteAt_of_ge (by omega)]
  simp

/-- Ranges of `w` keys in one region that meet the cell of a key but not the key. -/
theorem count_region {n s q w : Nat} (hs : 1 ≤ s) {prev next : Key} (hgap : 511 ≤ pre q next - pre q prev)
    {P : List (Key × Key)} (hP : P.Nodup) {M : List Key} (hM : ∀ x ∈ M, x.length = n)
    (h : ∀ e ∈ P, e.1.length = n ∧ e.2.length = n ∧ keyLe e.1 e.2 = true ∧ pre (8 * n) e.2 + 1 = pre (8 * n) e.1 + w ∧
      ∃ x ∈ M, pre (q + s - 1) e.1 ≤ pre (q + s - 1) x ∧ pre (q + s - 1) x ≤ pre (q + s - 1) e.2 ∧
        ¬ (keyLe e.1 x = true ∧ keyLe x e.2 = true)) :
    P.length * (510 * 2 ^ (s - 1)) ≤ M.length * (pre (8 * n) next - pre (8 * n) prev - 1) := by
  by_cases hL : q + s - 1 ≤ 8 * n
  · have hD : 0 < 2 ^ (8 * n - (q + s - 1)) := Nat.two_pow_pos _
    have hdiv : ∀ k : Key, pre (8 * n) k / 2 ^ (8 * n - (q + s - 1)) = pre (q + s - 1) k :=
      fun k => by
        have := pre_add k (q + s - 1) (8 * n - (q + s - 1))
        rwa [show q + s - 1 + (8 * n - (q + s - 1)) = 8 * n by omega] at this
    have hnd : (P.map fun e => pre (8 * n) e.1).Nodup := by
      refine List.Nodup.map_on ?_ hP
      intro a ha b hb hab
      obtain ⟨a1, a2, _, a4, _⟩ := h a ha
      obtain ⟨b1, b2, _, b4, _⟩ := h b hb
      refine Prod.ext ?_ ?_
      · exact keyLe_antisymm (keyLe_of_value a1 b1 (by omega)) (keyLe_of_value b1 a1 (by omega))
      · exact keyLe_antisymm (keyLe_of_value a2 b2 (by omega)) (keyLe_of_value b2 a2 (by omega))
    have hc : P.length ≤ M.length * (2 ^ (8 * n - (q + s - 1)) - 1) := by
      cases hPe : P with
      | nil => simp
      | cons e0 P' =>
      have hw : 1 ≤ w := by
        obtain ⟨_, _, h3, h4, _⟩ := h e0 (by rw [hPe]; simp)
        have := keyLe_pre h3 (8 * n); omega
      rw [← hPe]
      have := count_windows (w := w) hD hnd hw (M := M.map (pre (8 * n))) (by
        intro a ha
        obtain ⟨e, he, rfl⟩ := List.mem_map.1 ha
        obtain ⟨h1, h2, h3, h4, x, hx, h5, h6, h7⟩ := h e he
        refine ⟨_, List.mem_map_of_mem hx, ?_, ?_, ?_⟩
        · rw [hdiv, hdiv]; exact h5
        · rw [show pre (8 * n) e.1 + w - 1 = pre (8 * n) e.2 by omega, hdiv, hdiv]; exact h6
        · rintro ⟨g1, g2⟩
          exact h7 ⟨keyLe_of_value h1 (hM x hx) g1, keyLe_of_value (hM x hx) h2 (by omega)⟩)
      rwa [List.length_map, List.length_map] at this
    have hE : 510 * 2 ^ (8 * n - q) ≤ pre (8 * n) next - pre (8 * n) prev - 1 := by
      have e1 := pre_split next q (8 * n - q)
      have e2 := pre_split prev q (8 * n - q)
      rw [show q + (8 * n - q) = 8 * n by omega] at e1 e2
      have hp : 0 < 2 ^ (8 * n - q) := Nat.two_pow_pos _
      have e3 := Nat.mod_lt (pre (8 * n) prev) hp
      generalize pre (8 * n) prev % 2 ^ (8 * n - q) = m2 at *
      generalize pre (8 * n) next % 2 ^ (8 * n - q) = m1 at *
      generalize 2 ^ (8 * n - q) = E at *
      obtain ⟨d, hd⟩ := Nat.exists_eq_add_of_le (show pre q prev + 511 ≤ pre q next by omega)
      rw [hd] at e1
      rw [e1, e2]
      have : (pre q prev + 511 + d) * E = pre q prev * E + 510 * E + E + d * E := by ring
      have h0 : 0 ≤ d * E := Nat.zero_le _
      omega
    have hEe : 2 ^ (8 * n - q) = 2 ^ (8 * n - (q + s - 1)) * 2 ^ (s - 1) := by
      rw [← pow_add]; congr 1; omega
    calc P.length * (510 * 2 ^ (s - 1)) ≤ M.length * 2 ^ (8 * n - (q + s - 1)) * (510 * 2 ^ (s - 1)) := by
          apply Nat.mul_le_mul_right
          exact Nat.le_trans hc (Nat.mul_le_mul_left _ (Nat.sub_le _ _))
      _ = M.length * (510 * 2 ^ (8 * n - q)) := by rw [hEe]; ring
      _ ≤ _ := Nat.mul_le_mul_left _ hE
  · cases hPe : P with
    | nil => simp
    | cons e P' =>
      exfalso
      obtain ⟨h1, h2, _, _, x, hx, h5, h6, h7⟩ := h e (by rw [hPe]; simp)
      rw [pre_long h1 (by omega), pre_long (hM x hx) (by omega)] at h5
      rw [pre_long h2 (by omega), pre_long (hM x hx) (by omega)] at h6
      have hp := Nat.two_pow_pos (q + s - 1 - 8 * n)
      exact h7 ⟨keyLe_of_value h1 (hM x hx) (Nat.le_of_mul_le_mul_right h5 hp),
        keyLe_of_value (hM x hx) h2 (Nat.le_of_mul_le_mul_right h6 hp)⟩

theorem range_in_region {f : Filter} (hf : FilterOK f) {n : Nat} (hsp : Spans n f) {l r : Key} (hl : l.length = n)
    (hlr : keyLe l r = true) (hno : ∀ b ∈ boundaries f, ¬ (keyLe l b = true ∧ keyLe b r = true)) :
    ∃ prev next, Adjacent f prev next ∧ keyLt prev l = true ∧ keyLt r next = true := by
  rcases hf.spans_cases hsp hl with ⟨A, e, B, ht, rfl⟩ | ⟨A, p, e, B, ht, h1, h2⟩
  · exact absurd ⟨keyLe_refl _, hlr⟩ (hno _ (by unfold boundaries; rw [ht]; simp))
  · refine ⟨p.1, e.1, adjacent_of ht, h1, ?_⟩
    have := hno e.1 (by unfold boundaries; rw [ht]; simp)
    rw [← Bool.not_eq_false]
    intro hh
    exact this ⟨keyLt_keyLe h2, by rw [keyLe_iff_not_lt, hh]; rfl⟩

/-- Why a range inside a region is positive, after inserts into a loaded filter. -/
theorem positive_cause {c : Cfg} (hc : c.WF) {n : Nat} (hn : n < 2 ^ 28) {K : List Key} {f f' : Filter} {X : List Key}
    (L : Loaded c K f) (hlen : LenLe n f) (hg : Grown n f f' X) {prev next : Key} (ha : Adjacent f prev next) {l r : Key}
    (h1 : keyLt prev l = true) (h2 : keyLt r next = true) (hlr : keyLe l r = true)
    (hq : rangeQuery false f' l r = .ok true) :
    (∃ x ∈ X, keyLe l x = true ∧ keyLe x r = true) ∨ ∃ q, Level prev next q ∧ ∃ x,
      (x ∈ K.filter (fun k => keyLt prev k && keyLt k next) ∨ x ∈ X.filter (fun k => keyLe prev k && keyLt k next)) ∧
      pre (q + c.infixSize - 1) l ≤ pre (q + c.infixSize - 1) x ∧ pre (q + c.infixSize - 1) x ≤ pre (q + c.infixSize - 1) r := by
  have hok := L.ok hc
  obtain ⟨g1, _, _, _, g5⟩ := hg.back hok hn hlen
  obtain ⟨k, k1, k2, hk⟩ := (range_iff_point g1.q hlr).1 hq
  have kp := keyLt_of_lt_of_le h1 k1
  have kn := keyLt_of_le_of_lt k2 h2
  rcases g5 k hk with hk | hk | ⟨x, hx, p', e', q, c1, c2, c3, c4, c5, c6, c7⟩
  · obtain ⟨A, st, st', B, ht⟩ := ha.split
    obtain ⟨b, q, hb, hlev, hiff⟩ := L.gap hc ht kp kn
    rw [hk] at hb
    obtain rfl : b = true := by injection hb with e; exact e.symm
    obtain ⟨k0, m1, m2, m3, m4⟩ := hiff.1 rfl
    refine Or.inr ⟨q, hlev, k0, Or.inl ?_, ?_, ?_⟩
    · rw [List.mem_filter, Bool.and_eq_true]; exact ⟨m1, m2, m3⟩
    · rw [← m4]; exact keyLe_pre k1 _
    · rw [← m4]; exact keyLe_pre k2 _
  · exact Or.inl ⟨k, hk, k1, k2⟩
  · obtain ⟨rfl, rfl⟩ := ha.unique hok c1 (keyLt_keyLe kp) kn (keyLt_keyLe c5) c6
    rw [L.cfg] at c7
    refine Or.inr ⟨q, c2, x, Or.inr ?_, ?_, ?_⟩
    · rw [List.mem_filter, Bool.and_eq_true]; exact ⟨hx, c3, c4⟩
    · rw [← c7]; exact keyLe_pre k1 _
    · rw [← c7]; exact keyLe_pre k2 _

/-- False positive ranges of one width in one region. -/
theorem fpr_region {c : Cfg} (hc : c.WF) {n w : Nat} (hn : n < 2 ^ 28) {K : List Key} {f f' : Filter} {X : List Key}
    (hK : ∀ k ∈ K, k.length = n) (hX : ∀ x ∈ X, x.length = n)
    (L : Loaded c K f) (hlen : LenLe n f) (hg : Grown n f f' X) {prev next : Key} (ha : Adjacent f prev next)
    {P : List (Key × Key)} (hP : P.Nodup)
    (h : ∀ e ∈ P, e.1.length = n ∧ e.2.length = n ∧ keyLe e.1 e.2 = true ∧ pre (8 * n) e.2 + 1 = pre (8 * n) e.1 + w ∧
      keyLt prev e.1 = true ∧ keyLt e.2 next = true ∧ rangeQuery false f' e.1 e.2 = .ok true ∧
      ∀ x, x ∈ K ∨ x ∈ X → ¬ (keyLe e.1 x = true ∧ keyLe x e.2 = true)) :
    P.length * (510 * 2 ^ (c.infixSize - 1)) ≤
      ((K.filter fun k => keyLt prev k && keyLt k next).length + (X.filter fun k => keyLe prev k && keyLt k next).length) *
        (pre (8 * n) next - pre (8 * n) prev - 1) := by
  have hs1 := hc.s1
  obtain ⟨q, hlev, hT⟩ : ∃ q, Level prev next q ∧ pre q prev + 511 ≤ pre q next := by
    obtain ⟨A, st, st', B, ht⟩ := ha.split
    have hch := L.chain
    rw [ht] at hch
    obtain ⟨sh, ig, imp, R, _⟩ := (List.isChain_append_cons_cons.1 hch).2.1
    exact ⟨_, R.level, (R.lengths.total R.lt).1⟩
  rw [← List.length_append]
  refine count_region hs1 (q := q) (w := w) (by omega) hP ?_ ?_
  · intro x hx
    rcases List.mem_append.1 hx with hx | hx
    · exact hK x (List.mem_filter.1 hx).1
    · exact hX x (List.mem_filter.1 hx).1
  · intro e he
    obtain ⟨h1, h2, h3, h4, h5, h6, h7, h8⟩ := h e he
    refine ⟨h1, h2, h3, h4, ?_⟩
    rcases positive_cause hc hn L hlen hg ha h5 h6 h3 h7 with ⟨x, hx, g⟩ | ⟨q', hq', x, hx, g1, g2⟩
    · exact absurd g (h8 x (Or.inr hx))
    · obtain rfl := hlev.unique hq'
      refine ⟨x, List.mem_append.2 hx, g1, g2, h8 x ?_⟩
      rcases hx with hx | hx
      · exact Or.inl (List.mem_filter.1 hx).1
      · exact Or.inr (List.mem_filter.1 hx).1

/-- False positive ranges of one width above a boundary. -/
theorem fpr_above {c : Cfg} (hc : c.WF) {n w I : Nat} (hn : n < 2 ^ 28) {K : List Key} {f f' : Filter} {X : List Key}
    (hK : ∀ k ∈ K, k.length = n) (hX : ∀ x ∈ X, x.length = n)
    (L : Loaded c K f) (hlen : LenLe n f) (hg : Grown n f f' X)
    (hI : ∀ prev next, Adjacent f prev next → (X.filter fun k => keyLe prev k && keyLt k next).length ≤ I) :
    ∀ (B : Tree) (A : Tree) (p : Key × Store), f.tree = A ++ p :: B → ∀ P : List (Key × Key), P.Nodup →
    (∀ e ∈ P, e.1.length = n ∧ e.2.length = n ∧ keyLe e.1 e.2 = true ∧ pre (8 * n) e.2 + 1 = pre (8 * n) e.1 + w ∧
      keyLt p.1 e.1 = true ∧ (∃ prev next, Adjacent f prev next ∧ keyLt prev e.1 = true ∧ keyLt e.2 next = true) ∧
      rangeQuery false f' e.1 e.2 = .ok true ∧
      ∀ x, x ∈ K ∨ x ∈ X → ¬ (keyLe e.1 x = true ∧ keyLe x e.2 = true)) →
    P.length * (510 * 2 ^ (c.infixSize - 1)) + (1023 + I) * pre (8 * n) p.1 ≤ (1023 + I) * 2 ^ (8 * n) := by
  have hok := L.ok hc
  intro B
  induction B with
  | nil =>
    intro A p ht P hP h
    cases P with
    | nil =>
      rw [List.length_nil, Nat.zero_mul, Nat.zero_add]
      exact Nat.mul_le_mul_left _ (Nat.le_of_lt (pre_lt _ _))
    | cons e P' =>
      exfalso
      obtain ⟨_, _, h3, _, h5, ⟨prev, next, ha, g1, g2⟩, _⟩ := h e (by simp)
      have hmem := ha.mem.2
      unfold boundaries at hmem
      rw [ht, List.map_append, List.mem_append] at hmem
      have h6 := keyLt_of_lt_of_le h5 h3
      rcases hmem with hm | hm
      · obtain ⟨a, ha', rfl⟩ := List.mem_map.1 hm
        have := keyLt_of_padLt (hok.before ht ha')
        exact keyLt_le_absurd (keyLt_of_lt_of_le g2 (keyLt_keyLe this)) (keyLt_keyLe h6)
      · simp only [List.map_cons, List.map_nil, List.mem_singleton] at hm
        subst hm
        rw [keyLt_asymm h6] at g2; cases g2
  | cons e1 B' ih =>
    intro A p ht P hP h
    have ha : Adjacent f p.1 e1.1 := adjacent_of ht
    have hlt : pre (8 * n) p.1 ≤ pre (8 * n) e1.1 :=
      keyLe_pre (keyLt_keyLe (keyLt_of_padLt (hok.after ht (List.mem_cons_self)))) _
    have hin : ∀ e ∈ P, keyLt e.2 e1.1 = false → keyLt e1.1 e.1 = true := by
      intro e he hne
      obtain ⟨_, _, h3, _, h5, ⟨prev, next, ha', g1, g2⟩, _⟩ := h e he
      by_contra hcon
      have hcon2 : keyLe e.1 e1.1 = true := by rw [keyLe_iff_not_lt]; simpa using hcon
      by_cases heq : e.1 = e1.1
      · rcases keyLe_or_eq_of_adjacent hok ha' ha.mem.2 with hh | hh
        · rw [← heq] at hh; exact keyLt_le_absurd g1 hh
        · rw [← heq] at hh
          exact keyLt_le_absurd g2 (keyLe_trans hh h3)
      · have := (ha'.unique hok ha (keyLt_keyLe g1) (keyLt_of_le_of_lt h3 g2) (keyLt_keyLe h5) (keyLt_iff.2 ⟨hcon2, heq⟩)).2
        rw [this, hne] at g2; cases g2
    have h1 := fpr_region hc hn hK hX L hlen hg ha (w := w) (hP.filter (fun e => keyLt e.2 e1.1)) (by
      intro e he
      obtain ⟨he, he2⟩ := List.mem_filter.1 he
      obtain ⟨a1, a2, a3, a4, a5, _, a7, a8⟩ := h e he
      exact ⟨a1, a2, a3, a4, a5, he2, a7, a8⟩)
    have h2 := ih (A ++ [p]) e1 (by rw [ht]; simp) (P.filter (fun e => !keyLt e.2 e1.1)) (hP.filter _) (by
      intro e he
      obtain ⟨he, he2⟩ := List.mem_filter.1 he
      obtain ⟨a1, a2, a3, a4, a5, a6, a7, a8⟩ := h e he
      exact ⟨a1, a2, a3, a4, hin e he (by simpa using he2), a6, a7, a8⟩)
    have h3 : (P.filter (fun e => keyLt e.2 e1.1)).length + (P.filter (fun e => !keyLt e.2 e1.1)).length = P.length :=
      (List.length_eq_length_filter_add _).symm
    have hm : (K.filter fun k => keyLt p.1 k && keyLt k e1.1).length + (X.filter fun k => keyLe p.1 k && keyLt k e1.1).length
        ≤ 1023 + I := by
      have hch := L.chain
      rw [ht] at hch
      obtain ⟨sh, ig, imp, R, _, hcnt⟩ := (List.isChain_append_cons_cons.1 hch).2.1
      have := hI _ _ ha
      omega
    have h4 := Nat.le_trans h1 (Nat.mul_le_mul hm (Nat.sub_le _ 1))
    rw [← h3, Nat.add_mul]
    obtain ⟨d, hd⟩ := Nat.exists_eq_add_of_le hlt
    rw [hd, Nat.add_sub_cancel_left] at h4
    rw [hd, Nat.mul_add] at h2
    omega

end Verif
