import Verif.Spec.WhIndex
import Verif.Proof.WhBits
import Verif.Proof.WhSplit
import Verif.Proof.Defined
import Verif.Proof.Hold
import Verif.Proof.Cell
import Verif.Proof.Own

/-!
# Lookup in the index
-/

namespace Verif

/-! ## Prefixes and the order -/

theorem keyLe_append (p s t : Key) : keyLe (p ++ s) (p ++ t) = keyLe s t := by
  induction p with
  | nil => rfl
  | cons a p ih => simp [keyLe, ih, UInt8.lt_irrefl]

theorem keyLe_prefix {p a : Key} (h : p <+: a) : keyLe p a = true := by
  obtain ⟨t, rfl⟩ := h
  have := keyLe_append p [] t
  rw [List.append_nil] at this
  rw [this]; rfl

theorem keyLe_below (p : Key) {c d : UInt8} (h : c < d) (s t : Key) : keyLe (p ++ c :: s) (p ++ d :: t) = true := by
  rw [keyLe_append]; simp [keyLe, h]

/-- A key not above an extension of `p` is not above `p`, or it extends `p` too. -/
theorem keyLe_cases : ∀ {p a : Key} {d : UInt8} {t : Key}, keyLe a (p ++ d :: t) = true →
    keyLe a p = true ∨ ∃ c s, a = p ++ c :: s ∧ (c < d ∨ c = d)
  | [], [], _, _, _ => Or.inl rfl
  | [], c :: s, d, t, h => by
    simp only [List.nil_append, keyLe, Bool.or_eq_true, decide_eq_true_eq, Bool.and_eq_true, beq_iff_eq] at h
    exact Or.inr ⟨c, s, rfl, h.imp id And.left⟩
  | x :: p, [], _, _, _ => Or.inl rfl
  | x :: p, y :: a, d, t, h => by
    simp only [List.cons_append, keyLe, Bool.or_eq_true, decide_eq_true_eq, Bool.and_eq_true, beq_iff_eq] at h
    rcases h with h | ⟨rfl, h⟩
    · exact Or.inl (by simp [keyLe, h])
    · rcases keyLe_cases h with h | ⟨c, s, rfl, hc⟩
      · exact Or.inl (by simp [keyLe, h])
      · exact Or.inr ⟨c, s, rfl, hc⟩

/-- The keys with a given prefix are an interval. -/
theorem prefix_convex : ∀ {p a b c : Key}, p <+: a → p <+: c → keyLe a b = true → keyLe b c = true → p <+: b
  | [], _, b, _, _, _, _, _ => List.nil_prefix
  | x :: p, a, b, c, h1, h2, h3, h4 => by
    obtain ⟨s, rfl⟩ := h1
    obtain ⟨t, rfl⟩ := h2
    cases b with
    | nil => exact absurd h3 (by simp [keyLe])
    | cons y b =>
      simp only [List.cons_append, keyLe, Bool.or_eq_true, decide_eq_true_eq, Bool.and_eq_true, beq_iff_eq] at h3 h4
      rcases h3 with h3 | ⟨rfl, h3⟩
      · rcases h4 with h4 | ⟨rfl, h4⟩
        · exact absurd (UInt8.lt_trans h3 h4) (UInt8.lt_irrefl _)
        · exact absurd h3 (UInt8.lt_irrefl _)
      · rcases h4 with h4 | ⟨_, h4⟩
        · exact absurd h4 (UInt8.lt_irrefl _)
        · have := prefix_convex (List.prefix_append p s) (List.prefix_append p t) h3 h4
          exact (List.cons_prefix_cons).2 ⟨rfl, this⟩

/-! ## What the index holds -/

/-- `p` is a prefix of an anchor. -/
def Has (A : Key → Prop) (p : Key) : Prop := ∃ a, A a ∧ p <+: a

theorem Has.of_prefix {A : Key → Prop} {p q : Key} (h : Has A q) (hp : p <+: q) : Has A p := by
  obtain ⟨a, ha, hq⟩ := h
  exact ⟨a, ha, hp.trans hq⟩

/-- The children of the node of `p`. -/
def Child (A : Key → Prop) (p : Key) (b : Nat) : Prop := ∃ c : UInt8, c.toNat = b ∧ Has A (p ++ [c])

/-- The node of `p`. -/
structure MetaOK (A : Key → Prop) (p : Key) (m : Meta) : Prop where
  left : A m.lmost
  leftPre : p <+: m.lmost
  leftLe : ∀ a, A a → p <+: a → keyLe m.lmost a = true
  right : A m.rmost
  rightPre : p <+: m.rmost
  rightLe : ∀ a, A a → p <+: a → keyLe a m.rmost = true
  path : Owns A p m.lpath
  kids : Kids m (Child A p)

/-- A node with one leaf has at most one child, so it is small. -/
theorem MetaOK.slim {A : Key → Prop} {p : Key} {m : Meta} (ok : MetaOK A p m) (h : m.lmost = m.rmost) : m.bitmap = none := by
  refine ok.kids.slim ?_
  rcases ok.kids.out with ⟨h1, h2, -⟩ | ⟨⟨c, h1, a, ha, hpa⟩, ⟨d, h2, b, hb, hpb⟩, -, -⟩
  · rw [h1, h2]
  · have eq : ∀ x, A x → p <+: x → x = m.lmost := fun x hx hp => keyLe_antisymm (h ▸ ok.rightLe x hx hp) (ok.leftLe x hx hp)
    have e1 := eq a ha ((List.prefix_append _ _).trans hpa)
    have e2 := eq b hb ((List.prefix_append _ _).trans hpb)
    subst e1
    rw [e2] at hpb
    have := List.prefix_of_prefix_length_le hpa hpb (by simp)
    have := List.append_cancel_left (this.eq_of_length (by simp))
    cases this
    rw [← h1, ← h2]

/-- The index of the anchors `A`. -/
structure IdxOK (x : Index) (A : Key → Prop) : Prop where
  node : ∀ p, Has A p → ∃ m, x.get p = some m ∧ MetaOK A p m
  none : ∀ p, ¬ Has A p → x.get p = none
  len : ∀ a, A a → a.length ≤ x.maxplen

variable {x : Index} {A : Key → Prop} {key : Key}

theorem IdxOK.get (h : IdxOK x A) {p : Key} {m : Meta} (hg : x.get p = some m) : Has A p ∧ MetaOK A p m := by
  by_cases hp : Has A p
  · obtain ⟨m', e, ok⟩ := h.node p hp
    rw [hg] at e
    cases e
    exact ⟨hp, ok⟩
  · rw [h.none p hp] at hg; cases hg

theorem IdxOK.none_iff (h : IdxOK x A) {p : Key} : x.get p = Option.none ↔ ¬ Has A p := by
  refine ⟨fun hg hp => ?_, h.none p⟩
  obtain ⟨m, e, _⟩ := h.node p hp
  rw [hg] at e; cases e

/-- Length of the longest prefix of `key` in the index. -/
structure Longest (A : Key → Prop) (key : Key) (n : Nat) : Prop where
  le : n ≤ key.length
  has : Has A (key.take n)
  max : ∀ i ≤ key.length, Has A (key.take i) → i ≤ n

theorem Longest.has_le {n i : Nat} (h : Longest A key n) (hi : i ≤ n) : Has A (key.take i) := by
  refine h.has.of_prefix ?_
  have : key.take i = (key.take n).take i := by rw [List.take_take, Nat.min_eq_left hi]
  rw [this]
  exact List.take_prefix _ _

theorem exists_longest (h0 : Has A []) (key : Key) : ∃ n, Longest A key n := by
  classical
  have h := Nat.findGreatest_spec (P := fun i => Has A (key.take i)) (Nat.zero_le key.length) (by simpa using h0)
  exact ⟨_, Nat.findGreatest_le _, h, fun i hi hp => Nat.le_findGreatest hi hp⟩

theorem IdxOK.longest_le (h : IdxOK x A) {n : Nat} (hn : Longest A key n) : n ≤ x.maxplen := by
  obtain ⟨a, ha, hp⟩ := hn.has
  have h1 := h.len a ha
  have h2 := hp.length_le
  rw [List.length_take, Nat.min_eq_left hn.le] at h2
  omega

theorem lcpPeek_spec {peek : Key → Bool} {n : Nat} (hn : Longest A key n) (hp : ∀ p, Has A p → peek p = true) :
    ∀ fuel lo gd, gd ≤ fuel → 1 ≤ gd → lo + gd ≤ key.length + 1 → n < lo + gd →
      n ≤ lcpPeek peek key fuel lo gd ∧ lcpPeek peek key fuel lo gd < lo + gd
  | 0, lo, gd, h1, h2, _, _ => by omega
  | fuel + 1, lo, gd, h1, h2, h3, h4 => by
    rw [lcpPeek]
    by_cases hg : 1 < gd
    · rw [if_pos hg]
      dsimp only
      have hinc : 1 ≤ (if 7 < gd then gd / 8 * 4 else gd / 2) ∧ (if 7 < gd then gd / 8 * 4 else gd / 2) < gd := by
        by_cases h7 : 7 < gd
        · rw [if_pos h7]; omega
        · rw [if_neg h7]; omega
      generalize (if 7 < gd then gd / 8 * 4 else gd / 2) = inc at *
      by_cases hpk : peek (key.take (lo + inc)) = true
      · rw [if_pos hpk]
        have := lcpPeek_spec hn hp fuel (lo + inc) (gd - inc) (by omega) (by omega) (by omega) (by omega)
        omega
      · rw [if_neg hpk]
        have hlt : n < lo + inc := by
          by_contra hc
          exact hpk (hp _ (hn.has_le (by omega)))
        have := lcpPeek_spec hn hp fuel lo inc (by omega) (by omega) (by omega) hlt
        omega
    · rw [if_neg hg]; omega

theorem take_get {key : Key} {i : Nat} {b : UInt8} (h : key[i]? = some b) : key.take (i + 1) = key.take i ++ [b] := by
  rw [List.take_add_one, h]; rfl

theorem child_iff {p : Key} {b : UInt8} : Child A p b.toNat ↔ Has A (p ++ [b]) := by
  constructor
  · rintro ⟨c, hc, h⟩
    rwa [UInt8.toNat_inj.1 hc] at h
  · exact fun h => ⟨b, rfl, h⟩

theorem lcpExact_spec (h : IdxOK x A) {n : Nat} (hn : Longest A key n) :
    ∀ fuel lo gd, gd < fuel → lo ≤ n → n < lo + gd → lo + gd ≤ key.length →
      ∃ m, lcpExact x key fuel lo gd = .ok (n, m) ∧ x.get (key.take n) = some m
  | 0, _, _, h1, _, _, _ => by omega
  | fuel + 1, lo, gd, h1, h2, h3, h4 => by
    rw [lcpExact]
    by_cases hg : 1 < gd
    · rw [if_pos hg]
      dsimp only
      have hinc : 1 ≤ gd * 3 / 4 ∧ gd * 3 / 4 < gd := by omega
      generalize gd * 3 / 4 = inc at *
      cases e : x.get (key.take (lo + inc)) with
      | none =>
        dsimp only
        have hlt : n < lo + inc := by
          by_contra hc
          exact (h.none_iff.1 e) (hn.has_le (by omega))
        exact lcpExact_spec h hn fuel lo inc (by omega) h2 hlt (by omega)
      | some m =>
        dsimp only
        obtain ⟨hh, ok⟩ := h.get e
        have hle := hn.max _ (by omega) hh
        have hb : lo + inc < key.length := by omega
        obtain ⟨b, eb⟩ : ∃ b, key[lo + inc]? = some b := ⟨_, List.getElem?_eq_getElem hb⟩
        rw [eb]
        dsimp only
        obtain ⟨t, et, ht⟩ := ok.kids.test (id := b.toNat) (UInt8.toNat_lt _)
        rw [et, Res.bind_ok]
        rw [child_iff, ← take_get eb] at ht
        by_cases htt : t = true
        · rw [if_pos htt]
          have := hn.max _ (by omega) (ht.1 htt)
          exact lcpExact_spec h hn fuel (lo + inc + 1) (gd - inc - 1) (by omega) this (by omega) (by omega)
        · rw [if_neg htt]
          have : n = lo + inc := by
            by_contra hc
            exact htt (ht.2 (hn.has_le (by omega)))
          rw [this]
          exact ⟨m, rfl, e⟩
    · rw [if_neg hg]
      have : n = lo := by omega
      subst this
      obtain ⟨m, e, _⟩ := h.node _ hn.has
      rw [e]
      exact ⟨m, rfl, rfl⟩

theorem metaLcp_spec (h : IdxOK x A) {peek : Key → Bool} (hp : ∀ p, Has A p → peek p = true) {n : Nat} (hn : Longest A key n) :
    ∃ m, metaLcp peek x key = .ok (n, m) ∧ x.get (key.take n) = some m := by
  unfold metaLcp
  have hl := h.longest_le hn
  have hle := hn.le
  have hm : (if x.maxplen < key.length then x.maxplen else key.length) = min x.maxplen key.length := by
    by_cases hc : x.maxplen < key.length
    · rw [if_pos hc]; omega
    · rw [if_neg hc]; omega
  rw [hm]
  dsimp only
  have hs := lcpPeek_spec hn hp (min x.maxplen key.length + 1) 0 (min x.maxplen key.length + 1) (Nat.le_refl _) (by omega)
    (by omega) (by omega)
  generalize lcpPeek peek key (min x.maxplen key.length + 1) 0 (min x.maxplen key.length + 1) = lo at *
  cases e : x.get (key.take lo) with
  | some m =>
    dsimp only
    have := hn.max lo (by omega) (h.get e).1
    have hlo : lo = n := by omega
    subst hlo
    exact ⟨m, rfl, e⟩
  | none =>
    dsimp only
    have hlt : n < lo := by
      by_contra hc
      exact (h.none_iff.1 e) (hn.has_le (by omega))
    exact lcpExact_spec h hn (lo + 1) 0 lo (by omega) (by omega) (by omega) (by omega)

theorem metaDown_spec (h : IdxOK x A) {n : Nat} (hn : Longest A key n) {m : Meta} (hg : x.get (key.take n) = some m) :
    ∃ r, metaDown x key n m = .ok r ∧ Owns A key r := by
  obtain ⟨hh, ok⟩ := h.get hg
  unfold metaDown
  cases e : key[n]? with
  | none =>
    dsimp only
    have hk : key.take n = key := List.take_of_length_le (List.getElem?_eq_none_iff.1 e)
    have := ok.path
    rw [hk] at this
    exact ⟨_, rfl, this⟩
  | some d =>
    dsimp only
    have hlt : n < key.length := (List.getElem?_eq_some_iff.1 e).1
    have hkey : key = key.take n ++ d :: key.drop (n + 1) := by
      have h1 := List.take_append_drop n key
      rw [List.drop_eq_getElem_cons hlt, (List.getElem?_eq_some_iff.1 e).2] at h1
      exact h1.symm
    have hno : ¬ Has A (key.take n ++ [d]) := by
      rw [← take_get e]
      intro hc
      have := hn.max _ (by omega) hc
      omega
    generalize key.take n = p at *
    -- the anchors below the key
    have below : ∀ a, A a → keyLe a key = true → keyLe a p = true ∨ ∃ c s, a = p ++ c :: s ∧ c < d ∧ Child A p c.toNat := by
      intro a ha hle
      rw [hkey] at hle
      rcases keyLe_cases hle with h1 | ⟨c, s, rfl, h1⟩
      · exact Or.inl h1
      · have hc : Has A (p ++ [c]) := ⟨_, ha, ⟨s, by simp⟩⟩
        rcases h1 with h1 | rfl
        · exact Or.inr ⟨c, s, rfl, h1, child_iff.2 hc⟩
        · exact absurd hc hno
    have hpk : keyLe p key = true := by rw [hkey]; exact keyLe_prefix (List.prefix_append _ _)
    have hd := UInt8.toNat_lt d
    have hnd : ¬ Child A p d.toNat := fun hc => hno (child_iff.1 hc)
    -- an anchor that extends `p` by a smaller byte, or is `p`
    have under : ∀ a, p <+: a → (∀ c s, a = p ++ c :: s → c < d) → keyLe a key = true := by
      rintro a ⟨t, rfl⟩ hc
      cases t with
      | nil => simpa using hpk
      | cons c s => rw [hkey]; exact keyLe_below p (hc c s rfl) _ _
    by_cases h1 : m.bitmin > d.toNat
    · rw [if_pos h1]
      refine ⟨_, rfl, ok.path.1, keyLe_trans ok.path.2.1 hpk, fun a ha hle => ?_⟩
      rcases below a ha hle with hb | ⟨c, s, rfl, hc, hch⟩
      · exact ok.path.2.2 a ha hb
      · rcases ok.kids.out with ⟨_, _, hz⟩ | ⟨_, _, hz, _⟩
        · exact absurd hch (hz _)
        · have := hz _ hch
          have := UInt8.lt_iff_toNat_lt.1 hc
          omega
    · rw [if_neg h1]
      rcases ok.kids.out with ⟨hm, _, _⟩ | ⟨k1, k2, k3, k4⟩
      · omega
      · by_cases h2 : m.bitmax < d.toNat
        · rw [if_pos h2]
          refine ⟨_, rfl, ok.right, under _ ok.rightPre fun c s hc => ?_, fun a ha hle => ?_⟩
          · have hch : Child A p c.toNat := child_iff.2 ⟨_, ok.right, ⟨s, by rw [hc]; simp⟩⟩
            have := k3 _ hch
            exact UInt8.lt_iff_toNat_lt.2 (by omega)
          · rcases below a ha hle with hb | ⟨c, s, rfl, hc, hch⟩
            · exact keyLe_trans hb (keyLe_prefix ok.rightPre)
            · exact ok.rightLe _ ha (List.prefix_append _ _)
        · rw [if_neg h2]
          have n1 : m.bitmin ≠ d.toNat := fun e => hnd (e ▸ k1)
          have n2 : m.bitmax ≠ d.toNat := fun e => hnd (e ▸ k2)
          obtain ⟨B, hB, hb⟩ := k4 (by omega)
          rw [hB]
          dsimp only
          rcases bmLt_spec B hd with ⟨c1, c3, c4⟩ | ⟨c1, c2⟩
          · rw [hb] at c3
            generalize bmLt B d.toNat = j at *
            obtain ⟨c, rfl, hc⟩ := c3
            have hof : UInt8.ofNat c.toNat = c := by simp
            rw [hof]
            obtain ⟨m', em, ok'⟩ := h.node _ hc
            rw [em]
            dsimp only
            have hpre : p <+: m'.rmost := (List.prefix_append p [c]).trans ok'.rightPre
            refine ⟨_, rfl, ok'.right, under _ hpre fun c' s hc' => ?_, fun a ha hle => ?_⟩
            · have hp' := ok'.rightPre
              rw [hc', List.prefix_append_right_inj, List.cons_prefix_cons] at hp'
              rw [← hp'.1]
              exact UInt8.lt_iff_toNat_lt.2 c1
            · rcases below a ha hle with hb' | ⟨c', s, rfl, hc', hch⟩
              · exact keyLe_trans hb' (keyLe_prefix hpre)
              · by_cases hcc : c' = c
                · subst hcc
                  exact ok'.rightLe _ ha ⟨s, by simp⟩
                · have hlt' : c' < c := by
                    rw [UInt8.lt_iff_toNat_lt] at hc' ⊢
                    by_contra hcon
                    have hne : c'.toNat ≠ c.toNat := fun e => hcc (UInt8.toNat_inj.1 e)
                    have := c4 c'.toNat (by omega) hc'
                    rw [← Bool.not_eq_true, hb] at this
                    exact this hch
                  obtain ⟨s', hs'⟩ := ok'.rightPre
                  rw [← hs', List.append_assoc]
                  exact keyLe_below p hlt' _ _
          · have := c2 m.bitmin (by omega)
            rw [← Bool.not_eq_true, hb] at this
            exact absurd k1 this

/-- The index finds the leaf of the key, whatever the tags in the hash table answer for prefixes that are not there. -/
theorem indexJump_spec (h : IdxOK x A) (h0 : A []) {peek : Key → Bool} (hp : ∀ p, Has A p → peek p = true) (key : Key) :
    ∃ r, indexJump peek x key = .ok r ∧ Owns A key r := by
  obtain ⟨n, hn⟩ := exists_longest (A := A) ⟨[], h0, List.nil_prefix⟩ key
  obtain ⟨m, e, hg⟩ := metaLcp_spec h hp hn
  obtain ⟨r, e', hr⟩ := metaDown_spec h hn hg
  exact ⟨r, by unfold indexJump; rw [e, Res.bind_ok]; exact e', hr⟩

end Verif
