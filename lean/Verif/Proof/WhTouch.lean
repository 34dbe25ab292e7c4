import Verif.Proof.WhLookup

/-!
# Changes of the index: a new leaf
-/

namespace Verif

/-! ## The loops, prefix by prefix -/

theorem prefix_take {q a : Key} (h : q <+: a) : a.take q.length = q := (List.prefix_iff_eq_take.1 h).symm

theorem take_len {a : Key} {i : Nat} (h : i ≤ a.length) : (a.take i).length = i := by rw [List.length_take]; omega

theorem prefix_eq {q a : Key} {i : Nat} (h : q <+: a) (hl : q.length = i) : q = a.take i := by
  rw [← hl]; exact (prefix_take h).symm

theorem Index.put_get (x : Index) (p : Key) (m : Option Meta) (q : Key) :
    (x.put p m).get q = if q = p then m else x.get q := rfl

theorem lpathLoop_spec (a2 r : Key) : ∀ fuel i (x : Index), 0 < fuel → a2.length < fuel + i →
    (∀ j, i ≤ j → j < a2.length → x.get (a2.take j) ≠ none) →
    ∃ x', lpathLoop a2 r fuel i x = .ok x' ∧ x'.maxplen = x.maxplen ∧ ∀ q, x'.get q =
      if q <+: a2 ∧ i ≤ q.length ∧ q.length < a2.length then (x.get q).map (fun m => { m with lpath := r }) else x.get q
  | 0, _, x, h1, _, _ => absurd h1 (Nat.lt_irrefl _)
  | fuel + 1, i, x, h1, h2, h3 => by
    rw [lpathLoop]
    by_cases hi : i < a2.length
    · rw [if_pos hi]
      obtain ⟨m, e⟩ : ∃ m, x.get (a2.take i) = some m := Option.ne_none_iff_exists'.1 (h3 i (Nat.le_refl _) hi)
      rw [e]
      dsimp only
      obtain ⟨x', e', hm, hq⟩ := lpathLoop_spec a2 r fuel (i + 1) (x.put (a2.take i) (some { m with lpath := r })) (by omega)
        (by omega) (by
          intro j hj hj2
          rw [Index.put_get, if_neg]
          · exact h3 j (by omega) hj2
          · intro hc
            have := congrArg List.length hc
            rw [take_len (by omega), take_len (by omega)] at this
            omega)
      refine ⟨x', e', hm, fun q => ?_⟩
      rw [hq q, Index.put_get]
      by_cases hc : q = a2.take i
      · have hl : q.length = i := by rw [hc, take_len (by omega)]
        rw [if_neg (by omega), if_pos hc, if_pos ⟨hc ▸ List.take_prefix _ _, by omega, by omega⟩, hc, e]
        rfl
      · rw [if_neg hc]
        by_cases hp : q <+: a2 ∧ i ≤ q.length ∧ q.length < a2.length
        · rw [if_pos hp, if_pos]
          refine ⟨hp.1, ?_, hp.2.2⟩
          have : q.length ≠ i := fun hl => hc (prefix_eq hp.1 hl)
          omega
        · rw [if_neg hp, if_neg]
          exact fun h => hp ⟨h.1, by omega, h.2.2⟩
    · rw [if_neg hi]
      refine ⟨x, rfl, rfl, fun q => ?_⟩
      rw [if_neg (by omega)]

theorem touchLoop_spec (a prev : Key) (next : Option Key) : ∀ fuel i (x : Index), a.length < fuel + i → i ≤ a.length →
    (∀ j, i ≤ j → j ≤ a.length → ∃ m, touchMeta a prev next j (x.get (a.take j)) = .ok m) →
    ∃ x', touchLoop a prev next fuel i x = .ok x' ∧ x'.maxplen = max x.maxplen a.length ∧ ∀ q,
      ((q <+: a ∧ i ≤ q.length) → ∃ m, touchMeta a prev next q.length (x.get q) = .ok m ∧ x'.get q = some m) ∧
      (¬ (q <+: a ∧ i ≤ q.length) → x'.get q = x.get q)
  | 0, i, x, h1, h2, _ => ⟨x, by omega⟩
  | fuel + 1, i, x, h1, h2, h3 => by
    rw [touchLoop]
    obtain ⟨m, e⟩ := h3 i (Nat.le_refl _) h2
    rw [e, Res.bind_ok]
    dsimp only
    by_cases hi : i ≥ a.length
    · rw [if_pos hi]
      refine ⟨_, rfl, ?_, fun q => ?_⟩
      · show (if i > x.maxplen then i else x.maxplen) = _
        by_cases hc : i > x.maxplen
        · rw [if_pos hc]; omega
        · rw [if_neg hc]; omega
      · show (_ → ∃ m, _ ∧ (x.put _ _).get q = _) ∧ (_ → (x.put _ _).get q = _)
        rw [Index.put_get]
        constructor
        · rintro ⟨hp, hl⟩
          have hle := hp.length_le
          have : q = a.take i := prefix_eq hp (by omega)
          rw [if_pos this]
          refine ⟨m, ?_, rfl⟩
          rw [this, take_len h2]
          exact e
        · intro hn
          rw [if_neg]
          intro hc
          exact hn ⟨hc ▸ List.take_prefix _ _, by rw [hc, take_len h2]⟩
    · rw [if_neg hi]
      obtain ⟨x', e', hm, hq⟩ := touchLoop_spec a prev next fuel (i + 1) (x.put (a.take i) (some m)) (by omega)
        (by omega) (by
          intro j hj hj2
          rw [Index.put_get, if_neg]
          · exact h3 j (by omega) hj2
          · intro hc
            have := congrArg List.length hc
            rw [take_len (by omega), take_len (by omega)] at this
            omega)
      refine ⟨x', e', hm, fun q => ?_⟩
      obtain ⟨q1, q2⟩ := hq q
      rw [Index.put_get] at q1 q2
      by_cases hc : q = a.take i
      · have hl : q.length = i := by rw [hc, take_len h2]
        rw [if_pos hc] at q2
        have hget := q2 (by omega)
        constructor
        · intro _
          refine ⟨m, ?_, hget⟩
          rw [hl, hc]
          exact e
        · exact fun hn => absurd ⟨hc ▸ List.take_prefix _ _, by omega⟩ hn
      · rw [if_neg hc] at q1 q2
        constructor
        · rintro ⟨hp, hl⟩
          have : q.length ≠ i := fun hl => hc (prefix_eq hp hl)
          exact q1 ⟨hp, by omega⟩
        · exact fun hn => q2 fun h => hn ⟨h.1, by omega⟩

/-! ## A gap between two anchors -/

/-- `a` lies between the neighbours `prev` and `next` in `A`. -/
structure Gap (A : Key → Prop) (prev a : Key) (next : Option Key) : Prop where
  prevA : A prev
  prevLt : keyLt prev a = true
  nextA : ∀ n, next = some n → A n ∧ keyLt a n = true
  cover : ∀ b, A b → keyLe b prev = true ∨ ∃ n, next = some n ∧ keyLe n b = true

/-- The anchors with `a`. -/
def With (A : Key → Prop) (a : Key) : Key → Prop := fun b => A b ∨ b = a

variable {x : Index} {A : Key → Prop} {prev a : Key} {next : Option Key} {p : Key}

theorem Gap.notA (g : Gap A prev a next) : ¬ A a := by
  intro h
  rcases g.cover a h with h1 | ⟨n, hn, h1⟩
  · exact keyLt_le_absurd g.prevLt h1
  · exact keyLt_le_absurd (g.nextA n hn).2 h1

/-- Every other anchor is not above `prev` or not below `next`. -/
theorem Gap.above (g : Gap A prev a next) {b : Key} (hb : A b) (h : keyLe a b = true) : ∃ n, next = some n ∧ keyLe n b = true := by
  rcases g.cover b hb with h1 | h1
  · exact (keyLt_le_absurd (keyLt_of_le_of_lt h1 g.prevLt) h).elim
  · exact h1

theorem Gap.below (g : Gap A prev a next) {b : Key} (hb : A b) (h : keyLe b a = true) : keyLe b prev = true := by
  rcases g.cover b hb with h1 | ⟨n, hn, h1⟩
  · exact h1
  · exact (keyLt_le_absurd (keyLt_of_lt_of_le (g.nextA n hn).2 h1) h).elim

/-- A prefix of `a` and of an anchor above is one of `next`. -/
theorem Gap.pre_next (g : Gap A prev a next) (hp : p <+: a) {b : Key} (hb : A b) (hpb : p <+: b) (h : keyLe a b = true) :
    ∃ n, next = some n ∧ p <+: n ∧ keyLe n b = true := by
  obtain ⟨n, hn, hle⟩ := g.above hb h
  exact ⟨n, hn, prefix_convex hp hpb (keyLt_keyLe (g.nextA n hn).2) hle, hle⟩

theorem Gap.pre_prev (g : Gap A prev a next) (hp : p <+: a) {b : Key} (hb : A b) (hpb : p <+: b) (h : keyLe b a = true) :
    p <+: prev ∧ keyLe b prev = true := by
  have hle := g.below hb h
  exact ⟨prefix_convex hpb hp hle (keyLt_keyLe g.prevLt), hle⟩

/-- A prefix of `a` that is none of `prev` is above `prev`. -/
theorem Gap.prev_lt (g : Gap A prev a next) (hp : p <+: a) (hn : ¬ p <+: prev) : keyLe prev p = true := by
  rcases keyLe_total prev p with h | h
  · exact h
  · exact absurd (prefix_convex (List.prefix_refl p) hp h (keyLt_keyLe g.prevLt)) hn

theorem has_with (h : ¬ p <+: a) : Has (With A a) p ↔ Has A p := by
  constructor
  · rintro ⟨b, hb | rfl, hp⟩
    · exact ⟨b, hb, hp⟩
    · exact absurd hp h
  · rintro ⟨b, hb, hp⟩
    exact ⟨b, Or.inl hb, hp⟩

theorem has_with_pre (h : p <+: a) : Has (With A a) p := ⟨a, Or.inr rfl, h⟩

theorem child_with_out (h : ¬ p <+: a) (b : Nat) : Child (With A a) p b ↔ Child A p b := by
  refine exists_congr fun c => and_congr Iff.rfl (has_with fun hc => h ((List.prefix_append _ _).trans hc))

theorem child_with_end (b : Nat) : Child (With A a) a b ↔ Child A a b := by
  refine exists_congr fun c => and_congr Iff.rfl (has_with fun hc => ?_)
  have := hc.length_le
  rw [List.length_append, List.length_singleton] at this
  omega

theorem prefix_next {c : UInt8} (h : p <+: a) (hc : a[p.length]? = some c) (d : UInt8) : p ++ [d] <+: a ↔ d = c := by
  obtain ⟨t, rfl⟩ := h
  rw [List.getElem?_append_right (Nat.le_refl _), Nat.sub_self] at hc
  rw [List.prefix_append_right_inj]
  cases t with
  | nil => cases hc
  | cons e t =>
    cases hc
    rw [List.cons_prefix_cons]
    exact ⟨And.left, fun h => ⟨h, List.nil_prefix⟩⟩

theorem child_with {c : UInt8} (h : p <+: a) (hc : a[p.length]? = some c) (b : Nat) :
    Child (With A a) p b ↔ Child A p b ∨ b = c.toNat := by
  constructor
  · rintro ⟨d, hd, e, he | rfl, hp⟩
    · exact Or.inl ⟨d, hd, e, he, hp⟩
    · rw [prefix_next h hc] at hp
      exact Or.inr (by rw [← hd, hp])
  · rintro (⟨d, hd, e, he, hp⟩ | rfl)
    · exact ⟨d, hd, e, Or.inl he, hp⟩
    · exact ⟨c, rfl, has_with_pre ((prefix_next h hc c).2 rfl)⟩

theorem prefix_end (h : p <+: a) (hc : a[p.length]? = none) : p = a :=
  h.eq_of_length_le (List.getElem?_eq_none_iff.1 hc)

/-- A proper prefix of `a` belongs where it belonged. -/
theorem owns_with {r : Key} (ho : Owns A p r) (h : keyLe a p = true → keyLe a r = true) : Owns (With A a) p r := by
  refine ⟨Or.inl ho.1, ho.2.1, ?_⟩
  rintro b (hb | rfl) hle
  · exact ho.2.2 b hb hle
  · exact h hle

theorem owns_without {r : Key} (ho : Owns (With A a) p r) (h : r ≠ a) : Owns A p r :=
  ⟨ho.1.resolve_right h, ho.2.1, fun b hb hle => ho.2.2 b (Or.inl hb) hle⟩

theorem not_le_prefix (h : p <+: a) (hne : p ≠ a) : ¬ keyLe a p = true :=
  fun hc => hne (keyLe_antisymm (keyLe_prefix h) hc)

/-! ## The node of a prefix of the new anchor -/

theorem touch_new (g : Gap A prev a next) (hp : p <+: a) (hn : ¬ Has A p) :
    ∃ m, touchMeta a prev next p.length none = .ok m ∧ MetaOK (With A a) p m := by
  have hprev : ¬ p <+: prev := fun hc => hn ⟨prev, g.prevA, hc⟩
  have only : ∀ b, With A a b → p <+: b → b = a := by
    rintro b (hb | rfl) hpb
    · exact absurd ⟨b, hb, hpb⟩ hn
    · rfl
  refine ⟨_, rfl, Or.inr rfl, hp, fun b hb hpb => ?_, Or.inr rfl, hp, fun b hb hpb => ?_, ?_, ?_⟩
  · rw [only b hb hpb]; exact keyLe_refl a
  · rw [only b hb hpb]; exact keyLe_refl a
  · dsimp only
    by_cases hl : a.length = p.length
    · rw [if_pos hl]
      have : p = a := hp.eq_of_length hl.symm
      rw [this]
      exact ⟨Or.inr rfl, keyLe_refl a, fun b _ hb => hb⟩
    · rw [if_neg hl]
      have hne : p ≠ a := fun e => hl (by rw [e])
      refine owns_with ⟨g.prevA, g.prev_lt hp hprev, fun b hb hle => g.below hb (keyLe_trans hle (keyLe_prefix hp))⟩
        fun hc => absurd hc (not_le_prefix hp hne)
  · have hno : ∀ b, ¬ Child A p b := by
      rintro b ⟨c, _, hc⟩
      exact hn (hc.of_prefix (List.prefix_append _ _))
    cases hc : a[p.length]? with
    | none =>
      have := prefix_end hp hc
      subst this
      refine Kids.congr (S := Child A p) ⟨fun b hb => absurd hb (hno b), Or.inl ⟨rfl, rfl, hno⟩, fun _ => rfl⟩ fun b => (child_with_end b).symm
    | some c =>
      refine Kids.congr (S := fun b => b = c.toNat) ?_ fun b => ?_
      · exact ⟨fun b hb => hb ▸ UInt8.toNat_lt c, Or.inr ⟨rfl, rfl, fun b hb => by dsimp only; omega,
          fun hl => absurd hl (Nat.lt_irrefl _)⟩, fun _ => rfl⟩
      · rw [child_with hp hc]
        exact ⟨Or.inr, fun h => h.resolve_left (hno b)⟩

theorem touch_old (g : Gap A prev a next) (hp : p <+: a) {m : Meta} (ok : MetaOK A p m) :
    ∃ m', touchMeta a prev next p.length (some m) = .ok m' ∧ MetaOK (With A a) p m' := by
  -- the bit of the child
  obtain ⟨m1, e1, k1, s1⟩ : ∃ m1, m.touchBit a[p.length]? = .ok m1 ∧ Kids m1 (Child (With A a) p) ∧ SameEnds m m1 := by
    cases hc : a[p.length]? with
    | none =>
      have := prefix_end hp hc
      subst this
      exact ⟨m, rfl, ok.kids.congr fun b => (child_with_end b).symm, rfl, rfl, rfl⟩
    | some c =>
      obtain ⟨m1, e, k, s⟩ := ok.kids.setHelper (UInt8.toNat_lt c)
      exact ⟨m1, e, k.congr fun b => (child_with hp hc b).symm, s⟩
  unfold touchMeta
  dsimp only
  rw [e1, Res.bind_ok]
  obtain ⟨s1, s2, s3⟩ := s1
  -- where the old ends lie
  have hL : some m.lmost = next ∨ keyLe m.lmost prev = true := by
    rcases g.cover _ ok.left with h | ⟨n, hn, h⟩
    · exact Or.inr h
    · obtain ⟨n', hn', hpn, _⟩ := g.pre_next hp ok.left ok.leftPre (keyLe_trans (keyLt_keyLe (g.nextA n hn).2) h)
      rw [hn] at hn'
      cases hn'
      have := ok.leftLe n (g.nextA n hn).1 hpn
      rw [hn, keyLe_antisymm this h]
      exact Or.inl rfl
  have hR : m.rmost = prev ∨ ∃ n, next = some n ∧ keyLe n m.rmost = true := by
    rcases g.cover _ ok.right with h | h
    · have := g.pre_prev hp ok.right ok.rightPre (keyLe_trans h (keyLt_keyLe g.prevLt))
      exact Or.inl (keyLe_antisymm h (ok.rightLe prev g.prevA this.1))
    · exact Or.inr h
  by_cases c1 : some m1.lmost = next
  · rw [if_pos c1]
    rw [s1] at c1
    have hn := g.nextA m.lmost c1.symm
    have hprev : ¬ p <+: prev := fun hc =>
      keyLt_le_absurd (keyLt_trans' g.prevLt hn.2) (ok.leftLe prev g.prevA hc)
    refine ⟨_, rfl, Or.inr rfl, hp, ?_, ?_, ?_, ?_, ?_, k1.fields rfl rfl rfl⟩
    · rintro b (hb | rfl) hpb
      · exact keyLe_trans (keyLt_keyLe hn.2) (ok.leftLe b hb hpb)
      · exact keyLe_refl _
    · show With A a m1.rmost
      rw [s2]; exact Or.inl ok.right
    · show p <+: m1.rmost
      rw [s2]; exact ok.rightPre
    · show ∀ b, _ → _ → keyLe b m1.rmost = true
      rw [s2]
      rintro b (hb | rfl) hpb
      · exact ok.rightLe b hb hpb
      · exact keyLe_trans (keyLt_keyLe hn.2) (ok.leftLe _ ok.right ok.rightPre)
    · show Owns _ _ (if a.length = p.length then a else prev)
      by_cases hl : a.length = p.length
      · rw [if_pos hl]
        have : p = a := hp.eq_of_length hl.symm
        rw [this]
        exact ⟨Or.inr rfl, keyLe_refl a, fun b _ hb => hb⟩
      · rw [if_neg hl]
        have hne : p ≠ a := fun e => hl (by rw [e])
        refine owns_with ⟨g.prevA, g.prev_lt hp hprev, fun b hb hle => g.below hb (keyLe_trans hle (keyLe_prefix hp))⟩
          fun hc => absurd hc (not_le_prefix hp hne)
  · rw [if_neg c1]
    rw [s1] at c1
    have hle := hL.resolve_left c1
    have hla := keyLe_trans hle (keyLt_keyLe g.prevLt)
    have hne : p ≠ a := by
      rintro rfl
      exact keyLt_le_absurd (keyLt_of_le_of_lt hle g.prevLt) (keyLe_prefix ok.leftPre)
    have hpath : Owns (With A a) p m1.lpath := by
      rw [s3]
      exact owns_with ok.path fun hc => absurd hc (not_le_prefix hp hne)
    have hleft : ∀ b, With A a b → p <+: b → keyLe m.lmost b = true := by
      rintro b (hb | rfl) hpb
      · exact ok.leftLe b hb hpb
      · exact hla
    by_cases c2 : m1.rmost = prev
    · rw [if_pos c2]
      rw [s2] at c2
      refine ⟨_, rfl, ?_, ?_, ?_, Or.inr rfl, hp, ?_, hpath, k1.fields rfl rfl rfl⟩
      · show With A a m1.lmost
        rw [s1]; exact Or.inl ok.left
      · show p <+: m1.lmost
        rw [s1]; exact ok.leftPre
      · show ∀ b, _ → _ → keyLe m1.lmost b = true
        rw [s1]; exact hleft
      · rintro b (hb | rfl) hpb
        · have := ok.rightLe b hb hpb
          rw [c2] at this
          exact keyLe_trans this (keyLt_keyLe g.prevLt)
        · exact keyLe_refl _
    · rw [if_neg c2]
      rw [s2] at c2
      obtain ⟨n, hn, hnr⟩ := hR.resolve_left c2
      refine ⟨_, rfl, ?_, ?_, ?_, ?_, ?_, ?_, hpath, k1⟩
      · rw [s1]; exact Or.inl ok.left
      · rw [s1]; exact ok.leftPre
      · rw [s1]; exact hleft
      · rw [s2]; exact Or.inl ok.right
      · rw [s2]; exact ok.rightPre
      · rw [s2]
        rintro b (hb | rfl) hpb
        · exact ok.rightLe b hb hpb
        · exact keyLe_trans (keyLt_keyLe (g.nextA n hn).2) hnr

/-! ## Longest common prefixes -/

theorem lcp_prefix : ∀ a b : Key, a.take (keyLcp a b) = b.take (keyLcp a b)
  | [], b => by cases b <;> rfl
  | _ :: _, [] => rfl
  | x :: a, y :: b => by
    unfold keyLcp
    by_cases h : x = y
    · rw [if_pos h, List.take_succ_cons, List.take_succ_cons, lcp_prefix a b, h]
    · rw [if_neg h]; rfl

theorem lcp_le_left : ∀ a b : Key, keyLcp a b ≤ a.length
  | [], b => by cases b <;> simp [keyLcp]
  | _ :: _, [] => by simp [keyLcp]
  | x :: a, y :: b => by
    unfold keyLcp
    by_cases h : x = y
    · rw [if_pos h]
      have := lcp_le_left a b
      simp only [List.length_cons]; omega
    · rw [if_neg h]; exact Nat.zero_le _

theorem lcp_le_right : ∀ a b : Key, keyLcp a b ≤ b.length
  | [], b => by cases b <;> simp [keyLcp]
  | _ :: _, [] => by simp [keyLcp]
  | x :: a, y :: b => by
    unfold keyLcp
    by_cases h : x = y
    · rw [if_pos h]
      have := lcp_le_right a b
      simp only [List.length_cons]; omega
    · rw [if_neg h]; exact Nat.zero_le _

theorem le_lcp : ∀ {p a b : Key}, p <+: a → p <+: b → p.length ≤ keyLcp a b
  | [], _, _, _, _ => Nat.zero_le _
  | x :: p, a, b, h1, h2 => by
    obtain ⟨s, rfl⟩ := h1
    obtain ⟨t, rfl⟩ := h2
    rw [List.cons_append, List.cons_append, keyLcp, if_pos rfl]
    have := le_lcp (List.prefix_append p s) (List.prefix_append p t)
    simp only [List.length_cons]
    omega

/-- The prefixes of `b` that are prefixes of `a`. -/
theorem prefix_lcp {q : Key} (h : q <+: b) : q <+: a ↔ q.length ≤ keyLcp a b := by
  refine ⟨fun h1 => le_lcp h1 h, fun hl => ?_⟩
  have : q = a.take q.length := by
    have h1 := lcp_prefix a b
    have h2 := congrArg (List.take q.length) h1
    rw [List.take_take, List.take_take, Nat.min_eq_left hl] at h2
    rw [h2]; exact prefix_eq h rfl
  rw [this]
  exact List.take_prefix _ _

/-- First prefix that a change looks at. -/
def firstLen (prev : Key) : Option Key → Nat
  | some n => keyLcp prev n
  | none => 0

theorem Gap.firstLen_le (g : Gap A prev a next) : firstLen prev next ≤ a.length ∧ a.take (firstLen prev next) <+: prev ∧
    ∀ n, next = some n → a.take (firstLen prev next) <+: n := by
  cases hn : next with
  | none => exact ⟨Nat.zero_le _, List.nil_prefix, fun n h => by cases h⟩
  | some n =>
    have hq1 : n.take (keyLcp prev n) <+: n := List.take_prefix _ _
    have hq2 : n.take (keyLcp prev n) <+: prev := by rw [← lcp_prefix]; exact List.take_prefix _ _
    have hq3 := prefix_convex hq2 hq1 (keyLt_keyLe g.prevLt) (keyLt_keyLe (g.nextA n hn).2)
    have hl : (n.take (keyLcp prev n)).length = keyLcp prev n := take_len (lcp_le_right _ _)
    have heq := prefix_eq hq3 hl
    refine ⟨?_, ?_, ?_⟩
    · have := hq3.length_le
      rw [hl] at this
      exact this
    · show a.take (keyLcp prev n) <+: prev
      rw [← heq]; exact hq2
    · rintro n' h
      cases h
      show a.take (keyLcp prev n) <+: n
      rw [← heq]; exact hq1

/-- The node of a short prefix of `a` serves with and without `a`. -/
theorem Gap.short (g : Gap A prev a next) (hp : p <+: a) (hl : p.length < firstLen prev next) :
    (∀ b, Child (With A a) p b ↔ Child A p b) ∧ p ≠ a ∧ p <+: prev ∧ ∃ n, next = some n ∧ p <+: n := by
  obtain ⟨h1, h2, h3⟩ := g.firstLen_le
  have hpt : p <+: a.take (firstLen prev next) := by
    have := prefix_eq hp rfl
    rw [this, ← Nat.min_eq_left (Nat.le_of_lt hl), ← List.take_take]
    exact List.take_prefix _ _
  have hlt : p.length < a.length := by omega
  obtain ⟨n, hn⟩ : ∃ n, next = some n := by
    cases hn : next with
    | none => rw [hn] at hl; exact absurd hl (Nat.not_lt_zero _)
    | some n => exact ⟨n, rfl⟩
  refine ⟨fun b => ?_, fun e => by rw [e] at hlt; omega, hpt.trans h2, n, hn, hpt.trans (h3 n hn)⟩
  obtain ⟨c, hc⟩ : ∃ c, a[p.length]? = some c := ⟨_, List.getElem?_eq_getElem hlt⟩
  rw [child_with hp hc]
  refine ⟨fun h => h.elim id fun hb => ?_, Or.inl⟩
  refine ⟨c, hb.symm, prev, g.prevA, ?_⟩
  have hpc : p ++ [c] <+: a := (prefix_next hp hc c).2 rfl
  have : p ++ [c] = (a.take (firstLen prev next)).take (p.length + 1) := by
    rw [List.take_take, Nat.min_eq_left (by omega)]
    exact prefix_eq hpc (by simp)
  rw [this]
  exact (List.take_prefix _ _).trans h2

/-- The nodes of these prefixes get a new `lpath`. -/
theorem Gap.between (g : Gap A prev a next) (hh : Has A p) (h1 : keyLe a p = true) :
    ∃ n, next = some n ∧ (keyLe n p = true ∨ (p <+: n ∧ p.length < n.length)) := by
  obtain ⟨b, hb, hpb⟩ := hh
  obtain ⟨n, hn, hle⟩ := g.above hb (keyLe_trans h1 (keyLe_prefix hpb))
  refine ⟨n, hn, ?_⟩
  rcases keyLe_total n p with h | h
  · exact Or.inl h
  · have hpn := prefix_convex (List.prefix_refl p) hpb h hle
    by_cases he : p.length < n.length
    · exact Or.inr ⟨hpn, he⟩
    · rw [hpn.eq_of_length_le (by omega)]
      exact Or.inl (keyLe_refl _)

theorem Gap.lt_of_next (g : Gap A prev a next) (hp : ¬ p <+: a) {n : Key} (hn : next = some n) (hpn : p <+: n) :
    keyLe a p = true := by
  rcases keyLe_total a p with h | h
  · exact h
  · exact absurd (prefix_convex (List.prefix_refl p) hpn h (keyLt_keyLe (g.nextA n hn).2)) hp

/-- A node for a prefix that is none of `a` changes its `lpath` at most. -/
theorem metaOK_out (hp : ¬ p <+: a) {m : Meta} {r : Key} (hr : Owns (With A a) p r) :
    MetaOK A p m → MetaOK (With A a) p { m with lpath := r } := fun ok =>
  have sub : ∀ b, With A a b → p <+: b → A b := fun _ hb hpb => hb.resolve_right fun e => hp (e ▸ hpb)
  ⟨Or.inl ok.left, ok.leftPre, fun b hb hpb => ok.leftLe b (sub b hb hpb) hpb, Or.inl ok.right, ok.rightPre,
    fun b hb hpb => ok.rightLe b (sub b hb hpb) hpb, hr,
    (ok.kids.congr fun b => (child_with_out hp b).symm).fields rfl rfl rfl⟩

/-- `wormmeta_split` makes the index of the anchors with the new one. -/
theorem indexSplit_spec (h : IdxOK x A) (g : Gap A prev a next) (hf : ∀ n ∈ next, n.length ≤ pbufRoom) :
    ∃ x', indexSplit x prev a next = .ok x' ∧ IdxOK x' (With A a) := by
  obtain ⟨f1, f2, f3⟩ := g.firstLen_le
  -- the first loop
  have touch : ∀ q, q <+: a → ∃ m, touchMeta a prev next q.length (x.get q) = .ok m ∧ MetaOK (With A a) q m := by
    intro q hq
    by_cases hh : Has A q
    · obtain ⟨m, e, ok⟩ := h.node q hh
      rw [e]
      exact touch_old g hq ok
    · rw [h.none q hh]
      exact touch_new g hq hh
  obtain ⟨x1, e1, hm1, hq1⟩ := touchLoop_spec a prev next (a.length + 1) (firstLen prev next) x (by omega) f1 (by
    intro j _ hj
    obtain ⟨m, e, _⟩ := touch (a.take j) (List.take_prefix _ _)
    rw [take_len hj] at e
    exact ⟨m, e⟩)
  -- prefixes of the anchor
  have inner : ∀ q, q <+: a → ∃ m, x1.get q = some m ∧ MetaOK (With A a) q m := by
    intro q hq
    by_cases hl : firstLen prev next ≤ q.length
    · obtain ⟨m, e, e'⟩ := (hq1 q).1 ⟨hq, hl⟩
      obtain ⟨m', e2, ok⟩ := touch q hq
      rw [e] at e2
      cases e2
      exact ⟨m, e', ok⟩
    · obtain ⟨s1, s2, s3, n, hn, s4⟩ := g.short hq (by omega)
      obtain ⟨m, e, ok⟩ := h.node q ⟨prev, g.prevA, s3⟩
      refine ⟨m, by rw [(hq1 q).2 (by omega), e], Or.inl ok.left, ok.leftPre, ?_, Or.inl ok.right, ok.rightPre, ?_, ?_, ?_⟩
      · rintro b (hb | rfl) hpb
        · exact ok.leftLe b hb hpb
        · exact keyLe_trans (ok.leftLe prev g.prevA s3) (keyLt_keyLe g.prevLt)
      · rintro b (hb | rfl) hpb
        · exact ok.rightLe b hb hpb
        · exact keyLe_trans (keyLt_keyLe (g.nextA n hn).2) (ok.rightLe n (g.nextA n hn).1 s4)
      · exact owns_with ok.path fun hc => absurd hc (not_le_prefix hq s2)
      · exact ok.kids.congr fun b => (s1 b).symm
  have outer : ∀ q, ¬ q <+: a → x1.get q = x.get q := fun q hq => (hq1 q).2 fun hc => hq hc.1
  have hlen : ∀ b, With A a b → b.length ≤ x1.maxplen := by
    rw [hm1]
    rintro b (hb | rfl)
    · exact Nat.le_trans (h.len b hb) (Nat.le_max_left _ _)
    · exact Nat.le_max_right _ _
  cases hn : next with
  | none =>
    rw [hn] at e1
    refine ⟨x1, e1, ?_, ?_, hlen⟩
    · intro q hh
      by_cases hq : q <+: a
      · exact inner q hq
      · rw [has_with hq] at hh
        obtain ⟨m, e, ok⟩ := h.node q hh
        refine ⟨m, by rw [outer q hq, e], ?_⟩
        refine metaOK_out hq (owns_with ok.path fun hc => ?_) ok
        obtain ⟨n, hn', _⟩ := g.between hh hc
        rw [hn] at hn'; cases hn'
    · intro q hh
      have hq : ¬ q <+: a := fun hc => hh (has_with_pre hc)
      rw [outer q hq]
      exact h.none q fun hc => hh ((has_with hq).2 hc)
  | some n =>
    obtain ⟨hnA, hnlt⟩ := g.nextA n hn
    unfold indexSplit
    dsimp only
    rw [hn] at e1 f1
    rw [if_neg (show ¬ a.length < keyLcp prev n from Nat.not_lt.2 f1),
      show touchLoop a prev (some n) (a.length + 1) (keyLcp prev n) x = .ok x1 from e1, Res.bind_ok, lpathUpdate,
      if_neg (Nat.not_lt.2 (hf n hn))]
    have hlcp := lcp_le_right a n
    obtain ⟨x2, e2, hm2, hq2⟩ := lpathLoop_spec n a (n.length + 1) (keyLcp a n + 1) x1 (by omega) (by omega) (by
      intro j hj hj2
      have hpre : n.take j <+: n := List.take_prefix _ _
      have hnp : ¬ n.take j <+: a := by
        rw [prefix_lcp hpre, take_len (by omega)]; omega
      rw [outer _ hnp]
      intro hc
      exact (h.none_iff.1 hc) ⟨n, hnA, hpre⟩)
    refine ⟨x2, e2, ?_, ?_, by rw [hm2]; exact hlen⟩
    · intro q hh
      rw [hq2 q]
      by_cases hq : q <+: a
      · rw [if_neg]
        · exact inner q hq
        · rintro ⟨c1, c2, _⟩
          have := (prefix_lcp c1).1 hq
          omega
      · rw [has_with hq] at hh
        obtain ⟨m, e, ok⟩ := h.node q hh
        rw [outer q hq, e]
        by_cases hc : q <+: n ∧ keyLcp a n + 1 ≤ q.length ∧ q.length < n.length
        · rw [if_pos hc]
          refine ⟨_, rfl, metaOK_out hq ⟨Or.inr rfl, g.lt_of_next hq hn hc.1, ?_⟩ ok⟩
          rintro b (hb | rfl) hle
          · rcases g.cover b hb with h1 | ⟨n', hn', h1⟩
            · exact keyLe_trans h1 (keyLt_keyLe g.prevLt)
            · rw [hn] at hn'
              cases hn'
              have := keyLe_antisymm (keyLe_trans h1 hle) (keyLe_prefix hc.1)
              have := congrArg List.length this
              omega
          · exact keyLe_refl _
        · rw [if_neg hc]
          refine ⟨m, rfl, metaOK_out hq (owns_with ok.path fun hle => ?_) ok⟩
          obtain ⟨n', hn', h1⟩ := g.between hh hle
          rw [hn] at hn'
          cases hn'
          rcases h1 with h1 | h1
          · exact keyLe_trans (keyLt_keyLe hnlt) (ok.path.2.2 n hnA h1)
          · refine absurd ⟨h1.1, ?_, h1.2⟩ hc
            by_contra hcon
            exact hq ((prefix_lcp h1.1).2 (by omega))
    · intro q hh
      have hq : ¬ q <+: a := fun hc => hh (has_with_pre hc)
      have hg : x.get q = none := h.none q fun hc => hh ((has_with hq).2 hc)
      rw [hq2 q, outer q hq, hg]
      by_cases hc : q <+: n ∧ keyLcp a n + 1 ≤ q.length ∧ q.length < n.length
      · rw [if_pos hc]; rfl
      · rw [if_neg hc]

end Verif
