import Verif.Proof.WhTouch

/-!
# Changes of the index: a leaf goes away
-/

namespace Verif

variable {x : Index} {A : Key → Prop} {prev a : Key} {next : Option Key} {p : Key}

/-- The node of `p` belongs to one leaf only. -/
theorem single_iff (g : Gap A prev a next) (hp : p <+: a) {m : Meta} (ok : MetaOK (With A a) p m) :
    m.lmost = m.rmost ↔ ¬ Has A p := by
  constructor
  · rintro e ⟨b, hb, hpb⟩
    have h1 := ok.leftLe b (Or.inl hb) hpb
    have h2 := ok.rightLe b (Or.inl hb) hpb
    have h3 := ok.leftLe a (Or.inr rfl) hp
    have h4 := ok.rightLe a (Or.inr rfl) hp
    rw [← e] at h2 h4
    have : a = b := (keyLe_antisymm h4 h3).trans (keyLe_antisymm h2 h1).symm
    exact g.notA (this ▸ hb)
  · intro hn
    have only : ∀ b, With A a b → p <+: b → b = a := by
      rintro b (hb | rfl) hpb
      · exact absurd ⟨b, hb, hpb⟩ hn
      · rfl
    rw [only _ ok.left ok.leftPre, only _ ok.right ok.rightPre]

/-- Everything but the children, without `a`. -/
theorem adjust_spec (g : Gap A prev a next) (hp : p <+: a) (hh : Has A p) {m : Meta} (ok : MetaOK (With A a) p m) :
    ∃ m', adjustMeta a prev next p.length m = .ok m' ∧ Kids m' (Child (With A a) p) ∧
      ∀ m'', SameEnds m' m'' → Kids m'' (Child A p) → MetaOK A p m'' := by
  unfold adjustMeta
  by_cases c1 : m.lmost = a
  · rw [if_pos c1]
    -- the next leaf has the prefix too
    obtain ⟨b, hb, hpb⟩ := hh
    have hab := ok.leftLe b (Or.inl hb) hpb
    rw [c1] at hab
    obtain ⟨n, hn, hpn, hnb⟩ := g.pre_next hp hb hpb hab
    rw [hn]
    dsimp only
    obtain ⟨hnA, hnlt⟩ := g.nextA n hn
    have hprev : ¬ p <+: prev := by
      intro hc
      have := ok.leftLe prev (Or.inl g.prevA) hc
      rw [c1] at this
      exact keyLt_le_absurd g.prevLt this
    refine ⟨_, rfl, ok.kids.fields rfl rfl rfl, ?_⟩
    rintro m'' ⟨s1, s2, s3⟩ hk
    have hr : m.rmost ≠ a := by
      intro e
      have := ok.rightLe n (Or.inl hnA) hpn
      rw [e] at this
      exact keyLt_le_absurd hnlt this
    refine ⟨?_, ?_, ?_, ?_, ?_, ?_, ?_, hk⟩
    · rw [s1]; exact hnA
    · rw [s1]; exact hpn
    · rw [s1]
      intro b' hb' hpb'
      have h1 := ok.leftLe b' (Or.inl hb') hpb'
      rw [c1] at h1
      obtain ⟨n', hn', h2⟩ := g.above hb' h1
      rw [hn] at hn'
      cases hn'
      exact h2
    · rw [s2]; exact ok.right.resolve_right hr
    · rw [s2]; exact ok.rightPre
    · rw [s2]; exact fun b' hb' hpb' => ok.rightLe b' (Or.inl hb') hpb'
    · rw [s3]
      show Owns A p (if n.length = p.length then n else prev)
      by_cases hl : n.length = p.length
      · rw [if_pos hl]
        have : p = n := hpn.eq_of_length hl.symm
        rw [this]
        exact ⟨hnA, keyLe_refl n, fun _ _ hb' => hb'⟩
      · rw [if_neg hl]
        exact ⟨g.prevA, g.prev_lt hp hprev, fun b' hb' hle => g.below hb' (keyLe_trans hle (keyLe_prefix hp))⟩
  · rw [if_neg c1]
    have hne : m.lpath ≠ a := by
      intro e
      have hle := ok.path.2.1
      rw [e] at hle
      have : p = a := keyLe_antisymm (keyLe_prefix hp) hle
      refine c1 (keyLe_antisymm (ok.leftLe a (Or.inr rfl) hp) ?_)
      have := keyLe_prefix ok.leftPre
      exact keyLe_trans hle this
    have hlA : A m.lmost := ok.left.resolve_right c1
    have hpath := owns_without ok.path hne
    by_cases c2 : m.rmost = a
    · rw [if_pos c2]
      refine ⟨_, rfl, ok.kids.fields rfl rfl rfl, ?_⟩
      rintro m'' ⟨s1, s2, s3⟩ hk
      have hpp := g.pre_prev hp hlA ok.leftPre (ok.leftLe a (Or.inr rfl) hp)
      refine ⟨?_, ?_, ?_, ?_, ?_, ?_, ?_, hk⟩
      · rw [s1]; exact hlA
      · rw [s1]; exact ok.leftPre
      · rw [s1]; exact fun b hb hpb => ok.leftLe b (Or.inl hb) hpb
      · rw [s2]; exact g.prevA
      · rw [s2]; exact hpp.1
      · rw [s2]
        intro b hb hpb
        have := ok.rightLe b (Or.inl hb) hpb
        rw [c2] at this
        exact g.below hb this
      · rw [s3]; exact hpath
    · rw [if_neg c2]
      refine ⟨_, rfl, ok.kids, ?_⟩
      rintro m'' ⟨s1, s2, s3⟩ hk
      refine ⟨?_, ?_, ?_, ?_, ?_, ?_, ?_, hk⟩
      · rw [s1]; exact hlA
      · rw [s1]; exact ok.leftPre
      · rw [s1]; exact fun b hb hpb => ok.leftLe b (Or.inl hb) hpb
      · rw [s2]; exact ok.right.resolve_right c2
      · rw [s2]; exact ok.rightPre
      · rw [s2]; exact fun b hb hpb => ok.rightLe b (Or.inl hb) hpb
      · rw [s3]; exact hpath

/-- The children without `a`, if the child toward `a` stays. -/
theorem child_keep (hp : p <+: a) {c : UInt8} (hc : a[p.length]? = some c) (hh : Has A (p ++ [c])) (b : Nat) :
    Child (With A a) p b ↔ Child A p b := by
  rw [child_with hp hc]
  exact ⟨fun h => h.elim id fun e => e ▸ child_iff.2 hh, Or.inl⟩

/-- The children without `a`, if the child toward `a` goes. -/
theorem child_drop (hp : p <+: a) {c : UInt8} (hc : a[p.length]? = some c) (hh : ¬ Has A (p ++ [c])) (b : Nat) :
    Child (With A a) p b ∧ b ≠ c.toNat ↔ Child A p b := by
  rw [child_with hp hc]
  constructor
  · rintro ⟨h | h, hne⟩
    · exact h
    · exact absurd h hne
  · intro h
    exact ⟨Or.inl h, fun e => hh (child_iff.1 (e ▸ h))⟩

/-- What the loop leaves behind when it starts at the prefix of length `i`. -/
structure Dropped (A : Key → Prop) (a : Key) (i : Nat) (par : Bool) (x x' : Index) : Prop where
  len : x'.maxplen = x.maxplen
  out : ∀ q, ¬ q <+: a ∨ q.length + 1 < i → x'.get q = x.get q
  gone : ∀ q, q <+: a → i ≤ q.length → ¬ Has A q → x'.get q = none
  kept : ∀ q, q <+: a → i ≤ q.length → Has A q → ∃ m, x'.get q = some m ∧ MetaOK A q m
  parent : ∀ q, q <+: a → q.length + 1 = i → par = true → ∀ m, x.get q = some m → Kids m (Child (With A a) q) →
    ∃ m', x'.get q = some m' ∧ SameEnds m m' ∧ Kids m' (Child A q)
  noParent : ∀ q, q <+: a → q.length + 1 = i → par = false → x'.get q = x.get q

theorem mergeLoop_spec (g : Gap A prev a next) : ∀ fuel i par (x : Index), a.length < fuel + i → i ≤ a.length →
    (par = true → 1 ≤ i ∧ ∃ m, x.get (a.take (i - 1)) = some m ∧ Kids m (Child (With A a) (a.take (i - 1)))) →
    (∀ q, q <+: a → i ≤ q.length → ∃ m, x.get q = some m ∧ MetaOK (With A a) q m) →
    ∃ x', mergeLoop a prev next fuel i par x = .ok x' ∧ Dropped A a i par x x'
  | 0, i, par, x, h1, h2, _, _ => ⟨x, by omega⟩
  | fuel + 1, i, par, x, h1, h2, h3, h4 => by
    have hpre : a.take i <+: a := List.take_prefix _ _
    have hli : (a.take i).length = i := take_len h2
    obtain ⟨m, e, ok⟩ := h4 (a.take i) hpre (by omega)
    have hs := single_iff g hpre ok
    -- other prefixes are different
    have diff : ∀ q : Key, q.length ≠ i → q ≠ a.take i := fun q hl hc => hl (by rw [hc, hli])
    have diff' : ∀ q : Key, ¬ q <+: a → q ≠ a.take i := fun q hl hc => hl (hc ▸ hpre)
    have par_pre : 1 ≤ i → a.take (i - 1) <+: a ∧ (a.take (i - 1)).length = i - 1 ∧ ∃ c, a[i - 1]? = some c ∧
        a.take (i - 1) ++ [c] = a.take i := by
      intro hi
      obtain ⟨c, hc⟩ : ∃ c, a[i - 1]? = some c := ⟨_, List.getElem?_eq_getElem (by omega)⟩
      refine ⟨List.take_prefix _ _, take_len (by omega), c, hc, ?_⟩
      rw [← take_get hc, Nat.sub_add_cancel hi]
    rw [mergeLoop, e]
    dsimp only
    by_cases hc : m.lmost = m.rmost
    · rw [if_pos hc, if_neg (by rw [ok.slim hc]; exact Bool.false_ne_true)]
      have hno := hs.1 hc
      have deeper : ∀ q, q <+: a → i ≤ q.length → ¬ Has A q := by
        intro q hq hl hh
        refine hno (hh.of_prefix ?_)
        rw [prefix_eq hq rfl, ← Nat.min_eq_left hl, ← List.take_take]
        exact List.take_prefix _ _
      -- the parent loses its bit
      obtain ⟨x1, e1, hm1, hx1, hpar, hnp⟩ : ∃ x1, (if par = true then dropChild a i (x.put (a.take i) none)
          else Res.ok (x.put (a.take i) none)) = .ok x1 ∧ x1.maxplen = x.maxplen ∧
          (∀ q, ¬ (q <+: a ∧ (q.length + 1 = i ∨ q.length = i)) → x1.get q = x.get q) ∧
          (∀ q, q <+: a → q.length + 1 = i → par = true → ∀ m, x.get q = some m → Kids m (Child (With A a) q) →
            ∃ m', x1.get q = some m' ∧ SameEnds m m' ∧ Kids m' (Child A q)) ∧
          (∀ q, q <+: a → q.length + 1 = i → par = false → x1.get q = x.get q) := by
        by_cases hp : par = true
        · rw [if_pos hp]
          obtain ⟨hi, m0, em0, k0⟩ := h3 hp
          obtain ⟨p1, p2, c, p3, p4⟩ := par_pre hi
          have hne : a.take (i - 1) ≠ a.take i := diff _ (by omega)
          have hcc : a[(a.take (i - 1)).length]? = some c := by rw [p2]; exact p3
          obtain ⟨m1, em1, k1, s1⟩ := k0.clearHelper (id := c.toNat) ((child_with p1 hcc _).2 (Or.inr rfl))
          have k1' := k1.congr fun b => child_drop p1 hcc (by rw [p4]; exact hno) b
          refine ⟨(x.put (a.take i) none).put (a.take (i - 1)) (some m1), ?_, rfl, ?_, ?_, ?_⟩
          · unfold dropChild
            rw [Index.put_get, if_neg hne, em0, p3]
            dsimp only
            rw [em1, Res.bind_ok]
          · intro q hq
            rw [Index.put_get, if_neg, Index.put_get, if_neg]
            · exact fun hc => hq ⟨hc ▸ hpre, Or.inr (by rw [hc, hli])⟩
            · exact fun hc => hq ⟨hc ▸ p1, Or.inl (by rw [hc, p2]; omega)⟩
          · intro q hq hl _ m' hm' _
            have : q = a.take (i - 1) := prefix_eq hq (by omega)
            subst this
            rw [em0] at hm'
            cases hm'
            exact ⟨m1, by rw [Index.put_get, if_pos rfl], s1, k1'⟩
          · intro q _ _ hf
            rw [hp] at hf; cases hf
        · rw [if_neg hp]
          refine ⟨_, rfl, rfl, ?_, ?_, ?_⟩
          · intro q hq
            rw [Index.put_get, if_neg]
            exact fun hc => hq ⟨hc ▸ hpre, Or.inr (by rw [hc, hli])⟩
          · exact fun q _ _ ht => absurd ht hp
          · intro q _ hl _
            rw [Index.put_get, if_neg (diff q (by omega))]
      have hx1i : x1.get (a.take i) = none := by
        by_cases hp : par = true
        · rw [if_pos hp] at e1
          obtain ⟨hi, m0, em0, k0⟩ := h3 hp
          obtain ⟨p1, p2, c, p3, p4⟩ := par_pre hi
          have hne : a.take (i - 1) ≠ a.take i := diff _ (by omega)
          unfold dropChild at e1
          rw [Index.put_get, if_neg hne, em0, p3] at e1
          dsimp only at e1
          obtain ⟨m1, _, e2⟩ := Res.bind_eq_ok e1
          cases e2
          rw [Index.put_get, if_neg (Ne.symm hne), Index.put_get, if_pos rfl]
        · rw [if_neg hp] at e1
          cases e1
          rw [Index.put_get, if_pos rfl]
      rw [e1, Res.bind_ok]
      -- no child means that the anchor ends here
      have hend : m.bitmin = 256 → i ≥ a.length := by
        intro hb
        by_contra hlt
        obtain ⟨c, hcc⟩ : ∃ c, a[i]? = some c := ⟨_, List.getElem?_eq_getElem (by omega)⟩
        have hch : Child (With A a) (a.take i) c.toNat := by
          rw [child_with hpre (by rw [hli]; exact hcc)]; exact Or.inr rfl
        rcases ok.kids.out with ⟨_, _, h⟩ | ⟨h, _, _, _⟩
        · exact h _ hch
        · have := ok.kids.lt _ h
          omega
      have stop : i ≥ a.length → Dropped A a i par x x1 := by
        intro hge
        refine ⟨hm1, ?_, ?_, ?_, hpar, hnp⟩
        · intro q hq
          refine hx1 q fun hcon => ?_
          rcases hq with hq | hq
          · exact hq hcon.1
          · omega
        · intro q hq hl _
          have := hq.length_le
          rw [prefix_eq hq (show q.length = i by omega)]
          exact hx1i
        · exact fun q hq hl hh => absurd hh (deeper q hq hl)
      by_cases hb : m.bitmin = 256
      · rw [if_pos hb]
        exact ⟨x1, rfl, stop (hend hb)⟩
      · rw [if_neg hb]
        by_cases hge : i ≥ a.length
        · rw [if_pos hge]
          exact ⟨x1, rfl, stop hge⟩
        · rw [if_neg hge]
          obtain ⟨x', e', d⟩ := mergeLoop_spec g fuel (i + 1) false x1 (by omega) (by omega) (fun h => by cases h) (by
            intro q hq hl
            rw [hx1 q (by omega)]
            exact h4 q hq (by omega))
          refine ⟨x', e', d.len.trans hm1, ?_, ?_, ?_, ?_, ?_⟩
          · intro q hq
            rw [d.out q (hq.imp id fun h => by omega)]
            refine hx1 q fun hcon => ?_
            rcases hq with hq | hq
            · exact hq hcon.1
            · omega
          · intro q hq hl hn
            by_cases he : q.length = i
            · rw [d.noParent q hq (by omega) rfl, prefix_eq hq he]
              exact hx1i
            · exact d.gone q hq (by omega) hn
          · exact fun q hq hl hh => absurd hh (deeper q hq hl)
          · intro q hq hl hp m' hm' hk
            rw [d.out q (Or.inr (by omega))]
            exact hpar q hq hl hp m' hm' hk
          · intro q hq hl hp
            rw [d.out q (Or.inr (by omega))]
            exact hnp q hq hl hp
    · rw [if_neg hc]
      have hh : Has A (a.take i) := by
        by_contra hcon
        exact hc (hs.2 hcon)
      obtain ⟨m1, em1, k1, fin⟩ := adjust_spec g hpre hh ok
      rw [hli] at em1
      rw [em1, Res.bind_ok]
      -- the parent keeps its child
      have keepPar : ∀ q, q <+: a → q.length + 1 = i → ∀ m, Kids m (Child (With A a) q) → Kids m (Child A q) := by
        intro q hq hl m hk
        obtain ⟨p1, p2, c, p3, p4⟩ := par_pre (by omega)
        have : q = a.take (i - 1) := prefix_eq hq (by omega)
        subst this
        exact hk.congr fun b => child_keep p1 (by rw [p2]; exact p3) (by rw [p4]; exact hh) b
      by_cases hge : i ≥ a.length
      · rw [if_pos hge]
        have hia : a.take i = a := List.take_of_length_le hge
        refine ⟨_, rfl, rfl, ?_, ?_, ?_, ?_, ?_⟩
        · intro q hq
          rw [Index.put_get, if_neg]
          rcases hq with hq | hq
          · exact diff' q hq
          · exact diff q (by omega)
        · intro q hq hl hn
          have := hq.length_le
          rw [prefix_eq hq (show q.length = i by omega)] at hn
          exact absurd hh hn
        · intro q hq hl _
          have := hq.length_le
          have hqi := prefix_eq hq (show q.length = i by omega)
          refine ⟨m1, by rw [Index.put_get, if_pos hqi], ?_⟩
          rw [hqi]
          refine fin m1 ⟨rfl, rfl, rfl⟩ (k1.congr fun b => ?_)
          rw [hia]
          exact child_with_end b
        · intro q hq hl _ m' hm' hk
          rw [Index.put_get, if_neg (diff q (by omega))]
          exact ⟨m', hm', ⟨rfl, rfl, rfl⟩, keepPar q hq hl m' hk⟩
        · intro q _ hl _
          rw [Index.put_get, if_neg (diff q (by omega))]
      · rw [if_neg hge]
        obtain ⟨x', e', d⟩ := mergeLoop_spec g fuel (i + 1) true (x.put (a.take i) (some m1)) (by omega) (by omega)
          (fun _ => ⟨by omega, m1, by rw [Nat.add_sub_cancel, Index.put_get, if_pos rfl], by
            rw [Nat.add_sub_cancel]; exact k1⟩) (by
            intro q hq hl
            rw [Index.put_get, if_neg (diff q (by omega))]
            exact h4 q hq (by omega))
        refine ⟨x', e', d.len, ?_, ?_, ?_, ?_, ?_⟩
        · intro q hq
          rw [d.out q (hq.imp id fun h => by omega), Index.put_get, if_neg]
          rcases hq with hq | hq
          · exact diff' q hq
          · exact diff q (by omega)
        · intro q hq hl hn
          by_cases he : q.length = i
          · rw [prefix_eq hq he] at hn
            exact absurd hh hn
          · exact d.gone q hq (by omega) hn
        · intro q hq hl hhq
          by_cases he : q.length = i
          · have hqi := prefix_eq hq he
            subst hqi
            obtain ⟨m', em', s', k'⟩ := d.parent _ hq (by omega) rfl m1 (by rw [Index.put_get, if_pos rfl]) k1
            exact ⟨m', em', fin m' s' k'⟩
          · exact d.kept q hq (by omega) hhq
        · intro q hq hl _ m' hm' hk
          rw [d.out q (Or.inr (by omega)), Index.put_get, if_neg (diff q (by omega))]
          exact ⟨m', hm', ⟨rfl, rfl, rfl⟩, keepPar q hq hl m' hk⟩
        · intro q _ hl _
          rw [d.out q (Or.inr (by omega)), Index.put_get, if_neg (diff q (by omega))]

/-- A node for a prefix that is none of `a` changes its `lpath` at most. -/
theorem metaOK_out' (hp : ¬ p <+: a) {m : Meta} {r : Key} (hr : Owns A p r) :
    MetaOK (With A a) p m → MetaOK A p { m with lpath := r } := fun ok =>
  have sub : ∀ b, With A a b → p <+: b → A b := fun _ hb hpb => hb.resolve_right fun e => hp (e ▸ hpb)
  ⟨sub _ ok.left ok.leftPre, ok.leftPre, fun b hb hpb => ok.leftLe b (Or.inl hb) hpb, sub _ ok.right ok.rightPre, ok.rightPre,
    fun b hb hpb => ok.rightLe b (Or.inl hb) hpb, hr,
    (ok.kids.congr fun b => child_with_out hp b).fields rfl rfl rfl⟩

/-- `wormmeta_merge` makes the index of the anchors without the removed one. -/
theorem indexMerge_spec (h : IdxOK x (With A a)) (g : Gap A prev a next) (ha : a.length ≤ pbufRoom)
    (hf : ∀ n ∈ next, n.length ≤ pbufRoom) :
    ∃ x', indexMerge x prev a next = .ok x' ∧ IdxOK x' A := by
  obtain ⟨f1, f2, f3⟩ := g.firstLen_le
  obtain ⟨x1, e1, d⟩ := mergeLoop_spec g (a.length + 1) (firstLen prev next) false x (by omega) f1 (fun h => by cases h)
    fun q hq _ => h.node q (has_with_pre hq)
  -- prefixes of the anchor
  have inner : ∀ q, q <+: a → Has A q → ∃ m, x1.get q = some m ∧ MetaOK A q m := by
    intro q hq hh
    by_cases hl : firstLen prev next ≤ q.length
    · exact d.kept q hq hl hh
    · have hget : x1.get q = x.get q := by
        by_cases he : q.length + 1 = firstLen prev next
        · exact d.noParent q hq he rfl
        · exact d.out q (Or.inr (by omega))
      obtain ⟨s1, s2, s3, n, hn, s4⟩ := g.short hq (by omega)
      obtain ⟨m, e, ok⟩ := h.node q (has_with_pre hq)
      refine ⟨m, by rw [hget, e], ok.left.resolve_right ?_, ok.leftPre, fun b hb hpb => ok.leftLe b (Or.inl hb) hpb,
        ok.right.resolve_right ?_, ok.rightPre, fun b hb hpb => ok.rightLe b (Or.inl hb) hpb, owns_without ok.path ?_,
        ok.kids.congr s1⟩
      · intro hc
        have := ok.leftLe prev (Or.inl g.prevA) s3
        rw [hc] at this
        exact keyLt_le_absurd g.prevLt this
      · intro hc
        have := ok.rightLe n (Or.inl (g.nextA n hn).1) s4
        rw [hc] at this
        exact keyLt_le_absurd (g.nextA n hn).2 this
      · intro hc
        have := ok.path.2.1
        rw [hc] at this
        exact not_le_prefix hq s2 this
  have inner' : ∀ q, q <+: a → ¬ Has A q → x1.get q = none := by
    intro q hq hh
    refine d.gone q hq ?_ hh
    by_contra hcon
    exact hh ⟨prev, g.prevA, (g.short hq (by omega)).2.2.1⟩
  have outer : ∀ q, ¬ q <+: a → x1.get q = x.get q := fun q hq => d.out q (Or.inl hq)
  have hlen : ∀ b, A b → b.length ≤ x1.maxplen := by
    rw [d.len]
    exact fun b hb => h.len b (Or.inl hb)
  cases hn : next with
  | none =>
    rw [hn] at e1
    refine ⟨x1, by rw [indexMerge, if_neg (Nat.not_lt.2 ha)]; exact e1, ?_, ?_, hlen⟩
    · intro q hh
      by_cases hq : q <+: a
      · exact inner q hq hh
      · obtain ⟨m, e, ok⟩ := h.node q ((has_with hq).2 hh)
        refine ⟨m, by rw [outer q hq, e], metaOK_out' hq (owns_without ok.path fun hc => ?_) ok⟩
        have hle := ok.path.2.1
        rw [hc] at hle
        obtain ⟨n, hn', _⟩ := g.between hh hle
        rw [hn] at hn'; cases hn'
    · intro q hh
      by_cases hq : q <+: a
      · exact inner' q hq hh
      · rw [outer q hq]
        exact h.none q fun hc => hh ((has_with hq).1 hc)
  | some n =>
    obtain ⟨hnA, hnlt⟩ := g.nextA n hn
    unfold indexMerge
    dsimp only
    rw [if_neg (Nat.not_lt.2 ha)]
    rw [hn] at e1 f1
    rw [if_neg (show ¬ a.length < keyLcp prev n from Nat.not_lt.2 f1),
      show mergeLoop a prev (some n) (a.length + 1) (keyLcp prev n) false x = .ok x1 from e1, Res.bind_ok, lpathUpdate,
      if_neg (Nat.not_lt.2 (hf n hn))]
    have hlcp := lcp_le_right a n
    obtain ⟨x2, e2, hm2, hq2⟩ := lpathLoop_spec n prev (n.length + 1) (keyLcp a n + 1) x1 (by omega) (by omega) (by
      intro j hj hj2
      have hpre : n.take j <+: n := List.take_prefix _ _
      have hnp : ¬ n.take j <+: a := by
        rw [prefix_lcp hpre, take_len (by omega)]; omega
      rw [outer _ hnp]
      intro hc
      exact (h.none_iff.1 hc) ⟨n, Or.inl hnA, hpre⟩)
    refine ⟨x2, e2, ?_, ?_, by rw [hm2]; exact hlen⟩
    · intro q hh
      rw [hq2 q]
      by_cases hq : q <+: a
      · rw [if_neg]
        · exact inner q hq hh
        · rintro ⟨c1, c2, _⟩
          have := (prefix_lcp c1).1 hq
          omega
      · obtain ⟨m, e, ok⟩ := h.node q ((has_with hq).2 hh)
        rw [outer q hq, e]
        by_cases hc : q <+: n ∧ keyLcp a n + 1 ≤ q.length ∧ q.length < n.length
        · rw [if_pos hc]
          have haq := g.lt_of_next hq hn hc.1
          refine ⟨_, rfl, metaOK_out' hq ⟨g.prevA, keyLe_trans (keyLt_keyLe g.prevLt) haq, ?_⟩ ok⟩
          intro b hb hle
          rcases g.cover b hb with h1 | ⟨n', hn', h1⟩
          · exact h1
          · rw [hn] at hn'
            cases hn'
            have := keyLe_antisymm (keyLe_trans h1 hle) (keyLe_prefix hc.1)
            have := congrArg List.length this
            omega
        · rw [if_neg hc]
          refine ⟨m, rfl, metaOK_out' hq (owns_without ok.path fun hr => ?_) ok⟩
          have hle := ok.path.2.1
          rw [hr] at hle
          obtain ⟨n', hn', h1⟩ := g.between hh hle
          rw [hn] at hn'
          cases hn'
          rcases h1 with h1 | h1
          · have := ok.path.2.2 n (Or.inl hnA) h1
            rw [hr] at this
            exact keyLt_le_absurd hnlt this
          · refine absurd ⟨h1.1, ?_, h1.2⟩ hc
            by_contra hcon
            exact hq ((prefix_lcp h1.1).2 (by omega))
    · intro q hh
      have hg : x1.get q = none := by
        by_cases hq : q <+: a
        · exact inner' q hq hh
        · rw [outer q hq]
          exact h.none q fun hc => hh ((has_with hq).1 hc)
      rw [hq2 q, hg]
      by_cases hc : q <+: n ∧ keyLcp a n + 1 ≤ q.length ∧ q.length < n.length
      · rw [if_pos hc]; rfl
      · rw [if_neg hc]

end Verif
