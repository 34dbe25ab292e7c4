import Verif.Proof.WhIter
import Verif.Model.Delete

/-!
# The filter on the integer tree and the filter on the ordered list
-/

namespace Verif

/-- Same outcome, related values. -/
def RelRes {α β : Type} (R : α → β → Prop) : Res α → Res β → Prop
  | .ok a, .ok b => R a b
  | .ub, .ub => True
  | .hang, .hang => True
  | _, _ => False

/-- Both filters hold the same regions. -/
def Twin (w : WhFilter) (f : Filter) : Prop := w.cfg = f.cfg ∧ WhRep w.tree f.tree

section
variable {t : Wh} {m : Tree} {k : Key}

theorem findable_of_not_mem (h : WhRep t m) (hn : k ∉ keysOf m) : Findable t k := by
  intro l hl hk
  obtain ⟨e, he, e1⟩ := List.mem_map.1 hk
  exact absurd (List.mem_map.2 ⟨e, by rw [h.eq]; exact mem_flat.2 ⟨l, hl, he⟩, e1⟩) hn

theorem peek_get {i : Nat} {e : Entry} (h : m[i]? = some e) : treePeek m i = .ok e := by
  unfold treePeek; rw [h]

theorem peek_end {i : Nat} (h : m[i]? = none) : treePeek m i = .ub := by
  unfold treePeek; rw [h]

/-- Both searches for the region of a key agree. -/
theorem locate_wh (h : WhRep t m) (hk : k.length ≤ 8) :
    (∃ i prev st next t' j js, locate m k = .ok (i, prev, st, next) ∧
      t.locate k = .ok (t', some (j, js), prev, st, next) ∧ WhRep t' m ∧ Sorts t t' ∧ CurAt t' m (some (j, js)) i ∧
      m[i]? = some (prev, st)) ∨ (locate m k = .ub ∧ t.locate k = .ub) := by
  obtain ⟨t1, cur, e1, h1, s1, c1⟩ := seek_spec h hk
  unfold locate Wh.locate
  dsimp only
  rw [e1, Res.bind_ok]
  dsimp only
  rw [peek_spec h1 c1]
  cases hg : m[treeSeek m k]? with
  | none => rw [peek_end hg]; exact Or.inr ⟨rfl, rfl⟩
  | some e =>
    obtain ⟨j, js, rfl⟩ := c1.lt hg
    rw [peek_get hg, Res.bind_ok, Res.bind_ok]
    by_cases hc : (e.1 == k) = true
    · rw [if_pos hc, if_pos hc]
      obtain ⟨t2, nx, e2, h2, s2, c2⟩ := skip1_spec h1 c1
      rw [e2, Res.bind_ok]
      dsimp only
      rw [peek_spec h2 c2]
      cases hg2 : m[treeSeek m k + 1]? with
      | none => rw [peek_end hg2]; exact Or.inr ⟨rfl, rfl⟩
      | some e' =>
        rw [peek_get hg2]
        exact Or.inl ⟨_, _, _, _, t2, j, js, rfl, rfl, h2, s1.trans s2, c1.sorts s2, hg⟩
    · rw [if_neg hc, if_neg hc]
      obtain ⟨t2, pv, e2, h2, s2, c2, c3⟩ := skip1Rev_spec h1 c1
      rw [e2, Res.bind_ok]
      dsimp only
      by_cases hz : treeSeek m k = 0
      · rw [if_pos hz, c2 hz]
        exact Or.inr ⟨rfl, rfl⟩
      · rw [if_neg hz]
        have c3 := c3 (by omega)
        rw [peek_spec h2 c3]
        cases hg2 : m[treeSeek m k - 1]? with
        | none => rw [peek_end hg2]; exact Or.inr ⟨rfl, rfl⟩
        | some p =>
          obtain ⟨j', js', rfl⟩ := c3.lt hg2
          rw [peek_get hg2]
          exact Or.inl ⟨_, _, _, _, t2, j', js', rfl, rfl, h2, s1.trans s2, c3, hg2⟩

theorem pointQuery_wh (c : Cfg) (h : WhRep t m) (hk : k.length ≤ 8) :
    RelRes (fun w b => w.1.cfg = c ∧ WhRep w.1.tree m ∧ Sorts t w.1.tree ∧ w.2 = b) (whPointQuery ⟨c, t⟩ k)
      (pointQuery ⟨c, m⟩ k) := by
  obtain ⟨t1, cur, e1, h1, s1, c1⟩ := seek_spec h hk
  unfold whPointQuery pointQuery
  dsimp only
  rw [e1, Res.bind_ok]
  dsimp only
  rw [peek_spec h1 c1]
  cases hg : m[treeSeek m k]? with
  | none => rw [peek_end hg]; trivial
  | some e =>
    obtain ⟨j, js, rfl⟩ := c1.lt hg
    rw [peek_get hg, Res.bind_ok, Res.bind_ok]
    by_cases hc : (e.1 == k) = true
    · rw [if_pos hc, if_pos hc]
      exact ⟨rfl, h1, s1, rfl⟩
    · rw [if_neg hc, if_neg hc]
      obtain ⟨t2, pv, e2, h2, s2, c2, c3⟩ := skip1Rev_spec h1 c1
      rw [e2, Res.bind_ok]
      dsimp only
      by_cases hz : treeSeek m k = 0
      · rw [if_pos hz, c2 hz]
        trivial
      · rw [if_neg hz, peek_spec h2 (c3 (by omega))]
        cases treePeek m (treeSeek m k - 1) with
        | ub => trivial
        | hang => trivial
        | ok p =>
          rw [Res.bind_ok, Res.bind_ok]
          by_cases hp : (p.2.isPartial && isPrefixOf p.1 k p.2.invalidBits) = true
          · rw [if_pos hp, if_pos hp]
            exact ⟨rfl, h2, s1.trans s2, rfl⟩
          · rw [if_neg hp, if_neg hp]
            cases getFrame c.infixSize p.1 e.1 with
            | ub => trivial
            | hang => trivial
            | ok fr => exact ⟨rfl, h2, s1.trans s2, rfl⟩

theorem rangeQuery_wh (c : Cfg) (h : WhRep t m) (hk : k.length ≤ 8) (r : Key) :
    RelRes (fun w b => w.1.cfg = c ∧ WhRep w.1.tree m ∧ Sorts t w.1.tree ∧ w.2 = b) (whRangeQuery ⟨c, t⟩ k r)
      (rangeQuery true ⟨c, m⟩ k r) := by
  obtain ⟨t1, cur, e1, h1, s1, c1⟩ := seek_spec h hk
  unfold whRangeQuery rangeQuery
  dsimp only
  rw [e1, Res.bind_ok]
  dsimp only
  rw [peek_spec h1 c1]
  cases hg : m[treeSeek m k]? with
  | none => rw [peek_end hg]; trivial
  | some e =>
    obtain ⟨j, js, rfl⟩ := c1.lt hg
    rw [peek_get hg, Res.bind_ok, Res.bind_ok]
    by_cases hc : keyLe e.1 r = true
    · rw [if_pos hc, if_pos hc]
      exact ⟨rfl, h1, s1, rfl⟩
    · rw [if_neg hc, if_neg hc]
      obtain ⟨t2, pv, e2, h2, s2, c2, c3⟩ := skip1Rev_spec h1 c1
      rw [e2, Res.bind_ok]
      dsimp only
      by_cases hz : treeSeek m k = 0
      · rw [if_pos hz, c2 hz]
        trivial
      · rw [if_neg hz, peek_spec h2 (c3 (by omega))]
        cases treePeek m (treeSeek m k - 1) with
        | ub => trivial
        | hang => trivial
        | ok p =>
          rw [Res.bind_ok, Res.bind_ok]
          by_cases hp : (p.2.isPartial && isPrefixOf p.1 k p.2.invalidBits) = true
          · rw [if_pos hp, if_pos hp]
            exact ⟨rfl, h2, s1.trans s2, rfl⟩
          · rw [if_neg hp, if_neg hp]
            cases getFrame c.infixSize p.1 e.1 with
            | ub => trivial
            | hang => trivial
            | ok fr => exact ⟨rfl, h2, s1.trans s2, rfl⟩

theorem insertSimple_wh (c : Cfg) (h : WhRep t m) (hk : k.length ≤ 8) :
    RelRes Twin (whInsertSimple ⟨c, t⟩ k) (insertSimple ⟨c, m⟩ k) := by
  unfold whInsertSimple insertSimple
  dsimp only
  rcases locate_wh h hk with ⟨i, prev, st, next, t', j, js, e1, e2, h', _, hc, hm⟩ | ⟨e1, e2⟩
  · rw [e1, e2, Res.bind_ok, Res.bind_ok]
    dsimp only
    cases getFrame c.infixSize prev next with
    | ub => trivial
    | hang => trivial
    | ok fr => exact ⟨rfl, write_spec h' hc hm _⟩
  · rw [e1, e2]; trivial

theorem planAt_prev {c : Cfg} {prev next : Key} {st : Store} {d : SplitPlan} (hp : planAt c k prev st next = .ok (some d)) :
    d.prev = prev ∧ d.edited = editKey k d.zeroPos := by
  simp only [planAt] at hp
  split at hp
  · exact absurd (Res.ok.inj hp) (by simp)
  split at hp
  · cases hp
  · obtain ⟨q1, _, hp⟩ := Res.bind_eq_ok hp
    obtain ⟨q2, _, hp⟩ := Res.bind_eq_ok hp
    split at hp
    · exact absurd (Res.ok.inj hp) (by simp)
    obtain ⟨q3, _, hp⟩ := Res.bind_eq_ok hp
    obtain ⟨q4, _, hp⟩ := Res.bind_eq_ok hp
    have hp := Option.some.inj (Res.ok.inj hp)
    rw [← hp]
    exact ⟨rfl, rfl⟩

theorem insertSplit_wh (c : Cfg) (h : WhRep t m) (hk : k.length ≤ 8)
    (hb : ∀ d, planSplit ⟨c, m⟩ k = .ok (some d) → d.boundary k ∉ keysOf m ∨ d.boundary k = d.prev) :
    RelRes Twin (whInsertSplit ⟨c, t⟩ k) (insertSplit ⟨c, m⟩ k) := by
  unfold whInsertSplit insertSplit
  unfold planSplit at hb ⊢
  dsimp only at hb ⊢
  rcases locate_wh h hk with ⟨i, prev, st, next, t', j, js, e1, e2, h', _, hc, hm⟩ | ⟨e1, e2⟩
  · rw [e1] at hb ⊢
    rw [e2]
    rw [Res.bind_ok] at hb ⊢
    rw [Res.bind_ok]
    dsimp only at hb ⊢
    cases hp : planAt c k prev st next with
    | ub => trivial
    | hang => trivial
    | ok o =>
      rw [Res.bind_ok, Res.bind_ok]
      cases o with
      | none => exact insertSimple_wh c h' hk
      | some d =>
        dsimp only
        have hb := hb d hp
        obtain ⟨hprev, hed⟩ := planAt_prev hp
        have hmem : prev ∈ keysOf m := List.mem_map.2 ⟨(prev, st), List.mem_of_getElem? hm, rfl⟩
        have hfp : Findable t' prev := hc.findable h' hm
        have hlp : prev.length ≤ 8 := h'.short _ (List.mem_of_getElem? hm)
        have hfb : Findable t' (d.boundary k) := by
          rcases hb with hb | hb
          · exact findable_of_not_mem h' hb
          · rw [hb, hprev]; exact hfp
        unfold applySplit
        dsimp only
        rw [hprev]
        obtain ⟨t1, p1, r1, f1⟩ := put_spec h' hlp hfp
          (((allocWithList c d.left d.totalL).setInvalidBits d.store.invalidBits).setPartial d.store.isPartial)
        rw [p1, Res.bind_ok]
        have hf1 := f1 _ hfb (Or.inr hmem)
        cases hz : d.zeroPos with
        | none =>
          dsimp only
          have hbk : d.boundary k = k := by unfold SplitPlan.boundary; rw [hz]; rfl
          rw [hbk] at hf1
          obtain ⟨t2, p2, r2, _⟩ := put_spec r1 hk hf1 (allocWithList c d.right d.totalG)
          rw [p2, Res.bind_ok]
          exact ⟨rfl, r2⟩
        | some zp =>
          dsimp only
          have hbk : d.boundary k = d.edited := by unfold SplitPlan.boundary; rw [hz]; rfl
          rw [hbk] at hf1
          have hle : d.edited.length ≤ 8 := by
            rw [hed]; exact Nat.le_trans (editKey_length_le k _) hk
          by_cases hr : d.right.length = 0
          · rw [if_pos hr, if_pos hr]; trivial
          · rw [if_neg hr, if_neg hr]
            obtain ⟨t2, p2, r2, _⟩ := put_spec r1 hle hf1 (((insertRaw c (allocWithList c (d.right.drop 1) d.totalG) d.keyItem
              d.totalG).setInvalidBits (7 - (zp - 1) % 8)).setPartial true)
            rw [Res.bind_ok, p2, Res.bind_ok]
            exact ⟨rfl, r2⟩
  · rw [e1, e2]; trivial

theorem slotBytes_self (k : Key) : slotBytes k k.length = k := by
  unfold slotBytes
  rw [List.take_left]

theorem getFrame_total {s : Nat} {a b : Key} {fr : RFrame} (h : getFrame s a b = .ok fr) :
    add32 (sub64 (extractPartialKey s b fr.shared fr.ignore fr.implicitSize 1 >>> s)
      (extractPartialKey s a fr.shared fr.ignore fr.implicitSize 0 >>> s) % 2 ^ 32) 1 = fr.total := by
  unfold getFrame at h
  split at h
  · cases h
  · have h := Res.ok.inj h
    rw [← h]

theorem deleteMerge_wh (c : Cfg) (h : WhRep t m) {j js i : Nat} (hc : CurAt t m (some (j, js)) i)
    (hz : ∀ f' e, deleteMerge ⟨c, m⟩ i = .ok f' → m[i]? = some e → mergeHazard t e.1 = false) :
    RelRes Twin (whDeleteMerge c t (some (j, js))) (deleteMerge ⟨c, m⟩ i) := by
  unfold whDeleteMerge
  unfold deleteMerge at hz ⊢
  dsimp only at hz ⊢
  rw [peek_spec h hc]
  cases hm : m[i]? with
  | none => rw [peek_end hm]; trivial
  | some e =>
    obtain ⟨middle, storeR⟩ := e
    rw [peek_get hm, Res.bind_ok] at hz
    rw [peek_get hm, Res.bind_ok, Res.bind_ok]
    dsimp only at hz ⊢
    obtain ⟨t1, cr, e1, h1, s1, c1⟩ := skip1_spec h hc
    rw [e1, Res.bind_ok]
    dsimp only
    rw [peek_spec h1 c1]
    cases hr : m[i + 1]? with
    | none => rw [peek_end hr]; trivial
    | some e =>
      obtain ⟨right, str⟩ := e
      obtain ⟨jr, jsr, rfl⟩ := c1.lt hr
      rw [peek_get hr, Res.bind_ok] at hz
      rw [peek_get hr, Res.bind_ok, Res.bind_ok]
      dsimp only at hz ⊢
      obtain ⟨t2, cm, e2, h2, s2, _, c2⟩ := skip1Rev_spec h1 c1
      replace c2 := c2 (by omega)
      rw [Nat.add_sub_cancel] at c2
      obtain ⟨jm, jsm, rfl⟩ := c2.lt hm
      rw [e2, Res.bind_ok]
      dsimp only
      obtain ⟨t3, cl, e3, h3, s3, c3, c4⟩ := skip1Rev_spec h2 c2
      rw [e3, Res.bind_ok]
      dsimp only
      by_cases hi0 : i = 0
      · rw [if_pos hi0, c3 hi0]; trivial
      · rw [if_neg hi0] at hz ⊢
        replace c4 := c4 (by omega)
        rw [peek_spec h3 c4]
        cases hl : m[i - 1]? with
        | none => rw [peek_end hl]; trivial
        | some e =>
          obtain ⟨left, storeL⟩ := e
          obtain ⟨jl, jsl, rfl⟩ := c4.lt hl
          rw [peek_get hl, Res.bind_ok] at hz
          rw [peek_get hl, Res.bind_ok, Res.bind_ok]
          dsimp only at hz ⊢
          cases hfr : getFrame c.infixSize left right with
          | ub => trivial
          | hang => trivial
          | ok fr =>
            rw [hfr, Res.bind_ok] at hz
            rw [Res.bind_ok, Res.bind_ok]
            by_cases hlen : (getInfixList c storeL).length ≠ storeL.elemCount ∨
                (getInfixList c storeR).length ≠ storeR.elemCount
            · rw [if_pos hlen, if_pos hlen]; trivial
            · rw [if_neg hlen] at hz
              rw [if_neg hlen, if_neg hlen]
              cases hL : updateInfixListDelete c.infixSize fr.shared fr.ignore fr.implicitSize left middle
                  (getInfixList c storeL) with
              | ub => trivial
              | hang => trivial
              | ok newL =>
                rw [hL, Res.bind_ok] at hz
                rw [Res.bind_ok, Res.bind_ok]
                cases hR : updateInfixListDelete c.infixSize fr.shared fr.ignore fr.implicitSize middle right
                    (getInfixList c storeR) with
                | ub => trivial
                | hang => trivial
                | ok newR =>
                  rw [hR, Res.bind_ok] at hz
                  rw [Res.bind_ok, Res.bind_ok]
                  have hz := hz _ _ rfl hm
                  have s13 := s2.trans s3
                  rw [← (s1.trans s13).hazard] at hz
                  have cm3 := c2.sorts s3
                  have cr3 := c1.sorts s13
                  obtain ⟨A, l, B, x, et, hA, hs, hi, hx, _, hxm, hn⟩ := cm3.entry h3
                  rw [hm] at hxm
                  obtain rfl := Option.some.inj hxm
                  obtain ⟨a, b, hab, hal⟩ := cut_at hx
                  have z := h3.zip_of_mem et (List.mem_of_getElem? hx)
                  have hkm : middle.length ≤ 8 := h3.short _ (List.mem_of_getElem? hm)
                  have hkl : left.length ≤ 8 := h3.short _ (List.mem_of_getElem? hl)
                  obtain ⟨t4, e4, r4, f4, pk⟩ := del_spec h3 hkm z hab (by rw [hal]; omega) hz
                  have hoff : ∀ {j' js' n' : Nat}, CurAt t3 m (some (j', js')) n' → j' = A.length →
                      js' < l.nr ∧ n' = (A.flatMap Leaf.list).length + js' := by
                    intro j' js' n' hc' hj
                    obtain ⟨l', hl', _, hlt, hn'⟩ := hc'
                    subst hj
                    have e5 : t3[A.length]? = some l := by rw [et]; simp
                    rw [e5] at hl'
                    obtain rfl := Option.some.inj hl'
                    refine ⟨hlt, ?_⟩
                    rw [hn', off, et, List.take_left]
                  have rdL : Wh.reread t3 t4 (t3.jump middle) (some (jl, jsl)) = .ok (left, storeL) := by
                    unfold Wh.reread
                    dsimp only
                    rw [z.jump]
                    by_cases hj : jl = A.length
                    · rw [if_pos hj]
                      obtain ⟨_, hn'⟩ := hoff c4 hj
                      rw [hj, pk jsl (Or.inl (by omega)), ← hj, peek_spec h3 c4, peek_get hl]
                    · rw [if_neg hj, peek_spec h3 c4, peek_get hl]
                  have rdR : Wh.reread t3 t4 (t3.jump middle) (some (jr, jsr)) = .ok (right, str) := by
                    unfold Wh.reread
                    dsimp only
                    rw [z.jump]
                    by_cases hj : jr = A.length
                    · rw [if_pos hj]
                      obtain ⟨hlt, hn'⟩ := hoff cr3 hj
                      rw [hj, pk jsr (Or.inr ⟨by omega, hlt⟩), ← hj, peek_spec h3 cr3, peek_get hr]
                    · rw [if_neg hj, peek_spec h3 cr3, peek_get hr]
                  rw [e4, Res.bind_ok, rdL, Res.bind_ok]
                  dsimp only
                  rw [rdR, Res.bind_ok]
                  dsimp only
                  rw [slotBytes_self, slotBytes_self, getFrame_total hfr]
                  have hlm : keyLt left middle = true := by
                    have := h.inc
                    obtain ⟨g1, g2⟩ := List.getElem?_eq_some_iff.1 hl
                    obtain ⟨g3, g4⟩ := List.getElem?_eq_some_iff.1 hm
                    have := List.pairwise_iff_getElem.1 this (i - 1) i g1 g3 (by omega)
                    rw [g2, g4] at this
                    exact this
                  obtain ⟨t5, e5, r5, _⟩ := put_spec r4 hkl (f4 left hlm (c4.findable h3 hl))
                    (((allocWithList c ((newL ++ newR).map fun x => sub64 x (shl64 fr.prevImplicit c.infixSize))
                      fr.total).setPartial storeL.isPartial).setInvalidBits storeL.invalidBits)
                  rw [e5, Res.bind_ok]
                  exact ⟨rfl, r5⟩

/-- `deleteMerge` removes its boundary. -/
theorem deleteMerge_removes {c : Cfg} (hi : Inc m) {i : Nat} {f' : Filter} {e : Entry}
    (h : deleteMerge ⟨c, m⟩ i = .ok f') (he : m[i]? = some e) : e.1 ∉ keysOf f'.tree := by
  unfold deleteMerge at h
  dsimp only at h
  rw [peek_get he, Res.bind_ok] at h
  obtain ⟨⟨right, _⟩, _, h⟩ := Res.bind_eq_ok h
  dsimp only at h
  by_cases h0 : i = 0
  · rw [if_pos h0] at h; cases h
  rw [if_neg h0] at h
  obtain ⟨⟨left, storeL⟩, hl, h⟩ := Res.bind_eq_ok h
  dsimp only at h
  obtain ⟨fr, _, h⟩ := Res.bind_eq_ok h
  split at h
  · cases h
  obtain ⟨newL, _, h⟩ := Res.bind_eq_ok h
  obtain ⟨newR, _, h⟩ := Res.bind_eq_ok h
  have h := Res.ok.inj h
  rw [← h]
  dsimp only
  intro hmem
  rw [keysOf, mem_treePut] at hmem
  rcases hmem with hmem | hmem
  · have hl' : m[i - 1]? = some (left, storeL) := by
      unfold treePeek at hl
      split at hl
      · cases hl
      · rename_i x hx
        rw [hx]
        exact congrArg some (Res.ok.inj hl)
    obtain ⟨g1, g2⟩ := List.getElem?_eq_some_iff.1 hl'
    obtain ⟨g3, g4⟩ := List.getElem?_eq_some_iff.1 he
    have := List.pairwise_iff_getElem.1 hi (i - 1) i g1 g3 (by omega)
    rw [g2, g4, hmem, keyLt_irrefl] at this
    simp at this
  · obtain ⟨x, hx, e1⟩ := List.mem_map.1 hmem
    have := (List.mem_filter.1 hx).2
    rw [bne_iff_ne] at this
    exact this e1

theorem around_wh (h1 : WhRep t m) {j js : Nat} (c1 : CurAt t m (some (j, js)) (treeSeek m k)) {e : Entry}
    (hg : m[treeSeek m k]? = some e) :
    (∃ i prev st next t' j' js', locate m k = .ok (i, prev, st, next) ∧
      t.around (some (j, js)) e k = .ok (t', some (j', js'), prev, st, next) ∧ WhRep t' m ∧ Sorts t t' ∧
      CurAt t' m (some (j', js')) i ∧ m[i]? = some (prev, st)) ∨
    (locate m k = .ub ∧ t.around (some (j, js)) e k = .ub) := by
  unfold locate Wh.around
  dsimp only
  rw [peek_get hg, Res.bind_ok]
  by_cases hc : (e.1 == k) = true
  · rw [if_pos hc, if_pos hc]
    obtain ⟨t2, nx, e2, h2, s2, c2⟩ := skip1_spec h1 c1
    rw [e2, Res.bind_ok]
    dsimp only
    rw [peek_spec h2 c2]
    cases hg2 : m[treeSeek m k + 1]? with
    | none => rw [peek_end hg2]; exact Or.inr ⟨rfl, rfl⟩
    | some e' =>
      obtain ⟨jn, jsn, rfl⟩ := c2.lt hg2
      rw [peek_get hg2, Res.bind_ok, Res.bind_ok]
      obtain ⟨t3, cu, e3, h3, s3, _, c3⟩ := skip1Rev_spec h2 c2
      replace c3 := c3 (by omega)
      rw [Nat.add_sub_cancel] at c3
      obtain ⟨j3, js3, rfl⟩ := c3.lt hg
      rw [e3]
      exact Or.inl ⟨_, _, _, _, t3, j3, js3, rfl, rfl, h3, s2.trans s3, c3, hg⟩
  · rw [if_neg hc, if_neg hc]
    obtain ⟨t2, pv, e2, h2, s2, c2, c3⟩ := skip1Rev_spec h1 c1
    rw [e2, Res.bind_ok]
    dsimp only
    by_cases hz : treeSeek m k = 0
    · rw [if_pos hz, c2 hz]
      exact Or.inr ⟨rfl, rfl⟩
    · rw [if_neg hz]
      have c3 := c3 (by omega)
      rw [peek_spec h2 c3]
      cases hg2 : m[treeSeek m k - 1]? with
      | none => rw [peek_end hg2]; exact Or.inr ⟨rfl, rfl⟩
      | some p =>
        obtain ⟨j', js', rfl⟩ := c3.lt hg2
        rw [peek_get hg2]
        exact Or.inl ⟨_, _, _, _, t2, j', js', rfl, rfl, h2, s2, c3, hg2⟩

theorem delete_wh (c : Cfg) (h : WhRep t m) (hk : k.length ≤ 8)
    (hz : ∀ f' b, delete ⟨c, m⟩ k = .ok f' → b ∈ keysOf m → b ∉ keysOf f'.tree → mergeHazard t b = false) :
    RelRes Twin (whDelete ⟨c, t⟩ k) (delete ⟨c, m⟩ k) := by
  have hmerge : ∀ {t' : Wh} {j js i : Nat}, WhRep t' m → Sorts t t' → CurAt t' m (some (j, js)) i →
      delete ⟨c, m⟩ k = deleteMerge ⟨c, m⟩ i → RelRes Twin (whDeleteMerge c t' (some (j, js))) (deleteMerge ⟨c, m⟩ i) := by
    intro t' j js i h' s' hc he
    refine deleteMerge_wh c h' hc fun f' e h1 h2 => ?_
    rw [s'.hazard]
    exact hz f' e.1 (by rw [he]; exact h1) (List.mem_map.2 ⟨e, List.mem_of_getElem? h2, rfl⟩)
      (deleteMerge_removes h.inc h1 h2)
  obtain ⟨t1, cur, e1, h1, s1, c1⟩ := seek_spec h hk
  have hD : delete ⟨c, m⟩ k = delete ⟨c, m⟩ k := rfl
  conv at hD => rhs; unfold delete
  unfold whDelete
  dsimp only at hD ⊢
  rw [e1, Res.bind_ok]
  dsimp only
  rw [peek_spec h1 c1]
  cases hg : m[treeSeek m k]? with
  | none => rw [hD, peek_end hg]; trivial
  | some e =>
    obtain ⟨j, js, rfl⟩ := c1.lt hg
    rw [peek_get hg, Res.bind_ok] at hD
    rw [peek_get hg, Res.bind_ok]
    by_cases hc : (e.1 == k && !e.2.isPartial) = true
    · rw [if_pos hc] at hD ⊢
      have := hmerge h1 s1 c1 hD
      rw [hD]; exact this
    · rw [if_neg hc] at hD ⊢
      rcases around_wh h1 c1 hg with ⟨i, prev, st, next, t', j', js', e2, e3, h', s', c', hm⟩ | ⟨e2, e3⟩
      · rw [e2, Res.bind_ok] at hD
        rw [e3, Res.bind_ok]
        dsimp only at hD ⊢
        cases hfr : getFrame c.infixSize prev next with
        | ub => rw [hfr] at hD; rw [hD]; trivial
        | hang => rw [hfr] at hD; rw [hD]; trivial
        | ok fr =>
          rw [hfr, Res.bind_ok] at hD
          rw [Res.bind_ok]
          by_cases hp : (st.isPartial && mergesPartial c fr prev st (fr.item c.infixSize k)) = true
          · rw [if_pos hp] at hD ⊢
            rw [hD]
            exact hmerge h' (s1.trans s') c' hD
          · rw [if_neg hp] at hD ⊢
            rw [hD]
            exact ⟨rfl, write_spec h' c' hm _⟩
      · rw [e2] at hD
        rw [hD, e3]; trivial

end

end Verif
