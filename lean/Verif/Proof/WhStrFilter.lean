import Verif.Proof.WhStrIter
import Verif.Proof.WhBulk
import Verif.Model.WhStrFilter

/-!
# The filter on the tree for keys of any length and the filter on the ordered list
-/

namespace Verif.Str

/-- No key is too long for the tree. -/
def Bounded (m : Tree) : Prop := ∀ k ∈ keysOf m, k.length ≤ 65535

/-- Both filters hold the same regions. -/
def Twin (w : StrFilter) (f : Filter) : Prop := w.cfg = f.cfg ∧ SRep w.tree f.tree ∧ Bounded f.tree

theorem Bounded.put {m : Tree} (h : Bounded m) {k : Key} (hk : k.length ≤ 65535) (st : Store) : Bounded (treePut m k st) := by
  intro k' h'
  rcases mem_treePut.1 h' with rfl | h'
  · exact hk
  · exact h k' h'

theorem Bounded.set {m : Tree} (h : Bounded m) {n : Nat} {e : Entry} (he : m[n]? = some e) (st : Store) :
    Bounded (m.set n (e.1, st)) := by
  intro k' h'
  obtain ⟨x, hx, rfl⟩ := List.mem_map.1 h'
  rcases List.mem_or_eq_of_mem_set hx with hx | rfl
  · exact h _ (List.mem_map_of_mem hx)
  · exact h e.1 (List.mem_map_of_mem (List.mem_of_getElem? he))

theorem Bounded.del {m : Tree} (h : Bounded m) (k : Key) : Bounded (treeDel m k) := by
  intro k' h'
  obtain ⟨x, hx, rfl⟩ := List.mem_map.1 h'
  exact h _ (List.mem_map_of_mem (List.mem_filter.1 hx).1)

theorem wput_spec {t : STree} {m : Tree} (h : SRep t m) (hb : Bounded m) {k : Key} (hk : k.length ≤ 65535) (st : Store) :
    ∃ t', t.wput k st = .ok t' ∧ SRep t' (treePut m k st) := by
  rcases put_spec h k st with ⟨_, t', e, r⟩ | ⟨hc, _⟩
  · exact ⟨t', by unfold STree.wput; rw [e]; rfl, r⟩
  · exact absurd hc (not_crowded h hk fun e he => hb _ (List.mem_map_of_mem he))

section
variable {t : STree} {m : Tree} {k : Key}

/-- Both searches for the region of a key agree. -/
theorem locate_str (h : SRep t m) :
    (∃ i prev st next t' j js, locate m k = .ok (i, prev, st, next) ∧
      t.locate k = .ok (t', some (j, js), prev, st, next) ∧ SRep t' m ∧ Sorts t t' ∧ CurAt t' m (some (j, js)) i ∧
      m[i]? = some (prev, st)) ∨ (locate m k = .ub ∧ t.locate k = .ub) := by
  obtain ⟨t1, cur, e1, h1, s1, c1⟩ := seek_spec h k
  unfold locate STree.locate
  dsimp only
  rw [e1, Res.bind_ok]
  dsimp only
  rw [peek_spec h1 c1]
  cases hg : m[treeSeek m k]? with
  | none => rw [peek_end hg]; exact Or.inr ⟨rfl, rfl⟩
  | some e =>
    obtain ⟨j, js, rfl⟩ := c1.lt hg
    rw [peek_get hg, Res.bind_ok, Res.bind_ok]
    by_cases hc : (e.1 == k) = true
    · rw [if_pos hc, if_pos hc]
      obtain ⟨t2, nx, e2, h2, s2, c2⟩ := skip1_spec h1 c1
      rw [e2, Res.bind_ok]
      dsimp only
      rw [peek_spec h2 c2]
      cases hg2 : m[treeSeek m k + 1]? with
      | none => rw [peek_end hg2]; exact Or.inr ⟨rfl, rfl⟩
      | some e' =>
        rw [peek_get hg2]
        exact Or.inl ⟨_, _, _, _, t2, j, js, rfl, rfl, h2, s1.trans s2, c1.sorts s2, hg⟩
    · rw [if_neg hc, if_neg hc]
      obtain ⟨t2, pv, e2, h2, s2, c2, c3⟩ := skip1Rev_spec h1 c1
      rw [e2, Res.bind_ok]
      dsimp only
      by_cases hz : treeSeek m k = 0
      · rw [if_pos hz, c2 hz]
        exact Or.inr ⟨rfl, rfl⟩
      · rw [if_neg hz]
        have c3 := c3 (by omega)
        rw [peek_spec h2 c3]
        cases hg2 : m[treeSeek m k - 1]? with
        | none => rw [peek_end hg2]; exact Or.inr ⟨rfl, rfl⟩
        | some p =>
          obtain ⟨j', js', rfl⟩ := c3.lt hg2
          rw [peek_get hg2]
          exact Or.inl ⟨_, _, _, _, t2, j', js', rfl, rfl, h2, s1.trans s2, c3, hg2⟩

theorem pointQuery_str (c : Cfg) (h : SRep t m) :
    RelRes (fun w b => w.1.cfg = c ∧ SRep w.1.tree m ∧ Sorts t w.1.tree ∧ w.2 = b) (strPointQuery ⟨c, t⟩ k)
      (pointQuery ⟨c, m⟩ k) := by
  obtain ⟨t1, cur, e1, h1, s1, c1⟩ := seek_spec h k
  unfold strPointQuery pointQuery
  dsimp only
  rw [e1, Res.bind_ok]
  dsimp only
  rw [peek_spec h1 c1]
  cases hg : m[treeSeek m k]? with
  | none => rw [peek_end hg]; trivial
  | some e =>
    obtain ⟨j, js, rfl⟩ := c1.lt hg
    rw [peek_get hg, Res.bind_ok, Res.bind_ok]
    by_cases hc : (e.1 == k) = true
    · rw [if_pos hc, if_pos hc]
      exact ⟨rfl, h1, s1, rfl⟩
    · rw [if_neg hc, if_neg hc]
      obtain ⟨t2, pv, e2, h2, s2, c2, c3⟩ := skip1Rev_spec h1 c1
      rw [e2, Res.bind_ok]
      dsimp only
      by_cases hz : treeSeek m k = 0
      · rw [if_pos hz, c2 hz]
        trivial
      · rw [if_neg hz, peek_spec h2 (c3 (by omega))]
        cases treePeek m (treeSeek m k - 1) with
        | ub => trivial
        | hang => trivial
        | ok p =>
          rw [Res.bind_ok, Res.bind_ok]
          by_cases hp : (p.2.isPartial && isPrefixOf p.1 k p.2.invalidBits) = true
          · rw [if_pos hp, if_pos hp]
            exact ⟨rfl, h2, s1.trans s2, rfl⟩
          · rw [if_neg hp, if_neg hp]
            cases getFrame c.infixSize p.1 e.1 with
            | ub => trivial
            | hang => trivial
            | ok fr => exact ⟨rfl, h2, s1.trans s2, rfl⟩

theorem rangeQuery_str (c : Cfg) (h : SRep t m) (r : Key) :
    RelRes (fun w b => w.1.cfg = c ∧ SRep w.1.tree m ∧ Sorts t w.1.tree ∧ w.2 = b) (strRangeQuery ⟨c, t⟩ k r)
      (rangeQuery false ⟨c, m⟩ k r) := by
  obtain ⟨t1, cur, e1, h1, s1, c1⟩ := seek_spec h k
  unfold strRangeQuery rangeQuery
  dsimp only
  rw [e1, Res.bind_ok]
  dsimp only
  rw [peek_spec h1 c1]
  cases hg : m[treeSeek m k]? with
  | none => rw [peek_end hg]; trivial
  | some e =>
    obtain ⟨j, js, rfl⟩ := c1.lt hg
    rw [peek_get hg, Res.bind_ok, Res.bind_ok]
    by_cases hc : keyLe e.1 r = true
    · rw [if_pos hc, if_pos hc]
      exact ⟨rfl, h1, s1, rfl⟩
    · rw [if_neg hc, if_neg hc]
      obtain ⟨t2, pv, e2, h2, s2, c2, c3⟩ := skip1Rev_spec h1 c1
      rw [e2, Res.bind_ok]
      dsimp only
      by_cases hz : treeSeek m k = 0
      · rw [if_pos hz, c2 hz]
        trivial
      · rw [if_neg hz, peek_spec h2 (c3 (by omega))]
        cases treePeek m (treeSeek m k - 1) with
        | ub => trivial
        | hang => trivial
        | ok p =>
          rw [Res.bind_ok, Res.bind_ok]
          by_cases hp : (p.2.isPartial && isPrefixOf p.1 k p.2.invalidBits) = true
          · rw [if_pos hp, if_pos hp]
            exact ⟨rfl, h2, s1.trans s2, rfl⟩
          · rw [if_neg hp, if_neg hp]
            cases getFrame c.infixSize p.1 e.1 with
            | ub => trivial
            | hang => trivial
            | ok fr => exact ⟨rfl, h2, s1.trans s2, rfl⟩

theorem insertSimple_str (c : Cfg) (h : SRep t m) (hb : Bounded m) :
    RelRes Twin (strInsertSimple ⟨c, t⟩ k) (insertSimple ⟨c, m⟩ k) := by
  unfold strInsertSimple insertSimple
  dsimp only
  rcases locate_str h with ⟨i, prev, st, next, t', j, js, e1, e2, h', _, hc, hm⟩ | ⟨e1, e2⟩
  · rw [e1, e2, Res.bind_ok, Res.bind_ok]
    dsimp only
    cases getFrame c.infixSize prev next with
    | ub => trivial
    | hang => trivial
    | ok fr => exact ⟨rfl, write_spec h' hc hm _, hb.set hm _⟩
  · rw [e1, e2]; trivial

theorem insertSplit_str (c : Cfg) (h : SRep t m) (hb : Bounded m) (hk : k.length ≤ 65535) :
    RelRes Twin (strInsertSplit ⟨c, t⟩ k) (insertSplit ⟨c, m⟩ k) := by
  unfold strInsertSplit insertSplit planSplit
  dsimp only
  rcases locate_str h with ⟨i, prev, st, next, t', j, js, e1, e2, h', _, hc, hm⟩ | ⟨e1, e2⟩
  · rw [e1, e2, Res.bind_ok, Res.bind_ok]
    dsimp only
    cases hp : planAt c k prev st next with
    | ub => trivial
    | hang => trivial
    | ok o =>
      rw [Res.bind_ok, Res.bind_ok]
      cases o with
      | none => exact insertSimple_str c h' hb
      | some d =>
        dsimp only
        obtain ⟨hprev, hed⟩ := planAt_prev hp
        have hlp : prev.length ≤ 65535 := hb _ (List.mem_map.2 ⟨(prev, st), List.mem_of_getElem? hm, rfl⟩)
        unfold applySplit
        dsimp only
        rw [hprev]
        obtain ⟨t1, p1, r1⟩ := wput_spec h' hb hlp
          (((allocWithList c d.left d.totalL).setInvalidBits d.store.invalidBits).setPartial d.store.isPartial)
        have hb1 := hb.put hlp
          (((allocWithList c d.left d.totalL).setInvalidBits d.store.invalidBits).setPartial d.store.isPartial)
        rw [p1, Res.bind_ok]
        cases hz : d.zeroPos with
        | none =>
          dsimp only
          obtain ⟨t2, p2, r2⟩ := wput_spec r1 hb1 hk (allocWithList c d.right d.totalG)
          rw [p2, Res.bind_ok]
          exact ⟨rfl, r2, hb1.put hk _⟩
        | some zp =>
          dsimp only
          have hle : d.edited.length ≤ 65535 := by
            rw [hed]; exact Nat.le_trans (editKey_length_le k _) hk
          by_cases hr : d.right.length = 0
          · rw [if_pos hr, if_pos hr]; trivial
          · rw [if_neg hr, if_neg hr]
            obtain ⟨t2, p2, r2⟩ := wput_spec r1 hb1 hle (((insertRaw c (allocWithList c (d.right.drop 1) d.totalG) d.keyItem
              d.totalG).setInvalidBits (7 - (zp - 1) % 8)).setPartial true)
            rw [Res.bind_ok, p2, Res.bind_ok]
            exact ⟨rfl, r2, hb1.put hle _⟩
  · rw [e1, e2]; trivial

theorem deleteMerge_str (c : Cfg) (h : SRep t m) (hb : Bounded m) {j js i : Nat} (hc : CurAt t m (some (j, js)) i) :
    RelRes Twin (strDeleteMerge c t (some (j, js))) (deleteMerge ⟨c, m⟩ i) := by
  unfold strDeleteMerge deleteMerge
  dsimp only
  rw [peek_spec h hc]
  cases hm : m[i]? with
  | none => rw [peek_end hm]; trivial
  | some e =>
    obtain ⟨middle, storeR⟩ := e
    rw [peek_get hm, Res.bind_ok, Res.bind_ok]
    dsimp only
    obtain ⟨t1, cr, e1, h1, s1, c1⟩ := skip1_spec h hc
    rw [e1, Res.bind_ok]
    dsimp only
    rw [peek_spec h1 c1]
    cases hr : m[i + 1]? with
    | none => rw [peek_end hr]; trivial
    | some e =>
      obtain ⟨right, str⟩ := e
      obtain ⟨jr, jsr, rfl⟩ := c1.lt hr
      rw [peek_get hr, Res.bind_ok, Res.bind_ok]
      dsimp only
      obtain ⟨t2, cm, e2, h2, s2, _, c2⟩ := skip1Rev_spec h1 c1
      replace c2 := c2 (by omega)
      rw [Nat.add_sub_cancel] at c2
      obtain ⟨jm, jsm, rfl⟩ := c2.lt hm
      rw [e2, Res.bind_ok]
      dsimp only
      obtain ⟨t3, cl, e3, h3, s3, c3, c4⟩ := skip1Rev_spec h2 c2
      rw [e3, Res.bind_ok]
      dsimp only
      by_cases hi0 : i = 0
      · rw [if_pos hi0, c3 hi0]; trivial
      · rw [if_neg hi0]
        replace c4 := c4 (by omega)
        rw [peek_spec h3 c4]
        cases hl : m[i - 1]? with
        | none => rw [peek_end hl]; trivial
        | some e =>
          obtain ⟨left, storeL⟩ := e
          rw [peek_get hl, Res.bind_ok, Res.bind_ok]
          dsimp only
          cases hfr : getFrame c.infixSize left right with
          | ub => trivial
          | hang => trivial
          | ok fr =>
            rw [Res.bind_ok, Res.bind_ok]
            by_cases hlen : (getInfixList c storeL).length ≠ storeL.elemCount ∨
                (getInfixList c storeR).length ≠ storeR.elemCount
            · rw [if_pos hlen, if_pos hlen]; trivial
            · rw [if_neg hlen, if_neg hlen]
              cases hL : updateInfixListDelete c.infixSize fr.shared fr.ignore fr.implicitSize left middle
                  (getInfixList c storeL) with
              | ub => trivial
              | hang => trivial
              | ok newL =>
                rw [Res.bind_ok, Res.bind_ok]
                cases hR : updateInfixListDelete c.infixSize fr.shared fr.ignore fr.implicitSize middle right
                    (getInfixList c storeR) with
                | ub => trivial
                | hang => trivial
                | ok newR =>
                  rw [Res.bind_ok, Res.bind_ok]
                  obtain ⟨t4, e4, r4⟩ := del_spec h3 middle
                  have hlp : left.length ≤ 65535 := hb _ (List.mem_map.2 ⟨(left, storeL), List.mem_of_getElem? hl, rfl⟩)
                  obtain ⟨t5, e5, r5⟩ := wput_spec r4 (hb.del middle) hlp
                    (((allocWithList c ((newL ++ newR).map fun x => sub64 x (shl64 fr.prevImplicit c.infixSize))
                      fr.total).setPartial storeL.isPartial).setInvalidBits storeL.invalidBits)
                  rw [e4, Res.bind_ok, e5, Res.bind_ok]
                  exact ⟨rfl, r5, (hb.del middle).put hlp _⟩

theorem around_str (h1 : SRep t m) {j js : Nat} (c1 : CurAt t m (some (j, js)) (treeSeek m k)) {e : Entry}
    (hg : m[treeSeek m k]? = some e) :
    (∃ i prev st next t' j' js', locate m k = .ok (i, prev, st, next) ∧
      t.around (some (j, js)) e k = .ok (t', some (j', js'), prev, st, next) ∧ SRep t' m ∧ Sorts t t' ∧
      CurAt t' m (some (j', js')) i ∧ m[i]? = some (prev, st)) ∨
    (locate m k = .ub ∧ t.around (some (j, js)) e k = .ub) := by
  unfold locate STree.around
  dsimp only
  rw [peek_get hg, Res.bind_ok]
  by_cases hc : (e.1 == k) = true
  · rw [if_pos hc, if_pos hc]
    obtain ⟨t2, nx, e2, h2, s2, c2⟩ := skip1_spec h1 c1
    rw [e2, Res.bind_ok]
    dsimp only
    rw [peek_spec h2 c2]
    cases hg2 : m[treeSeek m k + 1]? with
    | none => rw [peek_end hg2]; exact Or.inr ⟨rfl, rfl⟩
    | some e' =>
      obtain ⟨jn, jsn, rfl⟩ := c2.lt hg2
      rw [peek_get hg2, Res.bind_ok, Res.bind_ok]
      obtain ⟨t3, cu, e3, h3, s3, _, c3⟩ := skip1Rev_spec h2 c2
      replace c3 := c3 (by omega)
      rw [Nat.add_sub_cancel] at c3
      obtain ⟨j3, js3, rfl⟩ := c3.lt hg
      rw [e3]
      exact Or.inl ⟨_, _, _, _, t3, j3, js3, rfl, rfl, h3, s2.trans s3, c3, hg⟩
  · rw [if_neg hc, if_neg hc]
    obtain ⟨t2, pv, e2, h2, s2, c2, c3⟩ := skip1Rev_spec h1 c1
    rw [e2, Res.bind_ok]
    dsimp only
    by_cases hz : treeSeek m k = 0
    · rw [if_pos hz, c2 hz]
      exact Or.inr ⟨rfl, rfl⟩
    · rw [if_neg hz]
      have c3 := c3 (by omega)
      rw [peek_spec h2 c3]
      cases hg2 : m[treeSeek m k - 1]? with
      | none => rw [peek_end hg2]; exact Or.inr ⟨rfl, rfl⟩
      | some p =>
        obtain ⟨j', js', rfl⟩ := c3.lt hg2
        rw [peek_get hg2]
        exact Or.inl ⟨_, _, _, _, t2, j', js', rfl, rfl, h2, s2, c3, hg2⟩

theorem delete_str (c : Cfg) (h : SRep t m) (hb : Bounded m) :
    RelRes Twin (strDelete ⟨c, t⟩ k) (delete ⟨c, m⟩ k) := by
  obtain ⟨t1, cur, e1, h1, s1, c1⟩ := seek_spec h k
  unfold strDelete delete
  dsimp only
  rw [e1, Res.bind_ok]
  dsimp only
  rw [peek_spec h1 c1]
  cases hg : m[treeSeek m k]? with
  | none => rw [peek_end hg]; trivial
  | some e =>
    obtain ⟨j, js, rfl⟩ := c1.lt hg
    rw [peek_get hg, Res.bind_ok, Res.bind_ok]
    by_cases hc : (e.1 == k && !e.2.isPartial) = true
    · rw [if_pos hc, if_pos hc]
      exact deleteMerge_str c h1 hb c1
    · rw [if_neg hc, if_neg hc]
      rcases around_str h1 c1 hg with ⟨i, prev, st, next, t', j', js', e2, e3, h', s', c', hm⟩ | ⟨e2, e3⟩
      · rw [e2, e3, Res.bind_ok, Res.bind_ok]
        dsimp only
        cases hfr : getFrame c.infixSize prev next with
        | ub => trivial
        | hang => trivial
        | ok fr =>
          rw [Res.bind_ok, Res.bind_ok]
          by_cases hp : (st.isPartial && mergesPartial c fr prev st (fr.item c.infixSize k)) = true
          · rw [if_pos hp, if_pos hp]
            exact deleteMerge_str c h' hb c'
          · rw [if_neg hp, if_neg hp]
            exact ⟨rfl, write_spec h' c' hm _, hb.set hm _⟩
      · rw [e2, e3]; trivial

/-! ## Construction -/

theorem bulkRegion_str (c : Cfg) (h : SRep t m) (hb : Bounded m) {left : Key} (hl : left.length ≤ 65535) (right : Key)
    (mid : List Key) (g : Nat) :
    RelRes (fun t m => SRep t m ∧ Bounded m) (strBulkRegion c t left right mid g) (bulkRegion c m left right mid g) := by
  unfold strBulkRegion bulkRegion
  cases getFrame c.infixSize left right with
  | ub => trivial
  | hang => trivial
  | ok fr =>
    rw [Res.bind_ok, Res.bind_ok]
    obtain ⟨t', e, h'⟩ := wput_spec h hb hl (loadList c (Store.new g) (bulkItems c.infixSize fr mid) fr.total false)
    rw [e]
    exact ⟨h', hb.put hl _⟩

theorem getD_short {keys : List Key} (hlen : ∀ k ∈ keys, k.length ≤ 65535) (i : Nat) : (keys.getD i []).length ≤ 65535 := by
  rw [List.getD_eq_getElem?_getD]
  cases h : keys[i]? with
  | none => exact Nat.zero_le _
  | some k => exact hlen k (List.mem_of_getElem? h)

theorem bulkLoop_str {keys : List Key} (c : Cfg) (hlen : ∀ k ∈ keys, k.length ≤ 65535) :
    ∀ (fuel j last : Nat) {t : STree} {m : Tree}, SRep t m → Bounded m →
      RelRes (fun a b => a.2 = b.2 ∧ SRep a.1 b.1 ∧ Bounded b.1) (strBulkLoop c keys fuel j last t)
        (bulkLoop c keys fuel j last m) := by
  intro fuel
  induction fuel with
  | zero =>
    intro j last t m h hb
    exact ⟨rfl, h, hb⟩
  | succ fuel ih =>
    intro j last t m h hb
    rw [strBulkLoop, bulkLoop]
    by_cases hc : j % 1024 = 0
    · rw [if_pos hc, if_pos hc]
      have hr := bulkRegion_str c h hb (getD_short hlen last) (keys.getD j []) ((keys.drop (last + 1)).take 1023) growSep
      revert hr
      cases strBulkRegion c t (keys.getD last []) (keys.getD j []) ((keys.drop (last + 1)).take 1023) growSep <;>
        cases bulkRegion c m (keys.getD last []) (keys.getD j []) ((keys.drop (last + 1)).take 1023) growSep <;>
        intro hr <;> first | exact hr.elim | trivial | skip
      rw [Res.bind_ok, Res.bind_ok]
      exact ih (j + 1) (last + 1024) hr.1 hr.2
    · rw [if_neg hc, if_neg hc]
      exact ih (j + 1) last h hb

theorem addTreeKey_str (h : SRep t m) (hb : Bounded m) (hk : k.length ≤ 65535) :
    ∃ t', strAddTreeKey t k = .ok t' ∧ SRep t' (addTreeKey m k) ∧ Bounded (addTreeKey m k) := by
  obtain ⟨t', e, r⟩ := wput_spec h hb hk (Store.new growSep)
  exact ⟨t', e, r, hb.put hk _⟩

theorem bulkCore_str {keys : List Key} (c : Cfg) (hlen : ∀ k ∈ keys, k.length ≤ 65535) (h : SRep t m) (hb : Bounded m) :
    RelRes (fun t m => SRep t m ∧ Bounded m) (strBulkCore c t keys) (bulkCore c m keys) := by
  unfold strBulkCore bulkCore
  dsimp only
  by_cases hz : keys.length = 0
  · rw [if_pos hz, if_pos hz]; trivial
  · rw [if_neg hz, if_neg hz]
    have hr := bulkLoop_str c hlen (keys.length - 1) 1 0 h hb
    revert hr
    generalize strBulkLoop c keys (keys.length - 1) 1 0 t = X
    generalize bulkLoop c keys (keys.length - 1) 1 0 m = Y
    cases X <;> cases Y <;> intro hr <;> first | exact hr.elim | trivial | skip
    rename_i a b
    obtain ⟨ta, la⟩ := a
    obtain ⟨mb, lb⟩ := b
    obtain ⟨hl, h1, hb1⟩ := hr
    dsimp only at hl h1 hb1
    subst hl
    rw [Res.bind_ok, Res.bind_ok]
    dsimp only
    have hr2 := bulkRegion_str c h1 hb1 (getD_short hlen la) (keys.getD (keys.length - 1) [])
      ((keys.drop (la + 1)).take (keys.length - 1 - (la + 1)))
      (findGrade c ((keys.drop (la + 1)).take (keys.length - 1 - (la + 1))).length 500 0)
    revert hr2
    generalize strBulkRegion c ta (keys.getD la []) _ _ _ = X
    generalize bulkRegion c mb (keys.getD la []) _ _ _ = Y
    cases X <;> cases Y <;> intro hr2 <;> first | exact hr2.elim | trivial | skip
    rename_i a b
    have hr2 : SRep a b ∧ Bounded b := hr2
    rw [Res.bind_ok, Res.bind_ok]
    by_cases hc : keys.length - 1 ≠ la
    · rw [if_pos hc, if_pos hc]
      obtain ⟨t', e, h', hb'⟩ := addTreeKey_str hr2.1 hr2.2 (getD_short hlen (keys.length - 1))
      rw [e]
      exact ⟨h', hb'⟩
    · rw [if_neg hc, if_neg hc]
      exact hr2

theorem bulkFixed_str {n : Nat} (hn : n ≤ 65535) {keys : List Key} (c : Cfg) (hlen : ∀ k ∈ keys, k.length ≤ 65535) :
    RelRes Twin (strBulkFixed c n keys) (bulkFixed c n keys) := by
  have h0 : Bounded [] := fun k hk => by simp [keysOf] at hk
  obtain ⟨t1, e1, h1, b1⟩ := addTreeKey_str SRep.empty h0 (k := List.replicate n 0) (by simpa using hn)
  obtain ⟨t2, e2, h2, b2⟩ := addTreeKey_str h1 b1 (k := List.replicate n 255) (by simpa using hn)
  unfold strBulkFixed bulkFixed
  dsimp only
  rw [e1, Res.bind_ok, e2, Res.bind_ok]
  have := bulkCore_str c hlen h2 b2
  revert this
  generalize strBulkCore c t2 keys = X
  generalize bulkCore c _ keys = Y
  cases X <;> cases Y <;> intro hr <;> first | exact hr.elim | trivial

theorem maxLen_le {N : Nat} : ∀ {keys : List Key} {a : Nat}, a ≤ N → (∀ k ∈ keys, k.length ≤ N) →
    keys.foldl (fun m k => max m k.length) a ≤ N
  | [], _, h, _ => h
  | k :: keys, a, h, hl => by
    rw [List.foldl_cons]
    exact maxLen_le (Nat.max_le.2 ⟨h, hl k (by simp)⟩) fun k' hk' => hl k' (by simp [hk'])

theorem bulkVar_str {keys : List Key} (c : Cfg) (hlen : ∀ k ∈ keys, k.length ≤ 65535) {X : Res StrFilter} {Y : Res Filter}
    (hX : strBulkVar c keys = X) (hY : bulkVar c keys = Y) : RelRes Twin X Y := by
  rw [← hX, ← hY]
  clear hX hY
  have h0 : Bounded [] := fun k hk => by simp [keysOf] at hk
  unfold strBulkVar bulkVar
  dsimp only
  have hz : (List.replicate 8 (0 : UInt8)).length ≤ 65535 := by rw [List.length_replicate]; omega
  generalize List.replicate 8 (0 : UInt8) = z at hz ⊢
  obtain ⟨t1, e1, h1, b1⟩ := addTreeKey_str SRep.empty h0 hz
  rw [e1, Res.bind_ok]
  have := bulkCore_str c hlen h1 b1
  revert this
  generalize strBulkCore c t1 keys = X
  generalize bulkCore c _ keys = Y
  cases X <;> cases Y <;> intro hr <;> first | exact hr.elim | trivial | skip
  obtain ⟨t', e, h', hb'⟩ := addTreeKey_str hr.1 hr.2
    (k := List.replicate (keys.foldl (fun m k => max m k.length) 0) 255)
    (by rw [List.length_replicate]; exact maxLen_le (Nat.zero_le _) hlen)
  rw [Res.bind_ok, Res.bind_ok, e, Res.bind_ok]
  exact ⟨rfl, h', hb'⟩

/-! ## Streaming -/

/-- Nothing the streaming loader keeps is too long. -/
def StreamOK (b : Stream) : Prop :=
  (∀ k, b.left = some k → k.length ≤ 65535) ∧ (∀ k ∈ b.keys, k.length ≤ 65535) ∧ b.maxLen ≤ 65535

theorem streamKey_str {w : StrFilter} {f : Filter} {b : Stream} (h : Twin w f) (hs : StreamOK b) (hk : k.length ≤ 65535) :
    RelRes (fun p q => Twin p.1 q.1 ∧ p.2 = q.2 ∧ StreamOK q.2) (strStreamKey w b k) (streamKey f b k) := by
  obtain ⟨hc, hr, hb⟩ := h
  unfold strStreamKey streamKey
  cases hl : b.left with
  | none => exact ⟨⟨hc, hr, hb⟩, rfl, fun k' hk' => by cases hk'; exact hk, hs.2.1, hk⟩
  | some left =>
    dsimp only
    by_cases h1 : b.keys.length < 1023
    · rw [if_pos h1, if_pos h1]
      refine ⟨⟨hc, hr, hb⟩, rfl, fun k' hk' => hs.1 k' (by rw [hl]; exact hk'), fun k' hk' => ?_, Nat.max_le.2 ⟨hs.2.2, hk⟩⟩
      rcases List.mem_append.1 hk' with hk' | hk'
      · exact hs.2.1 k' hk'
      · rw [List.mem_singleton.1 hk']; exact hk
    · rw [if_neg h1, if_neg h1, hc]
      have := bulkRegion_str f.cfg hr hb (hs.1 left hl) k b.keys growSep
      revert this
      generalize strBulkRegion f.cfg w.tree left k b.keys growSep = X
      generalize bulkRegion f.cfg f.tree left k b.keys growSep = Y
      cases X <;> cases Y <;> intro hr <;> first | exact hr.elim | trivial | skip
      exact ⟨⟨rfl, hr.1, hr.2⟩, rfl, fun k' hk' => by cases hk'; exact hk, fun k' hk' => (by cases hk'),
        Nat.max_le.2 ⟨hs.2.2, hk⟩⟩

theorem streamFold_str : ∀ {keys : List Key} (_ : ∀ k ∈ keys, k.length ≤ 65535) {X : Res (StrFilter × Stream)}
    {Y : Res (Filter × Stream)} (_ : RelRes (fun p q => Twin p.1 q.1 ∧ p.2 = q.2 ∧ StreamOK q.2) X Y),
    RelRes (fun p q => Twin p.1 q.1 ∧ p.2 = q.2 ∧ StreamOK q.2)
      (keys.foldl (fun r k => Res.bind r fun (f, b) => strStreamKey f b k) X)
      (keys.foldl (fun r k => Res.bind r fun (f, b) => streamKey f b k) Y)
  | [], _, _, _, h => h
  | k :: keys, hlen, X, Y, h => by
    rw [List.foldl_cons, List.foldl_cons]
    refine streamFold_str (fun k' hk' => hlen k' (by simp [hk'])) ?_
    revert h
    cases X <;> cases Y <;> intro h <;> first | exact h.elim | trivial | skip
    rename_i p q
    obtain ⟨w, b⟩ := p
    obtain ⟨f, b'⟩ := q
    obtain ⟨h1, h2, h3⟩ := h
    dsimp only at h1 h2 h3
    subst h2
    exact streamKey_str h1 h3 (hlen k (by simp))

theorem streamFinish_str {w : StrFilter} {f : Filter} {b : Stream} (h : Twin w f) (hs : StreamOK b) :
    RelRes (fun p q => Twin p.1 q.1) (strStreamFinish w b) (streamFinish f b) := by
  obtain ⟨hc, hr, hb⟩ := h
  unfold strStreamFinish streamFinish
  by_cases h0 : b.left.isNone = true
  · rw [if_pos h0, if_pos h0]; trivial
  rw [if_neg h0, if_neg h0]
  obtain ⟨t1, e1, h1, b1⟩ := addTreeKey_str hr hb (k := List.replicate b.maxLen 0) (by simpa using hs.2.2)
  obtain ⟨t2, e2, h2, b2⟩ := addTreeKey_str h1 b1 (k := List.replicate b.maxLen 255) (by simpa using hs.2.2)
  rw [e1, Res.bind_ok, e2, Res.bind_ok]
  dsimp only
  by_cases hz : b.keys.length > 0
  · rw [if_pos hz, if_pos hz, hc]
    have hl : (b.left.getD []).length ≤ 65535 := by
      cases hl : b.left with
      | none => exact Nat.zero_le _
      | some l => exact hs.1 l hl
    have hR : (b.keys.getLastD []).length ≤ 65535 := by
      rw [List.getLastD_eq_getLast?]
      cases hl : b.keys.getLast? with
      | none => exact Nat.zero_le _
      | some l => exact hs.2.1 l (List.mem_of_getLast? hl)
    have := bulkRegion_str f.cfg h2 b2 hl (b.keys.getLastD []) b.keys.dropLast (findGrade f.cfg b.keys.dropLast.length 500 0)
    revert this
    generalize strBulkRegion f.cfg t2 _ _ _ _ = X
    generalize bulkRegion f.cfg _ _ _ _ _ = Y
    cases X <;> cases Y <;> intro hr <;> first | exact hr.elim | trivial | skip
    obtain ⟨t3, e3, h3, b3⟩ := addTreeKey_str hr.1 hr.2 hR
    rw [Res.bind_ok, Res.bind_ok, e3, Res.bind_ok]
    exact ⟨rfl, h3, b3⟩
  · rw [if_neg hz, if_neg hz]
    exact ⟨hc, h2, b2⟩

theorem streamAll_str {keys : List Key} (c : Cfg) (hlen : ∀ k ∈ keys, k.length ≤ 65535) :
    RelRes Twin (strStreamAll c keys) (streamAll c keys) := by
  have h0 : Bounded [] := fun k hk => by simp [keysOf] at hk
  unfold strStreamAll streamAll
  have := streamFold_str hlen (X := Res.ok (⟨c, STree.empty⟩, ⟨none, [], 0⟩)) (Y := Res.ok (⟨c, []⟩, ⟨none, [], 0⟩))
    ⟨⟨rfl, SRep.empty, h0⟩, rfl, fun k hk => (by cases hk), fun k hk => (by cases hk), Nat.zero_le _⟩
  revert this
  generalize keys.foldl (fun r k => Res.bind r fun (f, b) => strStreamKey f b k) _ = X
  generalize keys.foldl (fun r k => Res.bind r fun (f, b) => streamKey f b k) _ = Y
  cases X <;> cases Y <;> intro hr <;> first | exact hr.elim | trivial | skip
  rename_i p q
  obtain ⟨w, b⟩ := p
  obtain ⟨f, b'⟩ := q
  obtain ⟨h1, h2, h3⟩ := hr
  dsimp only at h1 h2 h3
  subst h2
  rw [Res.bind_ok, Res.bind_ok]
  dsimp only
  have := streamFinish_str h1 h3
  revert this
  generalize strStreamFinish w b = X
  generalize streamFinish f b = Y
  cases X <;> cases Y <;> intro hr <;> first | exact hr.elim | trivial

end

end Verif.Str
