import Verif.Proof.Canon
import Verif.Proof.Insert
import Verif.Proof.Defined
import Verif.Proof.OwnRun

/-!
# Simple inserts commute, bit for bit
-/

namespace Verif

theorem CleanStore.eq_of_same {c : Cfg} {st st' : Store} (h : CleanStore c st) (h' : CleanStore c st') (hs : SameBlock c st st') :
    st = st' := by
  obtain ⟨e, hb⟩ := hs
  have hg : st'.sizeGrade = st.sizeGrade := by rw [sizeGrade_eq, sizeGrade_eq, e]
  have hm : st.mem = st'.mem := by
    refine Nat.eq_of_testBit_eq fun j => ?_
    by_cases hj : j < 1088 + c.size st.sizeGrade + c.size st.sizeGrade * c.infixSize
    · exact hb j (by rw [Nat.mul_add]; omega)
    · rw [h.out j (by omega), h'.out j (by rw [hg]; omega)]
  cases st; cases st'
  simp only at e hm
  rw [e, hm]

theorem status_ext {st st' : Store} (h : st.status < 2 ^ 32) (h' : st'.status < 2 ^ 32) (h1 : st.sizeGrade = st'.sizeGrade)
    (h2 : st.elemCount = st'.elemCount) (h3 : st.invalidBits = st'.invalidBits) (h4 : st.isPartial = st'.isPartial) :
    st.status = st'.status := by
  rw [sizeGrade_eq, sizeGrade_eq] at h1
  rw [elemCount_eq, elemCount_eq] at h2
  rw [invalidBits_eq, invalidBits_eq] at h3
  rw [isPartial_eq, isPartial_eq, decide_eq_decide] at h4
  omega

section
variable {c : Cfg} {T : Nat} {st st' : Store} {L : List Nat}

/-- The status word after an insert does not depend on the item. -/
theorem insertRaw_status (hc : c.WF) (h : StoreHas c T st L) {L' : List Nat} (h' : StoreHas c T st' L')
    (hst : st.status = st'.status) (hT : T ≤ 1024) {x y : Nat}
    (hx : x / 2 ^ c.infixSize < T) (ox : x % 2 = 1) (hy : y / 2 ^ c.infixSize < T) (oy : y % 2 = 1) (hcnt : L.length + 1 < c.cap) :
    (insertRaw c st x T).status = (insertRaw c st' y T).status := by
  have hl : L'.length = L.length := by rw [← h.count, ← h'.count, elemCount_eq, elemCount_eq, hst]
  have grade : ∀ {st : Store} {L : List Nat}, StoreHas c T st L → L.length + 1 < c.cap → ∀ {x : Nat}, x / 2 ^ c.infixSize < T →
      x % 2 = 1 → (insertRaw c st x T).sizeGrade =
        (if (if st.sizeGrade ≠ 0 then c.size (st.sizeGrade - 1) else c.exceptionSize) ≤ st.elemCount
          then st.sizeGrade + 1 else st.sizeGrade) := by
    intro st L h hcnt x hq ho
    obtain ⟨st1, _, e, h1, hroom, hg, _⟩ := insertRaw_room hc h hT x hcnt
    have hcnt1 : st1.elemCount + 1 < 2 ^ 20 := by rw [h1.count]; have := c.cap_le; omega
    obtain ⟨lay, I, hL⟩ := h1
    rw [e, (insertPlace_spec hc I hT hq ho hroom hcnt1).1, hg]
  obtain ⟨a1, a2, A, B, a3, a4⟩ := insertRaw_has hc h hT hx ox hcnt
  obtain ⟨b1, b2, A', B', b3, b4⟩ := insertRaw_has hc h' hT hy oy (by omega)
  refine status_ext a4.status b4.status ?_ ?_ ?_ ?_
  · rw [grade h hcnt hx ox, grade h' (by omega) hy oy]
    simp only [sizeGrade_eq, elemCount_eq, hst]
  · rw [a4.count, b4.count]
    rw [a3, b3] at hl
    simp only [List.length_append, List.length_cons] at hl ⊢
    omega
  · rw [a1, b1, invalidBits_eq, invalidBits_eq, hst]
  · rw [a2, b2, isPartial_eq, isPartial_eq, hst]

theorem insertRaw_comm (hc : c.WF) (h : StoreHas c T st L) (hcl : CleanStore c st) (hT : T ≤ 1024) {x y : Nat}
    (hx : x / 2 ^ c.infixSize < T) (ox : x % 2 = 1) (hy : y / 2 ^ c.infixSize < T) (oy : y % 2 = 1) (hcnt : L.length + 2 < c.cap) :
    insertRaw c (insertRaw c st x T) y T = insertRaw c (insertRaw c st y T) x T := by
  obtain ⟨_, _, A, B, a3, a4⟩ := insertRaw_has hc h hT hx ox (by omega)
  obtain ⟨_, _, A', B', b3, b4⟩ := insertRaw_has hc h hT hy oy (by omega)
  have la : (A ++ x :: B).length = L.length + 1 := by rw [a3]; simp; omega
  have lb : (A' ++ y :: B').length = L.length + 1 := by rw [b3]; simp; omega
  have ca := clean_insertRaw hc h hT hcl hx ox (by omega)
  have cb := clean_insertRaw hc h hT hcl hy oy (by omega)
  obtain ⟨_, _, D, E, d3, d4⟩ := insertRaw_has hc a4 hT hy oy (by omega)
  obtain ⟨_, _, D', E', e3, e4⟩ := insertRaw_has hc b4 hT hx ox (by omega)
  have cd := clean_insertRaw hc a4 hT ca hy oy (by omega)
  have ce := clean_insertRaw hc b4 hT cb hx ox (by omega)
  have hperm : (D ++ y :: E).Perm (D' ++ x :: E') := by
    have p1 : (D ++ y :: E).Perm (y :: x :: L) := by
      refine List.perm_middle.trans (List.Perm.cons _ ?_)
      rw [← d3, a3]
      exact List.perm_middle
    have p2 : (D' ++ x :: E').Perm (x :: y :: L) := by
      refine List.perm_middle.trans (List.Perm.cons _ ?_)
      rw [← e3, b3]
      exact List.perm_middle
    exact p1.trans ((List.Perm.swap _ _ _).trans p2.symm)
  have hL := d4.loadable.eq_of_perm hc.s2 hT e4.loadable hperm
  rw [hL] at d4
  have hst := insertRaw_status hc a4 b4 (insertRaw_status hc h h rfl hT hx ox hy oy (by omega)) hT hy oy hx ox (by omega)
  exact cd.eq_of_same ce (d4.unique hc.s1 e4 hst)

end

theorem findIdx_congr {t t' : Tree} (hk : t.map Prod.fst = t'.map Prod.fst) (key : Key) : treeSeek t key = treeSeek t' key := by
  unfold treeSeek
  have : ∀ t : Tree, t.findIdx (fun e => keyLe key e.1) = (t.map Prod.fst).findIdx (fun k => keyLe key k) := by
    intro t; rw [List.findIdx_map]; rfl
  rw [this, this, hk]

/-- The region of a key after a change of one store. -/
theorem locate_set {t : Tree} {i : Nat} {p : Key} {st0 st' : Store} (hi : t[i]? = some (p, st0)) (key : Key) :
    locate (t.set i (p, st')) key =
      (locate t key).bind fun q => .ok (q.1, q.2.1, if q.1 = i then st' else q.2.2.1, q.2.2.2) := by
  have hlt : i < t.length := (List.getElem?_eq_some_iff.1 hi).1
  have hk : (t.set i (p, st')).map Prod.fst = t.map Prod.fst := by
    refine List.ext_getElem? fun j => ?_
    rw [List.getElem?_map, List.getElem?_map, List.getElem?_set]
    by_cases hj : i = j
    · subst hj; rw [if_pos rfl, if_pos hlt, hi]; rfl
    · rw [if_neg hj]
  have peek : ∀ j, treePeek (t.set i (p, st')) j = (treePeek t j).bind fun e => .ok (e.1, if j = i then st' else e.2) := by
    intro j
    unfold treePeek
    rw [List.getElem?_set]
    by_cases hj : i = j
    · subst hj
      rw [if_pos rfl, if_pos hlt, hi]
      simp
    · rw [if_neg hj]
      cases t[j]? with
      | none => rfl
      | some e => simp [Ne.symm hj]
  unfold locate
  dsimp only
  rw [findIdx_congr hk, peek, peek, peek]
  cases h0 : treePeek t (treeSeek t key) with
  | ub => rfl
  | hang => rfl
  | ok e =>
    simp only [Res.bind_ok]
    by_cases h1 : (e.1 == key) = true
    · rw [if_pos h1, if_pos h1]
      cases h2 : treePeek t (treeSeek t key + 1) with
      | ub => rfl
      | hang => rfl
      | ok e' => rfl
    · rw [if_neg h1, if_neg h1]
      by_cases h3 : treeSeek t key = 0
      · rw [if_pos h3, if_pos h3]; rfl
      · rw [if_neg h3, if_neg h3]
        cases h2 : treePeek t (treeSeek t key - 1) with
        | ub => rfl
        | hang => rfl
        | ok e' => rfl

theorem insertSimple_comm {f : Filter} (h : FilterOK f) (hcl : CleanTree f.cfg f.tree) {a b : Key}
    (hcnt : ∀ e ∈ f.tree, e.2.elemCount + 2 < f.cfg.cap) :
    (insertSimple f a).bind (fun f => insertSimple f b) = (insertSimple f b).bind (fun f => insertSimple f a) := by
  have good : ∀ {k : Key} {q : Nat × Key × Store × Key}, locate f.tree k = .ok q → ∃ fr,
      getFrame f.cfg.infixSize q.2.1 q.2.2.2 = .ok fr ∧ ∃ L, StoreHas f.cfg fr.total q.2.2.1 L ∧ fr.total ≤ 1024 ∧
      fr.item f.cfg.infixSize k / 2 ^ f.cfg.infixSize < fr.total ∧ fr.item f.cfg.infixSize k % 2 = 1 := by
    rintro k ⟨i, prev, st, next⟩ hl
    obtain ⟨A, st', B, ht, hA, h1, h2⟩ := locate_spec h hl
    obtain ⟨sh, ig, imp, L, R⟩ := h.region ht
    simp only at R
    obtain ⟨fr, hf, _, _, _, _, hT⟩ := R.frame h.wf
    have hk := between_of_le h1 (keyLt_keyLe h2)
    obtain ⟨_, hv, _, hq⟩ := R.value h.wf hk hf
    refine ⟨fr, hf, L, by rw [hT]; exact R.strong, by rw [hT]; exact R.T_le, ?_, ?_⟩
    · rw [hv, hT]; exact hq
    · rw [hv, or_one]; omega
  have ub : ∀ {a b : Key}, locate f.tree a = .ub →
      (insertSimple f a).bind (fun f => insertSimple f b) = (insertSimple f b).bind (fun f => insertSimple f a) := by
    intro a b ha
    have h1 : insertSimple f a = .ub := by unfold insertSimple; rw [ha]; rfl
    rw [h1, Res.bind_ub]
    rcases locate_cases f b with hb | ⟨q, hb⟩
    · have h2 : insertSimple f b = .ub := by unfold insertSimple; rw [hb]; rfl
      rw [h2]; rfl
    · obtain ⟨i, prev, st, next⟩ := q
      obtain ⟨fr, hf, _⟩ := good hb
      dsimp only at hf
      have h2 : insertSimple f b = .ok { f with tree := f.tree.set i (prev, insertRaw f.cfg st (fr.item f.cfg.infixSize b) fr.total) } := by
        unfold insertSimple
        simp only [hb, Res.bind_ok, hf]
      rw [h2, Res.bind_ok]
      unfold insertSimple
      dsimp only
      rw [locate_set (locate_getElem hb), ha]; rfl
  rcases locate_cases f a with ha | ⟨⟨i, prev, st, next⟩, ha⟩
  · exact ub ha
  rcases locate_cases f b with hb | ⟨⟨j, prev', st', next'⟩, hb⟩
  · exact (ub hb).symm
  obtain ⟨fr, hf, L, hL, hT, qa, oa⟩ := good ha
  obtain ⟨fr', hf', L', hL', hT', qb, ob⟩ := good hb
  dsimp only at hf hf' hL hL'
  have g1 := locate_getElem ha
  have g2 := locate_getElem hb
  have h1 : insertSimple f a = .ok { f with tree := f.tree.set i (prev, insertRaw f.cfg st (fr.item f.cfg.infixSize a) fr.total) } := by
    unfold insertSimple
    simp only [ha, Res.bind_ok, hf]
  have h2 : insertSimple f b = .ok { f with tree := f.tree.set j (prev', insertRaw f.cfg st' (fr'.item f.cfg.infixSize b) fr'.total) } := by
    unfold insertSimple
    simp only [hb, Res.bind_ok, hf']
  rw [h1, h2, Res.bind_ok, Res.bind_ok]
  unfold insertSimple
  dsimp only
  rw [locate_set g1, locate_set g2, ha, hb]
  simp only [Res.bind_ok, hf, hf', Res.ok.injEq, Filter.mk.injEq, true_and]
  by_cases hij : i = j
  · subst hij
    rw [g1] at g2
    simp only [Option.some.injEq, Prod.mk.injEq] at g2
    obtain ⟨rfl, rfl⟩ := g2
    have hnext : next = next' := by
      obtain ⟨A, u, B, ht, hA, _⟩ := locate_spec h ha
      obtain ⟨A', u', B', ht', hA', _⟩ := locate_spec h hb
      have e1 : f.tree[i + 1]? = some (next, u) := by rw [ht, ← hA]; simp
      have e2 : f.tree[i + 1]? = some (next', u') := by rw [ht', ← hA']; simp
      rw [e1] at e2
      simp only [Option.some.injEq, Prod.mk.injEq] at e2
      exact e2.1
    subst hnext
    rw [hf] at hf'
    obtain rfl : fr = fr' := by injection hf'
    simp only [if_true, List.set_set]
    have hm := mem_of_locate ha
    rw [insertRaw_comm h.wf hL (hcl _ hm) hT qa oa qb ob (by rw [← hL.count]; exact hcnt _ hm)]
  · rw [if_neg hij, if_neg (Ne.symm hij), List.set_comm _ _ hij]

theorem insert_false (f : Filter) (key : Key) : insert f key false = insertSimple f key := by unfold insert; simp

/-- One insert keeps what the next ones need. -/
theorem simple_next {f f' : Filter} (h : FilterOK f) (hcl : CleanTree f.cfg f.tree) {key : Key} {n : Nat}
    (hcnt : ∀ e ∈ f.tree, e.2.elemCount + (n + 1) < f.cfg.cap) (hi : insertSimple f key = .ok f') :
    FilterOK f' ∧ CleanTree f'.cfg f'.tree ∧ ∀ e ∈ f'.tree, e.2.elemCount + n < f'.cfg.cap := by
  have hfit : SimpleFits f key := by
    intro i prev st next hl
    have := hcnt _ (mem_of_locate hl)
    dsimp only at this
    omega
  obtain ⟨a1, a2, _, _, _, _, a6⟩ := insertSimple_cells h hi hfit
  refine ⟨a1, by rw [a2]; exact insertSimple_clean h hi hfit hcl, fun e he => ?_⟩
  rw [a2]
  by_cases hlen : n + 1 < f.cfg.cap
  · have := a6 (f.cfg.cap - n - 2) (fun e' he' => by have := hcnt e' he'; omega) e he
    omega
  · exfalso
    obtain ⟨x, hx⟩ : ∃ x, x ∈ f.tree := by
      rcases hf : f.tree with _ | ⟨x, t⟩
      · unfold insertSimple at hi
        rw [hf] at hi; simp [locate, treeSeek, treePeek] at hi
      · exact ⟨x, by simp⟩
    have := hcnt x hx
    omega

/-- Simple inserts in another order give the same filter. -/
theorem runSimple_perm {ks ks' : List Key} (hp : ks.Perm ks') : ∀ {f : Filter}, FilterOK f → CleanTree f.cfg f.tree →
    (∀ e ∈ f.tree, e.2.elemCount + ks.length < f.cfg.cap) → runSimple (.ok f) ks = runSimple (.ok f) ks' := by
  induction hp with
  | nil => intros; rfl
  | cons x hp ih =>
    intro f h hcl hcnt
    simp only [runSimple, Res.bind_ok, insert_false]
    cases hi : insertSimple f x with
    | ub => rw [runSimple_ub, runSimple_ub]
    | hang => rw [runSimple_hang, runSimple_hang]
    | ok f' =>
      obtain ⟨b1, b2, b3⟩ := simple_next h hcl hcnt hi
      exact ih b1 b2 b3
  | swap x y l =>
    intro f h hcl hcnt
    simp only [runSimple, Res.bind_ok, insert_false]
    rw [insertSimple_comm h hcl fun e he => by have := hcnt e he; simp only [List.length_cons] at this; omega]
  | trans h1 h2 ih1 ih2 =>
    intro f h hcl hcnt
    rw [ih1 h hcl hcnt, ih2 h hcl (by rw [← h1.length_eq]; exact hcnt)]

end Verif
