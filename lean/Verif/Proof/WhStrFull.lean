import Verif.Model.WhStrFull
import Verif.Proof.WhStrMap
import Verif.Proof.IxFilter
import Verif.Spec.StrClient

/-!
# The string tree with the index does what the leaves do
-/

namespace Verif.Str

/-- The anchors, in the order of the leaves. -/
def rungs (t : STree) : List Key := t.map SLeaf.anchor

/-- All keys are of the kind `P`. -/
def Fits (P : Key → Prop) (m : Tree) : Prop := ∀ e ∈ m, P e.1

/-- The leaves represent such keys. -/
def Holds (P : Key → Prop) (t : STree) : Prop := ∃ m, SRep t m ∧ Fits P m

/-- `s` holds the leaves `t` and their index. -/
structure Ix (P : Key → Prop) (s : StrMap) (t : STree) : Prop where
  eq : s.leaves = t
  rep : Holds P t
  fits : ∀ a ∈ rungs t, P a
  idx : IdxOK s.index (· ∈ rungs t)

/-- Anchors increase. -/
abbrev Up (t : STree) : Prop := (rungs t).Pairwise fun a b => keyLt a b = true

theorem SRep.up {t : STree} {m : Tree} (h : SRep t m) : Up t := List.pairwise_map.2 h.anchors

theorem SRep.nil_mem {t : STree} {m : Tree} (h : SRep t m) : [] ∈ rungs t := by
  obtain ⟨l, t', rfl, e⟩ := h.first
  simp [rungs, e]

variable {P : Key → Prop}

theorem Fits.put {m : Tree} {k : Key} (h : Fits P m) (hk : P k) (st : Store) : Fits P (treePut m k st) := by
  intro e he
  rcases treePut_mem he with rfl | he
  · exact hk
  · exact h e he

theorem Fits.del {m : Tree} (h : Fits P m) (k : Key) : Fits P (treeDel m k) := fun e he => h e (List.mem_filter.1 he).1

variable {tags : Tags} {s : StrMap} {t t' : STree} {k : Key}

theorem Ix.up (h : Ix P s t) : Up t := by
  obtain ⟨m, hm, -⟩ := h.rep
  exact hm.up

/-- The leaf of the key owns it. -/
theorem Zip.owns (h : Up t) {A B : STree} {l : SLeaf} (z : Zip t k A l B) : Owns (· ∈ rungs t) k l.anchor := by
  have hp := List.pairwise_map.1 h
  rw [z.eq] at hp
  refine ⟨List.mem_map_of_mem (by rw [z.eq]; simp), z.le, ?_⟩
  intro a ha hle
  obtain ⟨b, hb, rfl⟩ := List.mem_map.1 ha
  rw [z.eq, List.mem_append, List.mem_cons] at hb
  rcases hb with hb | rfl | hb
  · exact keyLt_keyLe ((List.pairwise_append.1 hp).2.2 b hb l (by simp))
  · exact keyLe_refl _
  · exact (keyLt_le_absurd (z.gt b hb) hle).elim

theorem findIdx_anchor {A B : STree} {l : SLeaf} (h : Up (A ++ l :: B)) :
    (A ++ l :: B).findIdx? (fun x => x.anchor == l.anchor) = some A.length := by
  rw [List.findIdx?_eq_some_iff_getElem]
  refine ⟨by simp, by simp, ?_⟩
  intro j hj
  have hp := List.pairwise_map.1 h
  have hlt := (List.pairwise_append.1 hp).2.2 A[j] (List.getElem_mem hj) l (by simp)
  have hne : A[j].anchor ≠ l.anchor := fun e => by rw [e, keyLt_irrefl] at hlt; cases hlt
  rw [List.getElem_append_left hj]
  simpa using hne

/-- The index leads to the leaf where the key belongs. -/
theorem Ix.jump (ht : tags.Sound) (h : Ix P s t) (k : Key) : s.jump tags k = .ok (t.jump k) := by
  obtain ⟨m, hm, -⟩ := h.rep
  obtain ⟨A, l, B, z⟩ := hm.zip k
  have hl := h.up
  obtain ⟨r, e, ho⟩ := indexJump_spec h.idx hm.nil_mem (peek := tags s.calls s.index)
    (fun p hp => ht s.calls s.index p fun hc => (h.idx.none_iff.1 hc) hp) k
  unfold StrMap.jump
  rw [e, ho.unique (Zip.owns hl z), Res.bind_ok, h.eq]
  have hf : t.findIdx? (fun x => x.anchor == l.anchor) = some (t.jump k) := by
    rw [z.jump]
    rw [z.eq] at hl ⊢
    exact findIdx_anchor hl
  rw [hf]

theorem Sorts.rungs (h : Sorts t t') : Str.rungs t' = Str.rungs t := by
  unfold Sorts at h
  induction h with
  | nil => rfl
  | cons h _ ih =>
    have : ∀ (a : SLeaf) l, Str.rungs (a :: l) = a.anchor :: Str.rungs l := fun _ _ => rfl
    rw [this, this, ih]
    rcases h with rfl | h
    · rfl
    · rw [h.2.2.1]

theorem Ix.calls {c c' : Nat} {l : STree} {x : Index} (H : Ix P ⟨l, x, c⟩ t) : Ix P ⟨l, x, c'⟩ t := ⟨H.eq, H.rep, H.fits, H.idx⟩

theorem Ix.with (h : Ix P s t) (hr : Holds P t') (e : rungs t' = rungs t) : Ix P (s.with t') t' :=
  ⟨rfl, hr, by rw [e]; exact h.fits, by rw [e]; exact h.idx⟩

/-! ## Calls that read -/

theorem Ix.seek (ht : tags.Sound) (h : Ix P s t) (k : Key) :
    ∃ s' t' cur, t.seek k = .ok (t', cur) ∧ s.seek tags k = .ok (s', cur) ∧ Ix P s' t' := by
  obtain ⟨m, hm, hf⟩ := h.rep
  obtain ⟨t', cur, e, h', hs, -⟩ := seek_spec hm k
  refine ⟨_, t', cur, e, ?_, h.with ⟨m, h', hf⟩ hs.rungs⟩
  unfold STree.seek at e
  unfold StrMap.seek
  rw [h.jump ht, Res.bind_ok, h.eq]
  dsimp only at e
  cases hl : t[t.jump k]? with
  | none => rw [hl] at e; cases e
  | some l =>
    rw [hl] at e
    dsimp only at e ⊢
    obtain ⟨l', e1, e2⟩ := Res.bind_eq_ok e
    obtain ⟨is, e3, e4⟩ := Res.bind_eq_ok e2
    rw [e1, Res.bind_ok, e3, Res.bind_ok, e4, Res.bind_ok]

theorem siterFix_ok : ∀ {fuel : Nat} {t t' : STree} {m : Tree} {i is : Nat} {cur : Cursor}, SRep t m →
    siterFix fuel t i is = .ok (t', cur) → SRep t' m ∧ Sorts t t'
  | 0, _, _, _, _, _, _, _, e => by cases e
  | fuel + 1, t, t', m, i, is, cur, h, e => by
    rw [siterFix] at e
    cases hl : t[i]? with
    | none => rw [hl] at e; cases e
    | some l =>
      rw [hl] at e
      dsimp only at e
      by_cases hc : is ≥ l.sorted
      · rw [if_pos hc] at e
        cases hn : t[i + 1]? with
        | none => rw [hn] at e; cases e; exact ⟨h, Sorts.refl t⟩
        | some n =>
          rw [hn] at e
          dsimp only at e
          obtain ⟨n', e1, h', s', -⟩ := sync_rep h hn
          rw [e1, Res.bind_ok] at e
          obtain ⟨h2, s2⟩ := siterFix_ok h' e
          exact ⟨h2, s'.trans s2⟩
      · rw [if_neg hc] at e; cases e; exact ⟨h, Sorts.refl t⟩

theorem siterFixRev_ok : ∀ {i : Nat} {t t' : STree} {m : Tree} {cur : Cursor}, SRep t m →
    siterFixRev t i = .ok (t', cur) → SRep t' m ∧ Sorts t t'
  | 0, t, _, _, _, h, e => by rw [siterFixRev] at e; cases e; exact ⟨h, Sorts.refl t⟩
  | i + 1, t, t', m, cur, h, e => by
    rw [siterFixRev] at e
    cases hp : t[i]? with
    | none => rw [hp] at e; cases e
    | some p =>
      rw [hp] at e
      dsimp only at e
      obtain ⟨p', e1, h', s', -⟩ := sync_rep h hp
      rw [e1, Res.bind_ok] at e
      by_cases hz : p'.nr = 0
      · rw [if_pos hz] at e
        obtain ⟨h2, s2⟩ := siterFixRev_ok h' e
        exact ⟨h2, s'.trans s2⟩
      · rw [if_neg hz] at e; cases e; exact ⟨h', s'⟩

theorem Ix.skip1 (h : Ix P s t) {cur cur' : Cursor} (e : t.skip1 cur = .ok (t', cur')) : Ix P (s.with t') t' := by
  obtain ⟨m, hm, hf⟩ := h.rep
  cases cur with
  | none => cases e; exact h.with ⟨m, hm, hf⟩ rfl
  | some p =>
    obtain ⟨h', hs⟩ := siterFix_ok hm e
    exact h.with ⟨m, h', hf⟩ hs.rungs

theorem Ix.skip1Rev (h : Ix P s t) {cur cur' : Cursor} (e : t.skip1Rev cur = .ok (t', cur')) : Ix P (s.with t') t' := by
  obtain ⟨m, hm, hf⟩ := h.rep
  cases cur with
  | none => cases e; exact h.with ⟨m, hm, hf⟩ rfl
  | some p =>
    unfold STree.skip1Rev at e
    dsimp only at e
    by_cases hz : p.2 = 0
    · rw [if_pos hz] at e
      obtain ⟨h', hs⟩ := siterFixRev_ok hm e
      exact h.with ⟨m, h', hf⟩ hs.rungs
    · rw [if_neg hz] at e; cases e; exact h.with ⟨m, hm, hf⟩ rfl

/-- A store through whatever pointer leaves the leaves in order. -/
theorem write_keys {m : Tree} (h : SRep t m) (hf : Fits P m) (cur : Cursor) (st : Store) :
    (∃ m', SRep (t.write cur st) m' ∧ Fits P m' ∧ ∀ k, k ∈ keysOf m' ↔ k ∈ keysOf m) ∧ rungs (t.write cur st) = Str.rungs t := by
  cases cur with
  | none => exact ⟨⟨m, h, hf, fun _ => Iff.rfl⟩, rfl⟩
  | some p =>
    obtain ⟨i, is⟩ := p
    unfold STree.write
    dsimp only
    cases hl : t[i]? with
    | none => exact ⟨⟨m, h, hf, fun _ => Iff.rfl⟩, rfl⟩
    | some l =>
      dsimp only
      obtain ⟨A, B, et, hA, _⟩ := at_split hl
      cases hs : slotAt l.hs (l.ss.getD is 0) with
      | none =>
        have : l.hs.set (l.ss.getD is 0) none = l.hs := by
          generalize l.ss.getD is 0 = j at hs
          refine List.ext_getElem? fun n => ?_
          by_cases hn : j = n
          · subst hn
            rw [slotAt, List.getD_eq_getElem?_getD] at hs
            rw [List.getElem?_set_self']
            cases hg : l.hs[j]? with
            | none => rfl
            | some o => rw [hg] at hs; simp only [Option.getD_some] at hs; subst hs; rfl
          · rw [List.getElem?_set_ne hn]
        rw [Option.map_none, this]
        have : t.set i l = t := by
          rw [et, ← hA]; simp
        rw [this]
        exact ⟨⟨m, h, hf, fun _ => Iff.rfl⟩, rfl⟩
      | some x =>
        rw [Option.map_some]
        have ok : SLeafOK l := h.leaf l (by rw [et]; simp)
        have hin := ok.raw.all _ (by rw [hs]; exact Option.some_ne_none _)
        obtain ⟨a, b, hab⟩ := List.append_of_mem hin
        have hx : x.kv ∈ l.entries := by
          rw [SLeaf.entries, ← pairAt_of hs]
          exact List.mem_map_of_mem hin
        have z := h.zip_of_mem et hx
        obtain ⟨ok', _, hp⟩ := same_spec ok hs hab st
        have hset : ∀ l', t.set i l' = A ++ l' :: B := fun l' => by rw [et, ← hA]; simp
        rw [hset]
        have hmem : x.kv ∈ m := by
          rw [h.list z]
          exact List.mem_append_left _ (List.mem_append_right _ (l.list_perm.mem_iff.2 hx))
        refine ⟨⟨_, h.putLeaf z ok' rfl hp, hf.put (hf _ hmem) _, fun k => ?_⟩, ?_⟩
        · show k ∈ (treePut m x.kv.1 st).map Prod.fst ↔ k ∈ m.map Prod.fst
          rw [mem_treePut]
          exact ⟨fun h => h.elim (fun e => e ▸ List.mem_map_of_mem hmem) (fun h => h), .inr⟩
        rw [et]
        simp [rungs]

theorem write_rep {m : Tree} (h : SRep t m) (hf : Fits P m) (cur : Cursor) (st : Store) :
    Holds P (t.write cur st) ∧ rungs (t.write cur st) = Str.rungs t := by
  obtain ⟨⟨m', h1, h2, -⟩, h3⟩ := write_keys h hf cur st
  exact ⟨⟨m', h1, h2⟩, h3⟩

theorem Ix.write (h : Ix P s t) (cur : Cursor) (st : Store) : Ix P (s.with (s.leaves.write cur st)) (t.write cur st) := by
  obtain ⟨m, hm, hf⟩ := h.rep
  rw [h.eq]
  obtain ⟨h1, h2⟩ := write_rep hm hf cur st
  exact h.with h1 h2

/-! ## Calls that change leaves -/

/-- A kind of keys with all their prefixes. -/
abbrev Closed (P : Key → Prop) : Prop := ∀ k i, P k → P (k.take i)

theorem upto_closed {n : Nat} : Closed (Upto n) := fun k i hk => by
  unfold Upto at *
  rw [List.length_take]
  omega

theorem put_ok {m : Tree} (h : SRep t m) (hf : Fits P m) (hk : P k) (st : Store) :
    ∃ t' b m', t.put k st = .ok (t', b) ∧ SRep t' m' ∧ Fits P m' := by
  rcases put_spec h k st with ⟨-, t', e, h'⟩ | ⟨-, t', e, h'⟩
  · exact ⟨t', _, _, e, h', hf.put hk st⟩
  · exact ⟨t', _, _, e, h', hf⟩

theorem Ix.put' (ht : tags.Sound) (hP : Closed P) (h : Ix P s t) (hk : P k) (hr : ∀ a ∈ t.anchorAt (t.jump k + 1), a.length ≤ pbufRoom) (st : Store) :
    ∃ s' t' b, t.put k st = .ok (t', b) ∧ s.put tags k st = .ok (s', b) ∧ Ix P s' t' := by
  obtain ⟨m, hm, hf⟩ := h.rep
  obtain ⟨t', b, m', e, h', hf'⟩ := put_ok hm hf hk st
  obtain ⟨A, l, B, z⟩ := hm.zip k
  have ok := hm.ok z
  suffices ∃ s', s.put tags k st = .ok (s', b) ∧ Ix P s' t' by
    obtain ⟨s', e1, e2⟩ := this
    exact ⟨s', t', b, e, e1, e2⟩
  have rset : ∀ {l' : SLeaf}, l'.anchor = l.anchor → rungs (t.set (t.jump k) l') = rungs t := by
    intro l' ha
    rw [z.set, z.eq]
    simp [rungs, ha]
  unfold STree.put at e
  unfold StrMap.put
  rw [h.jump ht, Res.bind_ok, h.eq]
  dsimp only at e
  rw [z.get] at e ⊢
  dsimp only at e ⊢
  cases hmk : l.matchHs k with
  | some ih =>
    obtain ⟨l', e1, -, a', -⟩ := supdate_spec ok (st := st) hmk
    rw [hmk] at e
    dsimp only at e ⊢
    rw [e1, Res.bind_ok] at e ⊢
    cases e
    exact ⟨_, rfl, h.with ⟨m', h', hf'⟩ (rset a')⟩
  | none =>
    rw [hmk] at e
    dsimp only at e ⊢
    have hin := match_none ok.raw hmk
    by_cases hn : l.nr < 32
    · rw [if_pos hn] at e ⊢
      obtain ⟨l', e1, -, a', -⟩ := sinsert_spec ok hn (e := (k, st)) hin
      rw [e1, Res.bind_ok] at e ⊢
      cases e
      exact ⟨_, rfl, h.with ⟨m', h', hf'⟩ (rset a')⟩
    · rw [if_neg hn] at e ⊢
      have hn' : l.nr = 32 := by have := ok.raw.nr; omega
      rcases ssplit_spec ok hn' (e := (k, st)) hin (decide (t.jump k + 1 < t.length)) with ⟨-, e1⟩ | ⟨-, a, b', e1, -, -, ha, -, -, hen, -, -, -, -, _, -, y, hy, hby⟩
      · rw [e1, Res.bind_ok] at e ⊢
        dsimp only at e ⊢
        obtain ⟨l', e2, -, a', -⟩ := ssync_spec ok
        rw [e2, Res.bind_ok] at e ⊢
        cases e
        exact ⟨_, rfl, h.with ⟨m', h', hf'⟩ (rset a')⟩
      · rw [e1, Res.bind_ok] at e ⊢
        dsimp only at e ⊢
        cases e
        have ht' : t.take (t.jump k) ++ a :: b' :: t.drop (t.jump k + 1) = A ++ a :: b' :: B := by
          rw [z.jump, z.eq]; simp
        have hat : t.anchorAt (t.jump k + 1) = (B.map SLeaf.anchor).head? := by
          unfold STree.anchorAt
          rw [z.jump, z.eq, List.getElem?_append_right (by omega), show A.length + 1 - A.length = 1 by omega]
          cases B <;> simp
        rw [ht'] at h' ⊢
        rw [hat]
        have hA : rungs (A ++ a :: b' :: B) = A.map SLeaf.anchor ++ l.anchor :: b'.anchor :: B.map SLeaf.anchor := by
          simp [rungs, ha]
        have hB : rungs t = A.map SLeaf.anchor ++ l.anchor :: B.map SLeaf.anchor := by rw [z.eq]; simp [rungs]
        have hyl : P b'.anchor := by
          have hy' : y ∈ treePut l.list k st := by rw [← hen]; exact List.mem_append_right _ hy
          have : P y.1 := by
            rcases treePut_mem hy' with rfl | hy'
            · exact hk
            · refine hf y ?_
              rw [hm.list z]
              exact List.mem_append_left _ (List.mem_append_right _ hy')
          rw [hby]
          exact hP _ _ this
        have hfits : ∀ x ∈ rungs (A ++ a :: b' :: B), P x := by
          intro x hx
          rw [hA, List.mem_append, List.mem_cons, List.mem_cons] at hx
          have hold := h.fits x
          rw [hB, List.mem_append, List.mem_cons] at hold
          rcases hx with hx | hx | rfl | hx
          · exact hold (.inl hx)
          · exact hold (.inr (.inl hx))
          · exact hyl
          · exact hold (.inr (.inr hx))
        have hlad := h'.up
        unfold Up at hlad
        rw [hA] at hlad
        rw [hat] at hr
        have hi := h.idx
        rw [hB] at hi
        obtain ⟨x', e3, ok'⟩ := indexSplit_spec hi (ladder_gap hlad) hr
        rw [ha, e3, Res.bind_ok]
        refine ⟨_, rfl, rfl, ⟨m', h', hf'⟩, hfits, ?_⟩
        rw [hA, ← ladder_with]
        exact ok'

theorem Ix.put (ht : tags.Sound) (hP : Closed P) (hb : ∀ k, P k → k.length ≤ pbufRoom) (h : Ix P s t) (hk : P k) (st : Store) :
    ∃ s' t' b, t.put k st = .ok (t', b) ∧ s.put tags k st = .ok (s', b) ∧ Ix P s' t' := by
  refine h.put' ht hP hk (fun a ha => hb a (h.fits a ?_)) st
  unfold STree.anchorAt at ha
  obtain ⟨l, hl, rfl⟩ := Option.map_eq_some_iff.1 ha
  exact List.mem_map_of_mem (List.mem_of_getElem? hl)

/-- A deletion: either the leaves stay, or two of them merge and the rest is up to the index. -/
theorem Ix.del' (ht : tags.Sound) (h : Ix P s t) (k : Key) :
    ∃ t', t.del k = .ok t' ∧ Holds P t' ∧
      ((∃ s', s.del tags k = .ok s' ∧ Ix P s' t' ∧ rungs t' = rungs t ∧
          ((∀ l ∈ t.dropLast, l.nr ≠ 0) → ∀ l ∈ t'.dropLast, l.nr ≠ 0)) ∨
        ∃ A a b B, rungs t = A ++ a :: b :: B ∧ rungs t' = A ++ a :: B ∧
          s.del tags k = (indexMerge s.index a b B.head?).bind fun x => .ok ⟨t', x, s.calls + 1⟩) := by
  obtain ⟨m, hm, hf⟩ := h.rep
  obtain ⟨t', e, h'⟩ := del_spec hm k
  have hf' := hf.del k
  obtain ⟨A, l, B, z⟩ := hm.zip k
  have ok := hm.ok z
  refine ⟨t', e, ⟨_, h', hf'⟩, ?_⟩
  unfold STree.del at e
  unfold StrMap.del
  rw [h.jump ht, Res.bind_ok, h.eq]
  dsimp only at e
  rw [z.get] at e ⊢
  dsimp only at e ⊢
  cases hk : l.matchHs k with
  | none => rw [hk] at e; cases e; exact .inl ⟨_, rfl, h, rfl, id⟩
  | some ih =>
    rw [hk] at e
    dsimp only at e ⊢
    obtain ⟨l1, e1, ok1, a1, -, hp⟩ := sremove_spec ok hk
    rw [e1, Res.bind_ok] at e ⊢
    rw [z.set, z.jump] at e ⊢
    have hanc : rungs (A ++ l1 :: B) = rungs t := by rw [z.eq]; simp [rungs, a1]
    unfold STree.tryMerge at e
    unfold StrMap.tryMerge
    have g1 : (A ++ l1 :: B)[A.length]? = some l1 := by simp
    have g2 : (A ++ l1 :: B)[A.length + 1]? = B.head? := by
      rw [List.getElem?_append_right (by omega), show A.length + 1 - A.length = 1 by omega]
      cases B <;> simp
    rw [g1, g2] at e ⊢
    cases B with
    | nil =>
      cases e
      refine .inl ⟨_, rfl, h.with ⟨_, h', hf'⟩ hanc, hanc, fun hz x hx => hz x ?_⟩
      rw [z.eq]
      rw [List.dropLast_concat] at hx ⊢
      exact hx
    | cons n' B =>
      dsimp only [List.head?_cons] at e ⊢
      have okn : SLeafOK n' := hm.leaf n' (by rw [z.eq]; simp)
      by_cases c1 : l1.nr = 0 ∨ l1.nr + n'.nr < 24
      · have c2 : l1.nr + n'.nr ≤ 32 := by have := okn.raw.nr; omega
        rw [if_pos c1, if_pos c2] at e ⊢
        obtain ⟨l', e2, e⟩ := Res.bind_eq_ok e
        cases e
        rw [e2, Res.bind_ok]
        have ht' : (A ++ l1 :: n' :: B).take A.length ++ l' :: (A ++ l1 :: n' :: B).drop (A.length + 2) = A ++ l' :: B := by
          rw [List.take_left, List.drop_append, show A.length + 2 - A.length = 2 by omega,
            List.drop_eq_nil_of_le (by omega)]
          rfl
        have ha : l'.anchor = l.anchor := by
          have hrep := hm.delLeaf z ok1 a1 hp
          have hhi := hrep.high
          simp only [List.pairwise_append, List.pairwise_cons] at hhi
          obtain ⟨l2, em, -, am, -⟩ := smerge_spec ok1 okn c2 fun x hx y hy =>
            keyLt_of_lt_of_le (hhi.2.1.1 n' (by simp) x hx) (hrep.low n' (by simp) y hy)
          rw [e2] at em
          cases em
          rw [am, a1]
        have hat : STree.anchorAt (A ++ l1 :: n' :: B) (A.length + 2) = (B.map SLeaf.anchor).head? := by
          unfold STree.anchorAt
          rw [List.getElem?_append_right (by omega), show A.length + 2 - A.length = 2 by omega]
          cases B <;> simp
        refine .inr ⟨A.map SLeaf.anchor, l.anchor, n'.anchor, B.map SLeaf.anchor, ?_, ?_, ?_⟩
        · rw [z.eq]; simp [rungs]
        · rw [ht']; simp [rungs, ha]
        · rw [hat, a1]
      · rw [if_neg c1] at e ⊢
        cases e
        refine .inl ⟨_, rfl, h.with ⟨_, h', hf'⟩ hanc, hanc, fun hz x hx => ?_⟩
        rw [z.eq] at hz
        have hd : ∀ y : SLeaf, (A ++ y :: n' :: B).dropLast = A ++ y :: (n' :: B).dropLast := fun y => by
          rw [List.dropLast_append_of_ne_nil (by simp), List.dropLast_cons_cons]
        rw [hd] at hz hx
        rw [List.mem_append, List.mem_cons] at hx
        rcases hx with hx | rfl | hx
        · exact hz x (List.mem_append_left _ hx)
        · omega
        · exact hz x (List.mem_append_right _ (List.mem_cons_of_mem _ hx))

theorem Ix.del (ht : tags.Sound) (hb : ∀ k, P k → k.length ≤ pbufRoom) (h : Ix P s t) (k : Key) :
    ∃ s' t', t.del k = .ok t' ∧ s.del tags k = .ok s' ∧ Ix P s' t' := by
  obtain ⟨t', e, hh, ⟨s', e', h', -⟩ | ⟨A, a, b, B, hB, hA, e'⟩⟩ := h.del' ht k
  · exact ⟨s', t', e, e', h'⟩
  · have hl := h.up
    have hi := h.idx
    have hff := h.fits
    unfold Up at hl
    rw [hB] at hl hi hff
    rw [← ladder_with] at hi
    obtain ⟨x', e3, ok'⟩ := indexMerge_spec hi (ladder_gap hl) (hb _ (hff _ (by simp)))
      fun x hx => hb _ (hff _ (by simp [List.mem_of_mem_head? hx]))
    rw [e3, Res.bind_ok] at e'
    refine ⟨_, t', e, e', rfl, hh, fun x hx => hff x ?_, by rw [hA]; exact ok'⟩
    rw [hA, List.mem_append, List.mem_cons] at hx
    rw [List.mem_append, List.mem_cons, List.mem_cons]
    rcases hx with hx | hx | hx
    · exact .inl hx
    · exact .inr (.inl hx)
    · exact .inr (.inr (.inr hx))

theorem Ix.empty (hP : P []) : Ix P StrMap.empty STree.empty := ⟨rfl, ⟨[], SRep.empty, by simp [Fits]⟩, by simpa [rungs, STree.empty, SLeaf.new] using hP, IdxOK.empty⟩

/-! ## Clients -/

/-- What is read is in the list. -/
theorem peek_mem {m : Tree} (h : SRep t m) {cur : Cursor} {e : Key × Store} (hp : t.peek cur = .ok e) : e ∈ m := by
  cases cur with
  | none => cases hp
  | some p =>
    obtain ⟨i, is⟩ := p
    unfold STree.peek at hp
    dsimp only at hp
    cases hl : t[i]? with
    | none => rw [hl] at hp; cases hp
    | some l =>
      rw [hl] at hp
      dsimp only at hp
      have hlm := List.mem_of_getElem? hl
      refine h.pairs.mem_iff.1 (List.mem_flatMap.2 ⟨l, hlm, ?_⟩)
      unfold SLeaf.kvAt at hp
      cases hss : l.ss[is]? with
      | none => rw [hss] at hp; cases hp
      | some ih =>
        rw [hss] at hp
        dsimp only at hp
        cases hs : slotAt l.hs ih with
        | none => rw [hs] at hp; cases hp
        | some x =>
          rw [hs] at hp
          cases hp
          refine List.mem_map_of_mem (List.mem_filterMap.2 ⟨some x, ?_, rfl⟩)
          have hlt := slotAt_lt hs
          rw [slotAt, List.getD_eq_getElem?_getD, List.getElem?_eq_getElem hlt, Option.getD_some] at hs
          rw [← hs]
          exact List.getElem_mem hlt

/-- Any client does the same on leaves and index as on the leaves alone. -/
theorem Ix.client (ht : tags.Sound) (hP : Closed P) (hb : ∀ k, P k → k.length ≤ pbufRoom) {α : Type} : ∀ (p : Client α), p.KeysIn P → ∀ {s : StrMap} {t : STree}, Ix P s t →
    RelRes (fun a b => Ix P a.1 b.1 ∧ a.2 = b.2) (p.onIndex tags s) (p.onLeaves t) := by
  intro p
  induction p with
  | ret r =>
    intro hp s t h
    rw [Client.onIndex, Client.onLeaves]
    cases r with
    | ok a => exact ⟨h, rfl⟩
    | ub => trivial
    | hang => trivial
  | put k st next ih =>
    intro hp s t h
    rw [Client.onIndex, Client.onLeaves]
    obtain ⟨s', t', b, e1, e2, h'⟩ := h.put ht hP hb hp.1 st
    rw [e1, e2]
    exact ih b (hp.2 b) h'
  | del k next ih =>
    intro hp s t h
    rw [Client.onIndex, Client.onLeaves]
    obtain ⟨s', t', e1, e2, h'⟩ := h.del ht hb k
    rw [e1, e2]
    exact ih hp h'
  | delRead k c1 c2 next ih =>
    intro hp s t h
    rw [Client.onIndex, Client.onLeaves, h.eq]
    obtain ⟨m, hm, hf⟩ := h.rep
    cases he1 : t.peek c1 with
    | ok e1 =>
      cases he2 : t.peek c2 with
      | ok e2 =>
        obtain ⟨s', t', e1', e2', h'⟩ := h.del ht hb k
        rw [e1', e2']
        exact ih e1 e2 (hp e1 e2 (hf e1 (peek_mem hm he1)) (hf e2 (peek_mem hm he2))) h'
      | ub => trivial
      | hang => trivial
    | ub => trivial
    | hang => trivial
  | seek k next ih =>
    intro hp s t h
    rw [Client.onIndex, Client.onLeaves]
    obtain ⟨s', t', cur, e1, e2, h'⟩ := h.seek ht k
    rw [e1, e2]
    exact ih cur (hp cur) h'
  | skip cur next ih =>
    intro hp s t h
    rw [Client.onIndex, Client.onLeaves]
    unfold StrMap.skip1
    rw [h.eq]
    cases e : t.skip1 cur with
    | ok q => exact ih _ (hp _) (h.skip1 (cur' := q.2) e)
    | ub => trivial
    | hang => trivial
  | back cur next ih =>
    intro hp s t h
    rw [Client.onIndex, Client.onLeaves]
    unfold StrMap.skip1Rev
    rw [h.eq]
    cases e : t.skip1Rev cur with
    | ok q => exact ih _ (hp _) (h.skip1Rev (cur' := q.2) e)
    | ub => trivial
    | hang => trivial
  | peek cur next ih =>
    intro hp s t h
    rw [Client.onIndex, Client.onLeaves, h.eq]
    cases he : t.peek cur with
    | ok e =>
      obtain ⟨m, hm, hf⟩ := h.rep
      exact ih e (hp e (hf e (peek_mem hm he))) h
    | ub => trivial
    | hang => trivial
  | write cur st next ih =>
    intro hp s t h
    rw [Client.onIndex, Client.onLeaves]
    exact ih hp (h.write cur st)
  | release cur next ih =>
    intro hp s t h
    rw [Client.onIndex, Client.onLeaves]
    exact ih hp h
  | fuel next ih =>
    intro hp s t h
    rw [Client.onIndex, Client.onLeaves, h.eq]
    exact ih _ (hp _) h

end Verif.Str
