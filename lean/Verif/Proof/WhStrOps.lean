import Verif.Proof.WhStrLeaf

/-!
# Leaves of the string tree: order, search, insertion, removal, split and merge
-/

namespace Verif

/-! ## Sorting -/

theorem idxInsert_perm (ke : Nat → Key) (x : Nat) : ∀ l, (idxInsert ke x l).Perm (x :: l)
  | [] => List.Perm.refl _
  | y :: l => by
    rw [idxInsert]
    split
    · exact List.Perm.refl _
    · exact ((idxInsert_perm ke x l).cons y).trans (List.Perm.swap x y l)

theorem idxSort_perm (ke : Nat → Key) : ∀ l, (idxSort ke l).Perm l
  | [] => List.Perm.refl _
  | x :: l => (idxInsert_perm ke x _).trans ((idxSort_perm ke l).cons x)

/-- Slot numbers with increasing keys. -/
abbrev IncI (ke : Nat → Key) (l : List Nat) : Prop := l.Pairwise fun a b => keyLt (ke a) (ke b) = true

theorem idxInsert_inc {ke : Nat → Key} {x : Nat} : ∀ {l : List Nat}, IncI ke l → (∀ y ∈ l, ke x ≠ ke y) →
    IncI ke (idxInsert ke x l)
  | [], _, _ => List.pairwise_singleton _ _
  | y :: l, h, hn => by
    rw [idxInsert]
    replace h := List.pairwise_cons.1 h
    have hne := hn y (by simp)
    by_cases hc : keyLe (ke x) (ke y) = true
    · rw [if_pos hc]
      have hxy : keyLt (ke x) (ke y) = true := keyLt_iff.2 ⟨hc, hne⟩
      refine List.pairwise_cons.2 ⟨fun z hz => ?_, List.pairwise_cons.2 h⟩
      rcases List.mem_cons.1 hz with rfl | hz
      · exact hxy
      · exact keyLt_trans' hxy (h.1 z hz)
    · rw [if_neg hc]
      have hyx : keyLt (ke y) (ke x) = true := by
        rw [keyLt_eq_not_le]; simpa using hc
      refine List.pairwise_cons.2 ⟨fun z hz => ?_, idxInsert_inc h.2 (fun z hz => hn z (by simp [hz]))⟩
      rcases List.mem_cons.1 ((idxInsert_perm ke x l).mem_iff.1 hz) with rfl | hz
      · exact hyx
      · exact h.1 z hz

theorem idxSort_inc {ke : Nat → Key} : ∀ {l : List Nat}, (l.map ke).Nodup → IncI ke (idxSort ke l)
  | [], _ => List.Pairwise.nil
  | x :: l, hn => by
    rw [List.map_cons, List.nodup_cons] at hn
    refine idxInsert_inc (idxSort_inc hn.2) fun y hy e => hn.1 ?_
    rw [e]
    exact List.mem_map_of_mem ((idxSort_perm ke l).mem_iff.1 hy)

theorem idxMerge_spec {ke : Nat → Key} : ∀ (fuel : Nat) (a b : List Nat), a.length + b.length ≤ fuel → IncI ke a → IncI ke b →
    (∀ x ∈ a, ∀ y ∈ b, ke x ≠ ke y) → ∃ r, idxMerge ke fuel a b = .ok r ∧ r.Perm (a ++ b) ∧ IncI ke r := by
  intro fuel
  induction fuel with
  | zero =>
    intro a b h ha hb _
    obtain rfl : a = [] := List.length_eq_zero_iff.1 (by omega)
    obtain rfl : b = [] := List.length_eq_zero_iff.1 (by omega)
    exact ⟨[], rfl, List.Perm.refl _, hb⟩
  | succ fuel ih =>
    intro a b h ha hb hd
    cases a with
    | nil => exact ⟨b, rfl, List.Perm.refl _, hb⟩
    | cons x a =>
      cases b with
      | nil => exact ⟨x :: a, rfl, by simp, ha⟩
      | cons y b =>
        have hne := hd x (by simp) y (by simp)
        rw [idxMerge]
        have ha' := List.pairwise_cons.1 ha
        have hb' := List.pairwise_cons.1 hb
        by_cases hlt : keyLt (ke x) (ke y) = true
        · rw [if_pos hlt]
          obtain ⟨r, e, p, i⟩ := ih a (y :: b) (by simp at h ⊢; omega) ha'.2 hb
            (fun z hz w hw => hd z (by simp [hz]) w hw)
          refine ⟨x :: r, by rw [e]; rfl, p.cons x, List.pairwise_cons.2 ⟨fun z hz => ?_, i⟩⟩
          rcases List.mem_append.1 (p.mem_iff.1 hz) with hz | hz
          · exact ha'.1 z hz
          · rcases List.mem_cons.1 hz with rfl | hz
            · exact hlt
            · exact keyLt_trans' hlt (hb'.1 z hz)
        · rw [if_neg hlt]
          have hlt : keyLt (ke y) (ke x) = true := by
            rw [keyLt_iff]
            rw [keyLt_eq_not_le] at hlt
            exact ⟨by simpa using hlt, hne.symm⟩
          rw [if_pos hlt]
          obtain ⟨r, e, p, i⟩ := ih (x :: a) b (by simp at h ⊢; omega) ha hb'.2
            (fun z hz w hw => hd z hz w (by simp [hw]))
          refine ⟨y :: r, by rw [e]; rfl, (p.cons y).trans List.perm_middle.symm, List.pairwise_cons.2 ⟨fun z hz => ?_, i⟩⟩
          rcases List.mem_append.1 (p.mem_iff.1 hz) with hz | hz
          · rcases List.mem_cons.1 hz with rfl | hz
            · exact hlt
            · exact keyLt_trans' hlt (ha'.1 z hz)
          · exact hb'.1 z hz

/-! ## The state of a leaf -/

/-- What every leaf satisfies. -/
structure SLeafOK (l : SLeaf) : Prop where
  raw : RawOK l
  sorted : l.sorted ≤ l.nr
  nodup : (keysOf l.entries).Nodup
  pref : Inc (l.entries.take l.sorted)

/-- The pairs in order. -/
def SLeaf.list (l : SLeaf) : List Entry := (idxSort (fun i => (pairAt l.hs i).1) l.idx).map (pairAt l.hs)

theorem SLeaf.list_perm (l : SLeaf) : l.list.Perm l.entries := (idxSort_perm _ _).map _

theorem SLeafOK.entries_length {l : SLeaf} (h : SLeafOK l) : l.entries.length = l.nr := h.raw.entries_length

theorem SLeafOK.list_length {l : SLeaf} (h : SLeafOK l) : l.list.length = l.nr := by
  rw [l.list_perm.length_eq, h.entries_length]

theorem SLeafOK.inc {l : SLeaf} (h : SLeafOK l) : Inc l.list := by
  unfold SLeaf.list Inc
  rw [List.pairwise_map]
  refine idxSort_inc ?_
  have := h.nodup
  rwa [keysOf, SLeaf.entries, List.map_map] at this

theorem SLeafOK.list_of_sorted {l : SLeaf} (h : SLeafOK l) (hs : l.sorted = l.nr) : l.list = l.entries := by
  refine Inc.eq_of_perm l.list_perm h.inc ?_
  have := h.pref
  rwa [hs, ← h.entries_length, List.take_length] at this

/-- A leaf with sorted entries. -/
theorem SLeafOK.make {l : SLeaf} (h : RawOK l) (hs : l.sorted = l.nr) (hi : Inc l.entries) : SLeafOK l :=
  ⟨h, by omega, hi.nodup, by rw [hs, ← h.entries_length, List.take_length]; exact hi⟩

theorem slist_put {l l' : SLeaf} (h : SLeafOK l) (h' : SLeafOK l') {k : Key} {st : Store}
    (hp : l'.entries.Perm ((k, st) :: l.entries.filter fun e => e.1 != k)) : l'.list = treePut l.list k st :=
  Inc.eq_of_perm ((l'.list_perm.trans hp).trans
    ((((l.list_perm.filter _).symm).cons _).trans (treePut_perm_filter h.inc).symm)) h'.inc (treePut_inc h.inc)

theorem slist_del {l l' : SLeaf} (h : SLeafOK l) (h' : SLeafOK l') {k : Key}
    (hp : l'.entries.Perm (l.entries.filter fun e => e.1 != k)) : l'.list = treeDel l.list k :=
  Inc.eq_of_perm ((l'.list_perm.trans hp).trans (l.list_perm.filter _).symm) h'.inc (h.inc.filter _)

theorem ssync_spec {l : SLeaf} (h : SLeafOK l) : ∃ l', l.sync = .ok l' ∧ SLeafOK l' ∧ l'.anchor = l.anchor ∧ l'.nr = l.nr ∧
    l'.sorted = l.nr ∧ l'.entries = l.list := by
  unfold SLeaf.sync
  by_cases hs : l.sorted = l.nr
  · rw [if_pos hs]
    exact ⟨l, rfl, h, rfl, rfl, hs, (h.list_of_sorted hs).symm⟩
  · rw [if_neg hs, if_neg (by have := h.sorted; omega), if_neg (by
      rw [Bool.not_eq_true, List.any_eq_false]
      intro i hi
      have := h.raw.used i hi
      cases hx : slotAt l.hs i with
      | none => exact absurd hx this
      | some s => simp)]
    dsimp only
    have hl := h.raw.idx_length
    have hn := h.raw.nr
    have hso := h.sorted
    have hlen := h.raw.len
    generalize hke : (fun i => (pairAt l.hs i).1) = ke
    have hsplit : l.idx.take l.sorted ++ l.idx.drop l.sorted = l.idx := List.take_append_drop _ _
    have hnd := h.nodup
    rw [keysOf, SLeaf.entries, List.map_map, show (Prod.fst ∘ pairAt l.hs) = ke from hke] at hnd
    have hnd0 := hnd
    rw [← hsplit, List.map_append, List.nodup_append] at hnd
    have hp := idxSort_perm ke (l.idx.drop l.sorted)
    have hpref : IncI ke (l.idx.take l.sorted) := by
      have := h.pref
      rw [SLeaf.entries, ← List.map_take, Inc, List.pairwise_map] at this
      rw [← hke]; exact this
    obtain ⟨r, e, p, i⟩ := idxMerge_spec 64 (l.idx.take l.sorted) (idxSort ke (l.idx.drop l.sorted))
      (by rw [hp.length_eq, List.length_take, List.length_drop]; omega) hpref (idxSort_inc hnd.2.1)
      (fun x hx y hy he => hnd.2.2 (ke x) (List.mem_map_of_mem hx) (ke y) (List.mem_map_of_mem (hp.mem_iff.1 hy)) he)
    rw [e, Res.bind_ok]
    have hpe : r.Perm l.idx := (p.trans (hp.append_left _)).trans (by rw [hsplit])
    have hr : r.length = l.nr := by rw [hpe.length_eq, hl]
    have hidx : SLeaf.idx { l with ss := r ++ l.ss.drop l.nr, sorted := l.nr } = r := by
      show (r ++ l.ss.drop l.nr).take l.nr = r
      rw [← hr, List.take_left]
    have hi : Inc (r.map (pairAt l.hs)) := by
      rw [Inc, List.pairwise_map]
      rw [← hke] at i; exact i
    have hraw : RawOK { l with ss := r ++ l.ss.drop l.nr, sorted := l.nr } := by
      refine ⟨h.raw.hs, ?_, hn, ?_, ?_, ?_⟩
      · show (r ++ l.ss.drop l.nr).length = 32
        rw [List.length_append, List.length_drop]; omega
      · rw [hidx]; exact fun j hj => h.raw.used j (hpe.mem_iff.1 hj)
      · rw [hidx]; exact fun j hj => hpe.mem_iff.2 (h.raw.all j hj)
      · rw [hidx]; exact hpe.nodup_iff.2 h.raw.dist
    have hent : SLeaf.entries { l with ss := r ++ l.ss.drop l.nr, sorted := l.nr } = r.map (pairAt l.hs) := by
      rw [SLeaf.entries, hidx]
    refine ⟨_, rfl, SLeafOK.make hraw rfl (by rw [hent]; exact hi), rfl, rfl, rfl, ?_⟩
    rw [hent]
    exact Inc.eq_of_perm ((hpe.map _).trans l.list_perm.symm) hi h.inc

/-! ## Search -/

theorem kvAt_spec {l : SLeaf} (h : RawOK l) {i : Nat} {e : Entry} (he : l.entries[i]? = some e) : l.kvAt i = .ok e := by
  unfold SLeaf.kvAt
  rw [SLeaf.entries, List.getElem?_map, Option.map_eq_some_iff] at he
  obtain ⟨j, hj, rfl⟩ := he
  have hm : j ∈ l.idx := List.mem_of_getElem? hj
  have hlt : i < l.nr := by
    rw [← h.idx_length]
    exact (List.getElem?_eq_some_iff.1 hj).1
  rw [SLeaf.idx, List.getElem?_take, if_pos hlt] at hj
  rw [hj]
  dsimp only
  obtain ⟨s, hs⟩ := Option.ne_none_iff_exists'.1 (h.used j hm)
  rw [hs]
  exact congrArg Res.ok (pairAt_of hs).symm

theorem searchSsLoop_spec {l : SLeaf} (h : SLeafOK l) {key : Key} (hk : key ∉ keysOf l.entries) :
    ∀ (fuel lo hi : Nat), lo ≤ hi → hi ≤ l.sorted → hi - lo < fuel →
    (∀ i, i < lo → ∀ e, l.entries[i]? = some e → keyLt e.1 key = true) →
    (∀ i, hi ≤ i → i < l.sorted → ∀ e, l.entries[i]? = some e → keyLe key e.1 = true) →
    searchSsLoop l key fuel lo hi = .ok (treeSeek (l.entries.take l.sorted) key) := by
  have hel := h.entries_length
  have hso := h.sorted
  have mono : ∀ i j : Nat, i < j → j < l.sorted → ∀ e e', l.entries[i]? = some e → l.entries[j]? = some e' →
      keyLt e.1 e'.1 = true := by
    intro i j hij hj e e' he he'
    obtain ⟨hi', rfl⟩ := List.getElem?_eq_some_iff.1 he
    obtain ⟨hj', rfl⟩ := List.getElem?_eq_some_iff.1 he'
    have := List.pairwise_iff_getElem.1 h.pref i j (by rw [List.length_take]; omega) (by rw [List.length_take]; omega) hij
    rwa [List.getElem_take, List.getElem_take] at this
  intro fuel
  induction fuel with
  | zero => intro lo hi h1 h2 h3; omega
  | succ fuel ih =>
    intro lo hi h1 h2 h3 h5 h6
    rw [searchSsLoop]
    by_cases hgt : lo < hi
    · rw [if_pos hgt]
      dsimp only
      generalize hm : (lo + hi) / 2 = m
      have hml : m < l.entries.length := by omega
      have hme := List.getElem?_eq_getElem hml
      rw [kvAt_spec h.raw hme, Res.bind_ok]
      by_cases hc : keyLt key l.entries[m].1 = true
      · rw [if_pos hc]
        refine ih lo m (by omega) (by omega) (by omega) h5 fun i hi1 hi2 e he => ?_
        rcases Nat.eq_or_lt_of_le hi1 with rfl | hlt
        · rw [hme] at he
          rw [← Option.some.inj he]
          exact keyLt_keyLe hc
        · exact keyLe_trans (keyLt_keyLe hc) (keyLt_keyLe (mono m i hlt hi2 _ e hme he))
      · rw [if_neg hc]
        have hc' : keyLt l.entries[m].1 key = true := by
          rw [keyLt_iff]
          rw [keyLt_eq_not_le] at hc
          exact ⟨by simpa using hc, fun e => hk (e ▸ List.mem_map_of_mem (List.getElem_mem hml))⟩
        refine ih (m + 1) hi (by omega) h2 (by omega) (fun i hi1 e he => ?_) h6
        rcases Nat.eq_or_lt_of_le (show i ≤ m by omega) with rfl | hlt
        · rw [hme] at he
          rw [← Option.some.inj he]
          exact hc'
        · exact keyLt_trans' (mono i m hlt (by omega) e _ he hme) hc'
    · rw [if_neg hgt]
      congr 1
      symm
      obtain rfl : lo = hi := by omega
      unfold treeSeek
      by_cases hs' : lo = l.sorted
      · rw [hs']
        have : (l.entries.take l.sorted).length = l.sorted := by rw [List.length_take]; omega
        conv_rhs => rw [← this]
        rw [List.findIdx_eq_length]
        intro e he
        obtain ⟨i, hi', rfl⟩ := List.mem_take_iff_getElem.1 he
        rw [keyLe_iff_not_lt, h5 i (by omega) _ (List.getElem?_eq_getElem (by omega))]
        rfl
      · have hlt : lo < (l.entries.take l.sorted).length := by rw [List.length_take]; omega
        rw [List.findIdx_eq hlt]
        constructor
        · rw [List.getElem_take]
          exact h6 _ (by omega) (by omega) _ (List.getElem?_eq_getElem (by omega))
        · intro j hj
          rw [List.getElem_take, keyLe_iff_not_lt, h5 j (by omega) _ (List.getElem?_eq_getElem (by omega))]
          rfl

theorem searchSs_spec {l : SLeaf} (h : SLeafOK l) {key : Key} (hk : key ∉ keysOf l.entries) :
    l.searchSs key = .ok (treeSeek (l.entries.take l.sorted) key) :=
  searchSsLoop_spec h hk _ _ _ (Nat.zero_le _) (Nat.le_refl _) (by omega) (fun i hi => by omega) (fun i h1 h2 => by omega)

/-- A slot in use has its place in the order. -/
theorem RawOK.place {l : SLeaf} (h : RawOK l) {ih : Nat} {s : Slot} (hs : slotAt l.hs ih = some s) :
    ∃ a b, l.idx = a ++ ih :: b ∧ l.entries = a.map (pairAt l.hs) ++ s.kv :: b.map (pairAt l.hs) := by
  obtain ⟨a, b, hab⟩ := List.append_of_mem (h.all ih (by rw [hs]; simp))
  exact ⟨a, b, hab, by rw [SLeaf.entries, hab, List.map_append, List.map_cons, pairAt_of hs]⟩

/-- In a sorted leaf, the position of the first key that is not below. -/
theorem sleaf_seek {l : SLeaf} (h : SLeafOK l) (hs : l.sorted = l.nr) (key : Key) : l.seek key = .ok (treeSeek l.entries key) := by
  have hall : l.entries.take l.sorted = l.entries := by rw [hs, ← h.entries_length, List.take_length]
  unfold SLeaf.seek
  cases hm : l.matchHs key with
  | none =>
    dsimp only
    rw [searchSs_spec h (match_none h.raw hm), hall]
  | some ih =>
    dsimp only
    obtain ⟨s, h1, h2⟩ := match_some hm
    obtain ⟨a, b, h3, h4⟩ := h.raw.place h1
    rw [searchIs_spec h.raw h3]
    have hi := h.pref
    rw [hall] at hi
    have : l.entries[a.length]? = some s.kv := by rw [h4]; simp
    rw [← h2, seek_at hi this]

/-! ## Insertion -/

theorem sinsert_spec {l : SLeaf} (h : SLeafOK l) (hn : l.nr < 32) {e : Entry} (hne : e.1 ∉ keysOf l.entries) :
    ∃ l', l.insert e = .ok l' ∧ SLeafOK l' ∧ l'.anchor = l.anchor ∧ l'.nr = l.nr + 1 ∧ l'.entries = l.entries ++ [e] := by
  obtain ⟨l1, e1, ok1, a1, n1, s1, _, en1⟩ := insertE13_spec h.raw hn (e := ⟨kvTag e.1, e⟩) rfl
  replace en1 : l1.entries = l.entries ++ [e] := en1
  have hel := h.entries_length
  have hso := h.sorted
  have hnd : (keysOf l1.entries).Nodup := by
    rw [en1, keysOf, List.map_append, List.nodup_append]
    refine ⟨h.nodup, by simp, fun a ha b hb hab => ?_⟩
    simp only [List.map_cons, List.map_nil, List.mem_singleton] at hb
    exact hne (by rw [← hb, ← hab]; exact ha)
  have hkeep : SLeafOK l1 := ⟨ok1, by omega, hnd, by
    rw [en1, s1, List.take_append_of_le_length (by omega)]; exact h.pref⟩
  have hgrow : ∀ s, s = l1.nr → Inc l1.entries → SLeafOK { l1 with sorted := s } := fun s hs hi =>
    SLeafOK.make (l := { l1 with sorted := s }) ⟨ok1.hs, ok1.len, ok1.nr, ok1.used, ok1.all, ok1.dist⟩ hs hi
  unfold SLeaf.insert
  rw [e1, Res.bind_ok]
  by_cases c1 : l.nr = l.sorted
  · rw [if_pos c1]
    have hall : Inc l.entries := by
      have := h.pref
      rwa [← c1, ← hel, List.take_length] at this
    by_cases c2 : l.nr ≠ 0
    · rw [if_pos c2]
      have hlast : l1.entries[l.nr - 1]? = some (l.entries[l.nr - 1]'(by omega)) := by
        rw [en1, List.getElem?_append_left (by omega), List.getElem?_eq_getElem]
      rw [kvAt_spec ok1 hlast, Res.bind_ok]
      by_cases c3 : keyLt (l.entries[l.nr - 1]'(by omega)).1 e.1 = true
      · rw [if_pos c3]
        refine ⟨_, rfl, hgrow _ n1.symm ?_, a1, n1, en1⟩
        rw [en1]
        refine List.pairwise_append.2 ⟨hall, List.pairwise_singleton _ _, fun x hx y hy => ?_⟩
        rw [List.mem_singleton.1 hy]
        obtain ⟨i, hi, rfl⟩ := List.mem_iff_getElem.1 hx
        by_cases hil : i = l.nr - 1
        · subst hil; exact c3
        · exact keyLt_trans' (List.pairwise_iff_getElem.1 hall i (l.nr - 1) hi (by omega) (by omega)) c3
      · rw [if_neg c3]
        exact ⟨_, rfl, hkeep, a1, n1, en1⟩
    · rw [if_neg c2]
      refine ⟨_, rfl, hgrow 1 (by omega) ?_, a1, n1, en1⟩
      have : l.entries = [] := List.length_eq_zero_iff.1 (by omega)
      rw [en1, this]; exact List.pairwise_singleton _ _
  · rw [if_neg c1]
    exact ⟨_, rfl, hkeep, a1, n1, en1⟩

/-! ## Update and removal -/

theorem filter_ne_mid {a b : List Entry} {k : Key} {st : Store} (hnd : (keysOf (a ++ (k, st) :: b)).Nodup) :
    ((a ++ (k, st) :: b).filter fun e => e.1 != k) = a ++ b := by
  rw [keysOf, List.map_append, List.map_cons, List.nodup_append, List.nodup_cons] at hnd
  rw [List.filter_append, List.filter_cons_of_neg (by simp)]
  have ha : a.filter (fun e => e.1 != k) = a := by
    rw [List.filter_eq_self]
    intro x hx
    have := hnd.2.2 x.1 (List.mem_map_of_mem hx) k (by simp)
    simpa [bne_iff_ne] using this
  have hb : b.filter (fun e => e.1 != k) = b := by
    rw [List.filter_eq_self]
    intro x hx
    have : x.1 ≠ k := fun e => hnd.2.1.1 (List.mem_map.2 ⟨x, hx, e⟩)
    simpa [bne_iff_ne] using this
  rw [ha, hb]

theorem HsOK.same {hs : List (Option Slot)} (h : HsOK hs) {ih : Nat} {s : Slot} (hs' : slotAt hs ih = some s) (st : Store) :
    HsOK (hs.set ih (some ⟨s.tag, s.kv.1, st⟩)) := by
  have hlt : ih < hs.length := slotAt_lt hs'
  have key : ∀ j, slotAt (hs.set ih (some ⟨s.tag, s.kv.1, st⟩)) j =
      if j = ih then some ⟨s.tag, s.kv.1, st⟩ else slotAt hs j := fun j => slotAt_set hlt _
  have pre : ∀ j x, slotAt (hs.set ih (some ⟨s.tag, s.kv.1, st⟩)) j = some x →
      ∃ y, slotAt hs j = some y ∧ y.tag = x.tag ∧ y.kv.1 = x.kv.1 := by
    intro j x hx
    rw [key] at hx
    split_ifs at hx with hj
    · obtain rfl := Option.some.inj hx
      exact ⟨s, by rw [hj]; exact hs', rfl, rfl⟩
    · exact ⟨x, hx, rfl, rfl⟩
  have use : ∀ j, slotAt hs j ≠ none → slotAt (hs.set ih (some ⟨s.tag, s.kv.1, st⟩)) j ≠ none := by
    intro j hj
    rw [key]
    split_ifs
    · simp
    · exact hj
  refine ⟨by rw [List.length_set]; exact h.len, ?_, ?_, ?_⟩
  · intro j x hx
    obtain ⟨y, h1, h2, h3⟩ := pre j x hx
    rw [← h2, ← h3]; exact h.tag j y h1
  · intro i j a b hij ha hb
    obtain ⟨y, h1, h2, _⟩ := pre i a ha
    obtain ⟨z, h3, h4, _⟩ := pre j b hb
    rw [← h2, ← h4]; exact h.inc i j y z hij h1 h3
  · intro j x hx k hk
    obtain ⟨y, h1, h2, _⟩ := pre j x hx
    rw [← h2] at hk
    exact use k (h.mag j y h1 k hk)

/-- A leaf with another store in a slot. -/
theorem same_spec {l : SLeaf} (h : SLeafOK l) {a b : List Nat} {ih : Nat} {s : Slot} (hs : slotAt l.hs ih = some s)
    (hab : l.idx = a ++ ih :: b) (st : Store) :
    SLeafOK { l with hs := l.hs.set ih (some ⟨s.tag, s.kv.1, st⟩) } ∧
      SLeaf.entries { l with hs := l.hs.set ih (some ⟨s.tag, s.kv.1, st⟩) } = l.entries.set a.length (s.kv.1, st) ∧
      (SLeaf.entries { l with hs := l.hs.set ih (some ⟨s.tag, s.kv.1, st⟩) }).Perm
        ((s.kv.1, st) :: l.entries.filter fun e => e.1 != s.kv.1) := by
  have hlt : ih < l.hs.length := slotAt_lt hs
  have key : ∀ j, slotAt (l.hs.set ih (some ⟨s.tag, s.kv.1, st⟩)) j =
      if j = ih then some ⟨s.tag, s.kv.1, st⟩ else slotAt l.hs j := fun j => slotAt_set hlt _
  have hd := h.raw.dist
  rw [hab, List.nodup_append, List.nodup_cons] at hd
  have hent0 : l.entries = a.map (pairAt l.hs) ++ (s.kv.1, s.kv.2) :: b.map (pairAt l.hs) := by
    rw [SLeaf.entries, hab, List.map_append, List.map_cons, pairAt_of hs]
  have hent : SLeaf.entries { l with hs := l.hs.set ih (some ⟨s.tag, s.kv.1, st⟩) } =
      a.map (pairAt l.hs) ++ (s.kv.1, st) :: b.map (pairAt l.hs) := by
    show l.idx.map (pairAt (l.hs.set ih (some ⟨s.tag, s.kv.1, st⟩))) = _
    have hc : ∀ js : List Nat, ih ∉ js → js.map (pairAt (l.hs.set ih (some ⟨s.tag, s.kv.1, st⟩))) = js.map (pairAt l.hs) := by
      intro js hj
      apply List.map_congr_left
      intro j hj'
      unfold pairAt
      rw [key, if_neg]
      rintro rfl
      exact hj hj'
    rw [hab, List.map_append, List.map_cons, hc a (fun hh => hd.2.2 ih hh ih (by simp) rfl), hc b hd.2.1.1,
      pairAt_of ((key ih).trans (if_pos rfl))]
  have hset : l.entries.set a.length (s.kv.1, st) = a.map (pairAt l.hs) ++ (s.kv.1, st) :: b.map (pairAt l.hs) := by
    rw [hent0]
    have : a.length = (a.map (pairAt l.hs)).length := by rw [List.length_map]
    rw [this]; simp
  have hkeys : keysOf (SLeaf.entries { l with hs := l.hs.set ih (some ⟨s.tag, s.kv.1, st⟩) }) = keysOf l.entries := by
    rw [hent, hent0]; simp [keysOf]
  refine ⟨⟨⟨h.raw.hs.same hs st, h.raw.len, h.raw.nr, ?_, ?_, h.raw.dist⟩, h.sorted, by rw [hkeys]; exact h.nodup, ?_⟩,
    by rw [hent, hset], ?_⟩
  · intro j hj
    show slotAt (l.hs.set ih _) j ≠ none
    rw [key]
    split_ifs
    · simp
    · exact h.raw.used j hj
  · intro j hj
    replace hj : slotAt (l.hs.set ih (some ⟨s.tag, s.kv.1, st⟩)) j ≠ none := hj
    rw [key] at hj
    split_ifs at hj with hc
    · rw [hc]; exact h.raw.all ih (by rw [hs]; simp)
    · exact h.raw.all j hj
  · have h2 : (keysOf (l.entries.take l.sorted)).Pairwise fun a b => keyLt a b = true := by
      rw [keysOf, List.pairwise_map]; exact h.pref
    rw [keysOf, List.map_take, ← keysOf, ← hkeys, keysOf, ← List.map_take, List.pairwise_map] at h2
    exact h2
  · have hnd := h.nodup
    rw [hent0] at hnd
    rw [hent, hent0, filter_ne_mid hnd]
    exact List.perm_middle

theorem supdate_spec {l : SLeaf} (h : SLeafOK l) {k : Key} {st : Store} {ih : Nat} (hm : l.matchHs k = some ih) :
    ∃ l', l.update ih (k, st) = .ok l' ∧ SLeafOK l' ∧ l'.anchor = l.anchor ∧
      l'.entries.Perm ((k, st) :: l.entries.filter fun e => e.1 != k) := by
  obtain ⟨s, h1, rfl⟩ := match_some hm
  obtain ⟨a, b, h3, h4⟩ := h.raw.place h1
  obtain ⟨g1, _, g2⟩ := same_spec h h1 h3 st
  refine ⟨_, ?_, g1, rfl, g2⟩
  unfold SLeaf.update
  rw [h1]

theorem sremove_spec {l : SLeaf} (h : SLeafOK l) {k : Key} {ih : Nat} (hm : l.matchHs k = some ih) :
    ∃ l', l.removeIh ih = .ok l' ∧ SLeafOK l' ∧ l'.anchor = l.anchor ∧ l'.nr = l.nr - 1 ∧
      l'.entries.Perm (l.entries.filter fun e => e.1 != k) := by
  obtain ⟨s, h1, rfl⟩ := match_some hm
  obtain ⟨a, b, h3, h4⟩ := h.raw.place h1
  obtain ⟨l', e, ok, ha, hn, hso, c, hp, hent⟩ := remove_raw h.raw h3
  unfold SLeaf.removeIh
  rw [searchIs_spec h.raw h3, Res.bind_ok]
  have hnd := h.nodup
  rw [h4] at hnd
  have hnd' := hnd
  have hperm : l'.entries.Perm (a.map (pairAt l.hs) ++ b.map (pairAt l.hs)) := by
    rw [hent, List.map_append]; exact (hp.map _).append_left _
  rw [keysOf, List.map_append, List.map_cons, List.nodup_append, List.nodup_cons] at hnd
  have hl := h.raw.idx_length
  have hlab : a.length + (b.length + 1) = l.nr := by rw [← hl, h3]; simp
  have h1' := h.sorted
  have hsle : l'.sorted ≤ a.length ∧ l'.sorted ≤ l.sorted := by rw [hso]; split_ifs <;> omega
  refine ⟨l', e, ⟨ok, by omega, ?_, ?_⟩, ha, hn, ?_⟩
  · rw [(hperm.map Prod.fst).nodup_iff]
    show ((a.map (pairAt l.hs) ++ b.map (pairAt l.hs)).map Prod.fst).Nodup
    rw [List.map_append, List.nodup_append]
    exact ⟨hnd.1, hnd.2.1.2, fun x hx y hy => hnd.2.2 x hx y (by simp only [List.mem_cons]; exact Or.inr hy)⟩
  · have : l'.entries.take l'.sorted = (l.entries.take l.sorted).take l'.sorted := by
      rw [List.take_take, Nat.min_eq_left hsle.2, hent, List.map_append, h4, List.take_append_of_le_length (by simp; omega),
        List.take_append_of_le_length (by simp; omega)]
    rw [this]
    exact List.Pairwise.sublist (List.take_sublist _ _) h.pref
  · refine hperm.trans ?_
    rw [h4, filter_ne_mid hnd']

/-! ## Merge and split -/

theorem smerge_spec {l n : SLeaf} (h : SLeafOK l) (hn : SLeafOK n) (hsum : l.nr + n.nr ≤ 32)
    (hlt : ∀ x ∈ l.entries, ∀ y ∈ n.entries, keyLt x.1 y.1 = true) :
    ∃ l', l.merge n = .ok l' ∧ SLeafOK l' ∧ l'.anchor = l.anchor ∧ l'.nr = l.nr + n.nr ∧
      l'.entries = l.entries ++ n.entries := by
  obtain ⟨q1, q2⟩ := hn.raw.slots_eq
  obtain ⟨l', e, ok, a, n', s, en⟩ := fill_spec n.slots h.raw (by omega) hn.raw.slots_tag
  rw [q1] at en
  rw [q2] at n'
  have hel := h.entries_length
  have hso := h.sorted
  have hso' := hn.sorted
  have hnd : (keysOf l'.entries).Nodup := by
    rw [en, keysOf, List.map_append, List.nodup_append]
    refine ⟨h.nodup, hn.nodup, fun x hx y hy => ?_⟩
    obtain ⟨x, hx', rfl⟩ := List.mem_map.1 hx
    obtain ⟨y, hy', rfl⟩ := List.mem_map.1 hy
    exact (keyLt_ne (hlt x hx' y hy')).symm
  unfold SLeaf.merge
  rw [e, Res.bind_ok]
  by_cases hc : l.nr = l.sorted
  · rw [if_pos hc]
    refine ⟨_, rfl, ⟨⟨ok.hs, ok.len, ok.nr, ok.used, ok.all, ok.dist⟩, ?_, hnd, ?_⟩, a, n', en⟩
    · show l'.sorted + n.sorted ≤ l'.nr
      omega
    · show Inc (l'.entries.take (l'.sorted + n.sorted))
      have h1 := h.pref
      rw [← hc, ← hel, List.take_length] at h1
      rw [en, s, ← hc, ← hel, List.take_length_add_append]
      refine List.pairwise_append.2 ⟨h1, hn.pref, fun x hx y hy => hlt x hx y (List.mem_of_mem_take hy)⟩
  · rw [if_neg hc]
    refine ⟨l', rfl, ⟨ok, by omega, hnd, ?_⟩, a, n', en⟩
    rw [en, s, List.take_append_of_le_length (by omega)]
    exact h.pref

theorem lcp_between : ∀ {x y z : Key}, keyLt x y = true → keyLe y z = true → keyLcp x z + 1 ≤ y.length
  | [], [], _, h, _ => by simp [keyLt] at h
  | [], _ :: _, _, _, _ => by simp [keyLcp]
  | _ :: _, [], _, h, _ => by simp [keyLt] at h
  | _ :: _, _ :: _, [], _, h => by simp [keyLe] at h
  | a :: as, b :: bs, c :: cs, h, h' => by
    rw [keyLt, Bool.or_eq_true, Bool.and_eq_true, decide_eq_true_eq, beq_iff_eq] at h
    rw [keyLe, Bool.or_eq_true, Bool.and_eq_true, decide_eq_true_eq, beq_iff_eq] at h'
    rw [keyLcp]
    split_ifs with hac
    · subst hac
      rw [List.length_cons]
      have : keyLt as bs = true ∧ keyLe bs cs = true := by
        rcases h with h | ⟨h, h1⟩
        · rcases h' with h' | ⟨h', h2⟩
          · exact absurd (UInt8.lt_trans h h') (UInt8.lt_irrefl _)
          · rw [h'] at h; exact absurd h (UInt8.lt_irrefl _)
        · rcases h' with h' | ⟨_, h2⟩
          · rw [h] at h'; exact absurd h' (UInt8.lt_irrefl _)
          · exact ⟨h1, h2⟩
      have := lcp_between this.1 this.2
      omega
    · simp

theorem cutLoopS_range {all : List Slot} {n target : Nat} (hn : n < all.length) (hinc : Inc (all.map Slot.kv)) :
    ∀ fuel l h, l < h → h ≤ n → ∃ c, cutLoopS all (keyLcp (all.getD 0 ⟨0, [], Store.zero⟩).kv.1
      (all.getD n ⟨0, [], Store.zero⟩).kv.1 + 1) target fuel l h = .ok c ∧ l < c ∧ c ≤ h
  | 0, l, h, hlt, _ => ⟨h, rfl, hlt, Nat.le_refl _⟩
  | fuel + 1, l, h, hlt, hle => by
    have mono : ∀ i j, i < j → j ≤ n → keyLt (all.getD i ⟨0, [], Store.zero⟩).kv.1 (all.getD j ⟨0, [], Store.zero⟩).kv.1 = true := by
      intro i j hij hj
      rw [List.getD_eq_getElem?_getD, List.getD_eq_getElem?_getD, List.getElem?_eq_getElem (by omega),
        List.getElem?_eq_getElem (by omega)]
      have := List.pairwise_iff_getElem.1 hinc i j (by simp; omega) (by simp; omega) hij
      rwa [List.getElem_map, List.getElem_map] at this
    have check : ∀ k j, 0 < j → j ≤ n → ∃ b, alenCheckS (keyLcp (all.getD 0 ⟨0, [], Store.zero⟩).kv.1
        (all.getD n ⟨0, [], Store.zero⟩).kv.1 + 1) k (all.getD j ⟨0, [], Store.zero⟩).kv.1 = .ok b := by
      intro k j h0 hj
      unfold alenCheckS
      rw [if_neg]
      · exact ⟨_, rfl⟩
      · have : keyLe (all.getD j ⟨0, [], Store.zero⟩).kv.1 (all.getD n ⟨0, [], Store.zero⟩).kv.1 = true := by
          rcases Nat.eq_or_lt_of_le hj with rfl | hj
          · exact keyLe_refl _
          · exact keyLt_keyLe (mono j n hj (Nat.le_refl _))
        have := lcp_between (mono 0 j h0 hj) this
        omega
    rw [cutLoopS]
    by_cases hc : l + 1 < h
    · rw [if_pos hc]
      dsimp only
      generalize hm : (l + h + 1) / 2 = m
      have h1 : l < m := by omega
      have h2 : m ≤ h := by omega
      have h2' : m < h ∨ m = h := by omega
      obtain ⟨c3, e3, g3⟩ := cutLoopS_range hn hinc (target := target) fuel l m h1 (by omega)
      have h4 : ∃ c, cutLoopS all (keyLcp (all.getD 0 ⟨0, [], Store.zero⟩).kv.1
          (all.getD n ⟨0, [], Store.zero⟩).kv.1 + 1) target fuel m h = .ok c ∧ l < c ∧ c ≤ h := by
        rcases h2' with h2' | h2'
        · obtain ⟨c, e, g⟩ := cutLoopS_range hn hinc (target := target) fuel m h h2' hle
          exact ⟨c, e, by omega, by omega⟩
        · omega
      split_ifs
      · obtain ⟨b, hb⟩ := check (all.getD m ⟨0, [], Store.zero⟩).kv.1 h (by omega) hle
        rw [hb, Res.bind_ok]
        cases b
        · exact ⟨c3, e3, by omega, by omega⟩
        · exact h4
      · obtain ⟨b, hb⟩ := check (all.getD l ⟨0, [], Store.zero⟩).kv.1 m (by omega) (by omega)
        rw [hb, Res.bind_ok]
        cases b
        · exact h4
        · exact ⟨c3, e3, by omega, by omega⟩
    · rw [if_neg hc]; exact ⟨h, rfl, hlt, Nat.le_refl _⟩

/-- Too many bytes in common: the anchor would not fit. -/
def SLeaf.Full (l : SLeaf) (k : Key) : Prop :=
  65534 < keyLcp (((treePut l.list k Store.zero).getD 0 ([], Store.zero)).1)
    (((treePut l.list k Store.zero).getD 32 ([], Store.zero)).1)

theorem treePut_keys (k : Key) (st st' : Store) : ∀ m : Tree, keysOf (treePut m k st) = keysOf (treePut m k st')
  | [] => rfl
  | e :: m => by
    rw [treePut, treePut]
    split_ifs
    · rfl
    · rfl
    · simp only [keysOf, List.map_cons]
      exact congrArg _ (treePut_keys k st st' m)

theorem getD_kv (all : List Slot) (i : Nat) :
    (all.getD i ⟨0, [], Store.zero⟩).kv.1 = ((all.map Slot.kv).getD i ([], Store.zero)).1 := by
  rw [List.getD_eq_getElem?_getD, List.getD_eq_getElem?_getD, List.getElem?_map]
  cases all[i]? <;> rfl

theorem getD_fst (m : List Entry) (i : Nat) : (m.getD i ([], Store.zero)).1 = (keysOf m).getD i [] := by
  rw [List.getD_eq_getElem?_getD, List.getD_eq_getElem?_getD, keysOf, List.getElem?_map]
  cases m[i]? <;> rfl

theorem ssplit_spec {l : SLeaf} (h : SLeafOK l) (hn : l.nr = 32) {e : Entry} (hne : e.1 ∉ keysOf l.entries) (hasNext : Bool) :
    (l.Full e.1 ∧ l.split hasNext e = .ok none) ∨
    (¬ l.Full e.1 ∧ ∃ a b, l.split hasNext e = .ok (some (a, b)) ∧ SLeafOK a ∧ SLeafOK b ∧
      a.anchor = l.anchor ∧ a.sorted = a.nr ∧ b.sorted = b.nr ∧ a.entries ++ b.entries = treePut l.list e.1 e.2 ∧
      a.entries ≠ [] ∧ b.entries ≠ [] ∧ (∀ x ∈ a.entries, keyLt x.1 b.anchor = true) ∧
      (∀ x ∈ b.entries, keyLe b.anchor x.1 = true) ∧
      ∃ x ∈ a.entries, ∃ y ∈ b.entries, b.anchor = y.1.take (keyLcp x.1 y.1 + 1)) := by
  obtain ⟨l1, e1, ok1, a1, n1, s1, en1⟩ := ssync_spec h
  obtain ⟨q1, q2⟩ := ok1.raw.slots_eq
  have hll : l.list.length = 32 := by rw [l.list_perm.length_eq, h.entries_length, hn]
  have hne' : e.1 ∉ keysOf l.list := fun hh => hne ((l.list_perm.map _).mem_iff.1 hh)
  have hne1 : e.1 ∉ keysOf l1.entries := by rw [en1]; exact hne'
  unfold SLeaf.split
  rw [e1, Res.bind_ok, searchSs_spec ok1 hne1, Res.bind_ok, s1, en1, n1]
  rw [List.take_of_length_le (l := l.list) (i := l.nr) (by omega)]
  have hall0 := treePut_new (k := e.1) (st := e.2) h.inc hne'
  dsimp only
  generalize hS : l1.slots.take (treeSeek l.list e.1) ++ (⟨kvTag e.1, e⟩ : Slot) :: l1.slots.drop (treeSeek l.list e.1) = all
  have hmap : all.map Slot.kv = treePut l.list e.1 e.2 := by
    rw [← hS, List.map_append, List.map_cons, List.map_take, List.map_drop, q1, en1]
    exact hall0
  have htag : ∀ s ∈ all, s.tag = kvTag s.kv.1 := by
    rw [← hS]
    intro s hs
    rcases List.mem_append.1 hs with hs | hs
    · exact ok1.raw.slots_tag s (List.mem_of_mem_take hs)
    · rcases List.mem_cons.1 hs with rfl | hs
      · rfl
      · exact ok1.raw.slots_tag s (List.mem_of_mem_drop hs)
  have hinc : Inc (all.map Slot.kv) := by rw [hmap]; exact treePut_inc h.inc
  have hlen : all.length = 33 := by
    rw [← hS, List.length_append, List.length_cons]
    have : (l1.slots.take (treeSeek l.list e.1)).length + (l1.slots.drop (treeSeek l.list e.1)).length = l1.slots.length := by
      rw [← List.length_append, List.take_append_drop]
    omega
  have hfull : l.Full e.1 ↔ 65535 < keyLcp (all.getD 0 ⟨0, [], Store.zero⟩).kv.1 (all.getD l.nr ⟨0, [], Store.zero⟩).kv.1 + 1 := by
    rw [getD_kv, getD_kv, hmap, hn, SLeaf.Full, getD_fst, getD_fst, getD_fst, getD_fst, treePut_keys e.1 Store.zero e.2]
    omega
  by_cases hf : l.Full e.1
  · left
    refine ⟨hf, ?_⟩
    rw [if_pos (hfull.1 hf)]
  · right
    refine ⟨hf, ?_⟩
    rw [if_neg fun hh => hf (hfull.2 hh)]
    obtain ⟨cut, ec, c1, c2⟩ := cutLoopS_range (all := all) (n := l.nr) (target := if hasNext = true then 16 else 24)
      (by omega) hinc 64 0 l.nr (by omega) (Nat.le_refl _)
    rw [ec, Res.bind_ok]
    rw [getD_kv, getD_kv, hmap]
    have hAl : (treePut l.list e.1 e.2).length = 33 := by rw [← hmap, List.length_map, hlen]
    rw [hmap] at hinc
    generalize hA : treePut l.list e.1 e.2 = A at *
    have g1 : A.getD (cut - 1) ([], Store.zero) = A[cut - 1] := by
      rw [List.getD_eq_getElem?_getD, List.getElem?_eq_getElem (by omega)]; rfl
    have g2 : A.getD cut ([], Store.zero) = A[cut] := by
      rw [List.getD_eq_getElem?_getD, List.getElem?_eq_getElem (by omega)]; rfl
    rw [g1, g2]
    have hlt : keyLt A[cut - 1].1 A[cut].1 = true :=
      List.pairwise_iff_getElem.1 hinc (cut - 1) cut (by omega) (by omega) (by omega)
    obtain ⟨b1, b2⟩ := RawOK.blank (l := SLeaf.new (A[cut].1.take (keyLcp A[cut - 1].1 A[cut].1 + 1))) rfl rfl (by simp [SLeaf.new])
    obtain ⟨b', eb, okb, ab, nb, _, enb⟩ := fill_spec (all.drop cut) b1 (by
      show 0 + _ ≤ 32
      rw [List.length_drop]; omega) (fun s hs => htag s (List.mem_of_mem_drop hs))
    rw [eb, Res.bind_ok]
    obtain ⟨d1, d2⟩ := RawOK.blank (l := { l1 with hs := List.replicate 32 none, nr := 0, sorted := l.nr }) rfl rfl ok1.raw.len
    obtain ⟨a', ea, oka, aa, na, _, ena⟩ := fill_spec (all.take cut) d1 (by
      show 0 + _ ≤ 32
      rw [List.length_take]; omega) (fun s hs => htag s (List.mem_of_mem_take hs))
    rw [ea, Res.bind_ok]
    rw [b2, List.nil_append, List.map_drop, hmap] at enb
    rw [d2, List.nil_append, List.map_take, hmap] at ena
    have na' : a'.nr = cut := by
      rw [na]; show 0 + _ = cut
      rw [List.length_take]; omega
    have okA : SLeafOK { a' with sorted := cut } := SLeafOK.make
      ⟨oka.hs, oka.len, oka.nr, oka.used, oka.all, oka.dist⟩ na'.symm (by
        show Inc a'.entries
        rw [ena]; exact List.Pairwise.sublist (List.take_sublist _ _) hinc)
    have okB : SLeafOK { b' with sorted := b'.nr } := SLeafOK.make
      ⟨okb.hs, okb.len, okb.nr, okb.used, okb.all, okb.dist⟩ rfl (by
        show Inc b'.entries
        rw [enb]; exact List.Pairwise.sublist (List.drop_sublist _ _) hinc)
    have hab : b'.anchor = A[cut].1.take (keyLcp A[cut - 1].1 A[cut].1 + 1) := ab
    refine ⟨_, _, rfl, okA, okB, aa.trans a1, na'.symm, rfl, ?_, ?_, ?_, ?_, ?_, A[cut - 1], ?_, A[cut], ?_, hab⟩
    · show a'.entries ++ b'.entries = A
      rw [ena, enb, List.take_append_drop]
    · show a'.entries ≠ []
      rw [ena]; intro hh
      have := congrArg List.length hh
      rw [List.length_take, List.length_nil] at this; omega
    · show b'.entries ≠ []
      rw [enb]; intro hh
      have := congrArg List.length hh
      rw [List.length_drop, List.length_nil] at this; omega
    · show ∀ x ∈ a'.entries, keyLt x.1 b'.anchor = true
      rw [ena, hab]
      intro x hx
      obtain ⟨i, hi, rfl⟩ := List.mem_take_iff_getElem.1 hx
      rcases Nat.eq_or_lt_of_le (show i ≤ cut - 1 by omega) with rfl | hi'
      · exact keyLt_anchor hlt
      · exact keyLt_trans' (List.pairwise_iff_getElem.1 hinc i (cut - 1) (by omega) (by omega) hi') (keyLt_anchor hlt)
    · show ∀ x ∈ b'.entries, keyLe b'.anchor x.1 = true
      rw [enb, hab]
      intro x hx
      refine keyLe_trans (keyLe_take _ _) ?_
      have h3 := List.Pairwise.sublist (List.drop_sublist cut A) hinc
      rw [List.drop_eq_getElem_cons (by omega)] at h3 hx
      rcases List.mem_cons.1 hx with rfl | hx
      · exact keyLe_refl _
      · exact keyLt_keyLe ((List.pairwise_cons.1 h3).1 x hx)
    · show A[cut - 1] ∈ a'.entries
      rw [ena, List.mem_take_iff_getElem]
      exact ⟨cut - 1, by omega, rfl⟩
    · show A[cut] ∈ b'.entries
      rw [enb, List.drop_eq_getElem_cons (by omega)]
      exact List.mem_cons_self

end Verif
