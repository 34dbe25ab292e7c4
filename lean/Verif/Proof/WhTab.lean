import Verif.Model.WhTab
import Verif.Proof.WhHashSet
import Verif.Spec.StrTab
import Verif.Proof.WhStrFull

/-!
# The index in the hash table does what the index does, unless an insertion does not return
-/

namespace Verif

variable {h : Key → Nat} {depth : Nat} {x : TabIndex} {p : Key} {W : Option (Key → Prop)}

/-- The first table, with every entry in its first bucket. -/
def Plain (h : Key → Nat) (t : HTab) : Prop := t.mask = 4095 ∧ ∀ b, ∀ e ∈ t.bkt b, t.first h e.key = b

/-- The table came about by insertions that returned, and deletions; with `W`, it is plain and all keys are of this kind. -/
def Good (h : Key → Nat) (W : Option (Key → Prop)) (x : TabIndex) : Prop :=
  ∃ S, HashHist h x.tab S ∧ ∀ P, W = some P → (∀ q ∈ S, P q) ∧ Plain h x.tab

/-- With `W`, the key is of this kind, and not many keys of this kind have the same first bucket. -/
def Fine (h : Key → Nat) (depth : Nat) (W : Option (Key → Prop)) (p : Key) : Prop :=
  ∀ P, W = some P → P p ∧ Thin h P ∧ 2 ≤ depth

theorem hist_find {S : List Key} (H : HashHist h x.tab S) (p : Key) : x.find h p = if p ∈ S then some (x.node p) else none := by
  obtain ⟨T, hp, _⟩ := H.ok
  have hg := T.get (k := p)
  unfold TabIndex.find
  have hm : p ∈ x.tab.all.map Ent.key ↔ p ∈ S := hp.mem_iff
  by_cases hk : p ∈ S
  · rw [if_pos (hm.2 hk)] at hg
    obtain ⟨e, he, rfl⟩ := Option.map_eq_some_iff.1 hg
    rw [if_pos hk, he]; rfl
  · rw [if_neg (fun hc => hk (hm.1 hc))] at hg
    rw [Option.map_eq_none_iff] at hg
    rw [if_neg hk, hg]; rfl

theorem hist_peek {S : List Key} (H : HashHist h x.tab S) (hp : x.find h p ≠ none) : x.tab.peek h p = true := by
  obtain ⟨T, hs, _⟩ := H.ok
  refine T.peek (hs.mem_iff.2 ?_)
  rw [hist_find H] at hp
  by_contra hc
  exact hp (if_neg hc)

theorem bkt_sublist (t : HTab) (i : Nat) : (t.bkt i).Sublist t.all := by
  unfold HTab.bkt HTab.all
  rw [List.getD_eq_getElem?_getD]
  cases hi : t.bkts[i]? with
  | none => exact List.nil_sublist _
  | some b => exact List.sublist_flatten_of_mem (List.mem_of_getElem? hi)

/-- In a plain table there is room for the next key. -/
theorem Plain.set {t : HTab} {S : List Key} {P : Key → Prop} (hp : Plain h t) (H : HashHist h t S) (hn : p ∉ S)
    (hS : ∀ q ∈ S, P q) (hf : P p) (hs : Thin h P) (hd : 2 ≤ depth) : ∃ t', t.set h depth p = .ok t' ∧ Plain h t' := by
  obtain ⟨T, hperm, hnd⟩ := H.ok
  obtain ⟨hm, hb⟩ := hp
  have hlt : (t.bkt (t.first h p)).length < 8 := by
    have hsub := (bkt_sublist t (t.first h p)).map Ent.key
    have := hs (h p &&& 4095) (p :: (t.bkt (t.first h p)).map Ent.key) (List.nodup_cons.2 ⟨fun hc => hn (hperm.mem_iff.1 (hsub.subset hc)),
      (hperm.nodup_iff.2 hnd).sublist hsub⟩) (fun q hq => by
        rcases List.mem_cons.1 hq with rfl | hq
        · exact ⟨hf, rfl⟩
        · refine ⟨hS q (hperm.mem_iff.1 (hsub.subset hq)), ?_⟩
          obtain ⟨e, he, rfl⟩ := List.mem_map.1 hq
          have := hb _ e he
          unfold HTab.first at this
          rwa [hm] at this)
    rw [List.length_cons, List.length_map] at this
    omega
  obtain ⟨d, rfl⟩ : ∃ d, depth = d + 2 := ⟨depth - 2, by omega⟩
  refine ⟨t.push (t.first h p) ⟨pkey16 (h p), p⟩, ?_, hm, ?_⟩
  · rw [HTab.set, HTab.cuckoo, if_pos hlt, Res.bind_ok, if_pos rfl]
  · intro b e he
    have hbk := HTab.upd_bkt (T.first_lt p) (t.bkt (t.first h p) ++ [⟨pkey16 (h p), p⟩]) b
    have he' : e ∈ (t.upd (t.first h p) (t.bkt (t.first h p) ++ [⟨pkey16 (h p), p⟩])).bkt b := he
    rw [hbk] at he'
    show t.first h e.key = b
    by_cases hbe : b = t.first h p
    · subst hbe
      rw [if_pos rfl, List.mem_append, List.mem_singleton] at he'
      rcases he' with he' | rfl
      · exact hb _ e he'
      · rfl
    · rw [if_neg hbe] at he'
      exact hb _ e he'

theorem delSlot_plain {t t' : HTab} {i : Nat} (hi : i < t.bkts.length) (hp : Plain h t) (hd : t.delSlot h i p = some t') :
    Plain h t' := by
  unfold HTab.delSlot at hd
  rw [Option.map_eq_some_iff] at hd
  obtain ⟨j, hj, rfl⟩ := hd
  obtain ⟨hlt, -, _⟩ := List.findIdx?_eq_some_iff_getElem.1 hj
  have hget : (t.bkt i)[j]? = some (t.bkt i)[j] := List.getElem?_eq_getElem hlt
  refine ⟨hp.1, fun b e he => ?_⟩
  have he' : e ∈ (t.upd i (((t.bkt i).set j ((t.bkt i).getD ((t.bkt i).length - 1) ⟨0, []⟩)).dropLast)).bkt b := he
  rw [HTab.upd_bkt hi] at he'
  show t.first h e.key = b
  by_cases hb : b = i
  · subst hb
    rw [if_pos rfl] at he'
    exact hp.2 b e ((dropLast_set_perm (d := (⟨0, []⟩ : Ent)) hget).subset (List.mem_cons_of_mem _ he'))
  · rw [if_neg hb] at he'
    exact hp.2 b e he'

theorem Plain.del {t t' : HTab} (T : TabOK h t) (hp : Plain h t) (hd : t.del h p = some t') : Plain h t' := by
  unfold HTab.del at hd
  rw [Option.or_eq_some_iff] at hd
  rcases hd with hd | ⟨_, hd⟩
  · exact delSlot_plain (T.first_lt p) hp hd
  · exact delSlot_plain (T.second_lt p) hp hd

theorem Good.peek (H : Good h W x) (hp : x.find h p ≠ none) : x.tab.peek h p = true := by
  obtain ⟨S, H, -⟩ := H
  exact hist_peek H hp

theorem Good.store (H : Good h W x) (m : Meta) : Good h W (x.store p m) := H

theorem Index.ext' {a b : Index} (h1 : ∀ q, a.get q = b.get q) (h2 : a.maxplen = b.maxplen) : a = b := by
  cases a; cases b
  cases (funext h1 : _ = _)
  cases h2
  rfl

theorem Good.store_view (H : Good h W x) (hp : x.find h p ≠ none) (m : Meta) : (x.store p m).view h = (x.view h).put p (some m) := by
  obtain ⟨S, H, -⟩ := H
  refine Index.ext' (fun q => ?_) rfl
  have H' : HashHist h (x.store p m).tab S := H
  show (x.store p m).find h q = if q = p then some m else x.find h q
  rw [hist_find H', hist_find H]
  rw [hist_find H] at hp
  by_cases hq : q = p
  · subst hq
    rw [if_pos rfl, if_pos (by by_contra hc; exact hp (if_neg hc))]
    simp [TabIndex.store]
  · rw [if_neg hq]
    simp [TabIndex.store, hq]

theorem Good.add (H : Good h W x) (hf : Fine h depth W p) (hp : x.find h p = none) (m : Meta) :
    (W = none ∧ x.add h depth p m = .hang) ∨ ∃ y, x.add h depth p m = .ok y ∧ Good h W y ∧ y.view h = (x.view h).put p (some m) := by
  obtain ⟨S, H, hW⟩ := H
  have hn : p ∉ S := fun hc => by rw [hist_find H, if_pos hc] at hp; cases hp
  unfold TabIndex.add
  cases hs : x.tab.set h depth p with
  | hang =>
    refine .inl ⟨?_, rfl⟩
    cases W with
    | none => rfl
    | some P =>
      obtain ⟨h1, h2⟩ := hW P rfl
      obtain ⟨f1, f2, f3⟩ := hf P rfl
      obtain ⟨t', e, -⟩ := h2.set H hn h1 f1 f2 f3
      rw [hs] at e; cases e
  | ub => exact absurd hs (set_ok H.ok.1).1
  | ok t =>
    refine .inr ⟨_, rfl, ⟨_, .set H hn hs, fun P hP => ?_⟩, Index.ext' (fun q => ?_) rfl⟩
    · obtain ⟨h1, h2⟩ := hW P hP
      obtain ⟨f1, f2, f3⟩ := hf P hP
      obtain ⟨t', e, h3⟩ := h2.set H hn h1 f1 f2 f3
      rw [hs] at e; cases e
      exact ⟨fun q hq => (List.mem_cons.1 hq).elim (fun e => e ▸ f1) (h1 q), h3⟩
    have H' : HashHist h ({ x with tab := t }.store p m).tab (p :: S) := .set H hn hs
    show ({ x with tab := t }.store p m).find h q = if q = p then some m else x.find h q
    rw [hist_find H', hist_find H]
    by_cases hq : q = p
    · subst hq
      simp [TabIndex.store]
    · simp [TabIndex.store, hq]

theorem Good.remove (H : Good h W x) (hp : x.find h p ≠ none) :
    ∃ y, x.remove h p = .ok y ∧ Good h W y ∧ y.view h = (x.view h).put p none := by
  obtain ⟨S, H, hW⟩ := H
  have hin : p ∈ S := by
    by_contra hc
    rw [hist_find H, if_neg hc] at hp
    exact hp rfl
  obtain ⟨T, hs, hnd⟩ := H.ok
  obtain ⟨t, ht⟩ := T.del (hs.mem_iff.2 hin)
  unfold TabIndex.remove
  rw [ht]
  refine ⟨_, rfl, ⟨_, .del H hin ht, fun P hP => ⟨fun q hq => (hW P hP).1 q (List.mem_of_mem_erase hq), (hW P hP).2.del T ht⟩⟩, Index.ext' (fun q => ?_) rfl⟩
  have H' : HashHist h ({ x with tab := t } : TabIndex).tab (S.erase p) := .del H hin ht
  show ({ x with tab := t } : TabIndex).find h q = if q = p then none else x.find h q
  rw [hist_find H', hist_find H]
  by_cases hq : q = p
  · subst hq
    rw [if_neg (fun hc => (hnd.mem_erase_iff.1 hc).1 rfl), if_pos rfl]
  · rw [if_neg hq]
    simp only [List.mem_erase_of_ne hq]

/-! ## Outcomes -/

/-- The same outcome, unless an insertion does not return. -/
def Sim (h : Key → Nat) (W : Option (Key → Prop)) (r : Res TabIndex) (s : Res Index) : Prop :=
  (W = none ∧ r = .hang) ∨ RelRes (fun y i => Good h W y ∧ y.view h = i) r s

theorem Sim.ok (H : Good h W x) : Sim h W (.ok x) (.ok (x.view h)) := .inr ⟨H, rfl⟩

theorem Sim.ok' (H : Good h W x) {i : Index} (e : x.view h = i) : Sim h W (.ok x) (.ok i) := .inr ⟨H, e⟩

theorem Sim.bind {r : Res TabIndex} {s : Res Index} {f : TabIndex → Res TabIndex} {g : Index → Res Index} (hr : Sim h W r s)
    (hf : ∀ y, Good h W y → Sim h W (f y) (g (y.view h))) : Sim h W (r.bind f) (s.bind g) := by
  rcases hr with ⟨hw, rfl⟩ | hr
  · exact .inl ⟨hw, rfl⟩
  · cases r with
    | ok y =>
      obtain ⟨i, rfl, H, rfl⟩ := hr.okL rfl
      exact hf y H
    | ub => cases s <;> first | exact .inr trivial | exact hr.elim
    | hang => cases s <;> first | exact .inr trivial | exact hr.elim

theorem Sim.val {α : Type} (r : Res α) {f : α → Res TabIndex} {g : α → Res Index} (hf : ∀ a, r = .ok a → Sim h W (f a) (g a)) :
    Sim h W (r.bind f) (r.bind g) := by
  cases r with
  | ok a => exact hf a rfl
  | ub => exact .inr trivial
  | hang => exact .inr trivial

theorem some_ne {o : Option Meta} {m : Meta} (e : o = some m) : o ≠ none := by rw [e]; exact Option.some_ne_none _

/-- The same outcome. -/
abbrev Eqv (h : Key → Nat) (W : Option (Key → Prop)) (r : Res TabIndex) (s : Res Index) : Prop := RelRes (fun y i => Good h W y ∧ y.view h = i) r s

theorem Eqv.ok (H : Good h W x) : Eqv h W (.ok x) (.ok (x.view h)) := ⟨H, rfl⟩

theorem Eqv.ok' (H : Good h W x) {i : Index} (e : x.view h = i) : Eqv h W (.ok x) (.ok i) := ⟨H, e⟩

theorem Eqv.bind {r : Res TabIndex} {s : Res Index} {f : TabIndex → Res TabIndex} {g : Index → Res Index} (hr : Eqv h W r s)
    (hf : ∀ y, Good h W y → Eqv h W (f y) (g (y.view h))) : Eqv h W (r.bind f) (s.bind g) := by
  cases r with
  | ok y =>
    obtain ⟨i, rfl, H, rfl⟩ := RelRes.okL hr rfl
    exact hf y H
  | ub => cases s <;> trivial
  | hang => cases s <;> trivial

theorem Eqv.val {α : Type} (r : Res α) {f : α → Res TabIndex} {g : α → Res Index} (hf : ∀ a, r = .ok a → Eqv h W (f a) (g a)) :
    Eqv h W (r.bind f) (r.bind g) := by
  cases r with
  | ok a => exact hf a rfl
  | ub => trivial
  | hang => trivial

/-! ## Splits -/

theorem Good.touch (H : Good h W x) (a prev : Key) (next : Option Key) (i : Nat) (hfine : Fine h depth W (a.take i)) :
    Sim h W (tabTouch h depth a prev next i x)
      ((touchMeta a prev next i ((x.view h).get (a.take i))).bind fun m => .ok ((x.view h).put (a.take i) (some m))) := by
  unfold tabTouch
  show Sim h W _ ((touchMeta a prev next i (x.find h (a.take i))).bind _)
  cases hf : x.find h (a.take i) with
  | some m =>
    refine Sim.val _ fun m' _ => ?_
    exact Sim.ok' (H.store m') (H.store_view (some_ne hf) m')
  | none =>
    refine Sim.val _ fun m' _ => ?_
    rcases H.add hfine hf m' with e | ⟨y, e, H', hv⟩
    · exact .inl e
    · rw [e]; exact Sim.ok' H' hv

theorem Good.touchLoop (a prev : Key) (next : Option Key) (hf : ∀ i, Fine h depth W (a.take i)) : ∀ (n i : Nat) {x : TabIndex}, Good h W x →
    Sim h W (tabTouchLoop h depth a prev next n i x) (Verif.touchLoop a prev next n i (x.view h))
  | 0, _, _, _ => .inr trivial
  | n + 1, i, x, H => by
    rw [tabTouchLoop, Verif.touchLoop]
    have key : (touchMeta a prev next i ((x.view h).get (a.take i))).bind (fun m =>
        let x := (x.view h).put (a.take i) (some m)
        if i ≥ a.length then Res.ok { x with maxplen := if i > x.maxplen then i else x.maxplen }
        else Verif.touchLoop a prev next n (i + 1) x) =
        ((touchMeta a prev next i ((x.view h).get (a.take i))).bind fun m => .ok ((x.view h).put (a.take i) (some m))).bind fun x =>
          if i ≥ a.length then Res.ok { x with maxplen := if i > x.maxplen then i else x.maxplen }
          else Verif.touchLoop a prev next n (i + 1) x := by
      generalize touchMeta a prev next i ((x.view h).get (a.take i)) = X
      cases X <;> rfl
    rw [key]
    refine (H.touch a prev next i (hf i)).bind fun y Hy => ?_
    by_cases hi : i ≥ a.length
    · rw [if_pos hi, if_pos hi]
      exact Sim.ok' (x := { y with maxplen := if i > y.maxplen then i else y.maxplen }) Hy rfl
    · rw [if_neg hi, if_neg hi]
      exact Good.touchLoop a prev next hf n (i + 1) Hy

theorem Good.pathLoop (a2 lpath : Key) : ∀ (n i : Nat) {x : TabIndex}, Good h W x →
    Eqv h W (tabPathLoop h a2 lpath n i x) (lpathLoop a2 lpath n i (x.view h))
  | 0, _, _, _ => trivial
  | n + 1, i, x, H => by
    rw [tabPathLoop, lpathLoop]
    by_cases hi : i < a2.length
    · rw [if_pos hi, if_pos hi]
      show Eqv h W _ (match x.find h (a2.take i) with
        | none => .ub
        | some m => lpathLoop a2 lpath n (i + 1) ((x.view h).put (a2.take i) (some { m with lpath := lpath })))
      cases hf : x.find h (a2.take i) with
      | none => exact trivial
      | some m =>
        dsimp only
        rw [← H.store_view (some_ne hf)]
        exact Good.pathLoop a2 lpath n (i + 1) (H.store _)
    · rw [if_neg hi, if_neg hi]
      exact Eqv.ok H

theorem Good.path (H : Good h W x) (a1 a2 lpath : Key) : Eqv h W (tabPath h x a1 a2 lpath) (lpathUpdate (x.view h) a1 a2 lpath) := by
  unfold tabPath lpathUpdate
  by_cases hc : a2.length > pbufRoom
  · rw [if_pos hc, if_pos hc]; exact trivial
  · rw [if_neg hc, if_neg hc]; exact Good.pathLoop _ _ _ _ H

theorem Good.split (H : Good h W x) (prev a : Key) (next : Option Key) (hf : ∀ i, Fine h depth W (a.take i)) :
    Sim h W (x.split h depth prev a next) (indexSplit (x.view h) prev a next) := by
  unfold TabIndex.split indexSplit
  cases next with
  | none => exact Good.touchLoop _ _ _ hf _ _ H
  | some n =>
    dsimp only
    by_cases hc : a.length < keyLcp prev n
    · rw [if_pos hc, if_pos hc]; exact .inr trivial
    · rw [if_neg hc, if_neg hc]
      exact (Good.touchLoop _ _ _ hf _ _ H).bind fun y Hy => .inr (Hy.path _ _ _)

/-! ## Merges -/

theorem Good.dropChild (H : Good h W x) (a : Key) (i : Nat) : Eqv h W (tabDropChild h a i x) (Verif.dropChild a i (x.view h)) := by
  unfold tabDropChild Verif.dropChild
  show Eqv h W _ (match x.find h (a.take (i - 1)), a[i - 1]? with
    | some m, some b => (m.clearHelper b.toNat).bind fun m => .ok ((x.view h).put (a.take (i - 1)) (some m))
    | _, _ => .ub)
  cases hf : x.find h (a.take (i - 1)) with
  | none => exact trivial
  | some m =>
    cases a[i - 1]? with
    | none => exact trivial
    | some b =>
      refine Eqv.val _ fun m' _ => ?_
      exact Eqv.ok' (H.store m') (H.store_view (some_ne hf) m')

theorem Good.mergeLoop (a prev : Key) (next : Option Key) : ∀ (n i : Nat) (par : Bool) {x : TabIndex}, Good h W x →
    Eqv h W (tabMergeLoop h a prev next n i par x) (Verif.mergeLoop a prev next n i par (x.view h))
  | 0, _, _, _, _ => trivial
  | n + 1, i, par, x, H => by
    rw [tabMergeLoop, Verif.mergeLoop, show (x.view h).get (a.take i) = x.find h (a.take i) from rfl]
    cases hf : x.find h (a.take i) with
    | none => exact trivial
    | some m =>
      dsimp only
      by_cases hl : m.lmost = m.rmost
      · rw [if_pos hl, if_pos hl]
        by_cases hbm : m.bitmap.isSome = true
        · rw [if_pos hbm, if_pos hbm]; trivial
        rw [if_neg hbm, if_neg hbm]
        obtain ⟨y, e, Hy, hv⟩ := H.remove (some_ne hf)
        rw [e, Res.bind_ok, ← hv]
        refine Eqv.bind ?_ fun z Hz => ?_
        · cases par
          · exact Eqv.ok Hy
          · exact Hy.dropChild a i
        · by_cases hb : m.bitmin = 256
          · rw [if_pos hb, if_pos hb]; exact Eqv.ok Hz
          · rw [if_neg hb, if_neg hb]
            by_cases hi : i ≥ a.length
            · rw [if_pos hi, if_pos hi]; exact Eqv.ok Hz
            · rw [if_neg hi, if_neg hi]; exact Good.mergeLoop a prev next n (i + 1) false Hz
      · rw [if_neg hl, if_neg hl]
        refine Eqv.val _ fun m' _ => ?_
        rw [← H.store_view (some_ne hf)]
        by_cases hi : i ≥ a.length
        · rw [if_pos hi, if_pos hi]; exact Eqv.ok (H.store m')
        · rw [if_neg hi, if_neg hi]; exact Good.mergeLoop a prev next n (i + 1) true (H.store m')

theorem Good.merge (H : Good h W x) (prev a : Key) (next : Option Key) :
    Eqv h W (x.merge h prev a next) (indexMerge (x.view h) prev a next) := by
  unfold TabIndex.merge
  rw [indexMerge.eq_def]
  by_cases hb : a.length > pbufRoom
  · rw [if_pos hb, if_pos hb]; exact trivial
  · rw [if_neg hb, if_neg hb]
    cases next with
    | none => exact Good.mergeLoop _ _ _ _ _ _ H
    | some n =>
      dsimp only
      by_cases hc : a.length < keyLcp prev n
      · rw [if_pos hc, if_pos hc]; exact trivial
      · rw [if_neg hc, if_neg hc]
        exact (Good.mergeLoop _ _ _ _ _ _ H).bind fun y Hy => Hy.path _ _ _

theorem init_plain : Plain h HTab.init := by
  refine ⟨rfl, fun b e he => ?_⟩
  have := bkt_mem_all he
  rw [show HTab.all HTab.init = [] from (tab_fresh (h := h) (m := 4095) (a := 12) rfl).2.2] at this
  cases this

theorem tab_create (hf : Fine h depth W []) : (W = none ∧ TabIndex.create h depth = .hang) ∨ ∃ y, TabIndex.create h depth = .ok y ∧ Good h W y ∧ y.view h = Index.empty := by
  have H : Good h W ⟨HTab.init, fun _ => ⟨[], [], [], 256, 256, none⟩, 0⟩ := ⟨[], .init, fun P hP => ⟨by simp, init_plain⟩⟩
  have hn : ∀ q, TabIndex.find h ⟨HTab.init, fun _ => ⟨[], [], [], 256, 256, none⟩, 0⟩ q = none := fun q => by
    rw [hist_find (S := []) .init, if_neg (by simp)]
  rcases H.add hf (hn []) ⟨[], [], [], 256, 256, none⟩ with e | ⟨y, e, Hy, hv⟩
  · exact .inl e
  · refine .inr ⟨y, e, Hy, ?_⟩
    rw [hv]
    refine Index.ext' (fun q => ?_) rfl
    show (if q = [] then some _ else TabIndex.find h _ q) = if q = [] then some _ else none
    rw [hn]

end Verif
