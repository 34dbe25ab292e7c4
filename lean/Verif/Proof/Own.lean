import Mathlib.Data.List.NodupEquivFin
import Verif.Model.Own
import Verif.Proof.Split
import Verif.Proof.LoadVar

/-!
# Ownership of blocks
-/

namespace Verif

/-- The pairs in `L` are the tree keys with their blocks, `X` are the blocks that no key refers to. -/
structure HInv (L : List (Key × Nat)) (X : List Nat) (h : Heap) : Prop where
  keys : (L.map Prod.fst).Nodup
  ptr : ∀ k p, h.ptr k = some p ↔ ∃ id, p = .heap id ∧ (k, id) ∈ L
  live : h.live.Perm (L.map Prod.snd ++ X)
  nodup : h.live.Nodup
  fresh : ∀ id ∈ h.live, id < h.next

variable {L L0 L' : List (Key × Nat)} {X X0 : List Nat} {h : Heap} {k : Key} {id : Nat}

theorem HInv.empty : HInv [] [] Heap.empty :=
  ⟨by simp, by simp [Heap.empty], by simp [Heap.empty], by simp [Heap.empty], by simp [Heap.empty]⟩

theorem HInv.perm (H : HInv L X h) (hp : L.Perm L') : HInv L' X h :=
  ⟨(hp.map _).nodup_iff.1 H.keys, fun k p => by rw [H.ptr]; simp only [hp.mem_iff],
    H.live.trans ((hp.map _).append_right _), H.nodup, H.fresh⟩

theorem HInv.permX (H : HInv L X h) (hp : X.Perm X0) : HInv L X0 h :=
  ⟨H.keys, H.ptr, H.live.trans (hp.append_left _), H.nodup, H.fresh⟩

theorem HInv.pull (H : HInv L X h) (hk : k ∈ L.map Prod.fst) :
    ∃ id L0, HInv ((k, id) :: L0) X h ∧ L.Perm ((k, id) :: L0) := by
  obtain ⟨⟨k', id⟩, hm, rfl⟩ := List.mem_map.1 hk
  obtain ⟨A, B, rfl⟩ := List.append_of_mem hm
  have hp : (A ++ (k', id) :: B).Perm ((k', id) :: (A ++ B)) := List.perm_middle
  exact ⟨id, A ++ B, H.perm hp, hp⟩

theorem HInv.get (H : HInv ((k, id) :: L) X h) : h.ptr k = some (.heap id) ∧ id ∈ h.live ∧ h.get k = .ok (.heap id) ∧
    h.use k = .ok (.heap id) := by
  have h1 : h.ptr k = some (.heap id) := (H.ptr _ _).2 ⟨id, rfl, List.mem_cons_self⟩
  have h2 : id ∈ h.live := H.live.mem_iff.2 (by simp)
  have h3 : h.get k = .ok (.heap id) := by unfold Heap.get; rw [h1]
  refine ⟨h1, h2, h3, ?_⟩
  unfold Heap.use
  rw [h3]
  simp only [Res.bind_ok, if_pos h2]

/-- A new block. -/
theorem HInv.new (H : HInv L X h) : HInv L (h.next :: X) h.new.2 where
  keys := H.keys
  ptr := H.ptr
  live := ((H.live.cons _).trans List.perm_middle.symm)
  nodup := List.nodup_cons.2 ⟨fun hm => Nat.lt_irrefl _ (H.fresh _ hm), H.nodup⟩
  fresh := by
    intro id hid
    rcases List.mem_cons.1 hid with rfl | hid
    · exact Nat.lt_succ_self _
    · exact Nat.lt_succ_of_lt (H.fresh _ hid)

/-- A key leaves the tree. -/
theorem HInv.del (H : HInv ((k, id) :: L) X h) : HInv L (id :: X) (h.del k) where
  keys := (List.nodup_cons.1 H.keys).2
  ptr := by
    have hk : k ∉ L.map Prod.fst := (List.nodup_cons.1 H.keys).1
    intro x p
    unfold Heap.del
    dsimp only
    by_cases hx : x = k
    · subst hx
      rw [if_pos rfl]
      constructor
      · intro h; cases h
      · rintro ⟨id, _, hm⟩
        exact absurd (List.mem_map_of_mem hm) hk
    · rw [if_neg hx, H.ptr]
      constructor
      · rintro ⟨id', e, hm⟩
        rcases List.mem_cons.1 hm with hm | hm
        · exact absurd (Prod.mk.inj hm).1 hx
        · exact ⟨id', e, hm⟩
      · rintro ⟨id', e, hm⟩
        exact ⟨id', e, List.mem_cons_of_mem _ hm⟩
  live := H.live.trans List.perm_middle.symm
  nodup := H.nodup
  fresh := H.fresh

/-- A block gets a key that is new. -/
theorem HInv.put (H : HInv L (id :: X) h) (hk : k ∉ L.map Prod.fst) : HInv ((k, id) :: L) X (h.put k (.heap id)) where
  keys := List.nodup_cons.2 ⟨hk, H.keys⟩
  ptr := by
    intro x p
    unfold Heap.put
    dsimp only
    by_cases hx : x = k
    · subst hx
      rw [if_pos rfl]
      constructor
      · intro h
        injection h with h
        exact ⟨id, h.symm, List.mem_cons_self⟩
      · rintro ⟨id', rfl, hm⟩
        rcases List.mem_cons.1 hm with hm | hm
        · rw [(Prod.mk.inj hm).2]
        · exact absurd (List.mem_map_of_mem hm) hk
    · rw [if_neg hx, H.ptr]
      constructor
      · rintro ⟨id', e, hm⟩
        exact ⟨id', e, List.mem_cons_of_mem _ hm⟩
      · rintro ⟨id', e, hm⟩
        rcases List.mem_cons.1 hm with hm | hm
        · exact absurd (Prod.mk.inj hm).1 hx
        · exact ⟨id', e, hm⟩
  live := H.live.trans List.perm_middle
  nodup := H.nodup
  fresh := H.fresh

theorem Heap.del_put (h : Heap) (k : Key) (p : Ptr) : (h.del k).put k p = h.put k p := by
  unfold Heap.del Heap.put
  congr 1
  funext x
  dsimp only
  split_ifs <;> rfl

/-- A block gets a key that has one. -/
theorem HInv.replace {old : Nat} (H : HInv ((k, old) :: L) (id :: X) h) :
    HInv ((k, id) :: L) (old :: X) (h.put k (.heap id)) := by
  have hk : k ∉ L.map Prod.fst := (List.nodup_cons.1 H.keys).1
  rw [← Heap.del_put]
  exact (H.del.permX (List.Perm.swap _ _ _)).put hk

theorem Heap.free_live (hm : id ∈ h.live) : h.free (.heap id) = .ok { h with live := h.live.erase id } := by
  unfold Heap.free; exact if_pos hm

/-- Releasing a block without key. -/
theorem HInv.free (H : HInv L (id :: X) h) : h.free (.heap id) = .ok { h with live := h.live.erase id } ∧
    HInv L X { h with live := h.live.erase id } := by
  have hm : id ∈ h.live := H.live.mem_iff.2 (by simp)
  refine ⟨Heap.free_live hm, H.keys, H.ptr, ?_, H.nodup.erase _, fun x hx => H.fresh x (List.mem_of_mem_erase hx)⟩
  dsimp only
  have := (H.live.trans List.perm_middle).erase id
  rw [List.erase_cons_head] at this
  exact this

theorem HInv.add (H : HInv L X h) (hk : k ∉ L.map Prod.fst) : HInv ((k, h.next) :: L) X (h.add k) := H.new.put hk

theorem HInv.addOld {old : Nat} (H : HInv ((k, old) :: L) X h) : HInv ((k, h.next) :: L) (old :: X) (h.add k) := H.new.replace

theorem HInv.resize (H : HInv ((k, id) :: L) X h) : ∃ h', h.resize k = .ok h' ∧ HInv ((k, h.next) :: L) X h' := by
  have hk : k ∉ L.map Prod.fst := (List.nodup_cons.1 H.keys).1
  obtain ⟨_, hl, _, hu⟩ := H.get
  obtain ⟨_, H1⟩ := H.del.free
  refine ⟨_, ?_, H1.add hk⟩
  unfold Heap.resize
  rw [hu]
  simp only [Res.bind_ok]
  rw [Heap.free_live hl]
  simp only [Res.bind_ok]
  congr 1
  exact (Heap.del_put _ k _).symm

/-- The destructor frees the blocks of all keys. -/
theorem heapDestroyLoop_spec {X : List Nat} : ∀ {L : List (Key × Nat)} {h : Heap}, (∀ e ∈ L, h.ptr e.1 = some (.heap e.2)) →
    h.live.Perm (L.map Prod.snd ++ X) → h.live.Nodup → ∃ h', heapDestroyLoop (L.map Prod.fst) h = .ok h' ∧ h'.live.Perm X
  | [], h, _, hl, _ => ⟨h, rfl, hl⟩
  | (k, id) :: L, h, hp, hl, hn => by
    have h1 : h.ptr k = some (.heap id) := hp (k, id) List.mem_cons_self
    have h2 : id ∈ h.live := hl.mem_iff.2 (by simp)
    obtain ⟨h', e, hx⟩ := heapDestroyLoop_spec (L := L) (h := { h with live := h.live.erase id })
      (fun e he => hp e (List.mem_cons_of_mem _ he))
      (by have := hl.erase id; simpa using this) (hn.erase _)
    refine ⟨h', ?_, hx⟩
    have e1 : h.get k = .ok (.heap id) := by unfold Heap.get; rw [h1]
    have e2 : h.free (.heap id) = .ok { h with live := h.live.erase id } := by unfold Heap.free; exact if_pos h2
    simp only [List.map_cons, heapDestroyLoop, e1, e2, Res.bind_ok, e]

theorem perm_keys : ∀ {ks : List Key} {L : List (Key × Nat)}, (L.map Prod.fst).Perm ks → ∃ L', L.Perm L' ∧ L'.map Prod.fst = ks
  | [], L, hp => ⟨[], by simpa using hp, rfl⟩
  | k :: ks, L, hp => by
    obtain ⟨⟨k', id⟩, hm, hk⟩ := List.mem_map.1 (hp.mem_iff.2 List.mem_cons_self)
    dsimp only at hk
    subst hk
    obtain ⟨A, B, rfl⟩ := List.append_of_mem hm
    have hp' : (A ++ (k', id) :: B).Perm ((k', id) :: (A ++ B)) := List.perm_middle
    obtain ⟨L', h1, h2⟩ := perm_keys (List.Perm.cons_inv ((hp'.map Prod.fst).symm.trans hp))
    exact ⟨(k', id) :: L', hp'.trans (h1.cons _), by rw [List.map_cons, h2]⟩

/-! ## Filters -/

/-- The tree is in order; every tree key has a block of its own; `n` allocated blocks have no key. -/
def Owned (f : Filter) (h : Heap) (n : Nat) : Prop :=
  (boundaries f).Pairwise (fun a b => keyLt a b = true) ∧ ∃ L X, HInv L X h ∧ (L.map Prod.fst).Perm (boundaries f) ∧ X.length = n

variable {f f' : Filter} {n : Nat}

theorem Owned.usable (H : Owned f h n) : heapUsable f h := by
  obtain ⟨_, L, X, H, hp, _⟩ := H
  intro k hk
  obtain ⟨id, L0, H0, _⟩ := H.pull (hp.mem_iff.2 hk)
  exact ⟨_, H0.get.2.2.2⟩

theorem Owned.destroy (H : Owned f h n) : ∃ h', heapDestroy f h = .ok h' ∧ h'.live.length = n := by
  obtain ⟨_, L, X, H, hp, hX⟩ := H
  obtain ⟨L', h1, h2⟩ := perm_keys hp
  have H' := H.perm h1
  obtain ⟨h', e, hx⟩ := heapDestroyLoop_spec (L := L') (X := X) (h := h) (fun e he => (H'.ptr _ _).2 ⟨e.2, rfl, he⟩) H'.live H'.nodup
  refine ⟨h', ?_, by rw [hx.length_eq, hX]⟩
  unfold heapDestroy
  rw [← e, h2]
  rfl

/-- The same boundaries, one store replaced. -/
theorem Owned.same (H : Owned f h n) (hb : boundaries f' = boundaries f) : Owned f' h n := by
  obtain ⟨h1, L, X, H, hp, hX⟩ := H
  exact ⟨by rw [hb]; exact h1, L, X, H, by rw [hb]; exact hp, hX⟩

theorem Owned.resize (H : Owned f h n) {k : Key} (hk : k ∈ boundaries f) : ∃ h', h.resize k = .ok h' ∧ Owned f h' n := by
  obtain ⟨h1, L, X, H, hp, hX⟩ := H
  obtain ⟨id, L0, H0, hL⟩ := H.pull (hp.mem_iff.2 hk)
  obtain ⟨h', e, H1⟩ := H0.resize
  exact ⟨h', e, h1, _, X, H1, ((hL.map Prod.fst).symm.trans hp), hX⟩

theorem boundaries_set {t : Tree} {i : Nat} {k : Key} {st st' : Store} (hi : t[i]? = some (k, st)) :
    (t.set i (k, st')).map Prod.fst = t.map Prod.fst := by
  apply List.ext_getElem?
  intro j
  rw [List.getElem?_map, List.getElem?_map, List.getElem?_set]
  by_cases hj : i = j
  · subst hj
    obtain ⟨hlt, _⟩ := List.getElem?_eq_some_iff.1 hi
    rw [if_pos rfl, if_pos hlt, hi]
    rfl
  · rw [if_neg hj]

theorem treePeek_some {t : Tree} {i : Nat} {e : Key × Store} (h : treePeek t i = .ok e) : t[i]? = some e := by
  unfold treePeek at h
  split at h
  · cases h
  · rename_i e' he
    injection h with h
    rw [he, h]

theorem locate_getElem {t : Tree} {key prev next : Key} {i : Nat} {st : Store} (h : locate t key = .ok (i, prev, st, next)) :
    t[i]? = some (prev, st) := by
  unfold locate at h
  dsimp only at h
  obtain ⟨e, he, h⟩ := Res.bind_eq_ok h
  split_ifs at h
  · obtain ⟨e', _, h⟩ := Res.bind_eq_ok h
    simp only [Res.ok.injEq, Prod.mk.injEq] at h
    obtain ⟨rfl, rfl, rfl, _⟩ := h
    exact treePeek_some he
  · obtain ⟨e', he', h⟩ := Res.bind_eq_ok h
    simp only [Res.ok.injEq, Prod.mk.injEq] at h
    obtain ⟨rfl, rfl, rfl, _⟩ := h
    exact treePeek_some he'

theorem heapSimple_spec (H : Owned f h n) {key : Key} (hi : insertSimple f key = .ok f') :
    ∃ h', heapSimple f h key = .ok h' ∧ Owned f' h' n := by
  unfold insertSimple at hi
  obtain ⟨⟨i, prev, st, next⟩, hl, hi⟩ := Res.bind_eq_ok hi
  obtain ⟨fr, _, hi⟩ := Res.bind_eq_ok hi
  injection hi with hi
  have hg := locate_getElem hl
  have hm : prev ∈ boundaries f := List.mem_map_of_mem (f := Prod.fst) (List.mem_of_getElem? hg)
  have hb : boundaries f' = boundaries f := by rw [← hi]; exact boundaries_set hg
  unfold heapSimple
  rw [hl]
  simp only [Res.bind_ok]
  split_ifs
  · obtain ⟨h', e, H'⟩ := H.resize hm
    exact ⟨h', e, H'.same hb⟩
  · obtain ⟨p, hp⟩ := H.usable prev hm
    rw [hp]
    exact ⟨h, rfl, H.same hb⟩

/-! ## The tree operations -/

theorem mem_treePut {k x : Key} {st : Store} : ∀ {t : Tree}, x ∈ (treePut t k st).map Prod.fst ↔ x = k ∨ x ∈ t.map Prod.fst
  | [] => by simp [treePut]
  | e :: t => by
    unfold treePut
    split_ifs with h1 h2
    · simp
    · rw [beq_iff_eq] at h2
      subst h2
      simp
    · simp only [List.map_cons, List.mem_cons, mem_treePut (t := t)]
      tauto

theorem keyLt_trichotomy {a b : Key} (h1 : ¬ keyLt a b = true) (h2 : a ≠ b) : keyLt b a = true := by
  rw [keyLt_iff]
  refine ⟨?_, Ne.symm h2⟩
  rcases keyLe_total a b with h | h
  · exact absurd (keyLt_iff.2 ⟨h, h2⟩) h1
  · exact h

theorem keyLt_trans' {a b c : Key} (h1 : keyLt a b = true) (h2 : keyLt b c = true) : keyLt a c = true := by
  rw [keyLt_iff] at h1 h2 ⊢
  refine ⟨keyLe_trans h1.1 h2.1, ?_⟩
  rintro rfl
  exact h2.2 (keyLe_antisymm h2.1 h1.1)

theorem treePut_sorted {k : Key} {st : Store} : ∀ {t : Tree}, (t.map Prod.fst).Pairwise (fun a b => keyLt a b = true) →
    ((treePut t k st).map Prod.fst).Pairwise fun a b => keyLt a b = true
  | [], _ => by simp [treePut]
  | e :: t, h => by
    rw [List.map_cons, List.pairwise_cons] at h
    unfold treePut
    split_ifs with h1 h2
    · rw [List.map_cons, List.map_cons, List.pairwise_cons, List.pairwise_cons]
      refine ⟨?_, h⟩
      intro x hx
      rcases List.mem_cons.1 hx with rfl | hx
      · exact h1
      · exact keyLt_trans' h1 (h.1 x hx)
    · rw [beq_iff_eq] at h2
      subst h2
      rw [List.map_cons, List.pairwise_cons]
      exact h
    · rw [List.map_cons, List.pairwise_cons]
      refine ⟨?_, treePut_sorted h.2⟩
      intro x hx
      rcases mem_treePut.1 hx with rfl | hx
      · exact keyLt_trichotomy h1 (by simpa using h2)
      · exact h.1 x hx

theorem sorted_nodup {ks : List Key} (h : ks.Pairwise fun a b => keyLt a b = true) : ks.Nodup := by
  rw [List.Nodup]
  refine h.imp ?_
  rintro a b hab rfl
  rw [keyLt_irrefl] at hab
  cases hab

/-- Keys of a tree after `wh_put`, as a set. -/
theorem treePut_perm {k : Key} {st : Store} {t : Tree} (h : (t.map Prod.fst).Pairwise fun a b => keyLt a b = true) :
    ((treePut t k st).map Prod.fst).Perm (if k ∈ t.map Prod.fst then t.map Prod.fst else k :: t.map Prod.fst) := by
  split_ifs with hk
  · rw [List.perm_ext_iff_of_nodup (sorted_nodup (treePut_sorted h)) (sorted_nodup h)]
    intro x
    rw [mem_treePut]
    constructor
    · rintro (rfl | hx)
      · exact hk
      · exact hx
    · exact Or.inr
  · rw [List.perm_ext_iff_of_nodup (sorted_nodup (treePut_sorted h)) (List.nodup_cons.2 ⟨hk, sorted_nodup h⟩)]
    intro x
    rw [mem_treePut, List.mem_cons]

theorem treeDel_keys {k : Key} : ∀ {t : Tree}, (treeDel t k).map Prod.fst = (t.map Prod.fst).filter fun x => x != k
  | [] => rfl
  | e :: t => by
    have ih := treeDel_keys (k := k) (t := t)
    unfold treeDel at ih ⊢
    rw [List.filter_cons, List.map_cons, List.filter_cons]
    split_ifs <;> simp [ih]

/-- `L` are the blocks of the keys of a tree. -/
structure Holds (t : Tree) (L : List (Key × Nat)) : Prop where
  sorted : (t.map Prod.fst).Pairwise fun a b => keyLt a b = true
  perm : (L.map Prod.fst).Perm (t.map Prod.fst)

theorem Holds.replace {t : Tree} {L0 : List (Key × Nat)} {k : Key} {old : Nat} (ho : Holds t ((k, old) :: L0)) (id : Nat) (st : Store) :
    Holds (treePut t k st) ((k, id) :: L0) := by
  refine ⟨treePut_sorted ho.sorted, ?_⟩
  have := treePut_perm (k := k) (st := st) ho.sorted
  rw [if_pos (ho.perm.mem_iff.1 (by simp))] at this
  exact ho.perm.trans this.symm

theorem Holds.put {t : Tree} {L : List (Key × Nat)} {k : Key} (ho : Holds t L) (hk : k ∉ L.map Prod.fst) (id : Nat) (st : Store) :
    Holds (treePut t k st) ((k, id) :: L) := by
  refine ⟨treePut_sorted ho.sorted, ?_⟩
  have := treePut_perm (k := k) (st := st) ho.sorted
  rw [if_neg (fun hm => hk (ho.perm.mem_iff.2 hm))] at this
  exact (ho.perm.cons k).trans this.symm

theorem Holds.permL {t : Tree} {L L' : List (Key × Nat)} (ho : Holds t L) (hp : L.Perm L') : Holds t L' :=
  ⟨ho.sorted, (hp.map _).symm.trans ho.perm⟩

/-- `wh_put` of a block without key: a key that was there loses its old block. -/
theorem HInv.treePut {t : Tree} (H : HInv L (id :: X) h) (ho : Holds t L) (k : Key) (st : Store) :
    ∃ L' X', HInv L' (X' ++ X) (h.put k (.heap id)) ∧ Holds (treePut t k st) L' ∧
      X'.length = if k ∈ t.map Prod.fst then 1 else 0 := by
  by_cases hk : k ∈ L.map Prod.fst
  · obtain ⟨old, L0, H0, hL⟩ := H.pull hk
    refine ⟨(k, id) :: L0, [old], H0.replace, (ho.permL hL).replace id st, ?_⟩
    rw [if_pos (ho.perm.mem_iff.1 hk)]; rfl
  · refine ⟨(k, id) :: L, [], H.put hk, ho.put hk id st, ?_⟩
    rw [if_neg (fun hm => hk (ho.perm.mem_iff.2 hm))]; rfl

theorem Owned.holds (H : Owned f h n) : ∃ L X, HInv L X h ∧ Holds f.tree L ∧ X.length = n := by
  obtain ⟨h1, L, X, H, hp, hX⟩ := H
  exact ⟨L, X, H, ⟨h1, hp⟩, hX⟩

theorem Owned.of (H : HInv L X h) (ho : Holds f.tree L) (hX : X.length = n) : Owned f h n := ⟨ho.sorted, L, X, H, ho.perm, hX⟩

/-- The new boundary of a split. -/
def SplitPlan.boundary (d : SplitPlan) (key : Key) : Key := if d.zeroPos.isSome then d.edited else key

theorem planSplit_mem {key : Key} {d : SplitPlan} (hp : planSplit f key = .ok (some d)) : d.prev ∈ boundaries f := by
  unfold planSplit at hp
  simp only [planAt] at hp
  obtain ⟨⟨i, prev, st, next⟩, hl, hp⟩ := Res.bind_eq_ok hp
  have hg := locate_getElem hl
  have hm : prev ∈ boundaries f := List.mem_map_of_mem (f := Prod.fst) (List.mem_of_getElem? hg)
  dsimp only at hp
  split at hp
  · exact absurd (Res.ok.inj hp) (by simp)
  split at hp
  · cases hp
  · obtain ⟨q1, _, hp⟩ := Res.bind_eq_ok hp
    obtain ⟨q2, _, hp⟩ := Res.bind_eq_ok hp
    split at hp
    · exact absurd (Res.ok.inj hp) (by simp)
    obtain ⟨left, _, hp⟩ := Res.bind_eq_ok hp
    obtain ⟨right, _, hp⟩ := Res.bind_eq_ok hp
    injection hp with hp
    injection hp with hp
    rw [← hp]
    exact hm

theorem heapSplit_spec (H : Owned f h n) {key : Key} {d : SplitPlan} (hp : planSplit f key = .ok (some d))
    (hi : applySplit f key d = .ok f') :
    ∃ h', heapSplit f h key d = .ok h' ∧ Owned f' h' (n + if d.boundary key ∈ boundaries f then 1 else 0) := by
  obtain ⟨L, X, H, ho, hX⟩ := H.holds
  have hm : d.prev ∈ f.tree.map Prod.fst := planSplit_mem hp
  obtain ⟨old, L0, H0, hL⟩ := H.pull (ho.perm.mem_iff.2 hm)
  obtain ⟨_, _, _, hu⟩ := H0.get
  have ho1 := ho.permL hL
  have hmem : ∀ (st : Store) (k : Key), k ∈ (treePut f.tree d.prev st).map Prod.fst ↔ k ∈ boundaries f := by
    intro st k
    rw [mem_treePut]
    constructor
    · rintro (rfl | h)
      · exact hm
      · exact h
    · exact Or.inr
  -- after both allocations and the first put
  have H1 : HInv ((d.prev, h.next) :: L0) (old :: (h.next + 1) :: X) (h.new.2.new.2.put d.prev (.heap h.next)) :=
    (H0.new.new.permX (List.Perm.swap _ _ _)).replace
  unfold heapSplit
  rw [hu]
  simp only [Res.bind_ok]
  unfold applySplit at hi
  dsimp only at hi
  cases hz : d.zeroPos with
  | none =>
    have hb : d.boundary key = key := by unfold SplitPlan.boundary; rw [hz]; rfl
    rw [hz] at hi
    injection hi with hi
    obtain ⟨L', X', H2, ho2, hl⟩ := (H1.permX (List.Perm.swap _ _ _)).treePut (ho1.replace h.next _) key
      (allocWithList f.cfg d.right d.totalG)
    obtain ⟨e, H3⟩ := (H2.permX List.perm_middle).free
    refine ⟨_, e, ?_⟩
    rw [hb, ← hi]
    refine Owned.of H3 ho2 ?_
    rw [List.length_append, hl, hX, Nat.add_comm]
    simp only [hmem]
  | some zp =>
    have hb : d.boundary key = d.edited := by unfold SplitPlan.boundary; rw [hz]; rfl
    rw [hz] at hi
    dsimp only at hi
    split_ifs at hi
    injection hi with hi
    rw [hb, ← hi]
    dsimp only
    by_cases hgr : growsOn f.cfg (allocWithList f.cfg (d.right.drop 1) d.totalG) = true
    · rw [if_pos hgr]
      obtain ⟨e0, H1'⟩ := (H1.permX (List.Perm.swap _ _ _)).free
      rw [show (h.new.2.new.1) = h.next + 1 from rfl, show h.new.1 = h.next from rfl, e0]
      simp only [Res.bind_ok]
      obtain ⟨L', X', H2, ho2, hl⟩ := H1'.new.treePut (ho1.replace h.next _) d.edited _
      obtain ⟨e, H3⟩ := (H2.permX List.perm_middle).free
      refine ⟨_, e, ?_⟩
      refine Owned.of H3 ho2 ?_
      rw [List.length_append, hl, hX, Nat.add_comm]
      simp only [hmem]
    · rw [if_neg hgr]
      obtain ⟨L', X', H2, ho2, hl⟩ := (H1.permX (List.Perm.swap _ _ _)).treePut (ho1.replace h.next _) d.edited _
      obtain ⟨e, H3⟩ := (H2.permX List.perm_middle).free
      refine ⟨_, e, ?_⟩
      refine Owned.of H3 ho2 ?_
      rw [List.length_append, hl, hX, Nat.add_comm]
      simp only [hmem]

theorem heapInsert_spec (H : Owned f h n) {key : Key} {split : Bool} (hi : insert f key split = .ok f') :
    ∃ h' m, heapInsert f h key split = .ok h' ∧ Owned f' h' (n + m) ∧
      ((∀ d, split = true → planSplit f key = .ok (some d) → d.boundary key ∉ boundaries f) → m = 0) := by
  unfold insert at hi
  unfold heapInsert
  cases split with
  | false =>
    simp only [Bool.false_eq_true, if_false] at hi ⊢
    obtain ⟨h', e, H'⟩ := heapSimple_spec H hi
    exact ⟨h', 0, e, H', fun _ => rfl⟩
  | true =>
    simp only [if_true] at hi ⊢
    unfold insertSplit at hi
    obtain ⟨o, hp, hi⟩ := Res.bind_eq_ok hi
    rw [hp]
    simp only [Res.bind_ok]
    cases o with
    | none =>
      obtain ⟨h', e, H'⟩ := heapSimple_spec H hi
      exact ⟨h', 0, e, H', fun _ => rfl⟩
    | some d =>
      obtain ⟨h', e, H'⟩ := heapSplit_spec H hp hi
      exact ⟨h', _, e, H', fun hb => if_neg (hb d trivial rfl)⟩

theorem Heap.del_comm (h : Heap) (k k' : Key) : (h.del k).del k' = (h.del k').del k := by
  unfold Heap.del
  congr 1
  funext x
  dsimp only
  split_ifs <;> rfl

theorem heapMerge_spec (H : Owned f h n) {i : Nat} (hi : deleteMerge f i = .ok f') :
    ∃ h', heapMerge f h i = .ok h' ∧ Owned f' h' n := by
  obtain ⟨L, X, H, ho, hX⟩ := H.holds
  unfold deleteMerge at hi
  obtain ⟨⟨middle, stR⟩, hm, hi⟩ := Res.bind_eq_ok hi
  obtain ⟨⟨right, stX⟩, hr, hi⟩ := Res.bind_eq_ok hi
  dsimp only at hi
  by_cases h0 : i = 0
  · rw [if_pos h0] at hi; cases hi
  rw [if_neg h0] at hi
  obtain ⟨⟨left, stL⟩, hl, hi⟩ := Res.bind_eq_ok hi
  dsimp only at hi
  obtain ⟨fr, _, hi⟩ := Res.bind_eq_ok hi
  split at hi
  · cases hi
  obtain ⟨newL, _, hi⟩ := Res.bind_eq_ok hi
  obtain ⟨newR, _, hi⟩ := Res.bind_eq_ok hi
  injection hi with hi
  have em := treePeek_some hm
  have el := treePeek_some hl
  have km : middle ∈ f.tree.map Prod.fst := List.mem_map_of_mem (f := Prod.fst) (List.mem_of_getElem? em)
  have kl : left ∈ f.tree.map Prod.fst := List.mem_map_of_mem (f := Prod.fst) (List.mem_of_getElem? el)
  have hne : left ≠ middle := by
    rintro rfl
    have e1 : (f.tree.map Prod.fst)[i - 1]? = some left := by rw [List.getElem?_map, el]; rfl
    have e2 : (f.tree.map Prod.fst)[i]? = some left := by rw [List.getElem?_map, em]; rfl
    obtain ⟨g1, e1⟩ := List.getElem?_eq_some_iff.1 e1
    obtain ⟨g2, e2⟩ := List.getElem?_eq_some_iff.1 e2
    have := (sorted_nodup ho.sorted).getElem_inj_iff.1 (e1.trans e2.symm)
    omega
  obtain ⟨a, L1, H1, hL1⟩ := H.pull (ho.perm.mem_iff.2 kl)
  have ho1 := ho.permL hL1
  have km1 : middle ∈ L1.map Prod.fst := by
    have := ho1.perm.mem_iff.2 km
    rw [List.map_cons, List.mem_cons] at this
    rcases this with h | h
    · exact absurd h.symm hne
    · exact h
  obtain ⟨b, L2, hL2⟩ : ∃ b L2, L1.Perm ((middle, b) :: L2) := by
    obtain ⟨⟨k', id⟩, hk', ek⟩ := List.mem_map.1 km1
    obtain ⟨A, B, rfl⟩ := List.append_of_mem hk'
    refine ⟨id, A ++ B, ?_⟩
    rw [← ek]
    exact List.perm_middle
  have H2 : HInv ((left, a) :: (middle, b) :: L2) X h := H1.perm (hL2.cons _)
  have ho2 := ho1.permL (hL2.cons _)
  have H3 : HInv ((middle, b) :: (left, a) :: L2) X h := H2.perm (List.Perm.swap _ _ _)
  obtain ⟨_, la, _, ua⟩ := H2.get
  obtain ⟨_, lb, _, ub⟩ := H3.get
  have hk := H2.keys
  rw [List.map_cons, List.map_cons, List.nodup_cons, List.nodup_cons] at hk
  have hab : b ≠ a := by
    rintro rfl
    have := (H2.live.nodup_iff).1 H2.nodup
    simp at this
  have lb' : b ∈ h.live.erase a := (List.mem_erase_of_ne hab).2 lb
  obtain ⟨e1, H4⟩ := H2.del.del.permX (List.Perm.swap _ _ _) |>.free
  obtain ⟨e2, H5⟩ := H4.free
  have hkl : left ∉ L2.map Prod.fst := fun hm => hk.1 (List.mem_cons_of_mem _ hm)
  have H6 := H5.add hkl
  have hfin : ∀ hh id, HInv ((left, id) :: L2) X hh → Owned f' hh n := by
    intro hh id H6
    have ho3 : Holds (treeDel f.tree middle) ((left, a) :: L2) := by
      refine ⟨?_, ?_⟩
      · rw [treeDel_keys]
        exact ho.sorted.filter _
      · rw [treeDel_keys]
        have := ho2.perm.filter (fun x => x != middle)
        rw [List.map_cons, List.map_cons, List.filter_cons_of_pos (by simpa using hne), List.filter_cons_of_neg (by simp)] at this
        rw [List.filter_eq_self.2 (by
          intro x hx
          simp only [bne_iff_ne, ne_eq]
          rintro rfl
          exact hk.2.1 hx)] at this
        exact this
    rw [← hi]
    exact Owned.of H6 (ho3.replace _ _) hX
  refine ⟨_, ?_, hfin _ _ H6⟩
  · unfold heapMerge
    rw [hm, hr]
    simp only [Res.bind_ok]
    rw [if_neg h0, hl]
    simp only [Res.bind_ok]
    rw [ua, ub]
    simp only [Res.bind_ok]
    rw [Heap.free_live la]
    simp only [Res.bind_ok]
    rw [Heap.free_live (h := { h with live := h.live.erase a }) lb']
    simp only [Res.bind_ok]
    congr 1
    refine Eq.trans (Heap.del_put _ left _).symm ?_
    unfold Heap.add Heap.new Heap.del Heap.put
    dsimp only
    congr 1
    funext x
    split_ifs <;> rfl

theorem heapDelete_spec (H : Owned f h n) {key : Key} (hi : Verif.delete f key = .ok f') :
    ∃ h', heapDelete f h key = .ok h' ∧ Owned f' h' n := by
  unfold Verif.delete at hi
  unfold heapDelete
  dsimp only at hi ⊢
  obtain ⟨e, he, hi⟩ := Res.bind_eq_ok hi
  rw [he]
  simp only [Res.bind_ok]
  by_cases hc : (e.1 == key && !e.2.isPartial) = true
  · rw [if_pos hc] at hi ⊢
    exact heapMerge_spec H hi
  rw [if_neg hc] at hi ⊢
  obtain ⟨⟨i, prev, st, next⟩, hl, hi⟩ := Res.bind_eq_ok hi
  rw [hl]
  simp only [Res.bind_ok]
  obtain ⟨fr, hf, hi⟩ := Res.bind_eq_ok hi
  rw [hf]
  simp only [Res.bind_ok]
  have hg := locate_getElem hl
  have hm : prev ∈ boundaries f := List.mem_map_of_mem (f := Prod.fst) (List.mem_of_getElem? hg)
  obtain ⟨p, hp⟩ := H.usable prev hm
  by_cases hc : (st.isPartial && mergesPartial f.cfg fr prev st (fr.item f.cfg.infixSize key)) = true
  · rw [if_pos hc] at hi ⊢
    rw [hp]
    exact heapMerge_spec H hi
  · rw [if_neg hc] at hi ⊢
    injection hi with hi
    have hb : boundaries f' = boundaries f := by rw [← hi]; exact boundaries_set hg
    by_cases hs : shrinksOn f.cfg st = true
    · rw [if_pos hs]
      obtain ⟨h', e, H'⟩ := H.resize hm
      exact ⟨h', e, H'.same hb⟩
    · rw [if_neg hs, hp]
      exact ⟨h, rfl, H.same hb⟩

theorem heapShrink_spec : ∀ {ks : List Key} {h : Heap}, (∀ k ∈ ks, k ∈ boundaries f) → Owned f h n →
    ∃ h', heapShrink ks h = .ok h' ∧ Owned f h' n
  | [], h, _, H => ⟨h, rfl, H⟩
  | k :: ks, h, hk, H => by
    obtain ⟨L, X, H, ho, hX⟩ := H.holds
    obtain ⟨id, L0, H0, hL⟩ := H.pull (ho.perm.mem_iff.2 (hk k List.mem_cons_self))
    obtain ⟨_, _, _, hu⟩ := H0.get
    obtain ⟨e, H1⟩ := H0.addOld.free
    have ho1 := ho.permL hL
    obtain ⟨h', e', H'⟩ := heapShrink_spec (ks := ks) (fun x hx => hk x (List.mem_cons_of_mem _ hx))
      (Owned.of (f := f) H1 ⟨ho1.sorted, ho1.perm⟩ hX)
    refine ⟨h', ?_, H'⟩
    unfold heapShrink
    rw [hu]
    simp only [Res.bind_ok]
    rw [e]
    exact e'

/-! ## Construction -/

theorem Owned.add {c : Cfg} {t : Tree} (H : Owned ⟨c, t⟩ h n) (k : Key) (st : Store) :
    Owned ⟨c, treePut t k st⟩ (h.add k) (n + if k ∈ t.map Prod.fst then 1 else 0) := by
  obtain ⟨L, X, H, ho, hX⟩ := H.holds
  obtain ⟨L', X', H', ho', hl⟩ := H.new.treePut ho k st
  exact Owned.of H' ho' (by rw [List.length_append, hl, hX, Nat.add_comm])

theorem Owned.start (c : Cfg) : Owned ⟨c, []⟩ Heap.empty 0 :=
  ⟨by simp [boundaries], [], [], HInv.empty, by simp [boundaries], rfl⟩

theorem bulkRegion_put {c : Cfg} {t t' : Tree} {left right : Key} {keys : List Key} {g : Nat}
    (h : bulkRegion c t left right keys g = .ok t') : ∃ st, t' = treePut t left st := by
  unfold bulkRegion at h
  obtain ⟨fr, _, h⟩ := Res.bind_eq_ok h
  injection h with h
  exact ⟨_, h.symm⟩

/-- `Puts t ks t'`: the tree `t'` arises from `t` by putting stores at the keys `ks` in order. -/
inductive Puts : Tree → List Key → Tree → Prop
  | nil {t : Tree} : Puts t [] t
  | cons {t t' : Tree} {k : Key} {st : Store} {ks : List Key} : Puts (treePut t k st) ks t' → Puts t (k :: ks) t'

theorem Puts.append {t t' t'' : Tree} {ks ks' : List Key} (h : Puts t ks t') (h' : Puts t' ks' t'') :
    Puts t (ks ++ ks') t'' := by
  induction h with
  | nil => exact h'
  | cons _ ih => exact .cons (ih h')

theorem Puts.one {t : Tree} {k : Key} {st : Store} : Puts t [k] (treePut t k st) := .cons .nil

theorem Puts.owned {c : Cfg} {t t' : Tree} {ks : List Key} (hp : Puts t ks t') : ∀ {h : Heap} {n : Nat}, Owned ⟨c, t⟩ h n →
    ∃ m, Owned ⟨c, t'⟩ (ks.foldl Heap.add h) (n + m) ∧
      (ks.Nodup → (∀ k ∈ ks, k ∉ t.map Prod.fst) → m = 0) := by
  induction hp with
  | nil => exact fun H => ⟨0, H, fun _ _ => rfl⟩
  | @cons t t' k st ks _ ih =>
    intro h n H
    obtain ⟨m, H', hm⟩ := ih (H.add k st)
    refine ⟨(if k ∈ t.map Prod.fst then 1 else 0) + m, ?_, ?_⟩
    · rw [← Nat.add_assoc]; exact H'
    · intro hd hk
      rw [List.nodup_cons] at hd
      rw [if_neg (hk k List.mem_cons_self), hm hd.2]
      intro x hx hmem
      rcases mem_treePut.1 hmem with rfl | hmem
      · exact hd.1 hx
      · exact hk x (List.mem_cons_of_mem _ hx) hmem

/-- Equal members of a list stand together. -/
theorem Grouped.three {K : List Key} (hg : Grouped K) {a b : Key} (h : [a, b, a].Sublist K) : a = b := by
  obtain ⟨g, hg'⟩ := List.sublist_iff_exists_fin_orderEmbedding_get_eq.1 h
  have e : ∀ i : Fin 3, K.getD (g i) [] = [a, b, a].get i := fun i => by
    rw [hg' i, List.getD_eq_getElem?_getD, List.getElem?_eq_getElem (g i).2]; rfl
  have h1 : (g 0 : Nat) < g 1 := g.strictMono (by decide : (0 : Fin 3) < 1)
  have h2 : (g 1 : Nat) < g 2 := g.strictMono (by decide : (1 : Fin 3) < 2)
  have := hg (g 0) (g 1) (g 2) h1 (Nat.le_of_lt h2) (g 2).2 (by rw [e 0, e 2]; rfl)
  rw [e 0, e 1] at this
  exact this

theorem grouped_nodup {K : List Key} (h : K.Nodup) : Grouped K := by
  intro i j l hij hjl hl he
  rw [List.getD_eq_getElem?_getD, List.getElem?_eq_getElem (by omega), List.getD_eq_getElem?_getD,
    List.getElem?_eq_getElem hl, Option.getD_some, Option.getD_some] at he
  have := (List.Nodup.getElem_inj_iff h).1 he
  omega

theorem grouped_sorted {K : List Key} (h : K.Pairwise fun a b => keyLe a b = true) : Grouped K := by
  intro i j l hij hjl hl he
  rcases Nat.lt_or_eq_of_le hjl with hjl | rfl
  · have g : ∀ a b, a < b → b < K.length → keyLe (K.getD a []) (K.getD b []) = true := by
      intro a b hab hb
      rw [List.getD_eq_getElem?_getD, List.getElem?_eq_getElem (by omega), List.getD_eq_getElem?_getD,
        List.getElem?_eq_getElem hb, Option.getD_some, Option.getD_some]
      exact List.pairwise_iff_getElem.1 h a b (by omega) hb hab
    exact keyLe_antisymm (g i j hij (by omega)) (by rw [he]; exact g j l hjl hl)
  · exact he

/-- Neighbours differ, equal members stand together: all members differ. -/
theorem Grouped.nodup {K : List Key} (hg : Grouped K) : ∀ {L : List Key}, L.IsChain (· ≠ ·) → L.Sublist K → L.Nodup
  | [], _, _ => List.nodup_nil
  | [a], _, _ => by simp
  | a :: b :: L, hc, hs => by
    rw [List.isChain_cons_cons] at hc
    have ht := Grouped.nodup hg hc.2 ((List.sublist_cons_self _ _).trans hs)
    rw [List.nodup_cons]
    refine ⟨fun hm => ?_, ht⟩
    rcases List.mem_cons.1 hm with rfl | hm
    · exact hc.1 rfl
    · refine hc.1 (hg.three (List.Sublist.trans ?_ hs))
      exact ((List.singleton_sublist.2 hm).cons_cons b).cons_cons a

theorem bulkRegion_ne {c : Cfg} {t t' : Tree} {left right : Key} {keys : List Key} {g : Nat}
    (h : bulkRegion c t left right keys g = .ok t') : left ≠ right := by
  rintro rfl
  rw [bulkRegion_hang] at h
  cases h

theorem bulkLoop_puts {c : Cfg} {keys : List Key} : ∀ {fuel j last : Nat} {t t' : Tree} {l : Nat},
    bulkLoop c keys fuel j last t = .ok (t', l) →
    Puts t (loopPuts keys fuel j last).1 t' ∧ l = (loopPuts keys fuel j last).2
  | 0, _, _, _, _, _, h => by
    unfold bulkLoop at h
    injection h with h
    injection h with h1 h2
    subst h1 h2
    exact ⟨.nil, rfl⟩
  | fuel + 1, j, last, t, t', l, h => by
    unfold bulkLoop at h
    unfold loopPuts
    by_cases hj : j % 1024 = 0
    · rw [if_pos hj] at h ⊢
      obtain ⟨t1, h1, h⟩ := Res.bind_eq_ok h
      obtain ⟨st, rfl⟩ := bulkRegion_put h1
      obtain ⟨hp, hl⟩ := bulkLoop_puts h
      exact ⟨.cons hp, hl⟩
    · rw [if_neg hj] at h ⊢
      exact bulkLoop_puts h

theorem bulkCore_puts {c : Cfg} {keys : List Key} {t t' : Tree} (h : bulkCore c t keys = .ok t') :
    Puts t (corePuts keys) t' ∧ keys ≠ [] := by
  unfold bulkCore at h
  by_cases h0 : keys.length = 0
  · rw [if_pos h0] at h; cases h
  rw [if_neg h0] at h
  obtain ⟨⟨t1, last⟩, h1, h⟩ := Res.bind_eq_ok h
  dsimp only at h
  obtain ⟨t2, h2, h⟩ := Res.bind_eq_ok h
  injection h with h
  obtain ⟨hp, hl⟩ := bulkLoop_puts h1
  obtain ⟨st, rfl⟩ := bulkRegion_put h2
  refine ⟨?_, fun e => h0 (by rw [e]; rfl)⟩
  unfold corePuts
  dsimp only
  rw [← hl]
  refine (hp.append .one).append (t'' := t') (t' := treePut t1 (keys.getD last []) st) ?_
  rw [← h]
  by_cases hn : keys.length - 1 ≠ last
  · rw [if_pos hn, if_pos hn]; exact .one
  · rw [if_neg hn, if_neg hn]; exact .nil

theorem drop_getD {keys : List Key} {i : Nat} (h : i < keys.length) : keys.drop i = keys.getD i [] :: keys.drop (i + 1) := by
  rw [List.drop_eq_getElem_cons h, List.getD_eq_getElem?_getD, List.getElem?_eq_getElem h]
  rfl

theorem tail_sublist {keys : List Key} {last : Nat} (h : last < keys.length) :
    ([keys.getD last []] ++ if keys.length - 1 ≠ last then [keys.getD (keys.length - 1) []] else []).Sublist (keys.drop last) := by
  rw [drop_getD h]
  refine List.Sublist.cons_cons _ ?_
  by_cases hn : keys.length - 1 ≠ last
  · rw [if_pos hn]
    refine List.Sublist.trans ?_ (List.drop_sublist_drop_left keys (show last + 1 ≤ keys.length - 1 by omega))
    rw [drop_getD (show keys.length - 1 < keys.length by omega)]
    exact (List.nil_sublist _).cons_cons _
  · rw [if_neg hn]
    exact List.nil_sublist _

theorem loopPuts_sublist {keys : List Key} : ∀ {fuel j last : Nat}, j + fuel = keys.length → last < j → j ≤ last + 1024 →
    last % 1024 = 0 → (let r := loopPuts keys fuel j last
      (r.1 ++ [keys.getD r.2 []] ++ if keys.length - 1 ≠ r.2 then [keys.getD (keys.length - 1) []] else []).Sublist (keys.drop last))
  | 0, j, last, h1, h2, h3, _ => by
    unfold loopPuts
    dsimp only
    rw [List.nil_append]
    exact tail_sublist (by omega)
  | fuel + 1, j, last, h1, h2, h3, h4 => by
    unfold loopPuts
    by_cases hj : j % 1024 = 0
    · rw [if_pos hj]
      have ej : j = last + 1024 := by omega
      have := loopPuts_sublist (keys := keys) (fuel := fuel) (j := j + 1) (last := last + 1024) (by omega) (by omega) (by omega) (by omega)
      dsimp only at this ⊢
      rw [drop_getD (show last < keys.length by omega)]
      refine List.Sublist.cons_cons _ (this.trans (List.drop_sublist_drop_left keys (by omega)))
    · rw [if_neg hj]
      exact loopPuts_sublist (by omega) (by omega) (by omega) h4

theorem corePuts_sublist {keys : List Key} (h : keys ≠ []) : (corePuts keys).Sublist keys := by
  have := List.length_pos_iff.2 h
  exact loopPuts_sublist (fuel := keys.length - 1) (j := 1) (last := 0) (by omega) (by omega) (by omega) rfl

/-- If the loop returns, each of its boundary keys differs from the next. -/
theorem loopPuts_chain {c : Cfg} {keys : List Key} : ∀ {fuel j last : Nat} {t : Tree} {r : Tree × Nat},
    bulkLoop c keys fuel j last t = .ok r → last < j → j ≤ last + 1024 → last % 1024 = 0 →
    ((loopPuts keys fuel j last).1 ++ [keys.getD (loopPuts keys fuel j last).2 []]).IsChain (· ≠ ·) ∧
      ((loopPuts keys fuel j last).1 ++ [keys.getD (loopPuts keys fuel j last).2 []]).head? = some (keys.getD last [])
  | 0, j, last, t, r, _, _, _, _ => by
    unfold loopPuts
    simp
  | fuel + 1, j, last, t, r, h, h2, h3, h4 => by
    unfold bulkLoop at h
    unfold loopPuts
    by_cases hj : j % 1024 = 0
    · rw [if_pos hj] at h ⊢
      obtain ⟨t1, h1, h⟩ := Res.bind_eq_ok h
      have ej : j = last + 1024 := by omega
      obtain ⟨hc, hh⟩ := loopPuts_chain h (by omega) (by omega) (by omega)
      dsimp only
      rw [List.cons_append]
      refine ⟨?_, by simp⟩
      rw [List.isChain_cons]
      refine ⟨fun y hy => ?_, hc⟩
      rw [hh] at hy
      obtain rfl : keys.getD (last + 1024) [] = y := by simpa using hy
      rw [← ej]
      exact bulkRegion_ne h1
    · rw [if_neg hj] at h ⊢
      exact loopPuts_chain h (by omega) (by omega) h4

theorem corePuts_nodup {c : Cfg} {keys : List Key} (hg : Grouped keys) {t t' : Tree} (h : bulkCore c t keys = .ok t') :
    (corePuts keys).Nodup := by
  refine hg.nodup ?_ (corePuts_sublist (bulkCore_puts h).2)
  unfold bulkCore at h
  by_cases h0 : keys.length = 0
  · rw [if_pos h0] at h; cases h
  rw [if_neg h0] at h
  obtain ⟨⟨t1, last⟩, h1, h⟩ := Res.bind_eq_ok h
  dsimp only at h
  obtain ⟨t2, h2, h⟩ := Res.bind_eq_ok h
  obtain ⟨_, hl⟩ := bulkLoop_puts h1
  obtain ⟨hc, _⟩ := loopPuts_chain h1 (by omega) (by omega) rfl
  have hne := bulkRegion_ne h2
  unfold corePuts
  dsimp only
  rw [List.isChain_append]
  refine ⟨hc, by split_ifs <;> simp, fun x hx y hy => ?_⟩
  rw [List.getLast?_append_of_ne_nil _ (by simp), List.getLast?_singleton] at hx
  obtain rfl : keys.getD (loopPuts keys (keys.length - 1) 1 0).2 [] = x := by simpa using hx
  rw [← hl] at hy ⊢
  by_cases hn : keys.length - 1 ≠ last
  · rw [if_pos hn] at hy
    obtain rfl : keys.getD (keys.length - 1) [] = y := by simpa using hy
    exact hne
  · rw [if_neg hn] at hy; simp at hy

theorem heapFixed_spec {c : Cfg} {m : Nat} {K : List Key} (h : bulkFixed c m K = .ok f) :
    ∃ n, Owned f (heapFixed m K) n ∧
      (Grouped K → 0 < m → List.replicate m 0 ∉ K → List.replicate m 255 ∉ K → n = 0) := by
  unfold bulkFixed at h
  dsimp only at h
  obtain ⟨t, ht, h⟩ := Res.bind_eq_ok h
  injection h with h
  obtain ⟨hp, hK⟩ := bulkCore_puts ht
  have hp' : Puts [] ([List.replicate m 0, List.replicate m 255] ++ corePuts K) t :=
    Puts.append (.cons (.cons .nil)) hp
  obtain ⟨n, H, hn⟩ := hp'.owned (Owned.start c)
  refine ⟨0 + n, by rw [← h]; exact H, fun hd hm h0 hF => ?_⟩
  rw [Nat.zero_add]
  refine hn ?_ (fun k _ => by simp)
  have hs := corePuts_sublist hK
  rw [List.cons_append, List.cons_append, List.nil_append, List.nodup_cons, List.nodup_cons]
  refine ⟨?_, fun hm => hF (hs.mem hm), corePuts_nodup hd ht⟩
  rw [List.mem_cons]
  rintro (e | e)
  · cases m with
    | zero => omega
    | succ m => simp [List.replicate_succ] at e
  · exact h0 (hs.mem e)

theorem heapVar_spec {c : Cfg} {K : List Key} (h : bulkVar c K = .ok f) :
    ∃ n, Owned f (heapVar K) n ∧
      (Grouped K → List.replicate 8 0 ∉ K → List.replicate (K.foldl (fun m k => max m k.length) 0) 255 ∉ K → n = 0) := by
  unfold bulkVar at h
  dsimp only at h
  obtain ⟨t, ht, h⟩ := Res.bind_eq_ok h
  injection h with h
  obtain ⟨hp, hK⟩ := bulkCore_puts ht
  have hp' : Puts [] ([List.replicate 8 0] ++ corePuts K ++ [List.replicate (K.foldl (fun m k => max m k.length) 0) 255]) f.tree := by
    rw [← h]
    exact Puts.append (Puts.append (.cons .nil) hp) .one
  obtain ⟨n, H, hn⟩ := hp'.owned (Owned.start c)
  refine ⟨0 + n, ?_, fun hd h0 hF => ?_⟩
  · have : (⟨c, f.tree⟩ : Filter) = f := by rw [← h]
    rw [this] at H
    exact H
  rw [Nat.zero_add]
  refine hn ?_ (fun k _ => by simp)
  have hs := corePuts_sublist hK
  generalize K.foldl (fun m k => max m k.length) 0 = M at hF
  rw [List.nodup_append]
  refine ⟨?_, by simp, ?_⟩
  · rw [List.cons_append, List.nil_append, List.nodup_cons]
    exact ⟨fun hm => h0 (hs.mem hm), corePuts_nodup hd ht⟩
  · intro a ha b hb e
    rw [List.mem_singleton] at hb
    subst hb
    subst e
    rw [List.cons_append, List.nil_append, List.mem_cons] at ha
    rcases ha with e | ha
    · cases M with
      | zero => simp at e
      | succ M => rw [show List.replicate 8 (0 : UInt8) = 0 :: List.replicate 7 0 from rfl, List.replicate_succ] at e; simp at e
    · exact hF (hs.mem ha)

/-! ## Streaming -/

theorem streamKey_step {b b' : Stream} {key : Key} (h : streamKey f b key = .ok (f', b')) : b' = b.step key := by
  unfold streamKey at h
  unfold Stream.step
  cases hl : b.left with
  | none =>
    rw [hl] at h
    injection h with h
    injection h with _ h
    exact h.symm
  | some left =>
    rw [hl] at h
    dsimp only at h ⊢
    by_cases hc : b.keys.length < 1023
    · rw [if_pos hc] at h ⊢
      injection h with h
      injection h with _ h
      exact h.symm
    · rw [if_neg hc] at h ⊢
      obtain ⟨t, _, h⟩ := Res.bind_eq_ok h
      injection h with h
      injection h with _ h
      exact h.symm

theorem Grouped.init {K : List Key} {k : Key} (h : Grouped (K ++ [k])) : Grouped K := by
  intro i j l hij hjl hl he
  have g : ∀ i, i < K.length → (K ++ [k]).getD i [] = K.getD i [] := fun i hi => by
    rw [List.getD_eq_getElem?_getD, List.getD_eq_getElem?_getD, List.getElem?_append_left hi]
  have := h i j l hij hjl (by simp; omega) (by rw [g i (by omega), g l hl]; exact he)
  rwa [g i (by omega), g j (by omega)] at this

/-- After streaming: `seen` are the keys so far. -/
structure Streaming (c : Cfg) (seen : List Key) (f : Filter) (b : Stream) (q : Heap × Stream) (n : Nat) : Prop where
  cfg : f.cfg = c
  members : q.2 = b
  owned : Owned f q.1 n
  start : b.left = none → b.keys = [] ∧ boundaries f = [] ∧ seen = []
  longest : b.maxLen = seen.foldl (fun m k => max m k.length) 0
  sub : Grouped seen → n = 0 ∧ ∃ P, P.Perm (boundaries f) ∧ (P ++ b.left.toList ++ b.keys).Sublist seen ∧
    (P ++ b.left.toList).IsChain (· ≠ ·)

theorem Streaming.step {c : Cfg} {seen : List Key} {b b' : Stream} {q : Heap × Stream} {key : Key} {n : Nat}
    (S : Streaming c seen f b q n)
    (h : streamKey f b key = .ok (f', b')) : ∃ m, Streaming c (seen ++ [key]) f' b' (heapStreamKey q key) m := by
  have hb := streamKey_step h
  have hs : (heapStreamKey q key).2 = b' := by
    unfold heapStreamKey
    dsimp only
    rw [S.members, hb]
  unfold streamKey at h
  cases hl : b.left with
  | none =>
    rw [hl] at h
    injection h with h
    injection h with h1 h2
    subst h1
    have hq : (heapStreamKey q key).1 = q.1 := by
      unfold heapStreamKey
      dsimp only
      rw [S.members, hl]
    obtain ⟨hk, hB, hS⟩ := S.start hl
    have hmx : b'.maxLen = (seen ++ [key]).foldl (fun m k => max m k.length) 0 := by rw [← h2, hS]; simp
    refine ⟨n, S.cfg, hs, by rw [hq]; exact S.owned, (fun e => by rw [← h2] at e; cases e), hmx, fun hd => ?_⟩
    obtain ⟨hn, _⟩ := S.sub hd.init
    refine ⟨hn, [], by rw [hB], ?_, by rw [← h2]; simp⟩
    rw [← h2]
    dsimp only
    rw [hk]
    exact List.sublist_append_right _ _
  | some left =>
    rw [hl] at h
    dsimp only at h
    have hmx : b'.maxLen = (seen ++ [key]).foldl (fun m k => max m k.length) 0 := by
      rw [hb, List.foldl_append, ← S.longest]
      unfold Stream.step
      rw [hl]
      dsimp only
      split_ifs <;> rfl
    by_cases hc : b.keys.length < 1023
    · rw [if_pos hc] at h
      injection h with h
      injection h with h1 h2
      subst h1
      have hq : (heapStreamKey q key).1 = q.1 := by
        unfold heapStreamKey
        dsimp only
        rw [S.members, hl]
        dsimp only
        rw [if_pos hc]
      refine ⟨n, S.cfg, hs, by rw [hq]; exact S.owned, (fun e => by rw [← h2] at e; cases e), hmx, fun hd => ?_⟩
      obtain ⟨hn, P, hP, hsub, hch⟩ := S.sub hd.init
      rw [hl] at hsub hch
      refine ⟨hn, P, hP, ?_, by rw [← h2]; exact hch⟩
      rw [← h2]
      dsimp only
      rw [← List.append_assoc]
      exact hsub.append (List.Sublist.refl _)
    · rw [if_neg hc] at h
      obtain ⟨t, ht, h⟩ := Res.bind_eq_ok h
      injection h with h
      injection h with h1 h2
      obtain ⟨st, rfl⟩ := bulkRegion_put ht
      have hq : (heapStreamKey q key).1 = q.1.add left := by
        unfold heapStreamKey
        dsimp only
        rw [S.members, hl]
        dsimp only
        rw [if_neg hc]
      have hO := Owned.add (c := f.cfg) (t := f.tree) S.owned left st
      refine ⟨_, by rw [← h1]; exact S.cfg, hs, by rw [hq, ← h1]; exact hO, (fun e => by rw [← h2] at e; cases e), hmx, fun hd => ?_⟩
      obtain ⟨hn, P, hP, hsub, hch⟩ := S.sub hd.init
      rw [hl] at hsub hch
      have hd' : (P ++ [left]).Nodup := hd.init.nodup hch ((List.sublist_append_left _ _).trans hsub)
      have hnew : left ∉ f.tree.map Prod.fst := by
        intro hm
        rw [List.nodup_append] at hd'
        exact hd'.2.2 left (hP.mem_iff.2 hm) left (by simp) rfl
      refine ⟨by rw [hn, if_neg hnew], P ++ [left], ?_, ?_, ?_⟩
      · rw [← h1]
        unfold boundaries
        refine List.Perm.trans ?_ (treePut_perm S.owned.1).symm
        rw [if_neg hnew]
        exact (List.perm_append_singleton _ _).trans (hP.cons _)
      · rw [← h2]
        dsimp only
        rw [List.append_nil]
        exact (((List.sublist_append_left _ _).trans hsub)).append (List.Sublist.refl _)
      · rw [← h2, List.isChain_append]
        refine ⟨hch, by simp, fun x hx y hy => ?_⟩
        rw [List.getLast?_append_of_ne_nil _ (by simp)] at hx
        obtain rfl : left = x := by simpa using hx
        obtain rfl : key = y := by simpa using hy
        exact bulkRegion_ne ht

theorem stream_stuck (e : Res (Filter × Stream)) (he : ∀ r, e ≠ .ok r) : ∀ (K : List Key) (r : Filter × Stream),
    K.foldl (fun r k => Res.bind r fun (f, b) => streamKey f b k) e ≠ .ok r
  | [], r => he r
  | k :: K, r => by
    rw [List.foldl_cons]
    refine stream_stuck _ ?_ K r
    intro r h
    obtain ⟨x, hx, _⟩ := Res.bind_eq_ok h
    exact he x hx

theorem Streaming.foldl {c : Cfg} : ∀ {K seen : List Key} {f : Filter} {b : Stream} {q : Heap × Stream} {n : Nat} {r : Filter × Stream},
    Streaming c seen f b q n →
    K.foldl (fun r k => Res.bind r fun (f, b) => streamKey f b k) (Res.ok (f, b)) = .ok r →
    ∃ m, Streaming c (seen ++ K) r.1 r.2 (K.foldl heapStreamKey q) m
  | [], seen, f, b, q, n, r, S, h => by
    injection h with h
    subst h
    rw [List.append_nil]
    exact ⟨n, S⟩
  | k :: K, seen, f, b, q, n, r, S, h => by
    rw [List.foldl_cons] at h
    cases hk : streamKey f b k with
    | ok e =>
      rw [Res.bind_ok] at h
      dsimp only at h
      rw [hk] at h
      obtain ⟨m, S'⟩ := S.step (f' := e.1) (b' := e.2) hk
      rw [show seen ++ k :: K = (seen ++ [k]) ++ K by simp]
      exact S'.foldl h
    | ub => exact absurd h (stream_stuck _ (by rw [Res.bind_ok]; dsimp only; rw [hk]; intro r h; cases h) _ _)
    | hang => exact absurd h (stream_stuck _ (by rw [Res.bind_ok]; dsimp only; rw [hk]; intro r h; cases h) _ _)

theorem heapStream_spec {c : Cfg} {K : List Key} (h : streamAll c K = .ok f) :
    ∃ n, Owned f (heapStream K) n ∧
      (Grouped K → List.replicate (K.foldl (fun m k => max m k.length) 0) 0 ∉ K →
        List.replicate (K.foldl (fun m k => max m k.length) 0) 255 ∉ K → n = 0) := by
  unfold streamAll at h
  obtain ⟨⟨f1, b⟩, h1, h⟩ := Res.bind_eq_ok h
  obtain ⟨⟨f2, b2⟩, h2, h⟩ := Res.bind_eq_ok h
  injection h with h
  subst h
  have S0 : Streaming c [] ⟨c, []⟩ ⟨none, [], 0⟩ (Heap.empty, ⟨none, [], 0⟩) 0 :=
    ⟨rfl, rfl, Owned.start c, fun _ => ⟨rfl, rfl, rfl⟩, rfl, fun _ => ⟨rfl, [], by simp [boundaries], by simp, by simp⟩⟩
  obtain ⟨n, S⟩ := S0.foldl h1
  rw [List.nil_append] at S
  unfold heapStream heapStreamFinish
  dsimp only
  rw [S.members]
  dsimp only
  rw [S.longest]
  unfold streamFinish at h2
  cases hl : b.left with
  | none => rw [hl] at h2; cases h2
  | some left =>
    rw [hl] at h2
    rw [if_neg (by simp)] at h2
    dsimp only at h2
    have hmx : b.maxLen = K.foldl (fun m k => max m k.length) 0 := S.longest
    rw [hmx] at h2
    generalize hM : K.foldl (fun m k => max m k.length) 0 = M at *
    have hput : Puts f1.tree ([List.replicate M 0, List.replicate M 255] ++
        if b.keys.length > 0 then [left, b.keys.getLastD []] else []) f2.tree := by
      refine Puts.append (t' := addTreeKey (addTreeKey f1.tree (List.replicate M 0)) (List.replicate M 255)) (.cons (.cons .nil)) ?_
      by_cases hk : b.keys.length > 0
      · rw [if_pos hk] at h2 ⊢
        obtain ⟨t, ht, h2⟩ := Res.bind_eq_ok h2
        injection h2 with h2
        injection h2 with h2 _
        obtain ⟨st, rfl⟩ := bulkRegion_put ht
        rw [← h2]
        exact .cons (.cons .nil)
      · rw [if_neg hk] at h2 ⊢
        injection h2 with h2
        injection h2 with h2 _
        rw [← h2]
        exact .nil
    obtain ⟨m, H, hm⟩ := hput.owned (c := f1.cfg) S.owned
    refine ⟨n + m, ?_, ?_⟩
    · have := H.same (f' := f2) rfl
      rw [List.foldl_append] at this
      dsimp only [Option.getD_some]
      by_cases hk : b.keys.length > 0
      · rw [if_pos hk] at this ⊢; exact this
      · rw [if_neg hk] at this ⊢; exact this
    · intro hd h0 hF
      obtain ⟨hn, P, hP, hsub, hch⟩ := S.sub hd
      dsimp only at hsub hch
      rw [hl] at hsub hch
      have htail : (if b.keys.length > 0 then [left, b.keys.getLastD []] else []).Sublist (left :: b.keys) := by
        by_cases hk : b.keys.length > 0
        · rw [if_pos hk]
          refine List.Sublist.cons_cons _ ?_
          rw [List.singleton_sublist]
          cases hb : b.keys with
          | nil => rw [hb] at hk; simp at hk
          | cons a l => rw [List.getLastD_cons]; cases l <;> simp [List.getLastD]
        · rw [if_neg hk]; exact List.nil_sublist _
      have hd' : (P ++ if b.keys.length > 0 then [left, b.keys.getLastD []] else []).Nodup := by
        by_cases hk : b.keys.length > 0
        · have hne : left ≠ b.keys.getLastD [] := by
            rw [if_pos hk] at h2
            obtain ⟨t, ht, _⟩ := Res.bind_eq_ok h2
            exact bulkRegion_ne ht
          refine hd.nodup ?_ ((htail.append_left P).trans (by simpa using hsub))
          rw [if_pos hk, show P ++ [left, b.keys.getLastD []] = (P ++ [left]) ++ [b.keys.getLastD []] by simp, List.isChain_append]
          refine ⟨hch, by simp, fun x hx y hy => ?_⟩
          rw [List.getLast?_append_of_ne_nil _ (by simp)] at hx
          obtain rfl : left = x := by simpa using hx
          obtain rfl : b.keys.getLastD [] = y := by simpa using hy
          exact hne
        · rw [if_neg hk, List.append_nil]
          exact hd.nodup (hch.left_of_append) (((List.sublist_append_left _ _).trans (List.sublist_append_left _ _)).trans hsub)
      have hsub' : (left :: b.keys).Sublist K := by
        refine List.Sublist.trans ?_ hsub
        rw [List.append_assoc]
        exact List.sublist_append_right _ _
      have hMp : M ≠ 0 := by
        rintro rfl
        have hlK : left ∈ K := hsub'.mem List.mem_cons_self
        have : left.length ≤ 0 := by rw [← hM]; exact (foldl_max K 0).2 left hlK
        rw [List.length_eq_zero_iff.1 (Nat.le_zero.1 this)] at hlK
        exact h0 hlK
      have hPK : ∀ x ∈ f1.tree.map Prod.fst, x ∈ K := fun x hx =>
        hsub.mem (by rw [List.append_assoc]; exact List.mem_append_left _ (hP.mem_iff.2 hx))
      rw [hn, hm ?_ ?_]
      · rw [List.cons_append, List.cons_append, List.nil_append, List.nodup_cons, List.nodup_cons]
        refine ⟨?_, fun hx => hF (hsub'.mem (htail.mem hx)), (List.nodup_append.1 hd').2.1⟩
        rw [List.mem_cons]
        rintro (e | e)
        · obtain ⟨M', rfl⟩ := Nat.exists_eq_succ_of_ne_zero hMp
          simp [List.replicate_succ] at e
        · exact h0 (hsub'.mem (htail.mem e))
      · intro k hk hkt
        rw [List.cons_append, List.cons_append, List.nil_append, List.mem_cons, List.mem_cons] at hk
        rcases hk with rfl | rfl | hk
        · exact h0 (hPK _ hkt)
        · exact hF (hPK _ hkt)
        · rw [List.nodup_append] at hd'
          exact hd'.2.2 k (hP.mem_iff.2 hkt) k hk rfl

/-! ## A restored filter -/

theorem heapRestored_destroy (hne : f.tree ≠ []) : heapDestroy f (heapRestored f) = .ub := by
  unfold heapDestroy
  cases ht : f.tree with
  | nil => exact absurd ht hne
  | cons e t =>
    have hp : (heapRestored f).ptr e.1 = some .buffer := by
      unfold heapRestored
      dsimp only
      rw [if_pos (by rw [ht]; simp)]
    rw [List.map_cons]
    unfold heapDestroyLoop Heap.get
    rw [hp]
    rfl

theorem heapRestored_split {key : Key} {d : SplitPlan} (hp : planSplit f key = .ok (some d)) :
    heapInsert f (heapRestored f) key true = .ub := by
  have hm : d.prev ∈ f.tree.map Prod.fst := planSplit_mem hp
  unfold heapInsert
  rw [if_pos rfl, hp, Res.bind_ok]
  dsimp only
  unfold heapSplit
  have hu : (heapRestored f).use d.prev = .ok .buffer := by
    have hg : (heapRestored f).get d.prev = .ok .buffer := by
      unfold Heap.get heapRestored
      dsimp only
      rw [if_pos hm]
    unfold Heap.use
    rw [hg, Res.bind_ok]
  dsimp only
  rw [hu, Res.bind_ok]
  have hb : ∀ h : Heap, h.free .buffer = .ub := fun h => rfl
  cases hz : d.zeroPos with
  | none => exact hb _
  | some z =>
    dsimp only
    split
    · rw [Heap.free_live (by simp [Heap.new, Heap.put]), Res.bind_ok]
      exact hb _
    · exact hb _

end Verif
