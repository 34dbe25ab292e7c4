import Verif.Proof.StrShort
import Verif.Proof.WhFilter
import Verif.Spec.Lock

/-!
# Locks of the trees: every call of the string tree takes and releases them in turn
-/

namespace Verif.Lock

open Verif

/-- What is held of each leaf: readers and writer. -/
abbrev Holds := Nat → Nat × Bool

def none' : Holds := fun _ => (0, false)

def setH (f : Holds) (i : Nat) (x : Nat × Bool) : Holds := fun j => if j = i then x else f j

theorem setH_same (f : Holds) (i : Nat) (x : Nat × Bool) : setH f i x i = x := if_pos rfl

theorem setH_other (f : Holds) {i j : Nat} (x : Nat × Bool) (h : j ≠ i) : setH f i x j = f j := if_neg h

theorem setH_twice (f : Holds) (i : Nat) (x y : Nat × Bool) : setH (setH f i x) i y = setH f i y := by
  funext j
  simp only [setH]
  split <;> rfl

theorem setH_none (i : Nat) : setH none' i (0, false) = none' := by
  funext j
  simp only [setH, none']
  split <;> rfl

theorem setH_comm (f : Holds) {i j : Nat} (x y : Nat × Bool) (h : i ≠ j) : setH (setH f i x) j y = setH (setH f j y) i x := by
  funext n
  simp only [setH]
  split <;> split <;> try rfl
  omega

/-- Leaves `t`, the locks of `f`, the lock of the index `m`; no leaf is newer than the index, and the reference has seen it. -/
structure At {L : Type} (s : LockMap L) (t : List L) (f : Holds) (m : Bool) : Prop where
  leaves : s.leaves = t
  len : s.locks.length = t.length
  lock : ∀ i k, s.locks[i]? = some k → k.readers = (f i).1 ∧ k.writer = (f i).2 ∧ k.version ≤ s.version
  mlock : s.metalock = m
  seen : s.qstate = s.version

variable {L : Type} {s : LockMap L} {t : List L} {f : Holds} {m : Bool} {i : Nat}

theorem At.get (h : At s t f m) (hi : i < t.length) :
    ∃ k, s.locks[i]? = some k ∧ k.readers = (f i).1 ∧ k.writer = (f i).2 ∧ k.version ≤ s.version :=
  ⟨s.locks[i]'(h.len ▸ hi), List.getElem?_eq_getElem _, h.lock i _ (List.getElem?_eq_getElem _)⟩

theorem At.setLock (h : At s t f m) {k : LeafLock} {x : Nat × Bool} (h1 : k.readers = x.1) (h2 : k.writer = x.2)
    (h3 : k.version ≤ s.version) : At (s.setLock i k) t (setH f i x) m := by
  refine ⟨h.leaves, by simp only [LockMap.setLock, List.length_set]; exact h.len, fun j k' hj => ?_, h.mlock, h.seen⟩
  simp only [LockMap.setLock, List.getElem?_set] at hj
  split at hj
  · rename_i e
    subst e
    split at hj
    · cases hj
      rw [setH_same]
      exact ⟨h1, h2, h3⟩
    · cases hj
  · rename_i e
    rw [setH_other _ _ (fun e' => e e'.symm)]
    exact h.lock j k' hj

theorem At.lockRead (h : At s t f m) (hi : i < t.length) (hf : f i = (0, false)) :
    ∃ s', s.lockRead i = .ok s' ∧ At s' t (setH f i (1, false)) m := by
  obtain ⟨k, e, h1, h2, h3⟩ := h.get hi
  rw [hf] at h1 h2
  refine ⟨s.setLock i { k with readers := k.readers + 1 }, ?_, h.setLock ?_ h2 h3⟩
  · simp only [LockMap.lockRead, e, h2, Bool.false_eq_true, if_false]
  · show k.readers + 1 = 1
    rw [h1]

theorem At.unlockRead (h : At s t f m) (hi : i < t.length) (hf : f i = (1, false)) :
    ∃ s', s.unlockRead i = .ok s' ∧ At s' t (setH f i (0, false)) m := by
  obtain ⟨k, e, h1, h2, h3⟩ := h.get hi
  rw [hf] at h1 h2
  refine ⟨s.setLock i { k with readers := k.readers - 1 }, ?_, h.setLock ?_ h2 h3⟩
  · simp only [LockMap.unlockRead, e, h1, Nat.one_ne_zero, if_false]
  · show k.readers - 1 = 0
    rw [h1]
    rfl

theorem At.lockWrite (h : At s t f m) (hi : i < t.length) (hf : f i = (0, false)) :
    ∃ s', s.lockWrite i = .ok s' ∧ At s' t (setH f i (0, true)) m := by
  obtain ⟨k, e, h1, h2, h3⟩ := h.get hi
  rw [hf] at h1 h2
  refine ⟨s.setLock i { k with writer := true }, ?_, h.setLock h1 rfl h3⟩
  simp only [LockMap.lockWrite, e, h1, h2, Bool.false_eq_true, ne_eq, not_true, or_self, if_false]

theorem At.unlockWrite (h : At s t f m) (hi : i < t.length) (hf : f i = (0, true)) :
    ∃ s', s.unlockWrite i = .ok s' ∧ At s' t (setH f i (0, false)) m := by
  obtain ⟨k, e, h1, h2, h3⟩ := h.get hi
  rw [hf] at h1 h2
  refine ⟨s.setLock i { k with writer := false }, ?_, h.setLock h1 rfl h3⟩
  simp only [LockMap.unlockWrite, e, h2, if_true]

theorem At.lockMeta (h : At s t f false) : ∃ s', s.lockMeta = .ok s' ∧ At s' t f true :=
  ⟨{ s with metalock := true }, by simp only [LockMap.lockMeta, h.mlock, Bool.false_eq_true, if_false],
    h.leaves, h.len, h.lock, rfl, h.seen⟩

theorem At.unlockMeta (h : At s t f true) : ∃ s', s.unlockMeta = .ok s' ∧ At s' t f false :=
  ⟨{ s with metalock := false }, by simp only [LockMap.unlockMeta, h.mlock, if_true], h.leaves, h.len, h.lock, rfl, h.seen⟩

theorem At.wait (h : At s t f m) : s.wait s.version = .ok s := by
  simp only [LockMap.wait, h.seen, or_true, if_true]

theorem At.check (h : At s t f m) (hi : i < t.length) : s.check i = .ok s := by
  obtain ⟨k, e, _, _, h3⟩ := h.get hi
  simp only [LockMap.check, e, h3, if_true]

theorem At.park (h : At s t f m) (b : Bool) : At { s with parked := b } t f m := ⟨h.leaves, h.len, h.lock, h.mlock, h.seen⟩

theorem At.sync (h : At s t f m) : At { s with qstate := s.version } t f m := ⟨h.leaves, h.len, h.lock, h.mlock, rfl⟩

theorem At.set (h : At s t f m) {t' : List L} (e : t'.length = t.length) : At (s.setLeaves t') t' f m :=
  ⟨rfl, h.len.trans e.symm, h.lock, h.mlock, h.seen⟩

theorem stamp_get {v j : Nat} {k : LeafLock} (h : (s.stamp i v).locks[j]? = some k) :
    ∃ k', s.locks[j]? = some k' ∧ k.readers = k'.readers ∧ k.writer = k'.writer ∧ (k.version = k'.version ∨ k.version = v) := by
  unfold LockMap.stamp at h
  split at h
  · exact ⟨k, h, rfl, rfl, Or.inl rfl⟩
  · rename_i k0 e
    simp only [LockMap.setLock, List.getElem?_set] at h
    split at h
    · rename_i e'
      subst e'
      split at h
      · cases h
        exact ⟨k0, e, rfl, rfl, Or.inr rfl⟩
      · cases h
    · exact ⟨k, h, rfl, rfl, Or.inl rfl⟩

theorem stamp_same (s : LockMap L) (i v : Nat) :
    (s.stamp i v).leaves = s.leaves ∧ (s.stamp i v).locks.length = s.locks.length ∧ (s.stamp i v).metalock = s.metalock := by
  unfold LockMap.stamp
  split
  · exact ⟨rfl, rfl, rfl⟩
  · exact ⟨rfl, List.length_set, rfl⟩

theorem At.publish (h : At s t f m) (i : Nat) : At (s.publish i) t f m := by
  have h1 := stamp_same s i (s.version + 1)
  have h2 := stamp_same (s.stamp i (s.version + 1)) (i + 1) (s.version + 1)
  refine ⟨h2.1.trans (h1.1.trans h.leaves), h2.2.1.trans (h1.2.1.trans h.len), fun j k hj => ?_, h2.2.2.trans (h1.2.2.trans h.mlock), rfl⟩
  obtain ⟨k', hj', a1, a2, a3⟩ := stamp_get (i := i + 1) (v := s.version + 1) hj
  obtain ⟨k'', hj'', b1, b2, b3⟩ := stamp_get hj'
  obtain ⟨c1, c2, c3⟩ := h.lock j k'' hj''
  refine ⟨a1.trans (b1.trans c1), a2.trans (b2.trans c2), ?_⟩
  show k.version ≤ s.version + 1
  omega

/-! ## The search -/

theorem At.jumpRead (h : At s t f m) (hi : i < t.length) (hf : f i = (0, false)) :
    ∃ s', s.jumpRead i = .ok (s', i) ∧ At s' t (setH f i (1, false)) m := by
  obtain ⟨s1, e1, h1⟩ := h.sync.lockRead hi hf
  refine ⟨s1, ?_, h1⟩
  unfold LockMap.jumpRead
  rw [e1]
  show (s1.check _).bind _ = _
  rw [h1.check hi]
  rfl

theorem At.jumpWrite (h : At s t f m) (hi : i < t.length) (hf : f i = (0, false)) :
    ∃ s', s.jumpWrite i = .ok (s', i) ∧ At s' t (setH f i (0, true)) m := by
  obtain ⟨s1, e1, h1⟩ := h.sync.lockWrite hi hf
  refine ⟨s1, ?_, h1⟩
  unfold LockMap.jumpWrite
  rw [e1]
  show (s1.check _).bind _ = _
  rw [h1.check hi]
  rfl

/-- On a tree without leaves the search is undefined. -/
theorem At.jump_ub (h : At s t f m) (hi : ¬i < t.length) : s.jumpRead i = .ub ∧ s.jumpWrite i = .ub := by
  have : s.locks[i]? = none := List.getElem?_eq_none (by rw [h.len]; omega)
  constructor
  · simp only [LockMap.jumpRead, LockMap.lockRead, this]
    rfl
  · simp only [LockMap.jumpWrite, LockMap.lockWrite, this]
    rfl

/-! ## Puts -/

/-- Nothing is held. -/
abbrev Idle (s : LockMap L) (t : List L) : Prop := At s t none' false

/-- One leaf is locked for writing. -/
abbrev Writing (s : LockMap L) (t : List L) (i : Nat) : Prop := At s t (setH none' i (0, true)) false

theorem Writing.unlock (h : Writing s t i) (hi : i < t.length) : ∃ s', s.unlockWrite i = .ok s' ∧ Idle s' t := by
  obtain ⟨s', e, h'⟩ := At.unlockWrite h hi (setH_same _ _ _)
  rw [setH_twice, setH_none] at h'
  exact ⟨s', e, h'⟩

/-- Two neighbours locked for writing, and the index: they get their new version and are released. -/
theorem pair_done (h : At s t (setH (setH none' i (0, true)) (i + 1) (0, true)) true) (hi : i + 1 < t.length) :
    ∃ s1 s2, (s.publish i).unlockWrite i = .ok s1 ∧ s1.unlockWrite (i + 1) = .ok s2 ∧ At s2 t none' true := by
  obtain ⟨s1, e1, h1⟩ := (h.publish i).unlockWrite (i := i) (by omega) (by rw [setH_other _ _ (by omega), setH_same])
  rw [setH_comm _ _ _ (by omega), setH_twice, setH_none] at h1
  obtain ⟨s2, e2, h2⟩ := h1.unlockWrite (i := i + 1) hi (by rw [setH_same])
  rw [setH_twice, setH_none] at h2
  exact ⟨s1, s2, e1, e2, h2⟩

theorem Writing.split (h : Writing s t i) (hi : i < t.length) (a b : L) :
    ∃ s', s.splitInsert i a b = .ok s' ∧ Idle s' (t.take i ++ a :: b :: t.drop (i + 1)) := by
  have hlen : (t.take i ++ a :: b :: t.drop (i + 1)).length = t.length + 1 := by
    simp only [List.length_append, List.length_take, List.length_cons, List.length_drop]
    omega
  have h0 : Writing { s with leaves := s.leaves.take i ++ a :: b :: s.leaves.drop (i + 1),
                             locks := s.locks.take (i + 1) ++ (⟨0, false, 0⟩ : LeafLock) :: s.locks.drop (i + 1) }
      (t.take i ++ a :: b :: t.drop (i + 1)) i := by
    refine ⟨by rw [h.leaves], ?_, fun j k hj => ?_, h.mlock, h.seen⟩
    · rw [hlen]
      have := h.len
      simp only [List.length_append, List.length_take, List.length_cons, List.length_drop]
      omega
    · have hl := h.len
      simp only [List.getElem?_append, List.length_take] at hj
      rw [Nat.min_eq_left (by omega)] at hj
      split at hj
      · rename_i hji
        rw [List.getElem?_take_of_lt hji] at hj
        exact h.lock j k hj
      · rename_i hji
        rw [List.getElem?_cons] at hj
        split at hj
        · cases hj
          rw [setH_other _ _ (by omega)]
          exact ⟨rfl, rfl, Nat.zero_le _⟩
        · rw [List.getElem?_drop] at hj
          have := h.lock _ k hj
          rw [setH_other _ _ (by omega)] at this ⊢
          exact this
  obtain ⟨s1, e1, h1⟩ := At.lockWrite (i := i + 1) h0 (by omega) (by rw [setH_other _ _ (by omega)]; rfl)
  obtain ⟨s2, e2, h2⟩ := h1.lockMeta
  obtain ⟨s3, s4, e3, e4, h4⟩ := pair_done h2 (by omega)
  obtain ⟨s5, e5, h5⟩ := h4.unlockMeta
  refine ⟨s5, ?_, h5⟩
  unfold LockMap.splitInsert
  rw [e1]
  show s1.lockMeta.bind _ = _
  rw [e2]
  show ((s2.publish i).unlockWrite i).bind _ = _
  rw [e3]
  show (s3.unlockWrite (i + 1)).bind _ = _
  rw [e4]
  show (s4.wait s4.version).bind _ = _
  rw [h4.wait]
  exact e5

theorem bind_assoc' {α β γ : Type} (r : Res α) (g : α → Res β) (g' : β → Res γ) :
    (r.bind g).bind g' = r.bind fun a => (g a).bind g' := by
  cases r <;> rfl

theorem relRes_bind {α β γ δ : Type} {R : α → β → Prop} {Q : γ → δ → Prop} {r : Res α} {r' : Res β} {g : α → Res γ} {g' : β → Res δ}
    (h : RelRes R r r') (hg : ∀ a b, R a b → RelRes Q (g a) (g' b)) : RelRes Q (r.bind g) (r'.bind g') := by
  cases r <;> cases r' <;> first | exact h.elim | exact trivial | exact hg _ _ h

theorem relRes_same {α γ δ : Type} {Q : γ → δ → Prop} (r : Res α) {g : α → Res γ} {g' : α → Res δ}
    (hg : ∀ a, RelRes Q (g a) (g' a)) : RelRes Q (r.bind g) (r.bind g') := by
  cases r
  · exact hg _
  · exact trivial
  · exact trivial

theorem put_same {s : LockMap SLeaf} {t : STree} (h : Idle s t) (k : Key) (st : Store) :
    RelRes (fun p q => Idle p.1 q.1 ∧ p.2 = q.2) (s.put k st) (t.put k st) := by
  unfold LockMap.put STree.put
  rw [show STree.jump s.leaves k = t.jump k by rw [h.leaves]]
  by_cases hi : t.jump k < t.length
  · obtain ⟨s1, e1, h1⟩ := (At.park h false).jumpWrite hi rfl
    rw [e1]
    simp only [Res.bind_ok]
    rw [h1.leaves, List.getElem?_eq_getElem hi]
    have fin : ∀ {t' : STree} (b : Bool), t'.length = t.length →
        RelRes (fun (p : LockMap SLeaf × Bool) (q : STree × Bool) => Idle p.1 q.1 ∧ p.2 = q.2)
          ((((s1.setLeaves t').unlockWrite (t.jump k)).bind fun s => (.ok (s, b) : Res (LockMap SLeaf × Bool))).bind fun x => .ok ({ x.1 with parked := true }, x.2))
          (.ok (t', b)) := by
      intro t' b he
      obtain ⟨s2, e2, h2⟩ := Writing.unlock (h1.set he) (by rw [he]; exact hi)
      rw [e2]
      exact ⟨h2.park true, rfl⟩
    dsimp only
    generalize t[t.jump k]'hi = l0
    cases hm : l0.matchHs k with
    | some ih =>
      dsimp only
      rw [bind_assoc']
      exact relRes_same _ fun l => fin true List.length_set
    | none =>
      dsimp only
      split
      · rw [bind_assoc']
        exact relRes_same _ fun l => fin true List.length_set
      · rw [bind_assoc']
        refine relRes_same _ fun o => ?_
        cases o with
        | none =>
          dsimp only
          rw [bind_assoc']
          exact relRes_same _ fun l => fin false List.length_set
        | some ab =>
          obtain ⟨s2, e2, h2⟩ := Writing.split h1 hi ab.1 ab.2
          dsimp only
          rw [e2]
          exact ⟨h2.park true, rfl⟩
  · rw [((At.park h false).jump_ub hi).2]
    have : t[t.jump k]? = none := List.getElem?_eq_none (by omega)
    dsimp only
    rw [this]
    exact trivial

/-! ## Deletions -/

theorem Writing.merge (h : At s t (setH (setH none' i (0, true)) (i + 1) (0, true)) false) (hi : i + 1 < t.length) (l : L) :
    ∃ s', s.metaMerge i l = .ok s' ∧ Idle s' (t.take i ++ l :: t.drop (i + 2)) := by
  obtain ⟨s2, e2, h2⟩ := h.lockMeta
  obtain ⟨s3, s4, e3, e4, h4⟩ := pair_done h2 hi
  have h4' : At { s4 with leaves := s4.leaves.take i ++ l :: s4.leaves.drop (i + 2),
                          locks := s4.locks.take (i + 1) ++ s4.locks.drop (i + 2) } (t.take i ++ l :: t.drop (i + 2)) none' true := by
    refine ⟨by rw [h4.leaves], ?_, fun j k hj => ?_, h4.mlock, h4.seen⟩
    · have := h4.len
      simp only [List.length_append, List.length_take, List.length_cons, List.length_drop]
      omega
    · have hm : k ∈ s4.locks := by
        rcases List.mem_append.1 (List.mem_of_getElem? hj) with hm | hm
        · exact List.mem_of_mem_take hm
        · exact List.mem_of_mem_drop hm
      obtain ⟨n, hn⟩ := List.getElem?_of_mem hm
      exact h4.lock n k hn
  obtain ⟨s5, e5, h5⟩ := h4'.unlockMeta
  refine ⟨s5, ?_, h5⟩
  unfold LockMap.metaMerge
  rw [e2]
  show ((s2.publish i).unlockWrite i).bind _ = _
  rw [e3]
  show (s3.unlockWrite (i + 1)).bind _ = _
  rw [e4]
  show (s4.wait s4.version).bind _ = _
  rw [h4.wait]
  exact e5

theorem tryMerge_same {s : LockMap SLeaf} {t : STree} (h : Writing s t i) (hi : i < t.length) : RelRes Idle (s.tryMerge i) (t.tryMerge i) := by
  have hu : ∀ {s : LockMap SLeaf}, Writing s t i → RelRes Idle (s.unlockWrite i) (.ok t) := by
    intro s h
    obtain ⟨s2, e2, h2⟩ := Writing.unlock h hi
    rw [e2]
    exact h2
  unfold LockMap.tryMerge STree.tryMerge
  rw [h.leaves, List.getElem?_eq_getElem hi]
  by_cases hn : i + 1 < t.length
  · rw [List.getElem?_eq_getElem hn]
    dsimp only
    split
    · obtain ⟨s1, e1, h1⟩ := At.lockWrite (i := i + 1) h hn (by rw [setH_other _ _ (by omega)]; rfl)
      rw [e1]
      show RelRes Idle (ite _ _ _) _
      split
      · refine relRes_same _ fun l => ?_
        obtain ⟨s2, e2, h2⟩ := Writing.merge h1 hn l
        rw [e2]
        exact h2
      · obtain ⟨s2, e2, h2⟩ := h1.unlockWrite (i := i) hi (by rw [setH_other _ _ (by omega), setH_same])
        rw [setH_comm _ _ _ (by omega), setH_twice, setH_none] at h2
        obtain ⟨s3, e3, h3⟩ := h2.unlockWrite (i := i + 1) hn (by rw [setH_same])
        rw [setH_twice, setH_none] at h3
        rw [e2]
        show RelRes Idle (s2.unlockWrite (i + 1)) _
        rw [e3]
        exact h3
    · exact hu h
  · rw [List.getElem?_eq_none (by omega)]
    exact hu h

theorem del_same {s : LockMap SLeaf} {t : STree} (h : Idle s t) (k : Key) : RelRes Idle (s.del k) (t.del k) := by
  unfold LockMap.del STree.del
  rw [show STree.jump s.leaves k = t.jump k by rw [h.leaves]]
  by_cases hi : t.jump k < t.length
  · obtain ⟨s1, e1, h1⟩ := (At.park h false).jumpWrite hi rfl
    rw [e1]
    simp only [Res.bind_ok]
    rw [h1.leaves, List.getElem?_eq_getElem hi]
    have fin : ∀ {r : Res (LockMap SLeaf)} {r' : Res STree}, RelRes Idle r r' →
        RelRes Idle (r.bind fun s => .ok { s with parked := true }) r' := by
      intro r r' hr
      cases r <;> cases r' <;> first | exact hr.elim | exact trivial | exact At.park hr true
    apply fin
    dsimp only
    generalize t[t.jump k]'hi = l0
    cases hm : l0.matchHs k with
    | some ih =>
      refine relRes_same _ fun l => tryMerge_same (h1.set List.length_set) ?_
      rw [List.length_set]
      exact hi
    | none =>
      obtain ⟨s2, e2, h2⟩ := Writing.unlock h1 hi
      dsimp only
      rw [e2]
      exact h2
  · rw [((At.park h false).jump_ub hi).2]
    have : t[t.jump k]? = none := List.getElem?_eq_none (by omega)
    dsimp only
    rw [this]
    exact trivial

/-! ## The iterator -/

/-- What an iterator at `cur` holds. -/
def holds : Cursor → Holds
  | none => none'
  | some (i, _) => setH none' i (1, false)

/-- The iterator at `cur` is all that is held. -/
structure Held (s : LockMap L) (t : List L) (cur : Cursor) : Prop where
  at' : At s t (holds cur) false
  inside : ∀ i is, cur = some (i, is) → i < t.length

/-- One leaf is locked for reading. -/
abbrev Reading (s : LockMap L) (t : List L) (i : Nat) : Prop := At s t (setH none' i (1, false)) false

theorem Reading.unlock (h : Reading s t i) (hi : i < t.length) : ∃ s', s.unlockRead i = .ok s' ∧ Idle s' t := by
  obtain ⟨s', e, h'⟩ := At.unlockRead h hi (setH_same _ _ _)
  rw [setH_twice, setH_none] at h'
  exact ⟨s', e, h'⟩

theorem Reading.held (h : Reading s t i) (hi : i < t.length) (is : Nat) : Held s t (some (i, is)) :=
  ⟨h, fun _ _ e => by cases e; exact hi⟩

theorem held_none : Held s t none ↔ Idle s t := ⟨fun h => h.at', fun h => ⟨h, fun _ _ e => by cases e⟩⟩

/-- From one leaf to another. -/
theorem Reading.move (h : Reading s t i) (hi : i < t.length) {j : Nat} (hj : j < t.length) (hij : i ≠ j) :
    ∃ s1 s2, s.lockRead j = .ok s1 ∧ s1.unlockRead i = .ok s2 ∧ Reading s2 t j := by
  obtain ⟨s1, e1, h1⟩ := At.lockRead (i := j) h hj (by rw [setH_other _ _ (by omega)]; rfl)
  obtain ⟨s2, e2, h2⟩ := h1.unlockRead (i := i) hi (by rw [setH_other _ _ hij, setH_same])
  rw [setH_comm _ _ _ hij, setH_twice, setH_comm _ _ _ (by omega), setH_none] at h2
  exact ⟨s1, s2, e1, e2, h2⟩

abbrev SameIt (p : LockMap SLeaf × Cursor) (q : STree × Cursor) : Prop := p.2 = q.2 ∧ Held p.1 q.1 q.2

theorem fix_same : ∀ (fuel : Nat) {s : LockMap SLeaf} {t : STree} {i : Nat} (is : Nat), Reading s t i → i < t.length →
    RelRes SameIt (LockMap.fix fuel s i is) (siterFix fuel t i is)
  | 0, _, _, _, _, _, _ => trivial
  | fuel + 1, s, t, i, is, h, hi => by
    unfold LockMap.fix siterFix
    rw [h.leaves, List.getElem?_eq_getElem hi]
    dsimp only
    split
    · by_cases hn : i + 1 < t.length
      · rw [List.getElem?_eq_getElem hn]
        obtain ⟨s1, s2, e1, e2, h2⟩ := Reading.move h hi hn (by omega)
        dsimp only
        rw [e1]
        show RelRes SameIt ((s1.unlockRead i).bind _) _
        rw [e2]
        simp only [Res.bind_ok]
        refine relRes_same _ fun n => ?_
        rw [h2.leaves]
        exact fix_same fuel 0 (h2.set List.length_set) (by rw [List.length_set]; exact hn)
      · rw [List.getElem?_eq_none (by omega)]
        obtain ⟨s1, e1, h1⟩ := Reading.unlock h hi
        dsimp only
        rw [e1]
        exact ⟨rfl, held_none.2 h1⟩
    · exact ⟨rfl, Reading.held h hi is⟩

theorem fixRev_same : ∀ (i : Nat) {s : LockMap SLeaf} {t : STree}, Reading s t i → i < t.length →
    RelRes SameIt (LockMap.fixRev i s) (siterFixRev t i)
  | 0, s, t, h, hi => by
    unfold LockMap.fixRev siterFixRev
    obtain ⟨s1, e1, h1⟩ := Reading.unlock h hi
    rw [e1]
    exact ⟨rfl, held_none.2 h1⟩
  | i + 1, s, t, h, hi => by
    have hi' : i < t.length := by omega
    unfold LockMap.fixRev siterFixRev
    rw [h.leaves, List.getElem?_eq_getElem hi']
    obtain ⟨s1, s2, e1, e2, h2⟩ := Reading.move h hi hi' (by omega)
    dsimp only
    rw [e1]
    show RelRes SameIt ((s1.unlockRead (i + 1)).bind _) _
    rw [e2]
    simp only [Res.bind_ok]
    refine relRes_same _ fun n => ?_
    rw [h2.leaves]
    have hl : i < (t.set i n).length := by rw [List.length_set]; exact hi'
    split
    · exact fixRev_same i (h2.set List.length_set) hl
    · exact ⟨rfl, Reading.held (h2.set List.length_set) hl _⟩

theorem seek_same {s : LockMap SLeaf} {t : STree} (h : Idle s t) (k : Key) : RelRes SameIt (s.seek k) (t.seek k) := by
  unfold LockMap.seek STree.seek
  rw [show STree.jump s.leaves k = t.jump k by rw [h.leaves]]
  by_cases hi : t.jump k < t.length
  · obtain ⟨s1, e1, h1⟩ := (At.park h false).jumpRead hi rfl
    rw [e1]
    show RelRes SameIt (match s1.leaves[t.jump k]? with | none => _ | some l => _) _
    dsimp only
    rw [h1.leaves, List.getElem?_eq_getElem hi]
    dsimp only
    exact relRes_same _ fun l => relRes_same _ fun is => fix_same _ is (h1.set List.length_set) (by rw [List.length_set]; exact hi)
  · rw [((At.park h false).jump_ub hi).1]
    have : t[t.jump k]? = none := List.getElem?_eq_none (by omega)
    dsimp only
    rw [this]
    exact trivial

theorem skip_same {s : LockMap SLeaf} {t : STree} {cur : Cursor} (h : Held s t cur) : RelRes SameIt (s.skip1 cur) (t.skip1 cur) := by
  cases cur with
  | none => exact ⟨rfl, h⟩
  | some p =>
    obtain ⟨i, is⟩ := p
    unfold LockMap.skip1 STree.skip1
    rw [h.at'.leaves]
    exact fix_same _ _ h.at' (h.inside _ _ rfl)

theorem back_same {s : LockMap SLeaf} {t : STree} {cur : Cursor} (h : Held s t cur) : RelRes SameIt (s.skip1Rev cur) (t.skip1Rev cur) := by
  cases cur with
  | none => exact ⟨rfl, h⟩
  | some p =>
    obtain ⟨i, is⟩ := p
    unfold LockMap.skip1Rev STree.skip1Rev
    dsimp only
    split
    · exact fixRev_same _ h.at' (h.inside _ _ rfl)
    · exact ⟨rfl, Reading.held h.at' (h.inside _ _ rfl) _⟩

theorem release_same {cur : Cursor} (h : Held s t cur) : ∃ s', s.release cur = .ok s' ∧ Held s' t none := by
  cases cur with
  | none => exact ⟨s, rfl, h⟩
  | some p =>
    obtain ⟨s1, e1, h1⟩ := Reading.unlock h.at' (h.inside p.1 p.2 rfl)
    exact ⟨s1, e1, held_none.2 h1⟩

theorem write_length (t : STree) (cur : Cursor) (st : Store) : (t.write cur st).length = t.length := by
  unfold STree.write
  split
  · rfl
  · split
    · rfl
    · simp only [List.length_set]

theorem write_same {s : LockMap SLeaf} {t : STree} {held : Cursor} (h : Held s t held) (cur : Cursor) (st : Store) :
    Held (s.setLeaves (t.write cur st)) (t.write cur st) held :=
  ⟨h.at'.set (write_length t cur st), fun i is e => by rw [write_length]; exact h.inside i is e⟩

/-! ## Programs -/

/-- A program that releases what it holds does the same with locks, and nothing is held after it. -/
theorem client_same {α : Type} {p : Client α} : ∀ {held : Cursor} {s : LockMap SLeaf} {t : STree}, p.Releases held → Held s t held →
    RelRes (fun a b => a.2 = b.2 ∧ Idle a.1 b.1) (p.onLocks s) (p.onLeaves t) := by
  induction p with
  | ret r =>
    intro held s t hp h
    cases r with
    | ok a =>
      have e := hp a rfl
      subst e
      exact ⟨rfl, h.at'⟩
    | ub => exact trivial
    | hang => exact trivial
  | put k st next ih =>
    intro held s t hp h
    obtain ⟨e, hn⟩ := hp
    subst e
    refine relRes_bind (put_same h.at' k st) fun a b hab => ?_
    obtain ⟨a, x⟩ := a
    obtain ⟨b, y⟩ := b
    obtain ⟨h1, h2⟩ := hab
    cases h2
    exact ih _ (hn x) (held_none.2 h1)
  | del k next ih =>
    intro held s t hp h
    obtain ⟨e, hn⟩ := hp
    subst e
    exact relRes_bind (del_same h.at' k) fun a b hab => ih hn (held_none.2 hab)
  | delRead k c1 c2 next ih =>
    intro held s t hp h
    obtain ⟨e, hn⟩ := hp
    subst e
    unfold Client.onLocks Client.onLeaves
    rw [h.at'.leaves]
    exact relRes_same _ fun e1 => relRes_same _ fun e2 => relRes_bind (del_same h.at' k) fun a b hab => ih e1 e2 (hn e1 e2) (held_none.2 hab)
  | seek k next ih =>
    intro held s t hp h
    obtain ⟨e, hn⟩ := hp
    subst e
    refine relRes_bind (seek_same h.at' k) fun a b hab => ?_
    obtain ⟨a, x⟩ := a
    obtain ⟨b, y⟩ := b
    obtain ⟨h1, h2⟩ := hab
    cases h1
    exact ih _ (hn x) h2
  | skip cur next ih =>
    intro held s t hp h
    obtain ⟨e, hn⟩ := hp
    subst e
    refine relRes_bind (skip_same h) fun a b hab => ?_
    obtain ⟨a, x⟩ := a
    obtain ⟨b, y⟩ := b
    obtain ⟨h1, h2⟩ := hab
    cases h1
    exact ih _ (hn x) h2
  | back cur next ih =>
    intro held s t hp h
    obtain ⟨e, hn⟩ := hp
    subst e
    refine relRes_bind (back_same h) fun a b hab => ?_
    obtain ⟨a, x⟩ := a
    obtain ⟨b, y⟩ := b
    obtain ⟨h1, h2⟩ := hab
    cases h1
    exact ih _ (hn x) h2
  | peek cur next ih =>
    intro held s t hp h
    unfold Client.onLocks Client.onLeaves
    rw [h.at'.leaves]
    exact relRes_same _ fun e => ih e (hp.2 e) h
  | write cur st next ih =>
    intro held s t hp h
    unfold Client.onLocks Client.onLeaves
    rw [h.at'.leaves]
    exact ih hp (write_same h cur st)
  | release cur next ih =>
    intro held s t hp h
    obtain ⟨e, hn⟩ := hp
    subst e
    obtain ⟨s1, e1, h1⟩ := release_same h
    unfold Client.onLocks Client.onLeaves
    rw [e1]
    exact ih hn h1
  | fuel next ih =>
    intro held s t hp h
    unfold Client.onLocks Client.onLeaves
    rw [h.at'.leaves]
    exact ih _ (hp _) h

theorem new_idle (l : L) : Idle (LockMap.new [l]) [l] := by
  refine ⟨rfl, rfl, fun i k hk => ?_, rfl, rfl⟩
  have : k = ⟨0, false, 0⟩ := List.mem_singleton.1 (List.mem_of_getElem? hk)
  subst this
  exact ⟨rfl, rfl, Nat.le_refl _⟩

theorem Idle.free (h : Idle s t) : s.Free := by
  refine ⟨h.mlock, by rw [h.len, h.leaves], fun k hk => ?_⟩
  obtain ⟨i, hi⟩ := List.getElem?_of_mem hk
  exact ⟨(h.lock i k hi).1, (h.lock i k hi).2.1⟩

end Verif.Lock
