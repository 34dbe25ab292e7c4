import Verif.Model.WhHash
import Verif.Proof.Tree
import Verif.Proof.Plan

/-!
# The hash table under the index: cuckoo insertion
-/

namespace Verif

/-! ## Lists of buckets -/

theorem flatten_set {α : Type} : ∀ {L : List (List α)} {i : Nat} (hi : i < L.length) (l : List α),
    (L[i] ++ (L.set i l).flatten).Perm (l ++ L.flatten)
  | [], i, hi, _ => by simp at hi
  | x :: L, 0, _, l => by
    simp only [List.getElem_cons_zero, List.set_cons_zero, List.flatten_cons]
    exact List.perm_append_comm_assoc _ _ _
  | x :: L, i + 1, hi, l => by
    simp only [List.getElem_cons_succ, List.set_cons_succ, List.flatten_cons]
    have ih := flatten_set (L := L) (i := i) (by simpa using hi) l
    exact (List.perm_append_comm_assoc _ _ _).trans ((ih.append_left x).trans (List.perm_append_comm_assoc _ _ _))

variable {h : Key → Nat} {t t' : HTab} {i j : Nat} {e f : Ent}

/-- All entries. -/
def HTab.all (t : HTab) : List Ent := t.bkts.flatten

theorem HTab.bkt_eq (hi : i < t.bkts.length) : t.bkt i = t.bkts[i] := by
  unfold HTab.bkt
  rw [List.getD_eq_getElem?_getD, List.getElem?_eq_getElem hi]
  rfl

theorem HTab.bkt_out (hi : ¬ i < t.bkts.length) : t.bkt i = [] := by
  unfold HTab.bkt
  rw [List.getD_eq_getElem?_getD, List.getElem?_eq_none (by omega)]
  rfl

/-- Replace a bucket. -/
def HTab.upd (t : HTab) (i : Nat) (l : List Ent) : HTab := ⟨t.mask, t.bkts.set i l⟩

theorem HTab.upd_bkt (hi : i < t.bkts.length) (l : List Ent) (j : Nat) : (t.upd i l).bkt j = if j = i then l else t.bkt j := by
  unfold HTab.bkt HTab.upd
  simp only [List.getD_eq_getElem?_getD]
  by_cases hj : j = i
  · subst hj
    rw [if_pos rfl, List.getElem?_set_self hi]
    rfl
  · rw [if_neg hj, List.getElem?_set_ne (fun e => hj e.symm)]

theorem HTab.upd_all (hi : i < t.bkts.length) (l : List Ent) : (t.bkt i ++ (t.upd i l).all).Perm (l ++ t.all) := by
  rw [HTab.bkt_eq hi]
  exact flatten_set hi l

theorem HTab.push_all (hi : i < t.bkts.length) : (t.push i e).all.Perm (e :: t.all) := by
  have := HTab.upd_all hi (t.bkt i ++ [e])
  rw [List.append_assoc] at this
  exact (List.perm_append_left_iff _).1 this

theorem set_perm {α : Type} : ∀ {l : List α} {j : Nat} {f : α} (_ : l[j]? = some f) (e : α), (f :: l.set j e).Perm (e :: l)
  | [], j, f, hf, _ => by simp at hf
  | x :: l, 0, f, hf, e => by
    simp only [List.getElem?_cons_zero, Option.some.injEq] at hf
    subst hf
    exact List.Perm.swap _ _ _
  | x :: l, j + 1, f, hf, e => by
    have ih := set_perm (l := l) (j := j) (f := f) (by simpa using hf) e
    rw [List.set_cons_succ]
    exact (List.Perm.swap _ _ _).trans ((ih.cons x).trans (List.Perm.swap _ _ _))

theorem HTab.write_all (hi : i < t.bkts.length) (hj : (t.bkt i)[j]? = some f) : (f :: (t.write i j e).all).Perm (e :: t.all) := by
  have h1 := HTab.upd_all hi ((t.bkt i).set j e)
  have h2 := set_perm hj e
  have h3 : (t.bkt i ++ f :: (t.write i j e).all).Perm (t.bkt i ++ e :: t.all) := by
    have a1 : (t.bkt i ++ f :: (t.write i j e).all).Perm (f :: (t.bkt i ++ (t.write i j e).all)) := List.perm_middle
    have a2 : (f :: ((t.bkt i).set j e ++ t.all)).Perm (e :: (t.bkt i ++ t.all)) := (h2.append_right t.all)
    exact a1.trans ((h1.cons f).trans (a2.trans List.perm_middle.symm))
  exact (List.perm_append_left_iff _).1 h3

theorem dropLast_set_perm {α : Type} {l : List α} {j : Nat} {f d : α} (hj : l[j]? = some f) :
    (f :: (l.set j (l.getD (l.length - 1) d)).dropLast).Perm l := by
  obtain ⟨hl, _⟩ := List.getElem?_eq_some_iff.1 hj
  have hne : l ≠ [] := by rintro rfl; simp at hl
  have hg : l.getD (l.length - 1) d = l.getLast hne := by
    rw [List.getD_eq_getElem?_getD, List.getElem?_eq_getElem (by omega), List.getLast_eq_getElem]
    rfl
  rw [hg]
  have hne' : l.set j (l.getLast hne) ≠ [] := by
    intro e
    have := congrArg List.length e
    rw [List.length_set, List.length_nil] at this
    omega
  have hlast : (l.set j (l.getLast hne)).getLast hne' = l.getLast hne := by
    rw [List.getLast_eq_getElem, List.getElem_set]
    split
    · rfl
    · simp only [List.length_set]
      exact (List.getLast_eq_getElem hne).symm
  have hp := set_perm hj (l.getLast hne)
  rw [← List.dropLast_append_getLast hne', hlast] at hp
  have a : (l.getLast hne :: (f :: (l.set j (l.getLast hne)).dropLast)).Perm (l.getLast hne :: l) := by
    refine List.Perm.trans ?_ hp
    refine (List.Perm.swap _ _ _).trans (List.Perm.cons f ?_)
    exact (List.perm_append_comm (l₁ := (l.set j (l.getLast hne)).dropLast) (l₂ := [l.getLast hne])).symm
  exact (List.perm_cons _).1 a

theorem HTab.drop_all (hi : i < t.bkts.length) (hj : (t.bkt i)[j]? = some f) : (f :: (t.drop i j).all).Perm t.all := by
  have h1 := HTab.upd_all hi (((t.bkt i).set j ((t.bkt i).getD ((t.bkt i).length - 1) ⟨0, []⟩)).dropLast)
  have h2 := dropLast_set_perm (d := (⟨0, []⟩ : Ent)) hj
  have h3 : (t.bkt i ++ f :: (t.drop i j).all).Perm (t.bkt i ++ t.all) :=
    List.perm_middle.trans ((h1.cons f).trans (h2.append_right t.all))
  exact (List.perm_append_left_iff _).1 h3

/-! ## Well-formed tables -/

/-- The entry may stand in bucket `b`. -/
def EntOK (h : Key → Nat) (t : HTab) (b : Nat) (e : Ent) : Prop :=
  e.tag = pkey16 (h e.key) ∧ (b = t.first h e.key ∨ b = t.second h e.key)

structure TabOK (h : Key → Nat) (t : HTab) : Prop where
  size : ∃ a, t.mask + 1 = 2 ^ a
  len : t.bkts.length = t.mask + 1
  cap : ∀ b, (t.bkt b).length ≤ 8
  loc : ∀ b, ∀ e ∈ t.bkt b, EntOK h t b e

theorem TabOK.first_lt (T : TabOK h t) (k : Key) : t.first h k < t.bkts.length := by
  rw [T.len]
  exact Nat.lt_succ_of_le Nat.and_le_right

theorem TabOK.second_lt (T : TabOK h t) (k : Key) : t.second h k < t.bkts.length := by
  rw [T.len]
  exact Nat.lt_succ_of_le Nat.and_le_right

theorem TabOK.upd (T : TabOK h t) (hi : i < t.bkts.length) {l : List Ent} (hl : l.length ≤ 8) (he : ∀ e ∈ l, EntOK h t i e) :
    TabOK h (t.upd i l) := by
  refine ⟨T.size, (List.length_set).trans T.len, fun b => ?_, fun b e hm => ?_⟩
  · rw [HTab.upd_bkt hi]
    by_cases hb : b = i
    · rw [if_pos hb]; exact hl
    · rw [if_neg hb]; exact T.cap b
  · rw [HTab.upd_bkt hi] at hm
    by_cases hb : b = i
    · rw [if_pos hb] at hm; subst hb; exact he e hm
    · rw [if_neg hb] at hm; exact T.loc b e hm

theorem TabOK.push (T : TabOK h t) (hi : i < t.bkts.length) (hl : (t.bkt i).length < 8) (he : EntOK h t i e) :
    TabOK h (t.push i e) :=
  T.upd hi (by simp; omega) fun x hx => by
    rcases List.mem_append.1 hx with hx | hx
    · exact T.loc i x hx
    · rw [List.mem_singleton.1 hx]; exact he

theorem TabOK.write (T : TabOK h t) (hi : i < t.bkts.length) (he : EntOK h t i e) : TabOK h (t.write i j e) :=
  T.upd hi (by rw [List.length_set]; exact T.cap i) fun x hx => by
    rcases List.mem_or_eq_of_mem_set hx with hx | rfl
    · exact T.loc i x hx
    · exact he

theorem TabOK.drop (T : TabOK h t) (hi : i < t.bkts.length) (hj : (t.bkt i)[j]? = some f) : TabOK h (t.drop i j) := by
  refine T.upd hi ?_ fun x hx => ?_
  · rw [List.length_dropLast, List.length_set]
    have := T.cap i
    omega
  · have := (dropLast_set_perm (d := (⟨0, []⟩ : Ent)) hj).subset (List.mem_cons_of_mem _ hx)
    exact T.loc i x this

/-! ## Results of the recursion -/

/-- Where entry `e` of bucket `mid` goes. -/
def HTab.other (h : Key → Nat) (t : HTab) (mid : Nat) (e : Ent) : Nat :=
  if t.first h e.key ≠ mid then t.first h e.key else t.second h e.key

/-- Depth left after the move. -/
def HTab.left (h : Key → Nat) (t : HTab) (mid : Nat) (e : Ent) (d : Nat) : Nat :=
  if t.other h mid e = t.first h e.key then d else d - 1

section loop
variable {rec rec' : HTab → Nat → Ent → Nat → Res (Bool × HTab)} {mid d : Nat} {e0 e1 : Ent}

theorem loop_false (hrec : ∀ m e d t', rec t m e d = .ok (false, t') → t' = t) : ∀ {is : List Nat},
    HTab.cuckooLoop h rec mid e0 d is t = .ok (false, t') → t' = t ∧ ∀ i ∈ is, ∃ f, (t.bkt mid)[i]? = some f ∧
      (t.other h mid f ≠ mid → rec t (t.other h mid f) f (t.left h mid f d) = .ok (false, t))
  | [], e => by cases e; exact ⟨rfl, by simp⟩
  | i :: is, e => by
    rw [HTab.cuckooLoop] at e
    cases hf : (t.bkt mid)[i]? with
    | none => rw [hf] at e; cases e
    | some f =>
      rw [hf] at e
      change (if t.other h mid f ≠ mid then
        (rec t (t.other h mid f) f (t.left h mid f d)).bind fun q => if q.1 = true then .ok (true, q.2.write mid i e0) else
          HTab.cuckooLoop h rec mid e0 d is q.2 else HTab.cuckooLoop h rec mid e0 d is t) = _ at e
      by_cases hm : t.other h mid f ≠ mid
      · rw [if_pos hm] at e
        obtain ⟨⟨b, t1⟩, e1, e⟩ := Res.bind_eq_ok e
        cases b with
        | true => rw [if_pos rfl] at e; cases e
        | false =>
          rw [if_neg (by simp)] at e
          dsimp only at e
          rw [hrec _ _ _ _ e1] at e e1
          obtain ⟨h1, h2⟩ := loop_false hrec e
          refine ⟨h1, fun x hx => ?_⟩
          rcases List.mem_cons.1 hx with rfl | hx
          · exact ⟨f, hf, fun _ => e1⟩
          · exact h2 x hx
      · rw [if_neg hm] at e
        obtain ⟨h1, h2⟩ := loop_false hrec e
        refine ⟨h1, fun x hx => ?_⟩
        rcases List.mem_cons.1 hx with rfl | hx
        · exact ⟨f, hf, fun h => absurd h hm⟩
        · exact h2 x hx

theorem loop_true (hrec : ∀ m e d t', rec t m e d = .ok (false, t') → t' = t) : ∀ {is : List Nat},
    HTab.cuckooLoop h rec mid e0 d is t = .ok (true, t') → ∃ i ∈ is, ∃ f t1, (t.bkt mid)[i]? = some f ∧ t.other h mid f ≠ mid ∧
      rec t (t.other h mid f) f (t.left h mid f d) = .ok (true, t1) ∧ t' = t1.write mid i e0
  | [], e => by cases e
  | i :: is, e => by
    rw [HTab.cuckooLoop] at e
    cases hf : (t.bkt mid)[i]? with
    | none => rw [hf] at e; cases e
    | some f =>
      rw [hf] at e
      change (if t.other h mid f ≠ mid then
        (rec t (t.other h mid f) f (t.left h mid f d)).bind fun q => if q.1 = true then .ok (true, q.2.write mid i e0) else
          HTab.cuckooLoop h rec mid e0 d is q.2 else HTab.cuckooLoop h rec mid e0 d is t) = _ at e
      by_cases hm : t.other h mid f ≠ mid
      · rw [if_pos hm] at e
        obtain ⟨⟨b, t1⟩, e1, e⟩ := Res.bind_eq_ok e
        cases b with
        | true =>
          rw [if_pos rfl] at e
          injection e with e
          exact ⟨i, by simp, f, t1, hf, hm, e1, (Prod.mk.inj e).2.symm⟩
        | false =>
          rw [if_neg (by simp)] at e
          dsimp only at e
          rw [hrec _ _ _ _ e1] at e e1
          obtain ⟨j, hj, r⟩ := loop_true hrec e
          exact ⟨j, List.mem_cons_of_mem _ hj, r⟩
      · rw [if_neg hm] at e
        obtain ⟨j, hj, r⟩ := loop_true hrec e
        exact ⟨j, List.mem_cons_of_mem _ hj, r⟩

theorem loop_indep : ∀ {is : List Nat} {t : HTab} {b : Bool},
    HTab.cuckooLoop h rec mid e0 d is t = .ok (b, t') → ∃ t'', HTab.cuckooLoop h rec mid e1 d is t = .ok (b, t'')
  | [], t, b, e => by cases e; exact ⟨_, rfl⟩
  | i :: is, t, b, e => by
    rw [HTab.cuckooLoop] at e ⊢
    cases hf : (t.bkt mid)[i]? with
    | none => rw [hf] at e; cases e
    | some f =>
      rw [hf] at e
      change (if t.other h mid f ≠ mid then
        (rec t (t.other h mid f) f (t.left h mid f d)).bind fun q => if q.1 = true then .ok (true, q.2.write mid i e0) else
          HTab.cuckooLoop h rec mid e0 d is q.2 else HTab.cuckooLoop h rec mid e0 d is t) = _ at e
      change ∃ t'', (if t.other h mid f ≠ mid then
        (rec t (t.other h mid f) f (t.left h mid f d)).bind fun q => if q.1 = true then .ok (true, q.2.write mid i e1) else
          HTab.cuckooLoop h rec mid e1 d is q.2 else HTab.cuckooLoop h rec mid e1 d is t) = _
      by_cases hm : t.other h mid f ≠ mid
      · rw [if_pos hm] at e ⊢
        obtain ⟨⟨b', t1⟩, e1, e⟩ := Res.bind_eq_ok e
        rw [e1, Res.bind_ok]
        cases b' with
        | true =>
          rw [if_pos rfl] at e ⊢
          cases e
          exact ⟨_, rfl⟩
        | false =>
          rw [if_neg (by simp)] at e ⊢
          exact loop_indep e
      · rw [if_neg hm] at e ⊢
        exact loop_indep e

theorem loop_mono (hrec : ∀ t m e d r, rec t m e d = .ok r → rec' t m e d = .ok r) : ∀ {is : List Nat} {t : HTab} {r : Bool × HTab},
    HTab.cuckooLoop h rec mid e0 d is t = .ok r → HTab.cuckooLoop h rec' mid e0 d is t = .ok r
  | [], t, r, e => e
  | i :: is, t, r, e => by
    rw [HTab.cuckooLoop] at e ⊢
    cases hf : (t.bkt mid)[i]? with
    | none => rw [hf] at e; cases e
    | some f =>
      rw [hf] at e
      change (if t.other h mid f ≠ mid then
        (rec t (t.other h mid f) f (t.left h mid f d)).bind fun q => if q.1 = true then .ok (true, q.2.write mid i e0) else
          HTab.cuckooLoop h rec mid e0 d is q.2 else HTab.cuckooLoop h rec mid e0 d is t) = _ at e
      change (if t.other h mid f ≠ mid then
        (rec' t (t.other h mid f) f (t.left h mid f d)).bind fun q => if q.1 = true then .ok (true, q.2.write mid i e0) else
          HTab.cuckooLoop h rec' mid e0 d is q.2 else HTab.cuckooLoop h rec' mid e0 d is t) = _
      by_cases hm : t.other h mid f ≠ mid
      · rw [if_pos hm] at e ⊢
        obtain ⟨⟨b, t1⟩, e1, e⟩ := Res.bind_eq_ok e
        rw [hrec _ _ _ _ _ e1, Res.bind_ok]
        by_cases hb : b = true
        · rw [if_pos hb] at e ⊢; exact e
        · rw [if_neg hb] at e ⊢
          exact loop_mono hrec e
      · rw [if_neg hm] at e ⊢
        exact loop_mono hrec e
end loop

variable {n m mid d : Nat} {e0 e1 : Ent} {b : Bool}

theorem cuckoo_false : ∀ {n : Nat} {t t' : HTab} {mid d : Nat} {e : Ent}, t.cuckoo h n mid e d = .ok (false, t') → t' = t
  | 0, _, _, _, _, _, e => by cases e
  | n + 1, t, t', mid, d, e0, e => by
    rw [HTab.cuckoo] at e
    by_cases h1 : (t.bkt mid).length < 8
    · rw [if_pos h1] at e; cases e
    · rw [if_neg h1] at e
      by_cases h2 : d = 0
      · rw [if_pos h2] at e; cases e; rfl
      · rw [if_neg h2] at e
        exact (loop_false (fun _ _ _ _ e => cuckoo_false e) e).1

theorem cuckoo_indep (e : t.cuckoo h n mid e0 d = .ok (b, t')) : ∃ t'', t.cuckoo h n mid e1 d = .ok (b, t'') := by
  cases n with
  | zero => cases e
  | succ n =>
    rw [HTab.cuckoo] at e ⊢
    by_cases h1 : (t.bkt mid).length < 8
    · rw [if_pos h1] at e ⊢; cases e; exact ⟨_, rfl⟩
    · rw [if_neg h1] at e ⊢
      by_cases h2 : d = 0
      · rw [if_pos h2] at e ⊢; cases e; exact ⟨_, rfl⟩
      · rw [if_neg h2] at e ⊢
        exact loop_indep e

theorem cuckoo_succ : ∀ {n : Nat} {t : HTab} {mid d : Nat} {e0 : Ent} {r : Bool × HTab}, t.cuckoo h n mid e0 d = .ok r →
    t.cuckoo h (n + 1) mid e0 d = .ok r
  | 0, _, _, _, _, _, e => by cases e
  | n + 1, t, mid, d, e0, r, e => by
    rw [HTab.cuckoo] at e ⊢
    by_cases h1 : (t.bkt mid).length < 8
    · rw [if_pos h1] at e ⊢; exact e
    · rw [if_neg h1] at e ⊢
      by_cases h2 : d = 0
      · rw [if_pos h2] at e ⊢; exact e
      · rw [if_neg h2] at e ⊢
        exact loop_mono (fun _ _ _ _ _ e => cuckoo_succ e) e

theorem cuckoo_mono {r : Bool × HTab} (hnm : n ≤ m) (e : t.cuckoo h n mid e0 d = .ok r) : t.cuckoo h m mid e0 d = .ok r := by
  induction m with
  | zero => rw [Nat.le_zero.1 hnm] at e; exact e
  | succ m ih =>
    by_cases hc : n ≤ m
    · exact cuckoo_succ (ih hc)
    · rw [show m + 1 = n by omega]; exact e

/-- The recursion succeeds on this bucket, with any entry. -/
def Wins (h : Key → Nat) (t : HTab) (n mid d : Nat) : Prop := ∃ e t', t.cuckoo h n mid e d = .ok (true, t')

theorem not_both (e : t.cuckoo h n mid e0 d = .ok (false, t')) : ¬ Wins h t m mid d := by
  rintro ⟨e1, t1, hw⟩
  obtain ⟨t2, hw⟩ := cuckoo_indep (e1 := e0) hw
  have a := cuckoo_mono (Nat.le_max_left n m) e
  have c := cuckoo_mono (Nat.le_max_right n m) hw
  rw [a] at c
  cases c

theorem not_wins_zero (hf : (t.bkt mid).length = 8) : ¬ Wins h t n mid 0 := by
  rintro ⟨e, t', hw⟩
  cases n with
  | zero => cases hw
  | succ n =>
    rw [HTab.cuckoo, if_neg (by omega), if_pos rfl] at hw
    cases hw

/-- What a successful insertion does: nothing lost, nothing doubled, the buckets `V` untouched. -/
structure Placed (h : Key → Nat) (t t' : HTab) (e : Ent) (V : List Nat) : Prop where
  mask : t'.mask = t.mask
  ok : TabOK h t'
  all : t'.all.Perm (e :: t.all)
  keep : ∀ v ∈ V, t'.bkt v = t.bkt v

theorem EntOK.of_mask {b : Nat} (hm : t'.mask = t.mask) (he : EntOK h t b e) : EntOK h t' b e := by
  unfold EntOK HTab.first HTab.second at *
  rw [hm]
  exact he

theorem cuckoo_place (T : TabOK h t) : ∀ {n mid d : Nat} {e : Ent} {t' : HTab} {V : List Nat}, mid < t.bkts.length →
    t.cuckoo h n mid e d = .ok (true, t') → (∀ n' < n, ¬ Wins h t n' mid d) →
    (∀ v ∈ V, (t.bkt v).length = 8 ∧ ∀ d' ≤ d, ∀ n' ≤ n, ¬ Wins h t n' v d') →
    (d = 2 → ∃ n0 e0, t.cuckoo h n0 mid e0 1 = .ok (false, t)) → d ≤ 2 → EntOK h t mid e → Placed h t t' e V := by
  intro n
  induction n using Nat.strong_induction_on with
  | _ n ih =>
  intro mid d e t' V hmid hw hmin hV h2 hd he
  cases n with
  | zero => cases hw
  | succ n =>
    rw [HTab.cuckoo] at hw
    by_cases h1 : (t.bkt mid).length < 8
    · rw [if_pos h1] at hw
      cases hw
      refine ⟨rfl, T.push hmid h1 he, HTab.push_all hmid, fun v hv => ?_⟩
      have hne : v ≠ mid := by
        rintro rfl
        have := (hV v hv).1
        omega
      exact (HTab.upd_bkt hmid _ v).trans (if_neg hne)
    · rw [if_neg h1] at hw
      by_cases h0 : d = 0
      · rw [if_pos h0] at hw; cases hw
      · rw [if_neg h0] at hw
        have hfull : (t.bkt mid).length = 8 := by have := T.cap mid; omega
        obtain ⟨i, _, f, t1, hf, hother, hsub, rfl⟩ := loop_true (fun _ _ _ _ e => cuckoo_false e) hw
        have hfm : f ∈ t.bkt mid := List.mem_of_getElem? hf
        have hfe := T.loc mid f hfm
        have hf' : EntOK h t (t.other h mid f) f := by
          refine ⟨hfe.1, ?_⟩
          unfold HTab.other
          by_cases hc : t.first h f.key ≠ mid
          · rw [if_pos hc]; exact Or.inl rfl
          · rw [if_neg hc]; exact Or.inr rfl
        have hlt : t.other h mid f < t.bkts.length := by
          unfold HTab.other
          by_cases hc : t.first h f.key ≠ mid
          · rw [if_pos hc]; exact T.first_lt _
          · rw [if_neg hc]; exact T.second_lt _
        have hleft : t.left h mid f d ≤ d := by
          unfold HTab.left
          by_cases hc : t.other h mid f = t.first h f.key
          · rw [if_pos hc]
          · rw [if_neg hc]; omega
        -- the least fuel for the inner call
        classical
        have hex : ∃ m, Wins h t m (t.other h mid f) (t.left h mid f d) := ⟨n, f, t1, hsub⟩
        have hspec := Nat.find_spec hex
        have hle : Nat.find hex ≤ n := Nat.find_min' hex ⟨f, t1, hsub⟩
        have hmin' : ∀ n' < Nat.find hex, ¬ Wins h t n' (t.other h mid f) (t.left h mid f d) := fun n' hn' => Nat.find_min hex hn'
        obtain ⟨m, hm⟩ : ∃ m, m = Nat.find hex := ⟨_, rfl⟩
        rw [← hm] at hspec hle hmin'
        obtain ⟨f', t2, hw2⟩ := hspec
        obtain ⟨t3, hw3⟩ := cuckoo_indep (e1 := f) hw2
        have : t3 = t1 := by
          have a := cuckoo_mono hle hw3
          rw [hsub] at a
          cases a; rfl
        subst this
        have P := ih m (by omega) (V := mid :: V) hlt hw3 hmin' ?_ ?_ (by omega) hf'
        · have hk : t3.bkt mid = t.bkt mid := P.keep mid (by simp)
          have hlen : mid < t3.bkts.length := by rw [P.ok.len, P.mask, ← T.len]; exact hmid
          have hslot : (t3.bkt mid)[i]? = some f := by rw [hk]; exact hf
          have hw' := HTab.write_all (e := e) hlen hslot
          refine ⟨P.mask, P.ok.write hlen (he.of_mask P.mask), ?_, fun v hv => ?_⟩
          · have : (f :: (t3.write mid i e).all).Perm (f :: e :: t.all) :=
              hw'.trans ((P.all.cons e).trans (List.Perm.swap _ _ _))
            exact (List.perm_cons _).1 this
          · have hne : v ≠ mid := by
              rintro rfl
              exact (hV v hv).2 d (Nat.le_refl _) (n + 1) (Nat.le_refl _) ⟨e, _, by
                rw [HTab.cuckoo, if_neg h1, if_neg h0]; exact hw⟩
            exact ((HTab.upd_bkt hlen _ v).trans (if_neg hne)).trans (P.keep v (by simp [hv]))
        · intro v hv
          rcases List.mem_cons.1 hv with rfl | hv
          · refine ⟨hfull, fun d' hd' n' hn' => ?_⟩
            by_cases c0 : d' = d
            · subst c0
              exact hmin n' (by omega)
            · by_cases c1 : d' = 0
              · subst c1; exact not_wins_zero hfull
              · have e1 : d' = 1 := by omega
                have e2 : d = 2 := by omega
                subst e1
                obtain ⟨n0, e0, hz⟩ := h2 e2
                exact not_both hz
          · exact ⟨(hV v hv).1, fun d' hd' n' hn' => (hV v hv).2 d' (by omega) n' (by omega)⟩
        · intro hd2
          have e2 : d = 2 := by omega
          obtain ⟨n0, e0, hz⟩ := h2 e2
          have hhome : t.other h mid f = t.first h f.key := by
            by_contra hc
            unfold HTab.left at hd2
            rw [if_neg hc] at hd2
            omega
          cases n0 with
          | zero => cases hz
          | succ n0 =>
            rw [HTab.cuckoo, if_neg h1, if_neg (by omega)] at hz
            obtain ⟨-, hall⟩ := loop_false (fun _ _ _ _ e => cuckoo_false e) hz
            have hi8 : i < 8 := by
              obtain ⟨hi, _⟩ := List.getElem?_eq_some_iff.1 hf
              omega
            obtain ⟨f2, hf2, hr⟩ := hall i (List.mem_range.2 hi8)
            rw [hf] at hf2
            cases hf2
            refine ⟨n0, f, ?_⟩
            have := hr hother
            rwa [HTab.left, if_pos hhome] at this

/-- Without minimal fuel. -/
theorem cuckoo_done (T : TabOK h t) (hmid : mid < t.bkts.length) (hw : t.cuckoo h n mid e d = .ok (true, t'))
    (h2 : d = 2 → ∃ n0 e0, t.cuckoo h n0 mid e0 1 = .ok (false, t)) (hd : d ≤ 2) (he : EntOK h t mid e) :
    Placed h t t' e [] := by
  classical
  have hex : ∃ m, Wins h t m mid d := ⟨n, e, t', hw⟩
  obtain ⟨f, t2, hw2⟩ := Nat.find_spec hex
  obtain ⟨t3, hw3⟩ := cuckoo_indep (e1 := e) hw2
  have hle : Nat.find hex ≤ n := Nat.find_min' hex ⟨e, t', hw⟩
  have : t3 = t' := by
    have a := cuckoo_mono hle hw3
    rw [hw] at a
    cases a; rfl
  subst this
  exact cuckoo_place T hmid hw3 (fun n' hn' => Nat.find_min hex hn') (by simp) h2 hd he

theorem cuckoo_ne_ub (T : TabOK h t) : ∀ {n mid d : Nat} {e : Ent}, t.cuckoo h n mid e d ≠ .ub
  | 0, _, _, _ => by rw [HTab.cuckoo]; simp
  | n + 1, mid, d, e => by
    rw [HTab.cuckoo]
    by_cases h1 : (t.bkt mid).length < 8
    · rw [if_pos h1]; simp
    · rw [if_neg h1]
      by_cases h0 : d = 0
      · rw [if_pos h0]; simp
      · rw [if_neg h0]
        have hfull : (t.bkt mid).length = 8 := by have := T.cap mid; omega
        have hloop : ∀ is : List Nat, (∀ i ∈ is, i < 8) → HTab.cuckooLoop h (HTab.cuckoo h n) mid e d is t ≠ .ub := by
          intro is
          induction is with
          | nil => intro _; rw [HTab.cuckooLoop]; simp
          | cons i is ih =>
            intro hi
            rw [HTab.cuckooLoop]
            have hlt : i < (t.bkt mid).length := by rw [hfull]; exact hi i (by simp)
            rw [List.getElem?_eq_getElem hlt]
            dsimp only
            by_cases hm : t.other h mid (t.bkt mid)[i] ≠ mid
            · unfold HTab.other at hm
              rw [if_pos hm]
              cases hr : t.cuckoo h n (if t.first h (t.bkt mid)[i].key ≠ mid then t.first h (t.bkt mid)[i].key else
                  t.second h (t.bkt mid)[i].key) (t.bkt mid)[i]
                  (if (if t.first h (t.bkt mid)[i].key ≠ mid then t.first h (t.bkt mid)[i].key else
                  t.second h (t.bkt mid)[i].key) = t.first h (t.bkt mid)[i].key then d else d - 1) with
              | ub => exact absurd hr (cuckoo_ne_ub T)
              | hang => rw [Res.bind_hang]; simp
              | ok q =>
                rw [Res.bind_ok]
                by_cases hq : q.1 = true
                · rw [if_pos hq]; simp
                · rw [if_neg hq]
                  have : q.2 = t := cuckoo_false (t' := q.2) (by
                    rw [hr]
                    have : q.1 = false := by simpa using hq
                    rw [← this])
                  rw [this]
                  exact ih fun x hx => hi x (List.mem_cons_of_mem _ hx)
            · unfold HTab.other at hm
              rw [if_neg hm]
              exact ih fun x hx => hi x (List.mem_cons_of_mem _ hx)
        exact hloop _ fun i hi => List.mem_range.1 hi

end Verif
