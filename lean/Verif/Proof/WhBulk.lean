import Verif.Proof.WhFilter

/-!
# Bulk load into the integer tree
-/

namespace Verif

theorem whEmpty_rep : WhRep Wh.empty [] := by
  have he : ∀ l ∈ Wh.empty, l = Leaf.new [] := fun l hl => by
    unfold Wh.empty at hl; simpa using hl
  have hen : (Leaf.new []).entries = [] := rfl
  refine ⟨fun l hl => ?_, ⟨_, [], rfl, rfl⟩, fun l hl => ?_, List.pairwise_singleton _ _, fun l hl e hee => ?_,
    List.pairwise_singleton _ _, rfl⟩
  · rw [he l hl]
    exact ⟨rfl, Nat.zero_le _, Nat.le_refl _, by rw [hen]; simp [Short], by rw [hen]; simp, by rw [hen]; simp⟩
  · rw [he l hl]; exact Nat.zero_le _
  · rw [he l hl, hen] at hee; simp at hee

/-- The two boundary keys of the constructor are in order. -/
def endsSorted (n : Nat) : Bool :=
  match (Wh.empty.put (List.replicate n 0) (Store.new growSep)).bind fun t =>
      t.put (List.replicate n 255) (Store.new growSep) with
  | .ok [l] => l.sorted == l.nr
  | _ => false

theorem endsSorted_all : ∀ n : Fin 9, endsSorted n = true := by decide +kernel

theorem whEnds_sorted {n : Nat} (hn : n ≤ 8) :
    ∃ t1 l, Wh.empty.put (List.replicate n 0) (Store.new growSep) = .ok t1 ∧
      t1.put (List.replicate n 255) (Store.new growSep) = .ok [l] ∧ l.sorted = l.nr := by
  have h : endsSorted n = true := endsSorted_all ⟨n, by omega⟩
  unfold endsSorted at h
  split at h
  · rename_i l hl
    obtain ⟨t1, h1, h2⟩ := Res.bind_eq_ok hl
    exact ⟨t1, l, h1, h2, by simpa using h⟩
  · cases h

/-- Both boundary keys of the constructor are in the tree and can be found. -/
structure EndsOK (n : Nat) (t : Wh) (m : Tree) : Prop where
  rep : WhRep t m
  fz : Findable t (List.replicate n 0)
  ff : Findable t (List.replicate n 255)
  mz : List.replicate n 0 ∈ keysOf m
  mf : List.replicate n 255 ∈ keysOf m

theorem EndsOK.put {n : Nat} {t : Wh} {m : Tree} (h : EndsOK n t m) {k : Key} (hk : k.length ≤ 8)
    (hnew : k ∈ keysOf m → k = List.replicate n 0 ∨ k = List.replicate n 255) (st : Store) :
    ∃ t', t.put k st = .ok t' ∧ EndsOK n t' (treePut m k st) := by
  have hf : Findable t k := by
    by_cases hm : k ∈ keysOf m
    · rcases hnew hm with rfl | rfl
      · exact h.fz
      · exact h.ff
    · exact findable_of_not_mem h.rep hm
  obtain ⟨t', e, r, f⟩ := put_spec h.rep hk hf st
  refine ⟨t', e, r, f _ h.fz ?_, f _ h.ff ?_, mem_treePut.2 (Or.inr h.mz), mem_treePut.2 (Or.inr h.mf)⟩
  · by_cases hz : List.replicate n 0 = k
    · exact Or.inr (hz ▸ h.mz)
    · exact Or.inl hz
  · by_cases hz : List.replicate n 255 = k
    · exact Or.inr (hz ▸ h.mf)
    · exact Or.inl hz

theorem whEnds {n : Nat} (hn : n ≤ 8) : ∃ t1 t, whAddTreeKey Wh.empty (List.replicate n 0) = .ok t1 ∧
    whAddTreeKey t1 (List.replicate n 255) = .ok t ∧
    EndsOK n t (addTreeKey (addTreeKey [] (List.replicate n 0)) (List.replicate n 255)) ∧
    ∀ k ∈ keysOf (addTreeKey (addTreeKey [] (List.replicate n 0)) (List.replicate n 255)),
      k = List.replicate n 0 ∨ k = List.replicate n 255 := by
  obtain ⟨t1, l, e1, e2, hl⟩ := whEnds_sorted hn
  have he : ∀ k, Findable Wh.empty k := fun k => findable_of_not_mem whEmpty_rep (by simp)
  obtain ⟨t1', e1', r1, f1⟩ := put_spec whEmpty_rep (k := List.replicate n 0) (by simpa using hn) (he _) (Store.new growSep)
  rw [e1] at e1'
  obtain rfl := Res.ok.inj e1'
  have hfind : Findable t1 (List.replicate n 255) := by
    by_cases hz : n = 0
    · subst hz
      intro l' hl' hh
      -- one leaf with one key
      have h1 : t1 = [⟨[], (Leaf.new []).slots.set 0 ([], Store.new growSep), 1, 1⟩] := (Res.ok.inj (e1.symm.trans rfl))
      rw [h1] at hl'
      rw [List.mem_singleton.1 hl'] at hh ⊢
      exact hh
    · refine f1 _ (he _) (Or.inl fun hc => hz ?_)
      cases n with
      | zero => rfl
      | succ n => simp [List.replicate_succ] at hc
  obtain ⟨t2', e2', r2, f2⟩ := put_spec r1 (k := List.replicate n 255) (by simpa using hn) hfind (Store.new growSep)
  rw [e2] at e2'
  obtain rfl := Res.ok.inj e2'
  have hall : ∀ k, Findable [l] k := fun k x hx => by
    rw [List.mem_singleton.1 hx]
    exact sees_of_sorted (r2.leaf l (by simp)) hl k
  refine ⟨t1, [l], e1, e2, ⟨r2, hall _, hall _, ?_, ?_⟩, fun k hk => ?_⟩
  · exact mem_treePut.2 (Or.inr (mem_treePut.2 (Or.inl rfl)))
  · exact mem_treePut.2 (Or.inl rfl)
  · rcases mem_treePut.1 hk with rfl | hk
    · exact Or.inr rfl
    · rcases mem_treePut.1 hk with rfl | hk
      · exact Or.inl rfl
      · simp at hk

/-- All boundaries so far are among the two ends and keys that do not occur from position `last` on. -/
structure LoadOK (n : Nat) (keys : List Key) (last : Nat) (t : Wh) (m : Tree) : Prop where
  ends : EndsOK n t m
  keys : ∀ k ∈ keysOf m, k = List.replicate n 0 ∨ k = List.replicate n 255 ∨
    ∀ i, last ≤ i → i < keys.length → keys.getD i [] ≠ k

theorem LoadOK.put {n : Nat} {keys : List Key} {last : Nat} {t : Wh} {m : Tree} (h : LoadOK n keys last t m)
    (hlen : ∀ k ∈ keys, k.length ≤ 8) (hl : last < keys.length) (st : Store) :
    ∃ t', t.put (keys.getD last []) st = .ok t' ∧ EndsOK n t' (treePut m (keys.getD last []) st) := by
  refine h.ends.put (hlen _ ?_) (fun hm => ?_) st
  · rw [List.getD_eq_getElem?_getD, List.getElem?_eq_getElem hl]; exact List.getElem_mem _
  · rcases h.keys _ hm with h1 | h1 | h1
    · exact Or.inl h1
    · exact Or.inr h1
    · exact absurd rfl (h1 last (Nat.le_refl _) hl)

theorem bulkRegion_wh {n : Nat} {keys : List Key} {last : Nat} {t : Wh} {m : Tree} (c : Cfg) (h : LoadOK n keys last t m)
    (hg : Grouped keys) (hlen : ∀ k ∈ keys, k.length ≤ 8) {j : Nat} (hlast : last ≤ j) (hj : j < keys.length)
    (mid : List Key) (g : Nat) :
    RelRes (LoadOK n keys j) (whBulkRegion c t (keys.getD last []) (keys.getD j []) mid g)
      (bulkRegion c m (keys.getD last []) (keys.getD j []) mid g) := by
  unfold whBulkRegion bulkRegion
  by_cases he : keys.getD last [] = keys.getD j []
  · rw [he]
    have : getFrame c.infixSize (keys.getD j []) (keys.getD j []) = .hang := by
      unfold getFrame
      rw [sii_none.2 (fun _ => rfl)]
    rw [this]; trivial
  have hlt : last < j := by
    rcases Nat.lt_or_eq_of_le hlast with h | rfl
    · exact h
    · exact absurd rfl he
  cases getFrame c.infixSize (keys.getD last []) (keys.getD j []) with
  | ub => trivial
  | hang => trivial
  | ok fr =>
    rw [Res.bind_ok, Res.bind_ok]
    obtain ⟨t', e, h'⟩ := h.put hlen (by omega) (loadList c (Store.new g) (bulkItems c.infixSize fr mid) fr.total false)
    rw [e]
    refine ⟨h', fun k' hk' => ?_⟩
    rcases mem_treePut.1 hk' with rfl | hk'
    · exact Or.inr (Or.inr fun i hi hil hc => he (hg last j i hlt hi hil hc.symm))
    · rcases h.keys k' hk' with h1 | h1 | h1
      · exact Or.inl h1
      · exact Or.inr (Or.inl h1)
      · exact Or.inr (Or.inr fun i hi => h1 i (by omega))

theorem bulkLoop_wh {n : Nat} {keys : List Key} (c : Cfg) (hnd : Grouped keys) (hlen : ∀ k ∈ keys, k.length ≤ 8) :
    ∀ (fuel j last : Nat) {t : Wh} {m : Tree}, LoadOK n keys last t m → 1 ≤ j → fuel + j = keys.length →
      last = 1024 * ((j - 1) / 1024) →
      RelRes (fun a b => a.2 = b.2 ∧ LoadOK n keys b.2 a.1 b.1 ∧ b.2 < keys.length) (whBulkLoop c keys fuel j last t)
        (bulkLoop c keys fuel j last m) := by
  intro fuel
  induction fuel with
  | zero =>
    intro j last t m h hj hs hl
    exact ⟨rfl, h, by rw [hl]; omega⟩
  | succ fuel ih =>
    intro j last t m h hj hs hl
    rw [whBulkLoop, bulkLoop]
    by_cases hc : j % 1024 = 0
    · rw [if_pos hc, if_pos hc]
      have hr := bulkRegion_wh c h hnd hlen (j := j) (by omega) (by omega) ((keys.drop (last + 1)).take 1023) growSep
      revert hr
      cases whBulkRegion c t (keys.getD last []) (keys.getD j []) ((keys.drop (last + 1)).take 1023) growSep <;>
        cases bulkRegion c m (keys.getD last []) (keys.getD j []) ((keys.drop (last + 1)).take 1023) growSep <;>
        intro hr <;> first | exact hr.elim | trivial | skip
      rw [Res.bind_ok, Res.bind_ok]
      have hr : LoadOK n keys j _ _ := hr
      rw [show last + 1024 = j by omega]
      exact ih (j + 1) j hr (by omega) (by omega) (by omega)
    · rw [if_neg hc, if_neg hc]
      exact ih (j + 1) last h (by omega) (by omega) (by omega)

theorem bulkFixed_wh {n : Nat} (hn : n ≤ 8) {keys : List Key} (c : Cfg) (hnd : Grouped keys) (hlen : ∀ k ∈ keys, k.length ≤ 8) :
    RelRes Twin (whBulkFixed c n keys) (bulkFixed c n keys) := by
  obtain ⟨t1, t, e1, e2, h, hk⟩ := whEnds hn
  unfold whBulkFixed bulkFixed
  rw [e1, Res.bind_ok, e2, Res.bind_ok]
  unfold whBulkCore bulkCore
  dsimp only
  by_cases hz : keys.length = 0
  · rw [if_pos hz, if_pos hz]; trivial
  · rw [if_neg hz, if_neg hz]
    have h0 : LoadOK n keys 0 t (addTreeKey (addTreeKey [] (List.replicate n 0)) (List.replicate n 255)) :=
      ⟨h, fun k hk' => (hk k hk').imp_right Or.inl⟩
    have hr := bulkLoop_wh c hnd hlen (keys.length - 1) 1 0 h0 (Nat.le_refl _) (by omega) (by omega)
    revert hr
    generalize whBulkLoop c keys (keys.length - 1) 1 0 t = X
    generalize bulkLoop c keys (keys.length - 1) 1 0
      (addTreeKey (addTreeKey [] (List.replicate n 0)) (List.replicate n 255)) = Y
    cases X <;> cases Y <;> intro hr <;> first | exact hr.elim | trivial | skip
    rename_i a b
    obtain ⟨ta, la⟩ := a
    obtain ⟨mb, lb⟩ := b
    obtain ⟨hl, h1, hlt⟩ := hr
    dsimp only at hl h1 hlt
    subst hl
    rw [Res.bind_ok, Res.bind_ok]
    dsimp only
    have hr2 := bulkRegion_wh c h1 hnd hlen (j := keys.length - 1) (by omega) (by omega)
      ((keys.drop (la + 1)).take (keys.length - 1 - (la + 1)))
      (findGrade c ((keys.drop (la + 1)).take (keys.length - 1 - (la + 1))).length 500 0)
    revert hr2
    generalize whBulkRegion c ta (keys.getD la []) _ _ _ = X
    generalize bulkRegion c mb (keys.getD la []) _ _ _ = Y
    cases X <;> cases Y <;> intro hr2 <;> first | exact hr2.elim | trivial | skip
    rename_i a b
    have hr2 : LoadOK n keys (keys.length - 1) a b := hr2
    rw [Res.bind_ok, Res.bind_ok, Res.bind_ok]
    by_cases hc : keys.length - 1 ≠ la
    · rw [if_pos hc, if_pos hc]
      obtain ⟨t', e, h'⟩ := hr2.put hlen (by omega) (Store.new growSep)
      unfold whAddTreeKey
      rw [e, Res.bind_ok]
      exact ⟨rfl, h'.rep⟩
    · rw [if_neg hc, if_neg hc, Res.bind_ok]
      exact ⟨rfl, hr2.ends.rep⟩

end Verif
