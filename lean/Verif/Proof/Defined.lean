import Verif.Proof.Answers

/-!
# When a simple insert is defined
-/

namespace Verif

theorem keyLt_of_lt_of_le {a b d : Key} (h1 : keyLt a b = true) (h2 : keyLe b d = true) : keyLt a d = true := by
  rcases keyLe_or_lt d a with h | h
  · have := keyLe_trans h2 h
    rw [keyLe_iff_not_lt, h1] at this; cases this
  · exact h

theorem locate_of {f : Filter} (h : FilterOK f) {A B : Tree} {prev next key : Key} {st st' : Store}
    (ht : f.tree = A ++ (prev, st) :: (next, st') :: B) (h1 : keyLe prev key = true) (h2 : keyLt key next = true) :
    locate f.tree key = .ok (A.length, prev, st, next) := by
  have hA : ∀ a ∈ A, keyLt a.1 prev = true := fun a ha => keyLt_of_padLt (h.before ht ha)
  by_cases he : prev = key
  · subst he
    have hs := seek_append (B := (next, st') :: B) (e := (prev, st)) hA (keyLe_refl _)
    unfold locate
    rw [ht, hs]
    simp only [peek_append, Res.bind_ok, beq_self_eq_true, if_true]
    have : treePeek (A ++ (prev, st) :: (next, st') :: B) (A.length + 1) = .ok (next, st') := by
      have := peek_append (A := A ++ [(prev, st)]) (e := (next, st')) (B := B)
      simpa using this
    rw [this]; rfl
  · have hlt : keyLt prev key = true := keyLt_iff.2 ⟨h1, he⟩
    have hA' : ∀ a ∈ A ++ [(prev, st)], keyLt a.1 key = true := by
      intro a ha
      rcases List.mem_append.1 ha with ha | ha
      · exact keyLt_of_lt_of_le (hA a ha) h1
      · simp only [List.mem_singleton] at ha; subst ha; exact hlt
    have hs := seek_append (B := B) (e := (next, st')) hA' (keyLt_keyLe h2)
    have e : A ++ (prev, st) :: (next, st') :: B = (A ++ [(prev, st)]) ++ (next, st') :: B := by simp
    unfold locate
    rw [ht, e, hs]
    simp only [peek_append, Res.bind_ok]
    rw [if_neg (by simpa using keyLt_ne h2), if_neg (by simp), ← e]
    have : (A ++ [(prev, st)]).length - 1 = A.length := by simp
    rw [this, peek_append]; rfl

theorem locate_cases (f : Filter) (key : Key) :
    locate f.tree key = .ub ∨ ∃ q, locate f.tree key = .ok q := by
  have peek : ∀ i, treePeek f.tree i = .ub ∨ ∃ e, treePeek f.tree i = .ok e := by
    intro i
    unfold treePeek
    cases f.tree[i]? with
    | none => exact Or.inl rfl
    | some e => exact Or.inr ⟨e, rfl⟩
  unfold locate
  dsimp only
  rcases peek (treeSeek f.tree key) with h0 | ⟨e, h0⟩
  · rw [h0]; exact Or.inl rfl
  · rw [h0, Res.bind_ok]
    by_cases h1 : (e.1 == key) = true
    · rw [if_pos h1]
      rcases peek (treeSeek f.tree key + 1) with h3 | ⟨e', h3⟩
      · rw [h3]; exact Or.inl rfl
      · rw [h3]; exact Or.inr ⟨_, rfl⟩
    · rw [if_neg h1]
      by_cases h2 : treeSeek f.tree key = 0
      · rw [if_pos h2]; exact Or.inl rfl
      · rw [if_neg h2]
        rcases peek (treeSeek f.tree key - 1) with h3 | ⟨e', h3⟩
        · rw [h3]; exact Or.inl rfl
        · rw [h3]; exact Or.inr ⟨_, rfl⟩

/-- A simple insert returns exactly if the key lies in a region; otherwise it has no defined behaviour. -/
theorem insertSimple_defined {f : Filter} (h : FilterOK f) (key : Key) :
    (insertSimple f key = .ub ∨ ∃ f', insertSimple f key = .ok f') ∧
    ((∃ f', insertSimple f key = .ok f') ↔ ∃ prev next, Adjacent f prev next ∧ keyLe prev key = true ∧ keyLt key next = true) := by
  have ok : ∀ {A B : Tree} {prev next : Key} {st st' : Store}, f.tree = A ++ (prev, st) :: (next, st') :: B →
      locate f.tree key = .ok (A.length, prev, st, next) → ∃ f', insertSimple f key = .ok f' := by
    intro A B prev next st st' ht hl
    obtain ⟨sh, ig, imp, L, R⟩ := h.region ht
    obtain ⟨fr, hf, _⟩ := R.frame h.wf
    unfold insertSimple
    simp only [hl, Res.bind_ok]
    simp only at hf
    rw [hf]
    exact ⟨_, rfl⟩
  rcases locate_cases f key with hl | ⟨⟨i, prev, st, next⟩, hl⟩
  · have hu : insertSimple f key = .ub := by
      unfold insertSimple
      rw [hl]; rfl
    refine ⟨Or.inl hu, ⟨fun ⟨f', e⟩ => (by rw [hu] at e; cases e), ?_⟩⟩
    rintro ⟨prev, next, hadj, h1, h2⟩
    obtain ⟨A, st, st', B, ht⟩ := hadj.split
    rw [locate_of h ht h1 h2] at hl
    cases hl
  · obtain ⟨A, st', B, ht, rfl, h1, h2⟩ := locate_spec h hl
    have := ok ht hl
    exact ⟨Or.inr this, fun _ => ⟨prev, next, adjacent_of ht, h1, h2⟩, fun _ => this⟩

/-- A sequence of simple inserts returns exactly if every key lies in a region. -/
theorem runSimple_defined {f : Filter} (h : FilterOK f) {ks : List Key}
    (hcnt : ∀ e ∈ f.tree, e.2.elemCount + ks.length < f.cfg.cap) :
    (∃ f', runSimple (.ok f) ks = .ok f') ↔
      ∀ k ∈ ks, ∃ prev next, Adjacent f prev next ∧ keyLe prev k = true ∧ keyLt k next = true := by
  induction ks generalizing f with
  | nil => simp [runSimple]
  | cons key ks ih =>
    have hins : insert f key false = insertSimple f key := by unfold insert; simp
    obtain ⟨hd1, hd2⟩ := insertSimple_defined h key
    simp only [runSimple, Res.bind_ok, hins, List.length_cons] at hcnt ⊢
    rcases hd1 with hu | ⟨f1, h1⟩
    · rw [hu, runSimple_ub]
      constructor
      · rintro ⟨_, e⟩; cases e
      · intro hh
        obtain ⟨f', e⟩ := hd2.2 (hh key (by simp))
        rw [hu] at e; cases e
    · rw [h1]
      have hfit : SimpleFits f key := fun i prev st next hl => by
        have := hcnt _ (mem_of_locate hl); simp only at this; omega
      obtain ⟨a1, a2, a3, a4, _, _, a7⟩ := insertSimple_cells h h1 hfit
      have hc1 : ∀ e ∈ f1.tree, e.2.elemCount + ks.length < f1.cfg.cap := by
        intro e he
        rw [a2]
        have := a7 (f.cfg.cap - 1 - (ks.length + 1)) (fun e he => by have := hcnt e he; omega) e he
        have h0 := hcnt
        by_cases ht : f.tree = []
        · obtain ⟨p, nx, hadj, _⟩ := a4
          obtain ⟨A, st, st', B, e⟩ := hadj.split
          rw [ht] at e; simp at e
        · obtain ⟨x, hx⟩ := List.exists_mem_of_ne_nil _ ht
          have := h0 x hx
          omega
      rw [ih a1 hc1]
      simp only [Adjacent.congr a3]
      constructor
      · intro hh k hk
        rcases List.mem_cons.1 hk with rfl | hk
        · exact a4
        · exact hh k hk
      · intro hh k hk
        exact hh k (List.mem_cons_of_mem _ hk)

end Verif
