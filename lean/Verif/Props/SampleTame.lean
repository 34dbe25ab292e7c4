import Verif.Proof.Plain
import Verif.Props.SampleDel

/-!
# A concrete tame history used by the examples
-/

namespace Verif

instance (s q : Nat) (prev : Key) (x : Nat) (k : Key) : Decidable (PrefixItem s q prev x k) := by
  unfold PrefixItem; infer_instance

instance (f : Filter) (p : Key × Store) (q : Nat) (k : Key) : Decidable (Removes f p q k) := by
  unfold Removes; infer_instance

/-- Neighbouring boundaries with the boundary before them. -/
def triples : Option (Key × Store) → Tree → List (Option (Key × Store) × (Key × Store) × (Key × Store))
  | a, p :: e :: B => (a, p, e) :: triples (some p) (e :: B)
  | _, _ => []

theorem triples_mem {p e : Key × Store} {B : Tree} : ∀ {A : Tree} {o : Option (Key × Store)},
    ((A.getLast?).or o, p, e) ∈ triples o (A ++ p :: e :: B)
  | [], o => by simp [triples]
  | [x], o => by simp [triples]
  | x :: y :: A, o => by
    have := triples_mem (p := p) (e := e) (B := B) (A := y :: A) (o := some x)
    simp only [List.cons_append, triples, List.mem_cons] at this ⊢
    right
    rw [show (x :: y :: A).getLast?.or o = (y :: A).getLast?.or (some x) by
      rw [List.getLast?_cons_cons, List.getLast?_cons]; rfl]
    exact this

def looseB (c : Cfg) (st : Store) : Bool :=
  (List.range (c.size st.sizeGrade)).any fun i => getSlot st.mem (c.size st.sizeGrade) c.infixSize i != 0 &&
    (List.range (c.size st.sizeGrade)).any fun k => decide (i < k) && getSlot st.mem (c.size st.sizeGrade) c.infixSize k == 0

theorem looseB_sound {c : Cfg} {st : Store} (h : looseB c st = true) : Loose c st := by
  unfold looseB at h
  rw [List.any_eq_true] at h
  obtain ⟨i, _, h⟩ := h
  rw [Bool.and_eq_true, List.any_eq_true] at h
  obtain ⟨h1, k, hk, h2⟩ := h
  simp only [Bool.and_eq_true, decide_eq_true_eq, beq_iff_eq, bne_iff_ne] at h1 h2
  exact ⟨i, k, h2.1, List.mem_range.1 hk, h1, h2.2⟩

/-- Check of `TameAt`. -/
def tameAtB (ins : Bool) (f : Filter) (k : Key) (o : Option (Key × Store)) (p e : Key × Store) : Bool :=
  if keyLe p.1 k && keyLt k e.1 then
    match sharedIgnoreImplicit p.1 e.1 with
    | none => false
    | some (sh, ig, imp) =>
      if Removes f p (sh + ig + imp) k then
        (!p.2.isPartial || decide (pre (boundaryLen p) k = pre (boundaryLen p) p.1)) &&
        match o with
        | none => true
        | some a => decide ((itemsOf f a.1).length + (itemsOf f p.1).length < f.cfg.cap) &&
          match sharedIgnoreImplicit a.1 e.1 with
          | none => false
          | some (sh', ig', imp') => (itemsOf f p.1).all fun x =>
            !decide (PrefixItem f.cfg.infixSize (sh + ig + imp) p.1 x p.1) ||
              decide (sh' + ig' + imp' + f.cfg.infixSize - 1 ≤ itemLen f.cfg.infixSize (sh + ig + imp) x)
      else !ins || looseB f.cfg (deleteBase f.cfg p.2 (gap p.1 e.1 (sh + ig + imp) + 1))
  else true

def tameB (ins : Bool) (f : Filter) (k : Key) : Bool :=
  (triples none f.tree).all fun t => tameAtB ins f k t.1 t.2.1 t.2.2

theorem tameB_sound {ins : Bool} {f : Filter} {k : Key} (hw : FilterW f) (h : tameB ins f k = true) : DeleteTame ins f k := by
  intro A p e B q ht h1 h2 hq
  unfold tameB at h
  rw [List.all_eq_true] at h
  have := h _ (by rw [ht]; exact triples_mem)
  unfold tameAtB at this
  obtain ⟨sh, ig, imp, L, R⟩ := hw.region ht
  dsimp only at this
  rw [if_pos (by rw [h1, h2]; rfl), R.sii] at this
  dsimp only at this
  have hq' := hq.unique (R.lengths.level R.lt)
  subst hq'
  by_cases hr : Removes f p (sh + ig + imp) k
  · rw [if_pos hr, Bool.and_eq_true] at this
    obtain ⟨t1, t2⟩ := this
    refine ⟨fun hp _ => by simpa [hp] using t1, fun _ A' a N hA hN => ?_, fun _ A' a hA => ?_, fun _ hn => absurd hr hn⟩
    · subst hA
      simp only [List.getLast?_append, List.getLast?_singleton, Option.some_or, Bool.and_eq_true] at t2
      cases hs : sharedIgnoreImplicit a.1 e.1 with
      | none => rw [hs] at t2; simp at t2
      | some v =>
        obtain ⟨sh', ig', imp'⟩ := v
        rw [hs] at t2
        have ht3 : f.tree = A' ++ a :: p :: e :: B := by rw [ht]; simp
        obtain ⟨_, _, _, _, Ra⟩ := hw.region ht3
        have hlt := Ra.lt.trans_le (fun w => R.lt.le w)
        have := hN.unique ((sii_spec hs).level hlt)
        subst this
        intro x hx hxp
        have := (List.all_eq_true.1 t2.2) x hx
        simpa [hxp] using this
    · subst hA
      simp only [List.getLast?_append, List.getLast?_singleton, Option.some_or, Bool.and_eq_true, decide_eq_true_eq] at t2
      exact t2.1
  · rw [if_neg hr] at this
    refine ⟨fun _ h => absurd h hr, fun h => absurd h hr, fun h => absurd h hr, fun hi _ => ?_⟩
    subst hi
    exact looseB_sound (by simpa using this)

/-- One operation with the side conditions of `OpsTame`; `ub` if they fail. -/
def Op.stepTame (q : Filter × List Key) : Op → Res (Filter × List Key)
  | .ins k b => Op.step q (.ins k b)
  | .del k => if tameB true q.1 (encodeInt k) = true then Op.step q (.del k) else .ub

def runTame : Res (Filter × List Key) → List Op → Res (Filter × List Key)
  | r, [] => r
  | r, o :: l => runTame (r.bind fun q => o.stepTame q) l

theorem runTame_ub (l : List Op) : runTame .ub l = .ub := by
  induction l with
  | nil => rfl
  | cons a l ih => exact ih

theorem runTame_hang (l : List Op) : runTame .hang l = .hang := by
  induction l with
  | nil => rfl
  | cons a l ih => exact ih

theorem runTame_ops {c : Cfg} (hc : c.WF) : ∀ {l : List Op} {q q' : Filter × List Key}, OpsTame c 8 true q.1 q.2 →
    runTame (.ok q) l = .ok q' → OpsTame c 8 true q'.1 q'.2
  | [], q, q', h, e => by
    simp only [runTame, Res.ok.injEq] at e; subst e; exact h
  | o :: l, q, q', h, e => by
    simp only [runTame, Res.bind_ok] at e
    cases hs : o.stepTame q with
    | ub => rw [hs, runTame_ub] at e; cases e
    | hang => rw [hs, runTame_hang] at e; cases e
    | ok q1 =>
      rw [hs] at e
      refine runTame_ops hc ?_ e
      cases o with
      | ins k b =>
        dsimp only [Op.stepTame, Op.step] at hs
        split_ifs at hs with hc
        cases hi : insert q.1 (encodeInt k) b with
        | ub => rw [hi] at hs; cases hs
        | hang => rw [hi] at hs; cases hs
        | ok f =>
          rw [hi, Res.bind_ok] at hs
          injection hs with hs
          subst hs
          exact h.insert hc.1 (fitsB_sound hc.2) hi
      | del k =>
        dsimp only [Op.stepTame, Op.step] at hs
        split_ifs at hs with h1 h2
        cases hi : delete q.1 (encodeInt k) with
        | ub => rw [hi] at hs; cases hs
        | hang => rw [hi] at hs; cases hs
        | ok f =>
          rw [hi, Res.bind_ok] at hs
          injection hs with hs
          subst hs
          exact h.delete h2 id (tameB_sound (h.inv hc (by decide)).weak h1) hi

/-- A tame history of an 8-byte filter. -/
def opsTame (s : Nat) (K : List Nat) (l : List Op) : Res (Filter × List Key) :=
  runTame ((bulkFixed (cfg95 s) 8 (K.map encodeInt)).bind fun f => .ok (f, K.map encodeInt)) l

theorem opsTame_ops {s : Nat} (hc : (cfg95 s).WF) {K : List Nat} {l : List Op} {q : Filter × List Key}
    (h1 : ∀ k ∈ K.map encodeInt, k.length = 8) (h2 : (K.map encodeInt).IsChain fun a b => keyLt a b = true)
    (h : opsTame s K l = .ok q) : OpsTame (cfg95 s) 8 true q.1 q.2 := by
  unfold opsTame at h
  have h2' : (K.map encodeInt).Pairwise fun a b => keyLt a b = true := by
    have : IsTrans Key (fun a b => keyLt a b = true) := ⟨fun _ _ _ h g => keyLt_of_le_of_lt (keyLt_keyLe h) g⟩
    exact h2.pairwise
  cases hb : bulkFixed (cfg95 s) 8 (K.map encodeInt) with
  | ub => rw [hb, show Res.bind Res.ub _ = Res.ub from rfl, runTame_ub] at h; cases h
  | hang => rw [hb, show Res.bind Res.hang _ = Res.hang from rfl, runTame_hang] at h; cases h
  | ok f =>
    rw [hb, Res.bind_ok] at h
    exact runTame_ops hc (OpsTame.strict h1 h2' hb) h

/-- Evaluates a check on the state after a tame history. -/
theorem opsTame_eval {s : Nat} (hc : (cfg95 s).WF) {K : List Nat} {l : List Op} {α : Type} {g : Filter × List Key → Res α}
    {v : α} (h1 : ∀ k ∈ K.map encodeInt, k.length = 8) (h2 : (K.map encodeInt).IsChain fun a b => keyLt a b = true)
    (h : (opsTame s K l).bind g = .ok v) : ∃ f S, OpsTame (cfg95 s) 8 true f S ∧ g (f, S) = .ok v := by
  cases hr : opsTame s K l with
  | ub => rw [hr] at h; cases h
  | hang => rw [hr] at h; cases h
  | ok q => rw [hr, Res.bind_ok] at h; exact ⟨q.1, q.2, opsTame_ops hc h1 h2 hr, h⟩

def plainIns : Res (Filter × List Key) → List Nat → Res (Filter × List Key)
  | r, [] => r
  | r, k :: l => plainIns (r.bind fun q => (insert q.1 (encodeInt k) false).bind fun f => .ok (f, encodeInt k :: q.2)) l

def plainDel : Res (Filter × List Key) → List Nat → Res (Filter × List Key)
  | r, [] => r
  | r, k :: l => plainDel (r.bind fun q => if encodeInt k ∈ q.2 then
      (delete q.1 (encodeInt k)).bind fun f => .ok (f, q.2.erase (encodeInt k)) else .ub) l

theorem plainIns_fail {r : Res (Filter × List Key)} (hr : r = .ub ∨ r = .hang) (l : List Nat) (q : Filter × List Key) :
    plainIns r l ≠ .ok q := by
  induction l generalizing r with
  | nil => rcases hr with rfl | rfl <;> simp [plainIns]
  | cons a l ih => rcases hr with rfl | rfl <;> exact ih (by simp [Res.bind])

theorem plainDel_fail {r : Res (Filter × List Key)} (hr : r = .ub ∨ r = .hang) (l : List Nat) (q : Filter × List Key) :
    plainDel r l ≠ .ok q := by
  induction l generalizing r with
  | nil => rcases hr with rfl | rfl <;> simp [plainDel]
  | cons a l ih => rcases hr with rfl | rfl <;> exact ih (by simp [Res.bind])

theorem plainIns_ops {c : Cfg} : ∀ {l : List Nat} {m : Nat} {q q' : Filter × List Key}, OpsPlain c 8 m true q.1 q.2 →
    (∀ k ∈ l, (encodeInt k).length = 8) → plainIns (.ok q) l = .ok q' → OpsPlain c 8 (m + l.length) true q'.1 q'.2
  | [], m, q, q', h, _, e => by
    simp only [plainIns, Res.ok.injEq] at e; subst e; exact h
  | k :: l, m, q, q', h, hl, e => by
    simp only [plainIns, Res.bind_ok] at e
    cases hi : insert q.1 (encodeInt k) false with
    | ub => rw [hi] at e; exact absurd e (plainIns_fail (.inl rfl) _ _)
    | hang => rw [hi] at e; exact absurd e (plainIns_fail (.inr rfl) _ _)
    | ok f =>
      rw [hi, Res.bind_ok] at e
      have := plainIns_ops (h.insert (hl k (by simp)) hi) (fun x hx => hl x (by simp [hx])) e
      rw [List.length_cons, show m + (l.length + 1) = m + 1 + l.length by omega]
      exact this

theorem plainDel_ops {c : Cfg} : ∀ {l : List Nat} {m : Nat} {ins : Bool} {q q' : Filter × List Key},
    OpsPlain c 8 m ins q.1 q.2 → plainDel (.ok q) l = .ok q' → ∃ ins', OpsPlain c 8 m ins' q'.1 q'.2
  | [], m, ins, q, q', h, e => by
    simp only [plainDel, Res.ok.injEq] at e; subst e; exact ⟨_, h⟩
  | k :: l, m, ins, q, q', h, e => by
    simp only [plainDel, Res.bind_ok] at e
    split_ifs at e with hk
    · cases hi : delete q.1 (encodeInt k) with
      | ub => rw [hi] at e; exact absurd e (plainDel_fail (.inl rfl) _ _)
      | hang => rw [hi] at e; exact absurd e (plainDel_fail (.inr rfl) _ _)
      | ok f =>
        rw [hi, Res.bind_ok] at e
        exact plainDel_ops (h.delete hk hi) e
    · exact absurd e (plainDel_fail (.inl rfl) _ _)

/-- A history without splits of an 8-byte filter. -/
def opsPlain (s : Nat) (K I D : List Nat) : Res (Filter × List Key) :=
  plainDel (plainIns ((bulkFixed (cfg95 s) 8 (K.map encodeInt)).bind fun f => .ok (f, K.map encodeInt)) I) D

theorem opsPlain_eval {s : Nat} {K I D : List Nat} {α : Type} {g : Filter × List Key → Res α}
    {v : α} (h1 : ∀ k ∈ K.map encodeInt, k.length = 8) (h2 : (K.map encodeInt).IsChain fun a b => keyLt a b = true)
    (h3 : ∀ k ∈ I, (encodeInt k).length = 8)
    (h : (opsPlain s K I D).bind g = .ok v) :
    ∃ ins f S, OpsPlain (cfg95 s) 8 (K.length + I.length) ins f S ∧ g (f, S) = .ok v := by
  obtain ⟨q, hq, hg⟩ := bind_ok_iff.1 h
  unfold opsPlain at hq
  have h2' : (K.map encodeInt).Pairwise fun a b => keyLt a b = true := by
    have : IsTrans Key (fun a b => keyLt a b = true) := ⟨fun _ _ _ h g => keyLt_of_le_of_lt (keyLt_keyLe h) g⟩
    exact h2.pairwise
  cases hb : bulkFixed (cfg95 s) 8 (K.map encodeInt) with
  | ub =>
    rw [hb] at hq
    cases hi : plainIns (Res.bind Res.ub fun f => .ok (f, K.map encodeInt)) I with
    | ok r => exact absurd hi (plainIns_fail (.inl rfl) _ _)
    | ub => rw [hi] at hq; exact absurd hq (plainDel_fail (.inl rfl) _ _)
    | hang => rw [hi] at hq; exact absurd hq (plainDel_fail (.inr rfl) _ _)
  | hang =>
    rw [hb] at hq
    cases hi : plainIns (Res.bind Res.hang fun f => .ok (f, K.map encodeInt)) I with
    | ok r => exact absurd hi (plainIns_fail (.inr rfl) _ _)
    | ub => rw [hi] at hq; exact absurd hq (plainDel_fail (.inl rfl) _ _)
    | hang => rw [hi] at hq; exact absurd hq (plainDel_fail (.inr rfl) _ _)
  | ok f =>
    rw [hb, Res.bind_ok] at hq
    cases hi : plainIns (.ok (f, K.map encodeInt)) I with
    | ub => rw [hi] at hq; exact absurd hq (plainDel_fail (.inl rfl) _ _)
    | hang => rw [hi] at hq; exact absurd hq (plainDel_fail (.inr rfl) _ _)
    | ok r =>
      rw [hi] at hq
      have := plainIns_ops (OpsPlain.load h1 h2' hb) h3 hi
      rw [List.length_map] at this
      obtain ⟨ins', h⟩ := plainDel_ops this hq
      exact ⟨ins', q.1, q.2, h, hg⟩

end Verif
