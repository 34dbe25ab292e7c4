import Verif.Proof.Reach
import Verif.Proof.Config
import Verif.Proof.Defined

/-!
# Concrete histories used by the examples
-/

namespace Verif

/-- Executable form of `InsertFits`. -/
def fitsB (f : Filter) (key : Key) (split : Bool) : Bool :=
  let simple := match locate f.tree key with
    | .ok q => decide (q.2.2.1.elemCount + 1 < f.cfg.cap)
    | _ => true
  match split, planSplit f key with
  | true, .ok (some d) => decide (d.shamtL + f.cfg.infixSize ≤ 54) && decide (d.shamtG + f.cfg.infixSize ≤ 54) &&
      decide (d.left.length < f.cfg.cap) && decide (d.right.length < f.cfg.cap)
  | _, _ => simple

theorem fitsB_sound {f : Filter} {key : Key} {split : Bool} (h : fitsB f key split = true) : InsertFits f key split := by
  have simple : (match locate f.tree key with
    | .ok q => decide (q.2.2.1.elemCount + 1 < f.cfg.cap)
    | _ => true) = true → SimpleFits f key := by
    intro h i prev st next hl
    rw [hl] at h
    simpa using h
  unfold fitsB at h
  unfold InsertFits
  cases split with
  | false => exact simple h
  | true =>
    cases hp : planSplit f key with
    | ub => rw [hp] at h; exact simple h
    | hang => rw [hp] at h; exact simple h
    | ok o =>
      rw [hp] at h
      cases o with
      | none => exact simple h
      | some d =>
        simp only [Bool.and_eq_true, decide_eq_true_eq] at h
        exact ⟨h.1.1.1, h.1.1.2, h.1.2, h.2⟩

/-- Inserts with the outcome of the random generator at each. -/
def runOps : Res Filter → List (Key × Bool) → Res Filter
  | r, [] => r
  | r, (k, b) :: ops => runOps (r.bind fun f => insert f k b) ops

def runFits : Res Filter → List (Key × Bool) → Bool
  | _, [] => true
  | r, (k, b) :: ops =>
    (match r with
      | .ok f => fitsB f k b
      | _ => false) && runFits (r.bind fun f => insert f k b) ops

theorem runOps_ub (ops : List (Key × Bool)) : runOps .ub ops = .ub := by
  induction ops with
  | nil => rfl
  | cons a ops ih => obtain ⟨k, b⟩ := a; exact ih

theorem runOps_hang (ops : List (Key × Bool)) : runOps .hang ops = .hang := by
  induction ops with
  | nil => rfl
  | cons a ops ih => obtain ⟨k, b⟩ := a; exact ih

theorem runOps_built {c : Cfg} {n : Nat} : ∀ {ops : List (Key × Bool)} {f f' : Filter} {S : List Key}, Built c n f S →
    (∀ o ∈ ops, o.1.length = n) → runOps (.ok f) ops = .ok f' → Built c n f' ((ops.map Prod.fst).reverse ++ S)
  | [], f, f', S, h, _, e => by
    simp only [runOps, Res.ok.injEq] at e; subst e; simpa using h
  | (k, b) :: ops, f, f', S, h, hl, e => by
    simp only [runOps, Res.bind_ok] at e
    cases hi : insert f k b with
    | ub => rw [hi, runOps_ub] at e; cases e
    | hang => rw [hi, runOps_hang] at e; cases e
    | ok f1 =>
      rw [hi] at e
      have := runOps_built (h.insert (hl (k, b) (by simp)) hi) (fun o ho => hl o (by simp [ho])) e
      simpa using this

theorem runOps_builtFit {c : Cfg} {n : Nat} : ∀ {ops : List (Key × Bool)} {f f' : Filter} {S : List Key},
    BuiltFit c n f S → (∀ o ∈ ops, o.1.length = n) → runFits (.ok f) ops = true → runOps (.ok f) ops = .ok f' →
    BuiltFit c n f' ((ops.map Prod.fst).reverse ++ S)
  | [], f, f', S, h, _, _, e => by
    simp only [runOps, Res.ok.injEq] at e; subst e; simpa using h
  | (k, b) :: ops, f, f', S, h, hl, hf, e => by
    simp only [runOps, Res.bind_ok] at e
    simp only [runFits, Res.bind_ok, Bool.and_eq_true] at hf
    cases hi : insert f k b with
    | ub => rw [hi, runOps_ub] at e; cases e
    | hang => rw [hi, runOps_hang] at e; cases e
    | ok f1 =>
      rw [hi] at e hf
      have := runOps_builtFit (h.insert (hl (k, b) (by simp)) (fitsB_sound hf.1) hi) (fun o ho => hl o (by simp [ho])) hf.2 e
      simpa using this

/-- A history: loaded keys, then inserts. -/
def history (c : Cfg) (n : Nat) (K : List Key) (ops : List (Key × Bool)) : Res Filter := runOps (bulkFixed c n K) ops

theorem history_builtFit {c : Cfg} {n : Nat} {K : List Key} {ops : List (Key × Bool)} {f : Filter}
    (h1 : ∀ k ∈ K, k.length = n) (h2 : K.Pairwise fun a b => keyLt a b = true) (h3 : ∀ o ∈ ops, o.1.length = n)
    (h4 : runFits (bulkFixed c n K) ops = true) (h5 : history c n K ops = .ok f) :
    BuiltFit c n f ((ops.map Prod.fst).reverse ++ K) := by
  unfold history at h5
  cases hb : bulkFixed c n K with
  | ub => rw [hb, runOps_ub] at h5; cases h5
  | hang => rw [hb, runOps_hang] at h5; cases h5
  | ok f0 =>
    rw [hb] at h4 h5
    exact runOps_builtFit (.load h1 (h2.imp fun h => keyLt_keyLe h) hb) h3 h4 h5

theorem history_built {c : Cfg} {n : Nat} {K : List Key} {ops : List (Key × Bool)} {f : Filter}
    (h1 : ∀ k ∈ K, k.length = n) (h2 : K.Pairwise fun a b => keyLt a b = true) (h3 : ∀ o ∈ ops, o.1.length = n)
    (h5 : history c n K ops = .ok f) : Built c n f ((ops.map Prod.fst).reverse ++ K) := by
  unfold history at h5
  cases hb : bulkFixed c n K with
  | ub => rw [hb, runOps_ub] at h5; cases h5
  | hang => rw [hb, runOps_hang] at h5; cases h5
  | ok f0 =>
    rw [hb] at h5
    exact runOps_built (.load h1 (h2.imp fun h => keyLt_keyLe h) hb) h3 h5

theorem res_ok {α : Type} {r : Res α} (h : (match r with | .ok _ => true | _ => false) = true) : ∃ a, r = .ok a := by
  cases r with
  | ok a => exact ⟨a, rfl⟩
  | ub => cases h
  | hang => cases h

/-- Loaded keys of the sample history. -/
def sampleKeys : List Key :=
  [0x1000000000000000, 0x2000000000000000, 0x2000000000000001, 0x7000000000000000].map encodeInt

/-- Inserts of the sample history: a simple one, a split at a key with stored prefixes, a split without,
and a repetition. -/
def sampleOps : List (Key × Bool) :=
  [(encodeInt 0x2000000000000003, false), (encodeInt 0x2000000000000004, true), (encodeInt 0x3000000000000000, true),
    (encodeInt 0x6fffffffffffffff, false), (encodeInt 0x2000000000000003, false)]

theorem sample_exists : ∃ f, history (cfg95 5) 8 sampleKeys sampleOps = .ok f := res_ok (by decide +kernel)

/-- The state after the sample history. -/
noncomputable def sample : Filter := sample_exists.choose

theorem sample_eq : history (cfg95 5) 8 sampleKeys sampleOps = .ok sample := sample_exists.choose_spec

theorem sample_built : BuiltFit (cfg95 5) 8 sample ((sampleOps.map Prod.fst).reverse ++ sampleKeys) :=
  history_builtFit (by decide +kernel) (by decide +kernel) (by decide +kernel) (by decide +kernel) sample_eq

theorem cfg95_5 : (cfg95 5).WF := cfg95_wf 5 (by decide) (by decide)

/-- Evaluates a query on the sample. -/
theorem sample_query {α : Type} {q : Filter → Res α} {v : Res α}
    (h : (history (cfg95 5) 8 sampleKeys sampleOps).bind q = v) : q sample = v := by
  rw [sample_eq] at h; exact h

theorem sample_point {k : Key} {b : Bool}
    (h : (history (cfg95 5) 8 sampleKeys sampleOps).bind (fun f => pointQuery f k) = .ok b) :
    pointQuery sample k = .ok b := sample_query (q := fun f => pointQuery f k) h

theorem sample_range {io : Bool} {l r : Key} {b : Bool}
    (h : (history (cfg95 5) 8 sampleKeys sampleOps).bind (fun f => rangeQuery io f l r) = .ok b) :
    rangeQuery io sample l r = .ok b := sample_query (q := fun f => rangeQuery io f l r) h

theorem adjacent_mem {f : Filter} {p q : Key} : Adjacent f p q ↔ (p, q) ∈ (boundaries f).zip (boundaries f).tail := by
  unfold Adjacent
  rw [List.mem_iff_getElem?]
  simp only [List.getElem?_zip_eq_some, List.getElem?_tail]

theorem sample_boundaries : boundaries sample = [encodeInt 0, encodeInt 0x1000000000000000, [0x20, 0],
    encodeInt 0x3000000000000000, encodeInt 0x7000000000000000, encodeInt 0xffffffffffffffff] := by
  have h : (history (cfg95 5) 8 sampleKeys sampleOps).bind (fun f => .ok (boundaries f)) =
    .ok [encodeInt 0, encodeInt 0x1000000000000000, [0x20, 0],
    encodeInt 0x3000000000000000, encodeInt 0x7000000000000000, encodeInt 0xffffffffffffffff] := by decide +kernel
  rw [sample_eq] at h
  injection h

/-- The counters of the sample are far from overflow. -/
theorem sample_count : ∀ e ∈ sample.tree, e.2.elemCount ≤ 1000 := by
  have h : (history (cfg95 5) 8 sampleKeys sampleOps).bind
    (fun f => .ok (f.tree.all fun e => decide (e.2.elemCount ≤ 1000))) = .ok true := by decide +kernel
  rw [sample_eq] at h
  simpa using h

theorem sample_room : 2000 < sample.cfg.cap := by
  have h : (history (cfg95 5) 8 sampleKeys sampleOps).bind (fun f => .ok (decide (2000 < f.cfg.cap))) = .ok true := by
    decide +kernel
  rw [sample_eq] at h
  simpa using h

theorem sample_fits (k : Key) : SimpleFits sample k := fun _ _ _ _ hl => by
  have := sample_count _ (mem_of_locate hl); have := sample_room; simp only at *; omega

/-- Evaluates a query after one more simple insert. -/
theorem sample_insert {x k : Key} {b : Bool}
    (h : (history (cfg95 5) 8 sampleKeys (sampleOps ++ [(x, false)])).bind (fun f => pointQuery f k) = .ok b) :
    ∃ f', insert sample x false = .ok f' ∧ pointQuery f' k = .ok b := by
  have e : history (cfg95 5) 8 sampleKeys (sampleOps ++ [(x, false)]) =
    (history (cfg95 5) 8 sampleKeys sampleOps).bind fun f => insert f x false := rfl
  rw [e, sample_eq, Res.bind_ok] at h
  cases hi : insert sample x false with
  | ub => rw [hi] at h; cases h
  | hang => rw [hi] at h; cases h
  | ok f' => rw [hi] at h; exact ⟨f', rfl, h⟩

end Verif
