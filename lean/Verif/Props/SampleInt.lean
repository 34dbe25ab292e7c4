import Verif.Proof.IntStates
import Verif.Props.SampleTame

/-!
# Running histories on the integer tree
-/

namespace Verif

def calmB (w : WhFilter) (k : Key) : Bool :=
  match delete w.flat k with
  | .ok f' => (boundaries w.flat).all fun b => decide (b ∈ boundaries f') || !mergeHazard w.tree b
  | _ => true

theorem calmB_sound {w : WhFilter} {k : Key} (h : calmB w k = true) : DeleteCalm w k := by
  intro f' b hd hb hb'
  unfold calmB at h
  rw [hd] at h
  have := List.all_eq_true.1 h b hb
  simpa [hb'] using this

/-- One operation with the side conditions of `IntOps`; `ub` if they fail. -/
def Op.stepInt (q : WhFilter × List Key) : Op → Res (WhFilter × List Key)
  | .ins k b =>
    if (encodeInt k).length = 8 ∧ fitsB q.1.flat (encodeInt k) b = true then
      (whInsert q.1 (encodeInt k) b).bind fun f => .ok (f, encodeInt k :: q.2)
    else .ub
  | .del k =>
    if encodeInt k ∈ q.2 ∧ tameB true q.1.flat (encodeInt k) = true ∧ calmB q.1 (encodeInt k) = true then
      (whDelete q.1 (encodeInt k)).bind fun f => .ok (f, q.2.erase (encodeInt k))
    else .ub

def runInt : Res (WhFilter × List Key) → List Op → Res (WhFilter × List Key)
  | r, [] => r
  | r, o :: l => runInt (r.bind fun q => o.stepInt q) l

theorem runInt_ub (l : List Op) : runInt .ub l = .ub := by
  induction l with
  | nil => rfl
  | cons a l ih => exact ih

theorem runInt_hang (l : List Op) : runInt .hang l = .hang := by
  induction l with
  | nil => rfl
  | cons a l ih => exact ih

theorem runInt_ops {c : Cfg} (hc : c.WF) : ∀ {l : List Op} {q q' : WhFilter × List Key}, IntOps c 8 true q.1 q.2 →
    runInt (.ok q) l = .ok q' → IntOps c 8 true q'.1 q'.2
  | [], q, q', h, e => by
    simp only [runInt, Res.ok.injEq] at e; subst e; exact h
  | o :: l, q, q', h, e => by
    simp only [runInt, Res.bind_ok] at e
    cases hs : o.stepInt q with
    | ub => rw [hs, runInt_ub] at e; cases e
    | hang => rw [hs, runInt_hang] at e; cases e
    | ok q1 =>
      rw [hs] at e
      refine runInt_ops hc ?_ e
      cases o with
      | ins k b =>
        dsimp only [Op.stepInt] at hs
        split_ifs at hs with hc
        obtain ⟨f, hi, hs⟩ := Res.bind_eq_ok hs
        injection hs with hs
        subst hs
        exact h.insert hc.1 (fitsB_sound hc.2) hi
      | del k =>
        dsimp only [Op.stepInt] at hs
        split_ifs at hs with h1
        obtain ⟨f, hi, hs⟩ := Res.bind_eq_ok hs
        injection hs with hs
        subst hs
        exact h.delete h1.1 id (tameB_sound ((h.sound hc (by decide)).2.inv hc (by decide)).weak h1.2.1) (calmB_sound h1.2.2) hi

/-- A history of an 8-byte filter on the integer tree. -/
def opsInt (s : Nat) (K : List Nat) (l : List Op) : Res (WhFilter × List Key) :=
  runInt ((whBulkFixed (cfg95 s) 8 (K.map encodeInt)).bind fun f => .ok (f, K.map encodeInt)) l

theorem opsInt_ops {s : Nat} (hc : (cfg95 s).WF) {K : List Nat} {l : List Op} {q : WhFilter × List Key}
    (h1 : ∀ k ∈ K.map encodeInt, k.length = 8) (h2 : (K.map encodeInt).IsChain fun a b => keyLt a b = true)
    (h : opsInt s K l = .ok q) : IntOps (cfg95 s) 8 true q.1 q.2 := by
  unfold opsInt at h
  have h2' : (K.map encodeInt).Pairwise fun a b => keyLt a b = true := by
    have : IsTrans Key (fun a b => keyLt a b = true) := ⟨fun _ _ _ h g => keyLt_of_le_of_lt (keyLt_keyLe h) g⟩
    exact h2.pairwise
  cases hb : whBulkFixed (cfg95 s) 8 (K.map encodeInt) with
  | ub => rw [hb, show Res.bind Res.ub _ = Res.ub from rfl, runInt_ub] at h; cases h
  | hang => rw [hb, show Res.bind Res.hang _ = Res.hang from rfl, runInt_hang] at h; cases h
  | ok f =>
    rw [hb, Res.bind_ok] at h
    exact runInt_ops hc (IntOps.strict h1 h2' hb) h

/-- Evaluates a check on the state after a history. -/
theorem opsInt_eval {s : Nat} (hc : (cfg95 s).WF) {K : List Nat} {l : List Op} {α : Type} {g : WhFilter × List Key → Res α}
    {v : α} (h1 : ∀ k ∈ K.map encodeInt, k.length = 8) (h2 : (K.map encodeInt).IsChain fun a b => keyLt a b = true)
    (h : (opsInt s K l).bind g = .ok v) : ∃ w S, IntOps (cfg95 s) 8 true w S ∧ g (w, S) = .ok v := by
  obtain ⟨q, hq, h⟩ := Res.bind_eq_ok h
  exact ⟨q.1, q.2, opsInt_ops hc h1 h2 hq, h⟩

end Verif
