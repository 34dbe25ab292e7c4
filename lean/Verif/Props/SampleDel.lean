import Verif.Spec.Deletes
import Verif.Props.Sample

/-!
# Concrete histories with deletions used by the examples
-/

namespace Verif

inductive Op where
  | ins (k : Nat) (split : Bool)
  | del (k : Nat)

/-- One operation with the side conditions of `Ops`; `ub` if they fail. -/
def Op.step (q : Filter × List Key) : Op → Res (Filter × List Key)
  | .ins k b =>
    if (encodeInt k).length = 8 ∧ fitsB q.1 (encodeInt k) b = true then
      (insert q.1 (encodeInt k) b).bind fun f => .ok (f, encodeInt k :: q.2)
    else .ub
  | .del k =>
    if encodeInt k ∈ q.2 then (delete q.1 (encodeInt k)).bind fun f => .ok (f, q.2.erase (encodeInt k)) else .ub

def runAll : Res (Filter × List Key) → List Op → Res (Filter × List Key)
  | r, [] => r
  | r, o :: l => runAll (r.bind fun q => o.step q) l

theorem runAll_ub (l : List Op) : runAll .ub l = .ub := by
  induction l with
  | nil => rfl
  | cons a l ih => exact ih

theorem runAll_hang (l : List Op) : runAll .hang l = .hang := by
  induction l with
  | nil => rfl
  | cons a l ih => exact ih

theorem runAll_ops {c : Cfg} : ∀ {l : List Op} {q q' : Filter × List Key}, Ops c 8 q.1 q.2 →
    runAll (.ok q) l = .ok q' → Ops c 8 q'.1 q'.2
  | [], q, q', h, e => by
    simp only [runAll, Res.ok.injEq] at e; subst e; exact h
  | o :: l, q, q', h, e => by
    simp only [runAll, Res.bind_ok] at e
    cases hs : o.step q with
    | ub => rw [hs, runAll_ub] at e; cases e
    | hang => rw [hs, runAll_hang] at e; cases e
    | ok q1 =>
      rw [hs] at e
      refine runAll_ops ?_ e
      cases o with
      | ins k b =>
        dsimp only [Op.step] at hs
        split_ifs at hs with hc
        cases hi : insert q.1 (encodeInt k) b with
        | ub => rw [hi] at hs; cases hs
        | hang => rw [hi] at hs; cases hs
        | ok f =>
          rw [hi, Res.bind_ok] at hs
          injection hs with hs
          subst hs
          exact h.insert hc.1 (fitsB_sound hc.2) hi
      | del k =>
        dsimp only [Op.step] at hs
        split_ifs at hs with hc
        cases hi : delete q.1 (encodeInt k) with
        | ub => rw [hi] at hs; cases hs
        | hang => rw [hi] at hs; cases hs
        | ok f =>
          rw [hi, Res.bind_ok] at hs
          injection hs with hs
          subst hs
          exact h.delete hc hi

/-- A history of an 8-byte filter. -/
def opsRun (s : Nat) (K : List Nat) (l : List Op) : Res (Filter × List Key) :=
  runAll ((bulkFixed (cfg95 s) 8 (K.map encodeInt)).bind fun f => .ok (f, K.map encodeInt)) l

theorem opsRun_ops {s : Nat} {K : List Nat} {l : List Op} {q : Filter × List Key}
    (h1 : ∀ k ∈ K.map encodeInt, k.length = 8) (h2 : (K.map encodeInt).IsChain fun a b => keyLt a b = true)
    (h : opsRun s K l = .ok q) : Ops (cfg95 s) 8 q.1 q.2 := by
  unfold opsRun at h
  have h2' : (K.map encodeInt).Pairwise fun a b => keyLt a b = true := by
    have : IsTrans Key (fun a b => keyLt a b = true) := ⟨fun _ _ _ h g => keyLt_of_le_of_lt (keyLt_keyLe h) g⟩
    exact h2.pairwise
  cases hb : bulkFixed (cfg95 s) 8 (K.map encodeInt) with
  | ub => rw [hb, show Res.bind Res.ub _ = Res.ub from rfl, runAll_ub] at h; cases h
  | hang => rw [hb, show Res.bind Res.hang _ = Res.hang from rfl, runAll_hang] at h; cases h
  | ok f =>
    rw [hb, Res.bind_ok] at h
    exact runAll_ops (Ops.load h1 h2' hb) h

/-- Evaluates a check on the state after a history. -/
theorem opsRun_eval {s : Nat} {K : List Nat} {l : List Op} {α : Type} {g : Filter × List Key → Res α} {v : α}
    (h1 : ∀ k ∈ K.map encodeInt, k.length = 8) (h2 : (K.map encodeInt).IsChain fun a b => keyLt a b = true)
    (h : (opsRun s K l).bind g = .ok v) : ∃ f S, Ops (cfg95 s) 8 f S ∧ g (f, S) = .ok v := by
  cases hr : opsRun s K l with
  | ub => rw [hr] at h; cases h
  | hang => rw [hr] at h; cases h
  | ok q => rw [hr, Res.bind_ok] at h; exact ⟨q.1, q.2, opsRun_ops h1 h2 hr, h⟩

theorem bind_ok_iff {α β : Type} {r : Res α} {g : α → Res β} {v : β} : r.bind g = .ok v ↔ ∃ a, r = .ok a ∧ g a = .ok v := by
  cases r with
  | ok a => simp [Res.bind_ok]
  | ub => simp [Res.bind]
  | hang => simp [Res.bind]

def isUb {α : Type} : Res α → Bool
  | .ub => true
  | _ => false

theorem isUb_iff {α : Type} {r : Res α} : isUb r = true ↔ r = .ub := by cases r <;> simp [isUb]

def isOk (b : Bool) : Res Bool → Bool
  | .ok a => a == b
  | _ => false

theorem isOk_iff {b : Bool} {r : Res Bool} : isOk b r = true ↔ r = .ok b := by cases r <;> simp [isOk]

end Verif
