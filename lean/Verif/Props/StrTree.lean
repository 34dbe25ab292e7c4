import Verif.Proof.StrCrowd
import Verif.Proof.StrStates
import Verif.Props.Bulk
import Verif.Props.Present
import Verif.Props.Tame
import Verif.Props.Queries

/-!
# C49: the tree of `Diva<false>`
-/

namespace Verif.Props

open Str

/-! ## An ordered map -/

/-- C49: after any calls with keys of at most 65535 bytes, none of which fails, hangs or is undefined, the slots of the
leaves hold exactly the pairs of the map, each once. -/
theorem C49_map {calls : List TreeCall} (hk : PutsLe 65535 calls) :
    ∃ t, treeRun calls = .ok (t, true) ∧ (t.pairs.map Prod.fst).Nodup ∧ (∀ l ∈ t, l.nr ≤ 32) ∧
      ∀ k st, (k, st) ∈ t.pairs ↔ mapAfter calls k = some st := by
  obtain ⟨t, m, e, h, hl⟩ := treeRun_spec hk
  refine ⟨t, e, ((h.pairs.map Prod.fst).nodup_iff).2 h.inc.nodup, fun l hlt => (h.leaf l hlt).raw.nr, fun k st => ?_⟩
  rw [h.pairs.mem_iff]
  exact hl k st

/-- C49: `wh_iter_seek` finds the first pair from the key on. -/
theorem C49_seek {calls : List TreeCall} (hk : PutsLe 65535 calls) (k : Key) :
    ∃ t t' cur o, treeRun calls = .ok (t, true) ∧ t.seek k = .ok (t', cur) ∧ t'.at cur o ∧ FirstFrom (mapAfter calls) k o := by
  obtain ⟨t, m, e, h, hl⟩ := treeRun_spec hk
  obtain ⟨t', cur, o, e', h1, h2⟩ := firstFrom_spec h hl k
  exact ⟨t, t', cur, o, e, e', h1, h2⟩

/-- C49: wherever steps in both directions have moved the iterator, it is at the end or at a pair of the map; from there
one step leads to the next pair above or below. -/
theorem C49_steps {calls : List TreeCall} (hk : PutsLe 65535 calls) (k : Key) (bs : List Bool) :
    ∃ t t' cur o, treeRun calls = .ok (t, true) ∧ t.walk k bs = .ok (t', cur) ∧ t'.at cur o ∧
      ∀ e, o = some e → mapAfter calls e.1 = some e.2 ∧
        (∃ t'' cur' o', t'.skip1 cur = .ok (t'', cur') ∧ t''.at cur' o' ∧ FirstAbove (mapAfter calls) e.1 o') ∧
        ∃ t'' cur' o', t'.skip1Rev cur = .ok (t'', cur') ∧ t''.at cur' o' ∧ LastBelow (mapAfter calls) e.1 o' := by
  obtain ⟨t, m, e, h, hl⟩ := treeRun_spec hk
  obtain ⟨t', cur, n, e', h', hc⟩ := walk_spec h k bs
  cases cur with
  | none => exact ⟨t, t', none, none, e, e', rfl, fun _ he => by cases he⟩
  | some c =>
    obtain ⟨i, is⟩ := c
    obtain ⟨x, hx, hp⟩ : ∃ x, m[n]? = some x ∧ t'.peek (some (i, is)) = .ok x := by
      obtain ⟨_, _, _, x, _, _, _, _, _, hx, _⟩ := Str.CurAt.entry h' hc
      exact ⟨x, hx, by rw [Str.peek_spec h' hc, treePeek, hx]⟩
    refine ⟨t, t', _, some x, e, e', hp, fun y hy => ?_⟩
    obtain rfl := Option.some.inj hy
    exact ⟨(hl _ _).1 (List.mem_of_getElem? hx), firstAbove_spec h' hl hc hx, lastBelow_spec h' hl hc hx⟩

/-- Forty keys in descending order, then every third one deleted, and one value written. -/
def treeCalls : List TreeCall := (List.range 40).map (fun i => .put [0x61, UInt8.ofNat (90 - i)] ⟨0, i⟩) ++
  (List.range 13).map (fun i => .del [0x61, UInt8.ofNat (90 - 3 * i)]) ++ [.write [0x61, 88] ⟨0, 99⟩]

theorem treeCalls_le {N : Nat} (hN : 10 ≤ N) : PutsLe N treeCalls := by
  intro k st h
  simp only [treeCalls, List.mem_append, List.mem_map, reduceCtorEq, and_false, exists_false, or_false, List.mem_singleton] at h
  obtain ⟨i, _, h⟩ := h
  rw [← (TreeCall.put.inj h).1]
  exact Nat.le_trans (Nat.le_of_ble_eq_true rfl) hN

example : ∃ t, treeRun treeCalls = .ok (t, true) ∧ t.length = 2 ∧ ([0x61, 89], ⟨0, 1⟩) ∈ t.pairs ∧
    ([0x61, 88], ⟨0, 99⟩) ∈ t.pairs ∧ ∀ st, ([0x61, 90], st) ∉ t.pairs := by
  obtain ⟨t, e, _, _, h⟩ := C49_map (treeCalls_le (by decide))
  have hlen : (treeRun treeCalls).bind (fun q => .ok q.1.length) = .ok 2 := by decide +kernel
  rw [e] at hlen
  refine ⟨t, e, Res.ok.inj hlen, (h _ _).2 (by decide +kernel), (h _ _).2 (by decide +kernel), fun st hs => ?_⟩
  have : mapAfter treeCalls [0x61, 90] = none := by decide +kernel
  rw [(h _ _).1 hs] at this
  cases this

/-- The iterator at `[0x61, 89]`, then one step back. -/
example : ∃ t t' cur, treeRun treeCalls = .ok (t, true) ∧ t.walk [0x61, 89] [false] = .ok (t', cur) ∧
    t'.at cur (some ([0x61, 88], ⟨0, 99⟩)) := by
  obtain ⟨t, t', cur, o, e, h1, h2, -⟩ := C49_steps (treeCalls_le (by decide)) [0x61, 89] [false]
  have hw : (treeRun treeCalls).bind (fun q => (q.1.walk [0x61, 89] [false]).bind fun p => p.1.peek p.2) =
      .ok ([0x61, 88], ⟨0, 99⟩) := by decide +kernel
  rw [e, Res.bind_ok, h1, Res.bind_ok] at hw
  exact ⟨t, t', cur, e, h1, hw⟩

/-- With longer keys C49 is violated: of 33 keys that agree in their first 65535 bytes the last one is not stored.
`wh_put` returns false, which `Diva` ignores. -/
theorem C49_false : ∃ p : Key, ∃ t, treeRun ((List.range 33).map fun i => .put (p ++ [UInt8.ofNat i]) Store.zero) = .ok (t, false) ∧
    p.length = 65535 ∧ t.pairs.length = 32 ∧ ∀ e ∈ t.pairs, e.1 ≠ p ++ [32] := by
  have hp : (List.replicate 65535 (0 : UInt8)).length = 65535 := List.length_replicate
  generalize List.replicate 65535 (0 : UInt8) = p at hp
  obtain ⟨t, h1, h2, h3⟩ := crowd_full (Nat.le_of_eq hp.symm)
  exact ⟨p, t, h1, hp, h2, h3⟩

/-! ## The filter -/

/-- C49: on its tree `Diva<false>` has the outcome it has on the ordered list, for every history of calls with keys of at
most 65535 bytes: the same answers, the same bytes when serialised, the same regions, and undefined or endless exactly if
the other is. -/
theorem C49_same (c : Cfg) {ld : Load} {calls : List FilterCall} (h1 : ld.KeysLe 65535) (h2 : InsertsLe 65535 calls) :
    (runTree c ld calls).bind (fun q => .ok (q.1.flat, q.2)) = runList c ld calls := (run_same c h1 h2).flat

/-- C49: no false negatives on the tree, for point and range queries. -/
theorem C49_answers {c : Cfg} (hc : c.WF) {ld : Load} {calls : List FilterCall} (h1 : ld.KeysLe 65535)
    (h2 : InsertsLe 65535 calls) {w : StrFilter} {as : List Answer} (hr : runTree c ld calls = .ok (w, as)) {n : Nat} (hn : n < 2 ^ 28)
    {S : List Key} (hS : Present c n w.flat S) {k : Key} (hk : k ∈ S) :
    (∃ w', strPointQuery w k = .ok (w', true)) ∧
    ∀ l r, keyLe l k = true → keyLe k r = true → ∃ w', strRangeQuery w l r = .ok (w', true) := by
  have hs := run_same c h1 h2
  rw [hr] at hs
  generalize runList c ld calls = Y at hs
  obtain ⟨f, as'⟩ | _ | _ := Y
  · obtain ⟨ht, -⟩ := hs
    dsimp only at ht
    have hf := Str.Twin.flat ht
    rw [hf] at hS
    have hpos := present_point hc hn hS hk
    obtain ⟨c1, t⟩ := w
    obtain ⟨c2, m⟩ := f
    obtain ⟨e1, e2, e3⟩ := ht
    dsimp only at e1 e2 e3
    subst e1
    refine ⟨?_, fun l r hl hr => ?_⟩
    · obtain ⟨q, e, -, -, -, e4⟩ := (pointQuery_str (k := k) c1 e2).okR hpos
      exact ⟨q.1, by rw [e, ← e4]⟩
    · obtain ⟨q, e, -, -, -, e4⟩ := (rangeQuery_str (k := l) c1 e2 r).okR
        (present_range hc hn hS hk (io := false) (fun h => by cases h) hl hr)
      exact ⟨q.1, by rw [e, ← e4]⟩
  · exact hs.elim
  · exact hs.elim

/-- Strings of several lengths; splits in descending order; two deletions, the first of a boundary key; queries. -/
def strCalls : List FilterCall := (List.range 36).map (fun i => .insert [0x62, UInt8.ofNat (90 - i)] true) ++
  [.insert [0x62, 0x50, 0x50] false, .point [0x62, 0x50, 0x50], .delete [0x62, 90], .delete [0x62, 0x50, 0x50],
   .range [0x62, 0x51] [0x62, 0x52], .point [0x70], .shrink 4, .size]

/-- What they return. -/
def strAnswers : List Answer := [.flag true, .flag true, .flag false, .size 9461]

theorem strCalls_le {N : Nat} (hN : 10 ≤ N) : InsertsLe N strCalls := by
  intro k split h
  simp only [strCalls, List.mem_append, List.mem_map, List.mem_cons, List.not_mem_nil, reduceCtorEq, or_false,
    FilterCall.insert.injEq] at h
  rcases h with ⟨i, _, h, _⟩ | ⟨h, _⟩
  · rw [← h]; exact Nat.le_trans (Nat.le_of_ble_eq_true rfl) hN
  · rw [h]; exact Nat.le_trans (Nat.le_of_ble_eq_true rfl) hN

theorem varLoad_le {N : Nat} (hN : 10 ≤ N) : (Load.var varKeys).KeysLe N := by
  intro k hk
  simp only [varKeys, List.mem_cons, List.not_mem_nil, or_false] at hk
  rcases hk with rfl | rfl <;> exact Nat.le_trans (Nat.le_of_ble_eq_true rfl) hN

/-- A deletion merges two of four leaves, and the answers are as expected. -/
example : ∃ w f, runTree (cfg95 5) (.var varKeys) strCalls = .ok (w, strAnswers) ∧ w.tree.length = 3 ∧
    runList (cfg95 5) (.var varKeys) strCalls = .ok (f, strAnswers) ∧ w.flat = f := by
  have h : (runTree (cfg95 5) (.var varKeys) strCalls).bind (fun q => .ok (q.1.tree.length, q.2)) =
    .ok (3, strAnswers) := by decide +kernel
  obtain ⟨q, e, h⟩ := Res.bind_eq_ok h
  have h := Prod.mk.inj (Res.ok.inj h)
  have hs := C49_same (cfg95 5) (varLoad_le (by decide)) (strCalls_le (by decide))
  obtain ⟨w, as⟩ := q
  obtain ⟨h1, h2⟩ := h
  dsimp only at h1 h2
  subst h2
  rw [e, Res.bind_ok] at hs
  exact ⟨w, _, e, h1, hs.symm, rfl⟩

/-- `C49_answers` for "a", "c" and "ab". -/
example : ∃ w S, runTree (cfg95 5) (.var varKeys) [.insert [0x61, 0x62] false] = .ok (w, []) ∧ BuiltVar (cfg95 5) 8 w.flat S ∧
    [0x61, 0x62] ∈ S ∧ (∃ w', strPointQuery w [0x61, 0x62] = .ok (w', true)) ∧
    ∃ w', strRangeQuery w [0x61, 0x61, 0x61] [0x61, 0x63] = .ok (w', true) := by
  have hle : InsertsLe 65535 [.insert [0x61, 0x62] false] := by
    intro k split h
    simp only [List.mem_singleton, FilterCall.insert.injEq] at h
    rw [h.1]; exact Nat.le_of_ble_eq_true rfl
  obtain ⟨f, h, hb⟩ := var_built
  have hl : runList (cfg95 5) (.var varKeys) [.insert [0x61, 0x62] false] = .ok (f, []) := by
    have : runList (cfg95 5) (.var varKeys) [.insert [0x61, 0x62] false] =
        (runOps (bulkVar (cfg95 5) varKeys) [([0x61, 0x62], false)]).bind fun f => .ok (f, []) := by
      unfold runList
      simp only [List.foldl_cons, List.foldl_nil, runOps, FilterCall.onList, Load.onList]
      generalize bulkVar (cfg95 5) varKeys = X
      cases X with
      | ok f0 =>
        show ((Verif.insert f0 _ _).bind _).bind _ = (Verif.insert f0 _ _).bind _
        generalize Verif.insert f0 _ _ = Y
        cases Y <;> rfl
      | ub => rfl
      | hang => rfl
    rw [this, h]; rfl
  have hs := C49_same (cfg95 5) (varLoad_le (by decide)) hle
  rw [hl] at hs
  obtain ⟨⟨w, as⟩, e, hs⟩ := Res.bind_eq_ok hs
  obtain ⟨h1, h2⟩ := Prod.mk.inj (Res.ok.inj hs)
  dsimp only at h1 h2
  subst h2
  rw [← h1] at hb
  have ha := C49_answers cfg95_5 (varLoad_le (by decide)) hle e (by decide) (.built hb) (k := [0x61, 0x62]) (by simp)
  exact ⟨w, _, e, hb, by simp, ha.1, ha.2 _ _ (by decide) (by decide)⟩

end Verif.Props
