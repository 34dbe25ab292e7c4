import Verif.Proof.IntTabRuns
import Verif.Proof.IntBare
import Verif.Props.StrTab
import Verif.Props.IntRuns

/-!
# C55: the integer tree with its index in its hash table
-/

namespace Verif.Props

open Verif.Str (Kind)

variable {α : Type} {h : Key → Nat} {depth : Nat} {c : Cfg} {ld : IntLoad} {calls : List FilterCall}

theorem intNew_sim {W : Option (Key → Prop)} {P : Key → Prop} (K : Kind h depth W P) {p : Client α} (hp : p.InOrder P Wh.empty) :
    IntT.SimR h W P (p.onIntNew h depth) (p.onWh Wh.empty) := by
  unfold Client.onIntNew
  rcases IntT.Tx.create K with ⟨hw, e⟩ | ⟨s, e, H⟩
  · rw [e]; exact .inl ⟨hw, rfl⟩
  · rw [e]; exact H.client K p hp

/-- C55: any program that calls a new integer tree and keeps the anchors of its leaves in order has the outcome that it has on
the leaves alone, and the tree has these leaves in the end, unless an insertion into the hash table does not return. -/
theorem C55_client {p : Client α} (hp : p.InOrder (·.length ≤ 65520) Wh.empty) (depth : Nat) :
    p.onIntNew h depth = .hang ∨ (p.onIntNew h depth).bind (fun q => .ok (q.1.leaves, q.2)) = p.onWh Wh.empty := by
  rcases intNew_sim (h := h) (depth := depth) (short_kind : Kind h depth none _) hp with ⟨-, e⟩ | e
  · exact .inl e
  · right
    cases e1 : p.onIntNew h depth with
    | ok q =>
      obtain ⟨⟨t, a⟩, e2, H, ha⟩ := (e1 ▸ e).okL rfl
      rw [e2, Res.bind_ok, show q.1.leaves = t from H.ix.eq, ha]
    | ub => rw [e1] at e; cases e2 : p.onWh Wh.empty <;> rw [e2] at e <;> first | rfl | exact e.elim
    | hang => rw [e1] at e; cases e2 : p.onWh Wh.empty <;> rw [e2] at e <;> first | rfl | exact e.elim

/-- C55: what such a program leaves. The nodes are the prefixes of the anchors, at most sixteen of them have the same hash, and
the leaf of every key is found. -/
theorem C55_calls {p : Client α} (hp : p.InOrder (·.length ≤ 65520) Wh.empty) {s : IntTab} {a : α} (e : p.onIntNew h depth = .ok (s, a)) :
    (∀ q, s.index.find h q ≠ none ↔ ∃ l ∈ s.leaves, q <+: l.anchor) ∧
    (∀ (x : Nat) (L : List Key), L.Nodup → (∀ q ∈ L, h q = x ∧ ∃ l ∈ s.leaves, q <+: l.anchor) → L.length ≤ 16) ∧
    ∀ key, ∃ i l, s.jump h key = .ok i ∧ s.leaves[i]? = some l ∧ Owns (· ∈ s.leaves.map Leaf.anchor) key l.anchor := by
  have H : ∃ t, IntT.Tx h none (·.length ≤ 65520) s t := by
    rcases intNew_sim (h := h) (depth := depth) (short_kind : Kind h depth none _) hp with ⟨-, e1⟩ | e1
    · rw [e] at e1; cases e1
    · obtain ⟨t, -, H, -⟩ := e1.okL e
      exact ⟨_, H⟩
  obtain ⟨t, H⟩ := H
  have he : s.leaves = t := H.ix.eq
  have hnodes : ∀ q, s.index.find h q ≠ none ↔ ∃ l ∈ s.leaves, q <+: l.anchor := fun q => by
    have := H.ix.idx.none_iff (p := q)
    show (s.index.view h).get q ≠ none ↔ _
    rw [ne_eq, this, not_not, he]
    constructor
    · rintro ⟨a, ha, hq⟩
      obtain ⟨l, hl, rfl⟩ := List.mem_map.1 ha
      exact ⟨l, hl, hq⟩
    · rintro ⟨l, hl, hq⟩
      exact ⟨_, List.mem_map_of_mem hl, hq⟩
  refine ⟨hnodes, ?_, fun key => ?_⟩
  · intro x L hL hx
    obtain ⟨S, HS, -⟩ := H.good
    refine Nat.le_trans ?_ (C48_room HS x)
    refine (hL.subperm fun q hq => ?_).length_le
    obtain ⟨h1, h2⟩ := hx q hq
    have := (hnodes q).2 h2
    rw [hist_find HS] at this
    refine List.mem_filter.2 ⟨?_, by simp [h1]⟩
    by_contra hc
    exact this (if_neg hc)
  · obtain ⟨A, l, B, z⟩ := H.ix.ladder.zip key
    exact ⟨_, l, H.jump key, by rw [he]; exact z.get, by rw [he]; exact z.owns H.ix.ladder⟩

/-! ## The filter -/

theorem anchors_short (h1 : ld.OK) (h2 : ∀ call ∈ calls, call.Short) (h3 : ∀ w, ld.onTree c = .ok w → CalmFrom w calls) :
    ∀ w, ld.onTree c = .ok w → AnchorsFrom (·.length ≤ 65520) w calls := by
  intro w hw
  have hT := (intLoad_same c h1).okL hw
  obtain ⟨f, -, hT⟩ := hT
  have key : ∀ {w : WhFilter} {f : Filter}, Twin w f → ∀ l ∈ w.tree, l.anchor.length ≤ 65520 := fun {w f} hT l hl =>
    Nat.le_trans (hT.2.alen l hl) (by decide)
  replace h3 := h3 w hw
  clear h1 hw
  induction calls generalizing w f with
  | nil => exact key hT
  | cons call calls ih =>
    refine ⟨key hT, fun w' as e => ?_⟩
    have hsame := intCall_same hT (h2 call (by simp)) h3.1
    rw [e] at hsame
    obtain ⟨f', hT'⟩ : ∃ f', Twin w' f' := by
      revert hsame
      cases call.onIntList f with
      | ok p => exact fun h => ⟨p.1, h.1⟩
      | ub => exact fun h => h.elim
      | hang => exact fun h => h.elim
    exact ih (fun x hx => h2 x (by simp [hx])) w' f' hT' (h3.2 w' as e)

theorem history_order (h1 : ld.OK) (h2 : ∀ call ∈ calls, call.Short) (h3 : ∀ w, ld.onTree c = .ok w → CalmFrom w calls)
    (h4 : ∃ q, intTreeRun c ld calls = .ok q) : (intRunClient c ld calls).InOrder (·.length ≤ 65520) Wh.empty :=
  IntT.run_order c h1 h2 h3 (anchors_short h1 h2 h3) h4

/-- C55: if a history of `Diva<true>` returns on the ordered list, then on leaves, index and hash table it gives the same
answers and the same regions, unless an insertion into the hash table does not return. What is missing is what is missing in
C51. -/
theorem C55_same_partial (c : Cfg) (h1 : ld.OK) (h2 : ∀ call ∈ calls, call.Short) (h3 : ∀ w, ld.onTree c = .ok w → CalmFrom w calls)
    {f : Filter} {as : List Answer} (hr : intListRun c ld calls = .ok (f, as)) (depth : Nat) :
    intRunTable h depth c ld calls = .hang ∨
      ∃ s, intRunTable h depth c ld calls = .ok (s, f.cfg, as) ∧ s.leaves.contents = f.tree := by
  have hs := intRun_same c h1 h2 h3
  rw [hr] at hs
  obtain ⟨w, as', e, hT, ha⟩ : ∃ w as', intTreeRun c ld calls = .ok (w, as') ∧ Twin w f ∧ as' = as := by
    revert hs
    cases intTreeRun c ld calls with
    | ok p => exact fun h => ⟨p.1, p.2, rfl, h.1, h.2⟩
    | ub => exact fun h => h.elim
    | hang => exact fun h => h.elim
  subst ha
  rcases C55_client (h := h) (history_order h1 h2 h3 ⟨_, e⟩) depth with e1 | e1
  · exact .inl e1
  · right
    rw [IntC.run_client] at e
    obtain ⟨⟨t, c', bs⟩, e2, e3⟩ := Res.bind_eq_ok e
    cases e3
    rw [e2] at e1
    obtain ⟨⟨s, q⟩, e4, e5⟩ := Res.bind_eq_ok e1
    obtain ⟨e6, e7⟩ := Prod.mk.inj (Res.ok.inj e5)
    dsimp only at e6 e7
    subst e7
    refine ⟨s, ?_, ?_⟩
    · rw [show f.cfg = c' from hT.1.symm]; exact e4
    · rw [e6]; exact hT.2.contents

/-- C55: and it returns if not more than eight prefixes of anchors have the same first bucket. Missing: fuller tables; then it
may not return, see `C55_false`. -/
theorem C55_returns_partial {K : List Key} (hK : ∀ k ∈ K, k.length ≤ 65520) (ht : Thin h (Stem K)) (c : Cfg) (h1 : ld.OK)
    (h2 : ∀ call ∈ calls, call.Short) (h3 : ∀ w, ld.onTree c = .ok w → CalmFrom w calls)
    (h4 : ∀ w, ld.onTree c = .ok w → AnchorsFrom (Stem K) w calls) {f : Filter} {as : List Answer}
    (hr : intListRun c ld calls = .ok (f, as)) (hd : 2 ≤ depth) :
    ∃ s, intRunTable h depth c ld calls = .ok (s, f.cfg, as) ∧ s.leaves.contents = f.tree := by
  rcases C55_same_partial (h := h) c h1 h2 h3 hr depth with e | e
  · exfalso
    have hs := intRun_same c h1 h2 h3
    rw [hr] at hs
    obtain ⟨q, e1⟩ : ∃ q, intTreeRun c ld calls = .ok q := by
      revert hs
      cases intTreeRun c ld calls with
      | ok p => exact fun _ => ⟨p, rfl⟩
      | ub => exact fun h => h.elim
      | hang => exact fun h => h.elim
    have hsim := intNew_sim (stem_kind hK ht hd) (IntT.run_order c h1 h2 h3 h4 ⟨q, e1⟩)
    rw [IntC.run_client] at e1
    obtain ⟨⟨t, q'⟩, e2, -⟩ := Res.bind_eq_ok e1
    rcases hsim with ⟨hw, -⟩ | hsim
    · cases hw
    · rw [show (intRunClient c ld calls).onIntNew h depth = .hang from e, e2] at hsim
      exact hsim
  · exact e

theorem calm_snoc {call : FilterCall} (hc : ¬ call.IsDelete) {w : WhFilter} (h : CalmFrom w calls) : CalmFrom w (calls ++ [call]) := by
  induction calls generalizing w with
  | nil => exact calm_of_noDelete w (by simpa using hc)
  | cons c calls ih => exact ⟨h.1, fun w' as e => ih (h.2 w' as e)⟩

theorem listFrom_snoc {call : FilterCall} {as bs : List Answer} {f f' f'' : Filter} (h1 : intListFrom f calls = .ok (f', as))
    (h2 : call.onIntList f' = .ok (f'', bs)) : intListFrom f (calls ++ [call]) = .ok (f'', as ++ bs) := by
  induction calls generalizing f as with
  | nil =>
    cases h1
    show (call.onIntList _).bind _ = _
    rw [h2, Res.bind_ok, intListFrom, Res.bind_ok, List.append_nil, List.nil_append]
  | cons c calls ih =>
    obtain ⟨p, e1, h1⟩ := Res.bind_eq_ok h1
    obtain ⟨q, e2, h1⟩ := Res.bind_eq_ok h1
    cases h1
    show ((c.onIntList f).bind fun p => (intListFrom p.1 (calls ++ [call])).bind fun q => .ok (q.1, p.2 ++ q.2)) = _
    rw [e1, Res.bind_ok, ih e2, Res.bind_ok, List.append_assoc]

/-- C55: no false negatives: after a history whose keys are `S`, a point query for one of them returns true if it returns, and
so does a range query around it. -/
theorem C55_answers_partial (hc : c.WF) (h1 : ld.OK) (h2 : ∀ call ∈ calls, call.Short) (h3 : ∀ w, ld.onTree c = .ok w → CalmFrom w calls)
    {f : Filter} {as : List Answer} (hr : intListRun c ld calls = .ok (f, as)) {n : Nat} (hn : n ≤ 8) {S : List Key}
    (hS : Present c n f S) {k : Key} (hk : k ∈ S) {call : FilterCall} (hs : call.Short)
    (hcall : call = .point k ∨ ∃ l r, call = .range l r ∧ r.length ≤ 8 ∧ keyLe l k = true ∧ keyLe k r = true) (depth : Nat) :
    intRunTable h depth c ld (calls ++ [call]) = .hang ∨
      ∃ s, intRunTable h depth c ld (calls ++ [call]) = .ok (s, f.cfg, as ++ [.flag true]) := by
  have hn' : n < 2 ^ 28 := by omega
  have hpos := present_point hc hn' hS hk
  have hnd : ¬ call.IsDelete := by rcases hcall with rfl | ⟨l, r, rfl, -⟩ <;> exact id
  have hon : call.onIntList f = .ok (f, [.flag true]) := by
    rcases hcall with rfl | ⟨l, r, rfl, h8, hl, hr⟩
    · show (pointQuery f k).bind _ = _
      rw [hpos]; rfl
    · show (rangeQuery true f l r).bind _ = _
      rw [present_range hc hn' hS hk (io := true) (fun _ => ⟨hn, hs, h8⟩) hl hr]; rfl
  obtain ⟨f0, e0, hr⟩ := Res.bind_eq_ok hr
  have hr' : intListRun c ld (calls ++ [call]) = .ok (f, as ++ [.flag true]) := by
    unfold intListRun
    rw [e0, Res.bind_ok]
    exact listFrom_snoc hr hon
  refine (C55_same_partial (h := h) c h1 ?_ (fun w hw => calm_snoc hnd (h3 w hw)) hr' depth).imp_right fun ⟨s, e, _⟩ => ⟨s, e⟩
  intro x hx
  rcases List.mem_append.1 hx with hx | hx
  · exact h2 x hx
  · rw [List.mem_singleton.1 hx]; exact hs

/-! ## Chosen integers -/

/-- Four integers. Seventeen of their prefixes have the hash `0xf2991a19`, which the byte 24 does not change. -/
def tiedKeys : List Key := [[0, 129, 59, 124, 87, 24, 24, 24], [64, 61, 38, 7, 22, 24, 24, 24], [128, 249, 0, 138, 213, 24, 24, 24],
  [238, 188, 44, 52, 24, 24, 24, 24]]

/-- Integers for the last leaf. -/
def lastKey (i : Nat) : Key := [250, UInt8.ofNat i, 0, 0, 0, 0, 0, 25]

/-- Integers for the leaf before. -/
def fillKey (i : Nat) : Key := [240, UInt8.ofNat (5 * i), 0, 0, 0, 0, 0, 24]

/-- The four integers, each after its predecessor, and integers that make the leaves full. -/
def tiedCalls : List FilterCall := ((tiedKeys.flatMap fun a => [a.dropLast ++ [23], a]) ++ (List.range 16).map (fun i => fillKey (2 * i)) ++
  (List.range 5).map (fun i => lastKey (i + 1)) ++ (List.range 14).map fun i => fillKey (2 * i + 1)).map (.insert · true)

/-- The load before these calls. -/
def tiedLoad : IntLoad := .fixed 8 [lastKey 0, lastKey 6]

theorem tied_leaves : ((intRunClient (cfg95 5) tiedLoad tiedCalls).onWh Wh.empty).bind (fun q => .ok (tiedKeys.all fun a =>
    (q.1.map Leaf.anchor).contains a)) = .ok true := by
  decide +kernel

theorem tie_hang {A : List Key} {x : Nat} (hx : 16 < ((A.flatMap List.inits).filter fun q => crc32c q == x).dedup.length)
    {p : Client α} (hp : p.InOrder (·.length ≤ 65520) Wh.empty) {t : Wh} {a : α} (e : p.onWh Wh.empty = .ok (t, a))
    (ht : ∀ k ∈ A, k ∈ t.map Leaf.anchor) : p.onIntNew crc32c depth = .hang := by
  rcases C55_client (h := crc32c) hp depth with e1 | e1
  · exact e1
  · rw [e] at e1
    obtain ⟨⟨s, a'⟩, e2, e3⟩ := Res.bind_eq_ok e1
    have hs : s.leaves = t := (Prod.mk.inj (Res.ok.inj e3)).1
    refine absurd ((C55_calls hp e2).2.1 x _ (List.nodup_dedup _) fun q hq => ?_) (Nat.not_le.2 hx)
    obtain ⟨h1, h2⟩ := List.mem_filter.1 (List.mem_dedup.1 hq)
    obtain ⟨k, hk, h3⟩ := List.mem_flatMap.1 h1
    obtain ⟨l, hl, hla⟩ := List.mem_map.1 (ht k hk)
    exact ⟨eq_of_beq h2, l, by rw [hs]; exact hl, by rw [hla]; exact List.mem_inits _ _ |>.1 h3⟩

theorem tiedCalls_eq : ∀ call ∈ tiedCalls, ∃ k : Key, k.length = 8 ∧ call = .insert k true := by
  have h : (tiedCalls.all fun call => match call with | .insert k true => k.length == 8 | _ => false) = true := by decide +kernel
  intro call hc
  have := List.all_eq_true.1 h call hc
  split at this
  · exact ⟨_, eq_of_beq this, rfl⟩
  · cases this

/-- So `Diva<true>` violates "every call returns" with the hash function of the code: loaded with two integers, it takes 43
further integers as boundaries on the ordered list, but on the tree the history never ends. -/
theorem C55_false : ∃ c ld calls, Cfg.WF c ∧ IntLoad.OK ld ∧ calls.length = 43 ∧
    (∀ call ∈ calls, ∃ k : Key, k.length = 8 ∧ call = .insert k true) ∧ (∃ q, intListRun c ld calls = .ok q) ∧
    ∀ depth, intRunTable crc32c depth c ld calls = .hang := by
  have h1 : tiedLoad.OK := ⟨by decide, by decide, grouped_nodup (by decide)⟩
  have h2 : ∀ call ∈ tiedCalls, call.Short := by
    intro call hc
    obtain ⟨k, hk, rfl⟩ := tiedCalls_eq call hc
    exact Nat.le_of_eq hk
  have h3 : ∀ call ∈ tiedCalls, ¬ call.IsDelete := by
    intro call hc
    obtain ⟨k, hk, rfl⟩ := tiedCalls_eq call hc
    exact id
  obtain ⟨⟨t, a⟩, e, h⟩ := Res.bind_eq_ok tied_leaves
  have er : intTreeRun (cfg95 5) tiedLoad tiedCalls = .ok (⟨a.1, t⟩, a.2) := by rw [IntC.run_client, e]; rfl
  refine ⟨cfg95 5, tiedLoad, tiedCalls, cfg95_5, h1, rfl, tiedCalls_eq, ?_, fun depth =>
    tie_hang (A := tiedKeys) (x := 0xf2991a19) (by decide +kernel) (history_order h1 h2 (fun w _ => calm_of_noDelete w h3) ⟨_, er⟩) e
      fun k hk => List.contains_iff_mem.1 (List.all_eq_true.1 (Res.ok.inj h) k hk)⟩
  have := C51_same (cfg95 5) h1 h2 h3
  rw [er, Res.bind_ok] at this
  exact ⟨_, this.symm⟩

/-! ## A load -/

/-- Six prefixes of seven bytes. Nineteen of their prefixes have the hash `0xf2991a19`. -/
def loadStems : List Key := [[0, 129, 59, 124, 87, 24, 24], [32, 95, 181, 193, 119, 24, 24], [64, 61, 38, 7, 22, 24, 24],
  [96, 227, 168, 186, 54, 24, 24], [128, 249, 0, 138, 213, 24, 24], [238, 188, 44, 52, 24, 24, 24]]

/-- Every 1024th integer of the load. -/
def loadBounds : List Nat := ((loadStems.flatMap fun p => [p.dropLast ++ [20, 255], p ++ [255]]) ++
  (List.range 29).map fun i => [240, UInt8.ofNat i, 0, 0, 0, 0, 0, 255]).map fun k => k.foldl (fun x b => 256 * x + b.toNat) 0

/-- Each of them with the 1023 integers that follow it. -/
def loadInts : List Nat := loadBounds.flatMap fun b => (List.range 1024).map (b + ·)

theorem chunk_get {B : List Nat} {i r : Nat} (hr : r < 1024) :
    (B.flatMap fun b => (List.range 1024).map (b + ·))[1024 * i + r]? = (B[i]?).map (· + r) := by
  induction B generalizing i with
  | nil => rfl
  | cons b B ih =>
    rw [List.flatMap_cons]
    cases i with
    | zero =>
      rw [List.getElem?_append_left (by rw [List.length_map, List.length_range]; omega), List.getElem?_map,
        List.getElem?_range (by omega), Nat.mul_zero, Nat.zero_add]
      rfl
    | succ i =>
      rw [List.getElem?_append_right (by rw [List.length_map, List.length_range]; omega), List.length_map, List.length_range,
        show 1024 * (i + 1) + r - 1024 = 1024 * i + r by omega, ih]
      rfl

theorem load_key {i r x : Nat} (hr : r < 1024) (h : loadBounds[i]? = some x) :
    (loadInts.map encodeInt).getD (1024 * i + r) [] = encodeInt (x + r) := by
  rw [List.getD_eq_getElem?_getD, List.getElem?_map, loadInts, chunk_get hr, h]
  rfl

theorem load_lt : ∀ x ∈ loadInts, x < 2 ^ 64 := by
  intro x hx
  obtain ⟨b, hb, hx⟩ := List.mem_flatMap.1 hx
  obtain ⟨r, hr, rfl⟩ := List.mem_map.1 hx
  have h1 : ∀ b ∈ loadBounds, b + 1024 < 2 ^ 64 := by decide +kernel
  have := h1 b hb
  have := List.mem_range.1 hr
  omega

theorem load_sorted : loadInts.Pairwise (· < ·) := by
  refine List.pairwise_flatMap.2 ⟨fun b _ => List.pairwise_map.2 (List.pairwise_lt_range.imp fun h => Nat.add_lt_add_left h b), ?_⟩
  have h1 : loadBounds.Pairwise fun a b => a + 1024 ≤ b := by decide +kernel
  refine h1.imp fun h x hx y hy => ?_
  obtain ⟨i, hi, rfl⟩ := List.mem_map.1 hx
  obtain ⟨j, hj, rfl⟩ := List.mem_map.1 hy
  have := List.mem_range.1 hi
  omega

theorem load_length : loadInts.length = 41984 := by
  have h1 : ∀ B : List Nat, (B.flatMap fun b => (List.range 1024).map (b + ·)).length = 1024 * B.length := by
    intro B
    induction B with
    | nil => rfl
    | cons b B ih => rw [List.flatMap_cons, List.length_append, ih, List.length_map, List.length_range, List.length_cons]; omega
  rw [loadInts, h1, show loadBounds.length = 41 by decide +kernel]

theorem load_leaves : (Wh.puts ([List.replicate 8 0, List.replicate 8 255] ++ loadBounds.map encodeInt ++
    [encodeInt (loadBounds.getD 40 0 + 1023)]) Wh.empty).bind (fun t => .ok (loadStems.all fun a => (t.map Leaf.anchor).contains a)) =
    .ok true := by
  decide +kernel

theorem load_hang {K A : List Key} {x m : Nat} (hx : 16 < ((A.flatMap List.inits).filter fun q => crc32c q == x).dedup.length)
    (hlen : ∀ k ∈ K, k.length = 8) (hs : K.Pairwise fun a b => keyLt a b = true) {f : Filter} (e : bulkFixed c 8 K = .ok f)
    (hm : K.length = 1024 * (m + 1))
    (hA : ∀ t, Wh.puts ([List.replicate 8 0, List.replicate 8 255] ++ (List.range (m + 1)).map (fun i => K.getD (1024 * i) []) ++
      [K.getD (1024 * m + 1023) []]) Wh.empty = .ok t → ∀ k ∈ A, k ∈ t.map Leaf.anchor) (depth : Nat) :
    intRunTable crc32c depth c (.fixed 8 K) [] = .hang := by
  have h1 : (IntLoad.fixed 8 K).OK := ⟨by decide, fun k hk => Nat.le_of_eq (hlen k hk), grouped_sorted (hs.imp fun h => keyLt_keyLe h)⟩
  obtain ⟨w, ew, -⟩ := (intLoad_same c h1).okR e
  have er : intTreeRun c (.fixed 8 K) [] = .ok (w, []) := by
    unfold intTreeRun
    rw [ew]; rfl
  have hord := history_order h1 (calls := []) (fun _ h => by cases h) (fun _ _ => trivial) ⟨_, er⟩
  rw [IntC.run_client] at er
  obtain ⟨⟨t, q⟩, e2, e3⟩ := Res.bind_eq_ok er
  obtain rfl : t = w.tree := congrArg (fun x : WhFilter × List Answer => x.1.tree) (Res.ok.inj e3)
  refine tie_hang hx hord e2 fun k hk => ?_
  have := hA _ (bulk_puts hm ew) k hk
  rwa [Wh.bare, List.map_map] at this

/-- Not even loading returns, and there nothing is left to chance: the constructor of `Diva<true>` never returns from these
41984 different integers in order, with the hash function of the code. -/
theorem C55_false_load : ∃ (c : Cfg) (xs : List Nat), c.WF ∧ xs.length = 41984 ∧ (∀ x ∈ xs, x < 2 ^ 64) ∧ xs.Pairwise (· < ·) ∧
    (∃ f, bulkFixed c 8 (xs.map encodeInt) = .ok f) ∧ ∀ depth, intRunTable crc32c depth c (.fixed 8 (xs.map encodeInt)) [] = .hang := by
  have hlen : ∀ k ∈ loadInts.map encodeInt, k.length = 8 := by
    intro k hk
    obtain ⟨x, -, rfl⟩ := List.mem_map.1 hk
    rfl
  have hs : (loadInts.map encodeInt).Pairwise fun a b => keyLt a b = true :=
    List.pairwise_map.2 (load_sorted.imp_of_mem fun ha hb h => (encode_lt (load_lt _ ha) (load_lt _ hb)).2 h)
  have hne : loadInts.map encodeInt ≠ [] := by
    intro h
    have := congrArg List.length h
    rw [List.length_map, load_length] at this
    cases this
  obtain ⟨f, e, -⟩ := C11_partial (n := 8) cfg95_5 hne (by rw [List.length_map, load_length]; decide) hlen hs
  refine ⟨cfg95 5, loadInts, cfg95_5, load_length, load_lt, load_sorted, ⟨f, e⟩, ?_⟩
  have hB : (List.range 41).map (fun i => (loadInts.map encodeInt).getD (1024 * i) []) = loadBounds.map encodeInt := by
    refine List.ext_getElem? fun i => ?_
    have h41 : loadBounds.length = 41 := by decide +kernel
    by_cases hi : i < 41
    · obtain ⟨x, hx⟩ : ∃ x, loadBounds[i]? = some x := ⟨_, List.getElem?_eq_getElem (h41 ▸ hi)⟩
      rw [List.getElem?_map, List.getElem?_range hi, List.getElem?_map, hx]
      exact congrArg some (load_key (r := 0) (by decide) hx)
    · rw [List.getElem?_eq_none (by simpa using Nat.le_of_not_lt hi), List.getElem?_eq_none (by rw [List.length_map]; omega)]
  refine load_hang (A := loadStems) (x := 0xf2991a19) (m := 40) (by decide +kernel) hlen hs e (by rw [List.length_map, load_length]) ?_
  intro t ht k hk
  rw [hB, load_key (i := 40) (r := 1023) (x := loadBounds.getD 40 0) (by decide) (by decide +kernel)] at ht
  have := load_leaves
  rw [ht, Res.bind_ok] at this
  exact List.contains_iff_mem.1 (List.all_eq_true.1 (Res.ok.inj this) k hk)

/-! ## Cases -/

/-- Anchors of the calls of the example for C51, on the way and in the end. -/
def runAnchors : List Key := [[], [0, 0, 0, 0, 0, 0, 0, 5], [0, 0, 0, 0, 0, 0, 114], [255]]

/-- Whether the anchors on the way are in `A`. -/
def anchorsB (A : List Key) : WhFilter → List FilterCall → Bool
  | w, [] => w.tree.all fun l => A.contains l.anchor
  | w, call :: calls => (w.tree.all fun l => A.contains l.anchor) && match call.onIntTree w with
      | .ok p => anchorsB A p.1 calls
      | _ => true

theorem anchorsB_sound {A : List Key} {w : WhFilter} (e : anchorsB A w calls = true) : AnchorsFrom (Stem A) w calls := by
  have key : ∀ {w : WhFilter}, (w.tree.all fun l => A.contains l.anchor) = true → ∀ l ∈ w.tree, Stem A l.anchor := fun h l hl =>
    ⟨l.anchor, List.mem_cons_of_mem _ (List.contains_iff_mem.1 (List.all_eq_true.1 h l hl)), List.prefix_rfl⟩
  induction calls generalizing w with
  | nil => exact key e
  | cons call calls ih =>
    rw [anchorsB, Bool.and_eq_true] at e
    refine ⟨key e.1, fun w' as e' => ih ?_⟩
    have := e.2
    rw [e'] at this
    exact this

/-- `C55_returns_partial` for these calls, at depth two: four leaves and the answers of C51. -/
example : ∃ s f, intRunTable crc32c 2 (cfg95 5) (.stream threeKeys) runCalls = .ok (s, f.cfg, runAnswers) ∧
    intListRun (cfg95 5) (.stream threeKeys) runCalls = .ok (f, runAnswers) ∧ s.leaves.contents = f.tree := by
  obtain ⟨w, f, -, -, hf, -⟩ := run_sample
  have ht : Thin crc32c (Stem runAnchors) := thin_sound (ps := (runAnchors.flatMap List.inits).dedup) (by decide +kernel)
  have hA : ((IntLoad.stream threeKeys).onTree (cfg95 5)).bind (fun w => .ok (anchorsB runAnchors w runCalls)) = .ok true := by
    decide +kernel
  obtain ⟨s, e, hs⟩ := C55_returns_partial (K := runAnchors) (by decide) ht (cfg95 5) threeKeys_ok runCalls_short
    (fun w _ => calm_of_noDelete w runCalls_noDelete) (fun w hw => anchorsB_sound (by rw [hw] at hA; exact Res.ok.inj hA)) hf (Nat.le_refl 2)
  exact ⟨s, f, e, hf, hs⟩

theorem listFrom_ops (ops : List (Key × Bool)) (f : Filter) :
    intListFrom f (ops.map fun o => .insert o.1 o.2) = (runOps (.ok f) ops).bind fun f => .ok (f, []) := by
  induction ops generalizing f with
  | nil => rfl
  | cons o ops ih =>
    rw [show runOps (.ok f) (o :: ops) = runOps (Verif.insert f o.1 o.2) ops from rfl, List.map_cons, intListFrom]
    show ((Verif.insert f o.1 o.2).bind fun f => .ok (f, [])).bind _ = _
    cases Verif.insert f o.1 o.2 with
    | ok f' =>
      rw [Res.bind_ok, Res.bind_ok, ih]
      cases runOps (.ok f') ops <;> rfl
    | ub => rw [runOps_ub]; rfl
    | hang => rw [runOps_hang]; rfl

/-- `C55_answers_partial` for the sample history. -/
example : ∃ s c, intRunTable crc32c 8 (cfg95 5) (.fixed 8 sampleKeys) (sampleOps.map (fun o => .insert o.1 o.2) ++
    [.range (encodeInt 0x2000000000000002) (encodeInt 0x2000000000000003)]) = .ok (s, c, [.flag true]) := by
  have hr : intListRun (cfg95 5) (.fixed 8 sampleKeys) (sampleOps.map fun o => .insert o.1 o.2) = .ok (sample, []) := by
    obtain ⟨f, e⟩ : ∃ f, bulkFixed (cfg95 5) 8 sampleKeys = .ok f := res_ok (by decide +kernel)
    have h := sample_eq
    unfold history at h
    unfold intListRun IntLoad.onList
    dsimp only
    rw [e] at h
    rw [e, Res.bind_ok, listFrom_ops, h, Res.bind_ok]
  have hret : (intRunTable crc32c 8 (cfg95 5) (.fixed 8 sampleKeys) (sampleOps.map (fun o => .insert o.1 o.2) ++
      [.range (encodeInt 0x2000000000000002) (encodeInt 0x2000000000000003)])).bind (fun _ => .ok ()) = .ok () := by decide +kernel
  have h2 : ∀ ops : List (Key × Bool), (∀ o ∈ ops, o.1.length ≤ 8) → ∀ call ∈ ops.map fun o => FilterCall.insert o.1 o.2,
      call.Short ∧ ¬ call.IsDelete := fun ops h call hc => by
    obtain ⟨o, ho, rfl⟩ := List.mem_map.1 hc
    exact ⟨h o ho, id⟩
  replace h2 := h2 sampleOps (by decide +kernel)
  have h1 : (IntLoad.fixed 8 sampleKeys).OK := ⟨by decide, by decide +kernel, grouped_nodup (by decide +kernel)⟩
  have hk : encodeInt 0x2000000000000003 ∈ (sampleOps.map Prod.fst).reverse ++ sampleKeys := by simp [sampleOps]
  have hlen : ∀ x, (encodeInt x).length ≤ 8 := fun _ => Nat.le_of_eq rfl
  have hle : keyLe (encodeInt 0x2000000000000002) (encodeInt 0x2000000000000003) = true := by decide +kernel
  generalize sampleOps.map (fun o => FilterCall.insert o.1 o.2) = calls at hr h2 hret ⊢
  rcases C55_answers_partial (h := crc32c) cfg95_5 h1 (fun call hc => (h2 call hc).1)
      (fun w _ => calm_of_noDelete w fun call hc => (h2 call hc).2) hr (n := 8) (by decide) (.built sample_built.toVar.1) hk
      (call := .range (encodeInt 0x2000000000000002) (encodeInt 0x2000000000000003)) (hlen _)
      (.inr ⟨_, _, rfl, hlen _, hle, keyLe_refl _⟩) 8 with e | ⟨s, e⟩
  · rw [e] at hret; cases hret
  · exact ⟨s, _, e⟩

end Verif.Props
