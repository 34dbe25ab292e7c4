import Verif.Proof.Crowd
import Verif.Props.IntTab

/-!
# C52, C55: keys on which the tree never returns, in any order and after any history
-/

namespace Verif.Props

open Str

variable {h : Key → Nat} {depth : Nat} {c : Cfg}

/-- C52: a history of `Diva<false>` with more than sixteen byte strings of the same hash, each a prefix of more than 32 boundary
keys in the end, never returns, whatever the calls and their order were and however large the table may become. -/
theorem C52_crowd {ld : Load} {calls : List FilterCall} (h1 : ld.KeysLe 65520) (h2 : InsertsLe 65520 calls) {f : Filter} {as : List Answer}
    (hr : runList c ld calls = .ok (f, as)) {x : Nat} {L : List Key} (hL : L.Nodup) (h16 : 16 < L.length)
    (hx : ∀ p ∈ L, h p = x ∧ 32 < (f.tree.filter fun e => p.isPrefixOf e.1).length) (depth : Nat) : runTable h depth c ld calls = .hang := by
  have hk := (short_run (by decide) c h1 h2).keysIn
  rcases C52_client (h := h) hk depth with e | e
  · exact e
  · exfalso
    have hs := run_same c (h1.mono (by decide)) fun k b h => Nat.le_trans (h2 k b h) (by decide : 65520 ≤ 65535)
    rw [hr, run_client] at hs
    cases e1 : (runClient c ld calls).onLeaves STree.empty with
    | ub => rw [e1] at hs; exact hs.elim
    | hang => rw [e1] at hs; exact hs.elim
    | ok q =>
      rw [e1] at hs e
      have hT : SRep q.1 f.tree := hs.1.2.1
      obtain ⟨⟨s, a⟩, e2, e3⟩ := Res.bind_eq_ok e
      have hq : s.leaves = q.1 := congrArg Prod.fst (Res.ok.inj e3)
      refine absurd ((C52_calls hk e2).2.1 x L hL fun p hp => ⟨(hx p hp).1, ?_⟩) (Nat.not_le.2 h16)
      rw [hq]
      exact hT.crowd (hx p hp).2

/-- C55: the same for `Diva<true>`. -/
theorem C55_crowd {ld : IntLoad} {calls : List FilterCall} (h1 : ld.OK) (h2 : ∀ call ∈ calls, call.Short)
    (h3 : ∀ w, ld.onTree c = .ok w → CalmFrom w calls) {f : Filter} {as : List Answer}
    (hr : intListRun c ld calls = .ok (f, as)) {x : Nat} {L : List Key} (hL : L.Nodup) (h16 : 16 < L.length)
    (hx : ∀ p ∈ L, h p = x ∧ 32 < (f.tree.filter fun e => p.isPrefixOf e.1).length) (depth : Nat) : intRunTable h depth c ld calls = .hang := by
  rcases C55_same_partial (h := h) c h1 h2 h3 hr depth with e | ⟨s, e, ht⟩
  · exact e
  · exfalso
    have hs := intRun_same c h1 h2 h3
    rw [hr] at hs
    obtain ⟨w, as', ew, hT⟩ : ∃ w as', intTreeRun c ld calls = .ok (w, as') ∧ Twin w f := by
      revert hs
      cases intTreeRun c ld calls with
      | ok p => exact fun h => ⟨p.1, p.2, rfl, h.1⟩
      | ub => exact fun h => h.elim
      | hang => exact fun h => h.elim
    have ho := history_order h1 h2 h3 ⟨_, ew⟩
    have hc := C55_client (h := h) ho depth
    have e' : (intRunClient c ld calls).onIntNew h depth = .ok (s, f.cfg, as) := e
    rw [e'] at hc
    rcases hc with hc | hc
    · cases hc
    · rw [IntC.run_client, ← hc] at ew
      have hw : s.leaves = w.tree := congrArg (fun x : WhFilter × List Answer => x.1.tree) (Res.ok.inj ew)
      refine absurd ((C55_calls ho e').2.1 x L hL fun p hp => ⟨(hx p hp).1, ?_⟩) (Nat.not_le.2 h16)
      rw [hw]
      exact hT.2.crowd (hx p hp).2

/-! ## A load of `Diva<false>` -/

/-- The bytes of `cxrlvtttttttttttttttt`. The letter `t` does not change the hash of `cxrlv`. -/
def hummed : Key := [99, 120, 114, 108, 118] ++ List.replicate 16 116

/-- It, followed by a number of two bytes. -/
def hummedKey (i : Nat) : Key := hummed ++ [UInt8.ofNat (i / 256), UInt8.ofNat i]

theorem keyLt_same (p : Key) {a b : Key} (h : keyLt a b = true) : keyLt (p ++ a) (p ++ b) = true := by
  induction p with
  | nil => exact h
  | cons x p ih => rw [List.cons_append, List.cons_append, keyLt, ih]; simp

theorem hummed_lt {i j : Nat} (hij : i < j) (hj : j < 65536) : keyLt (hummedKey i) (hummedKey j) = true := by
  refine keyLt_same _ ?_
  simp only [keyLt, UInt8.lt_iff_toNat_lt, beq_iff_eq, Bool.or_eq_true, Bool.and_eq_true, decide_eq_true_eq, ← UInt8.toNat_inj,
    UInt8.toNat_ofNat']
  omega

/-- Prefixes of it with the same hash. -/
def hummedNodes : List Key := (List.range 17).map fun i => hummed.take (5 + i)

theorem hummed_hang {K : List Key} (hkl : K.length = 33792) (hget : ∀ i, i < 33792 → K.getD i [] = hummedKey i)
    (hlen : ∀ k ∈ K, k.length = 23) (hs : K.Pairwise fun a b => keyLt a b = true) : ∃ c : Cfg, c.WF ∧ (∃ f, bulkFixed c 23 K = .ok f) ∧
    ∀ depth, runTable crc32c depth c (.fixed 23 K) [] = .hang := by
  obtain ⟨f, e, -⟩ := C11_partial (n := 23) cfg95_5 (fun h => by rw [h] at hkl; cases hkl) (by rw [hkl]; decide) hlen hs
  refine ⟨cfg95 5, cfg95_5, ⟨f, e⟩, fun depth => ?_⟩
  refine C52_crowd (ld := .fixed 23 K) (calls := []) (f := f) (as := []) (x := 0xcd735f1a) (L := hummedNodes) ⟨by decide, fun k hk => by rw [hlen k hk]; decide⟩
    (fun k b h => by cases h) ?_ (by decide +kernel) (by decide +kernel) (fun p hp => ⟨?_, ?_⟩) depth
  · show ((bulkFixed (cfg95 5) 23 K).bind _) = _
    rw [e]; rfl
  · revert p; decide +kernel
  · rw [← filter_fst]
    have hsub : ((List.range 33).map fun i => hummedKey (1024 * i)).Subperm ((f.tree.map Prod.fst).filter p.isPrefixOf) := by
      refine List.Nodup.subperm ?_ fun k hk => ?_
      · refine List.Pairwise.map _ ?_ (List.pairwise_lt_range.imp_of_mem (S := fun a b => a < b ∧ b < 33) fun _ hb h => ⟨h, List.mem_range.1 hb⟩)
        intro a b hab he
        have := hummed_lt (show 1024 * a < 1024 * b by omega) (by omega)
        rw [he, keyLt_irrefl] at this
        cases this
      · obtain ⟨i, hi, rfl⟩ := List.mem_map.1 hk
        have hi := List.mem_range.1 hi
        refine List.mem_filter.2 ⟨?_, List.isPrefixOf_iff_prefix.2 ?_⟩
        · rw [← hget _ (by omega)]
          exact bulk_bounds e (by omega)
        · obtain ⟨j, -, rfl⟩ := List.mem_map.1 hp
          exact (List.take_prefix _ _).trans (List.prefix_append _ _)
    have := hsub.length_le
    rwa [List.length_map, List.length_range] at this

/-- The constructor of `Diva<false>` never returns from these 33792 strings of 23 bytes in order, with the hash function of the
code: "cxrlvtttttttttttttttt" followed by the numbers 0 to 33791 in two bytes. -/
theorem C52_false_load : ∃ c : Cfg, c.WF ∧ (∃ f, bulkFixed c 23 ((List.range 33792).map hummedKey) = .ok f) ∧
    ∀ depth, runTable crc32c depth c (.fixed 23 ((List.range 33792).map hummedKey)) [] = .hang := by
  refine hummed_hang (by rw [List.length_map, List.length_range]) (fun i hi => ?_) (fun k hk => ?_) ?_
  · rw [List.getD_eq_getElem?_getD, List.getElem?_map, List.getElem?_range hi]; rfl
  · obtain ⟨x, -, rfl⟩ := List.mem_map.1 hk
    rfl
  · refine List.pairwise_map.2 (List.pairwise_lt_range.imp_of_mem fun _ hb h => hummed_lt h ?_)
    have := List.mem_range.1 hb
    omega

/-! ## Cases -/

/-- Integers of three ranges. -/
def blockKey (n : Nat) : Key := [UInt8.ofNat (n / 33792), 0, 0, 0, 0, 0, UInt8.ofNat (n % 33792 / 256), UInt8.ofNat (n % 33792)]

theorem block_lt {i j : Nat} (hij : i < j) (hj : j < 101376) : keyLt (blockKey i) (blockKey j) = true := by
  simp only [blockKey, keyLt, UInt8.lt_iff_toNat_lt, beq_iff_eq, Bool.or_eq_true, Bool.and_eq_true, decide_eq_true_eq, ← UInt8.toNat_inj,
    UInt8.toNat_ofNat', Nat.lt_irrefl, false_or, true_and]
  omega

/-- Their common prefixes. -/
def blockNodes : List Key := (List.range 18).map fun i => [UInt8.ofNat (i / 6), 0, 0, 0, 0, 0].take (i % 6 + 1)

theorem block_hang {K : List Key} (hkl : K.length = 101376) (hget : ∀ i, i < 101376 → K.getD i [] = blockKey i)
    (hlen : ∀ k ∈ K, k.length = 8) (hs : K.Pairwise fun a b => keyLt a b = true) (depth : Nat) :
    intRunTable (fun _ => 5) depth (cfg95 5) (.fixed 8 K) [] = .hang := by
  obtain ⟨f, e, -⟩ := C11_partial (n := 8) cfg95_5 (fun h => by rw [h] at hkl; cases hkl) (by rw [hkl]; decide) hlen hs
  refine C55_crowd (ld := .fixed 8 K) (calls := []) (f := f) (as := []) (x := 5) (L := blockNodes)
    ⟨by decide, fun k hk => Nat.le_of_eq (hlen k hk), grouped_sorted (hs.imp fun h => keyLt_keyLe h)⟩
    (fun k h => by cases h) (fun _ _ => trivial) ?_ (by decide +kernel) (by decide +kernel) (fun p hp => ⟨rfl, ?_⟩) depth
  · show ((bulkFixed (cfg95 5) 8 K).bind _) = _
    rw [e]; rfl
  · rw [← filter_fst]
    obtain ⟨m, hm, rfl⟩ := List.mem_map.1 hp
    have hm := List.mem_range.1 hm
    have hsub : ((List.range 33).map fun i => blockKey (33792 * (m / 6) + 1024 * i)).Subperm
        ((f.tree.map Prod.fst).filter (List.isPrefixOf ([UInt8.ofNat (m / 6), 0, 0, 0, 0, 0].take (m % 6 + 1)))) := by
      refine List.Nodup.subperm ?_ fun k hk => ?_
      · refine List.Pairwise.map _ ?_ (List.pairwise_lt_range.imp_of_mem (S := fun a b => a < b ∧ b < 33) fun _ hb h => ⟨h, List.mem_range.1 hb⟩)
        intro a b hab he
        have := block_lt (show 33792 * (m / 6) + 1024 * a < 33792 * (m / 6) + 1024 * b by omega) (by omega)
        rw [he, keyLt_irrefl] at this
        cases this
      · obtain ⟨i, hi, rfl⟩ := List.mem_map.1 hk
        have hi := List.mem_range.1 hi
        refine List.mem_filter.2 ⟨?_, List.isPrefixOf_iff_prefix.2 ((List.take_prefix _ _).trans ?_)⟩
        · rw [← hget _ (by omega), show 33792 * (m / 6) + 1024 * i = 1024 * (33 * (m / 6) + i) by omega]
          exact bulk_bounds e (by omega)
        · rw [blockKey, show (33792 * (m / 6) + 1024 * i) / 33792 = m / 6 by omega]
          exact List.prefix_append [UInt8.ofNat (m / 6), 0, 0, 0, 0, 0] _
    have := hsub.length_le
    rwa [List.length_map, List.length_range] at this

/-- `C55_crowd` with a hash function that does not tell keys apart. -/
example (depth : Nat) : intRunTable (fun _ => 5) depth (cfg95 5) (.fixed 8 ((List.range 101376).map blockKey)) [] = .hang := by
  refine block_hang (by rw [List.length_map, List.length_range]) (fun i hi => ?_) (fun k hk => ?_) ?_ depth
  · rw [List.getD_eq_getElem?_getD, List.getElem?_map, List.getElem?_range hi]; rfl
  · obtain ⟨x, -, rfl⟩ := List.mem_map.1 hk
    rfl
  · refine List.pairwise_map.2 (List.pairwise_lt_range.imp_of_mem fun _ hb h => block_lt h ?_)
    have := List.mem_range.1 hb
    omega

end Verif.Props
