import Verif.Proof.StreamTwice
import Verif.Props.IntTree
import Verif.Props.Restore
import Verif.Props.Bulk
import Verif.Props.Dup

/-!
# C51: histories of `Diva<true>`
-/

namespace Verif.Props

variable {c : Cfg} {n : Nat} {ld : IntLoad} {calls : List FilterCall}

/-- C51 for histories without deletions: on its tree `Diva<true>` has the outcome it has on the ordered list. The answers
are the same, so are the bytes when serialised and the regions, and it is undefined or endless exactly if the other is. -/
theorem C51_same (c : Cfg) (h1 : ld.OK) (h2 : ∀ call ∈ calls, call.Short) (h3 : ∀ call ∈ calls, ¬ call.IsDelete) :
    (intTreeRun c ld calls).bind (fun q => .ok (q.1.flat, q.2)) = intListRun c ld calls :=
  (intRun_same c h1 h2 fun w _ => calm_of_noDelete w h3).flat

/-- C51 with deletions that do not merge leaves as in `C45_false`. -/
theorem C51_same_partial (c : Cfg) (h1 : ld.OK) (h2 : ∀ call ∈ calls, call.Short)
    (h3 : ∀ w, ld.onTree c = .ok w → CalmFrom w calls) :
    (intTreeRun c ld calls).bind (fun q => .ok (q.1.flat, q.2)) = intListRun c ld calls := (intRun_same c h1 h2 h3).flat

/-- C51: what such a history writes satisfies the precondition for restoring, whatever follows it. The object read back
has the same regions. -/
theorem C51_restore_partial {s : Nat} (hc : (cfg95 s).WF) (h1 : ld.OK) (h2 : ∀ call ∈ calls, call.Short)
    (h3 : ∀ w, ld.onTree c = .ok w → CalmFrom w calls) {w : WhFilter} {as : List Answer}
    (hr : intTreeRun c ld calls = .ok (w, as)) (hs : w.cfg = cfg95 s) (seed : Nat) (more : List UInt8) :
    ∃ w' buf, whSerialize seed lfBits95 w = .ok (w', buf) ∧ w'.flat = w.flat ∧ (IntLoad.restore (buf ++ more)).OK ∧
      (n ≤ 20000 → States (cfg95 s) n w.flat → ∃ w'', whDeserialize (buf ++ more) = .ok w'' ∧ w''.flat = w.flat) := by
  have hsame := intRun_same c h1 h2 h3
  rw [hr] at hsame
  generalize intListRun c ld calls = Y at hsame
  obtain ⟨f, as'⟩ | _ | _ := Y
  · obtain ⟨ht, -⟩ := hsame
    dsimp only at ht
    have hf := ht.flat
    rw [hf]
    obtain ⟨c1, t⟩ := w
    obtain ⟨c2, m⟩ := f
    obtain ⟨e1, e2⟩ := ht
    dsimp only at e1 e2 hs
    subst e1
    have hs' : s < 2 ^ 32 := by have := hc.s2; have : (cfg95 s).infixSize = s := rfl; omega
    obtain ⟨t', e, h'⟩ := serialize_wh c1 seed lfBits95 e2
    have hok : RestoreOK (serialize true seed lfBits95 ⟨c1, m⟩ ++ more) :=
      restoreOK_written (f := ⟨c1, m⟩) hs' hs e2.inc e2.short seed more
    refine ⟨_, _, e, ?_, hok, fun hn hst => ?_⟩
    · exact Twin.flat (w := ⟨c1, t'⟩) (f := ⟨c1, m⟩) ⟨rfl, h'⟩
    · obtain ⟨w'', e3, h3⟩ := (deserialize_wh hok).okR (restore_filter hc hn hst true seed more)
      exact ⟨w'', e3, h3.flat⟩
  · exact hsame.elim
  · exact hsame.elim

/-- C51 and C57: no key of a streaming load is lost on the tree, repeated or not, except as in `C12_partial`,
`C57_hang` and `C51_false_stream`. -/
theorem C57_tree_partial (hc : c.WF) (hn : n ≤ 8) {K : List Key} (hne : K ≠ []) (hsam : Sampled K)
    (hlen : ∀ k ∈ K, k.length = n) (hs : K.Pairwise fun a b => keyLe a b = true)
    (h0 : K.length ≤ 1024 ∨ K.getD 0 [] ≠ List.replicate n 0 ∧ K.getLastD [] ≠ List.replicate n 255) :
    ∃ w, whStreamAll c K = .ok w ∧ ∀ k ∈ K, ∃ w', whPointQuery w k = .ok (w', true) := by
  have hK0 : n = K.foldl (fun m k => max m k.length) 0 := by
    cases K with
    | nil => exact absurd rfl hne
    | cons k K =>
      have hkn := hlen k (by simp)
      rw [List.foldl_cons, hkn, Nat.zero_max, foldl_max_const fun x hx => hlen x (by simp [hx])]
  obtain ⟨f, e, hp⟩ := C57_stream_partial hc hne hK0
    (hs.imp_of_mem fun {a b} ha hb h => by
      by_cases hab : a = b
      · exact .inl hab
      · exact .inr (padLt_of_keyLt (keyLt_iff.2 ⟨h, hab⟩) (by rw [hlen a ha, hlen b hb])))
    (fun k hk => by
      by_cases hz : k = List.replicate n 0
      · exact .inl hz
      · refine .inr (padLt_of_keyLt ?_ (by rw [hlen k hk, List.length_replicate]))
        exact keyLt_trichotomy (not_lt_zeros (hlen k hk)) hz)
    (h0.imp_right fun h => h.1) hsam
  obtain ⟨w, ew, ht⟩ := (streamAll_wh hn c hlen hs (h0.imp_right fun h => .inr h.2)).okR e
  refine ⟨w, ew, fun k hk => ?_⟩
  obtain ⟨c1, t⟩ := w
  obtain ⟨c2, m⟩ := f
  obtain ⟨e1, e2⟩ := ht
  dsimp only at e1 e2
  subst e1
  obtain ⟨q, e, -, -, -, e4⟩ := (pointQuery_wh (k := k) c1 e2 (by rw [hlen k hk]; exact hn)).okR (hp k hk)
  exact ⟨q.1, by rw [e, ← e4]⟩

/-- C51: no key of a streaming load of distinct keys is lost on the tree, except as in `C12_partial` and `C51_false_stream`. -/
theorem C51_stream_partial (hc : c.WF) (hn : n ≤ 8) {K : List Key} (hne : K ≠ []) (hmod : K.length % 1024 ≠ 1)
    (hlen : ∀ k ∈ K, k.length = n) (hs : K.Pairwise fun a b => keyLt a b = true)
    (h0 : K.length ≤ 1024 ∨ K.getD 0 [] ≠ List.replicate n 0 ∧ K.getLastD [] ≠ List.replicate n 255) :
    ∃ w, whStreamAll c K = .ok w ∧ ∀ k ∈ K, ∃ w', whPointQuery w k = .ok (w', true) :=
  C57_tree_partial hc hn hne
    ((sampled_iff (hs.imp_of_mem fun {a b} ha hb h => padLt_of_keyLt h (by rw [hlen a ha, hlen b hb]))
      (fun e => hne (List.length_eq_zero_iff.1 e))).2 hmod) hlen (hs.imp fun h => keyLt_keyLe h) h0

/-- 5, 7, 7, 7, 9 streamed. -/
example : ∃ w, whStreamAll (cfg95 5) ([5, 7, 7, 7, 9].map encodeInt) = .ok w ∧
    ∀ k ∈ [5, 7, 7, 7, 9].map encodeInt, ∃ w', whPointQuery w k = .ok (w', true) := by
  have hs : ([5, 7, 7, 7, 9].map encodeInt).Pairwise fun a b => keyLe a b = true := by decide +kernel
  exact C57_tree_partial cfg95_5 (n := 8) (by decide) (by simp)
    (sampled_of_count hs (by simp) (by decide) (by decide +kernel) (by decide +kernel)) (by decide +kernel) hs (.inl (by decide))

/-- C51 is violated by streaming 1026 to 2048 keys of which the last is all ones and the first is not all zeros. That last
key is in the tree twice, so `Size` is larger than for the ordered list, and `Serialize` writes the key twice. -/
theorem C51_false_keys {A B : List Key} {a x : Key} (hA : A.length = 1023) (hB : B.length ≤ 1022)
    (hlen : ∀ k ∈ a :: (A ++ x :: B), k.length = 8) (hza : a ≠ List.replicate 8 0)
    (hs : (a :: (A ++ x :: (B ++ [List.replicate 8 255]))).Pairwise fun a b => keyLt a b = true) :
    ∃ w f p q, intTreeRun (cfg95 5) (.stream (a :: (A ++ x :: (B ++ [List.replicate 8 255])))) [.size] = .ok (w, [.size p]) ∧
      intListRun (cfg95 5) (.stream (a :: (A ++ x :: (B ++ [List.replicate 8 255])))) [.size] = .ok (f, [.size q]) ∧ p ≠ q := by
  have hl8 : ∀ k ∈ a :: (A ++ x :: B), k.length ≤ 8 := fun k hk => Nat.le_of_eq (hlen k hk)
  have hz := keyLt_trichotomy (not_lt_zeros (hlen a (by simp))) hza
  obtain ⟨h1, h2⟩ := List.pairwise_cons.1 hs
  have hax := h1 x (by simp)
  have hxf := (List.pairwise_cons.1 (List.pairwise_append.1 h2).2.1).1 (List.replicate 8 255) (by simp)
  obtain ⟨sa, sx, ew, el⟩ := stream_twice (cfg95 5) (Nat.le_refl 8) hA hB hlen hz hax hxf
  obtain ⟨t, et⟩ := twice_scan (fun res e => res + sizeEntry true (cfg95 5) e) (1 + 12 * 4) sa (Store.new growSep) sx hz hax hxf
    (hl8 a (by simp)) (by simp) (hl8 x (by simp)) (by simp)
  have hsz : sizeEntry true (cfg95 5) ((List.replicate 8 255, Store.new growSep) : Key × Store) = 960 := by decide +kernel
  obtain ⟨X, hX⟩ : ∃ X, X = 1 + 12 * 4 + sizeEntry true (cfg95 5) (List.replicate 8 0, Store.new growSep) +
      sizeEntry true (cfg95 5) (a, sa) + sizeEntry true (cfg95 5) (x, sx) := ⟨_, rfl⟩
  rw [hsz, ← hX] at et
  refine ⟨⟨cfg95 5, t⟩,
    ⟨cfg95 5, [(List.replicate 8 0, Store.new growSep), (a, sa), (x, sx), (List.replicate 8 255, Store.new growSep)]⟩,
    (X + 960 + 960 + 4) % 2 ^ 32, (X + 960 + 4) % 2 ^ 32, ?_, ?_, by omega⟩
  · unfold intTreeRun IntLoad.onTree
    dsimp only
    rw [ew, Res.bind_ok, intTreeFrom]
    unfold FilterCall.onIntTree whSize
    dsimp only
    rw [et]
    rfl
  · unfold intListRun IntLoad.onList
    dsimp only
    rw [el, Res.bind_ok, intListFrom]
    unfold FilterCall.onIntList sizeOf
    dsimp only
    simp only [List.foldl_cons, List.foldl_nil]
    rw [hsz, ← hX]
    rfl

/-- For example the integers from 1 to 1025 and `2^64 - 1`. -/
theorem C51_false_stream : ∃ (K : List Key) (w : WhFilter) (f : Filter) (p q : Nat), (∀ k ∈ K, k.length = 8) ∧
    K.Pairwise (fun a b => keyLt a b = true) ∧ intTreeRun (cfg95 5) (.stream K) [.size] = .ok (w, [.size p]) ∧
    intListRun (cfg95 5) (.stream K) [.size] = .ok (f, [.size q]) ∧ p ≠ q := by
  have e : encodeInt 1 :: (((List.range 1023).map fun i => encodeInt (i + 2)) ++ encodeInt 1025 :: ([] ++ [List.replicate 8 255])) =
      ((List.range 1025).map fun i => encodeInt (i + 1)) ++ [List.replicate 8 255] := by
    rw [show 1025 = 1 + 1023 + 1 by rfl, List.range_add, List.range_add, List.map_append, List.map_append,
      List.map_map, List.map_map]
    have e1 : (List.range 1023).map ((fun i => encodeInt (i + 1)) ∘ fun x => 1 + x) = (List.range 1023).map fun i => encodeInt (i + 2) :=
      List.map_congr_left fun i _ => by rw [Function.comp_apply, Nat.add_comm 1 i]
    rw [e1]
    simp
  have hl : ∀ k ∈ encodeInt 1 :: (((List.range 1023).map fun i => encodeInt (i + 2)) ++ encodeInt 1025 :: []), k.length = 8 := by
    intro k hk
    simp only [List.mem_cons, List.mem_append, List.mem_map, List.not_mem_nil, or_false] at hk
    rcases hk with rfl | ⟨i, _, rfl⟩ | rfl <;> rfl
  have hs : (((List.range 1025).map fun i => encodeInt (i + 1)) ++ [List.replicate 8 255]).Pairwise fun a b => keyLt a b = true := by
    have h255 : List.replicate 8 255 = encodeInt (2 ^ 64 - 1) := by decide
    refine List.pairwise_append.2 ⟨List.pairwise_map.2 ((List.pairwise_lt_range (n := 1025)).imp_of_mem fun ha hb hab =>
        (encode_lt (by have := List.mem_range.1 ha; omega) (by have := List.mem_range.1 hb; omega)).2 (by omega)), by simp, ?_⟩
    intro k hk k' hk'
    obtain ⟨i, hi, rfl⟩ := List.mem_map.1 hk
    rw [List.mem_singleton.1 hk', h255]
    have := List.mem_range.1 hi
    exact (encode_lt (by omega) (by omega)).2 (by omega)
  obtain ⟨w, f, p, q, h1, h2, h3⟩ := C51_false_keys (A := (List.range 1023).map fun i => encodeInt (i + 2)) (B := [])
    (a := encodeInt 1) (x := encodeInt 1025) (by simp) (by simp) hl (by decide) (by rw [e]; exact hs)
  rw [e] at h1 h2
  refine ⟨_, w, f, p, q, fun k hk => ?_, hs, h1, h2, h3⟩
  rcases List.mem_append.1 hk with hk | hk
  · obtain ⟨i, _, rfl⟩ := List.mem_map.1 hk; rfl
  · rw [List.mem_singleton.1 hk]; rfl

/-! ## Cases that satisfy the hypotheses -/

def threeKeys : List Key := [encodeInt 5, encodeInt 0x8000, encodeInt 0xf000]

/-- Splits in descending order, an insert without split, queries, shrinking. -/
def runCalls : List FilterCall := (List.range 36).map (fun i => .insert (encodeInt (0x9000 - 0x100 * i)) true) ++
  [.insert (encodeInt 0x9001) false, .point (encodeInt 0x9001), .range (encodeInt 0x8001) (encodeInt 0x8002), .point (encodeInt 0xf001),
   .shrink 4, .size]

/-- What they return. -/
def runAnswers : List Answer := [.flag true, .flag true, .flag false, .size 9653]

theorem runCalls_short : ∀ call ∈ runCalls, call.Short := by
  intro call h
  simp only [runCalls, List.mem_append, List.mem_map, List.mem_cons, List.not_mem_nil, or_false] at h
  rcases h with ⟨i, _, rfl⟩ | rfl | rfl | rfl | rfl | rfl | rfl <;> first | trivial | exact Nat.le_of_eq rfl

theorem runCalls_noDelete : ∀ call ∈ runCalls, ¬ call.IsDelete := by
  intro call h
  simp only [runCalls, List.mem_append, List.mem_map, List.mem_cons, List.not_mem_nil, or_false] at h
  rcases h with ⟨i, _, rfl⟩ | rfl | rfl | rfl | rfl | rfl | rfl <;> exact id


theorem threeKeys_ok : (IntLoad.stream threeKeys).OK :=
  ⟨8, by decide, by decide, by decide, .inl (by decide)⟩

/-- Four leaves, and the answers are as expected. -/
theorem run_sample : ∃ w f, intTreeRun (cfg95 5) (.stream threeKeys) runCalls = .ok (w, runAnswers) ∧
    w.tree.map (fun l => (l.nr, l.sorted)) = [(1, 1), (6, 6), (32, 32), (1, 1)] ∧
    intListRun (cfg95 5) (.stream threeKeys) runCalls = .ok (f, runAnswers) ∧ w.flat = f := by
  have h : (intTreeRun (cfg95 5) (.stream threeKeys) runCalls).bind (fun q => .ok (q.1.tree.map (fun l => (l.nr, l.sorted)), q.2)) =
    .ok ([(1, 1), (6, 6), (32, 32), (1, 1)], runAnswers) := by decide +kernel
  obtain ⟨q, e, h⟩ := Res.bind_eq_ok h
  have h := Prod.mk.inj (Res.ok.inj h)
  have hs := C51_same (cfg95 5) threeKeys_ok runCalls_short runCalls_noDelete
  obtain ⟨w, as⟩ := q
  obtain ⟨h1, h2⟩ := h
  dsimp only at h1 h2
  subst h2
  rw [e, Res.bind_ok] at hs
  exact ⟨w, _, e, h1, hs.symm, rfl⟩

/-- `C51_same` for `runCalls`. -/
example : ∃ w f, intTreeRun (cfg95 5) (.stream threeKeys) runCalls = .ok (w, runAnswers) ∧
    intListRun (cfg95 5) (.stream threeKeys) runCalls = .ok (f, runAnswers) ∧ w.flat = f := by
  obtain ⟨w, f, h1, -, h2, h3⟩ := run_sample
  exact ⟨w, f, h1, h2, h3⟩

/-- `C51_same_partial` with a deletion of a boundary key. -/
example : ∃ w f, intTreeRun (cfg95 5) (.fixed 8 threeKeys) [.insert (encodeInt 0x9000) true, .delete (encodeInt 0x9000), .size] =
      .ok (w, [.size 3133]) ∧
    intListRun (cfg95 5) (.fixed 8 threeKeys) [.insert (encodeInt 0x9000) true, .delete (encodeInt 0x9000), .size] =
      .ok (f, [.size 3133]) := by
  have hcalm : ∀ w, (IntLoad.fixed 8 threeKeys).onTree (cfg95 5) = .ok w →
      CalmFrom w [.insert (encodeInt 0x9000) true, .delete (encodeInt 0x9000), .size] := by
    intro w hw
    refine ⟨fun k e => by (cases e), fun w1 as1 h1 => ⟨fun k e => ?_, fun w2 as2 h2 => ⟨fun k e => by (cases e), fun _ _ _ => trivial⟩⟩⟩
    cases e
    apply calmB_sound
    have : ((IntLoad.fixed 8 threeKeys).onTree (cfg95 5)).bind (fun w =>
      (FilterCall.onIntTree w (.insert (encodeInt 0x9000) true)).bind fun q => .ok (calmB q.1 (encodeInt 0x9000))) = .ok true := by
      decide +kernel
    rw [hw, Res.bind_ok, h1, Res.bind_ok] at this
    exact Res.ok.inj this
  have hs := C51_same_partial (calls := [.insert (encodeInt 0x9000) true, .delete (encodeInt 0x9000), .size]) (cfg95 5)
    (ld := .fixed 8 threeKeys) ⟨by decide, by decide, grouped_nodup (by decide)⟩
    (by intro call h; simp only [List.mem_cons, List.not_mem_nil, or_false] at h
        rcases h with rfl | rfl | rfl <;> first | trivial | exact Nat.le_of_eq rfl) hcalm
  have h : (intTreeRun (cfg95 5) (.fixed 8 threeKeys) [.insert (encodeInt 0x9000) true, .delete (encodeInt 0x9000), .size]).bind
      (fun q => .ok q.2) = .ok [.size 3133] := by decide +kernel
  obtain ⟨q, e, h⟩ := Res.bind_eq_ok h
  obtain ⟨w, as⟩ := q
  obtain rfl := Res.ok.inj h
  rw [e, Res.bind_ok] at hs
  exact ⟨w, _, e, hs.symm⟩

/-- `C51_restore_partial` for the load alone, with trailing bytes. -/
example : ∃ w w' buf, intTreeRun (cfg95 5) (.fixed 8 threeKeys) [] = .ok (w, []) ∧ whSerialize 7 lfBits95 w = .ok (w', buf) ∧
    w'.flat = w.flat ∧ (IntLoad.restore (buf ++ [1, 2])).OK ∧ ∃ w'', whDeserialize (buf ++ [1, 2]) = .ok w'' ∧ w''.flat = w.flat := by
  obtain ⟨w, hw⟩ : ∃ w, whBulkFixed (cfg95 5) 8 threeKeys = .ok w := res_ok (by decide +kernel)
  have hl : (IntLoad.fixed 8 threeKeys).OK := ⟨by decide, by decide, grouped_nodup (by decide)⟩
  have hr : intTreeRun (cfg95 5) (.fixed 8 threeKeys) [] = .ok (w, []) := by
    unfold intTreeRun IntLoad.onTree
    dsimp only
    rw [hw]; rfl
  have hlist : bulkFixed (cfg95 5) 8 threeKeys = .ok w.flat := by
    rw [← C45_load (c := cfg95 5) (Nat.le_refl 8) hl.2.1 hl.2.2, hw]; rfl
  have hst : States (cfg95 5) 8 w.flat := .tame (.strict (by decide) (by decide) hlist)
  have hcfg : w.cfg = cfg95 5 := (hst.inv cfg95_5 (by decide)).cfg
  obtain ⟨w', buf, h1, h2, h3, h4⟩ := C51_restore_partial (n := 8) cfg95_5 hl (calls := []) (by simp) (fun _ _ => trivial) hr hcfg 7 [1, 2]
  exact ⟨w, w', buf, hr, h1, h2, h3, h4 (by decide) hst⟩

/-- `C51_stream_partial` for three keys, and for 1100 keys in two regions. -/
example : ∃ w, whStreamAll (cfg95 5) threeKeys = .ok w ∧ ∀ k ∈ threeKeys, ∃ w', whPointQuery w k = .ok (w', true) :=
  C51_stream_partial cfg95_5 (n := 8) (by decide) (by decide) (by decide) (by decide) (by decide) (.inl (by decide))

example : ∃ w, whStreamAll (cfg95 5) ((List.range 1100).map fun i => encodeInt (i + 1)) = .ok w ∧
    ∃ w', whPointQuery w (encodeInt 700) = .ok (w', true) := by
  obtain ⟨w, h, hp⟩ := C51_stream_partial (K := (List.range 1100).map fun i => encodeInt (i + 1)) cfg95_5 (n := 8) (by decide)
    (by simp) (by simp) (by intro k hk; obtain ⟨i, _, rfl⟩ := List.mem_map.1 hk; rfl)
    (List.pairwise_map.2 ((List.pairwise_lt_range (n := 1100)).imp_of_mem fun ha hb hab =>
      (encode_lt (by have := List.mem_range.1 ha; omega) (by have := List.mem_range.1 hb; omega)).2 (by omega)))
    (.inr ⟨by rw [show 1100 = 1 + 1099 by rfl, List.range_add]; decide,
      by rw [show 1100 = 1099 + 1 by rfl, List.range_succ, List.map_append, List.map_singleton, List.getLastD_concat]; decide⟩)
  exact ⟨w, h, hp _ (List.mem_map.2 ⟨699, by simp, rfl⟩)⟩

/-! ## Streaming and deletions -/

/-- 5, 7, 7, 8, 9 is streamed and 7 is deleted. -/
example : ∃ w w' S, whStreamAll (cfg95 5) ([5, 7, 7, 8, 9].map encodeInt) = .ok w ∧ whDelete w (encodeInt 7) = .ok w' ∧
    IntOps (cfg95 5) 8 true w' S ∧ ∀ x ∈ [5, 7, 8, 9], encodeInt x ∈ S := by
  have h : (whStreamAll (cfg95 5) ([5, 7, 7, 8, 9].map encodeInt)).bind (fun w => (whDelete w (encodeInt 7)).bind fun _ =>
      .ok (tameB true w.flat (encodeInt 7) && calmB w (encodeInt 7) && decide (encodeInt 7 ∉ boundaries w.flat))) = .ok true := by
    decide +kernel
  obtain ⟨w, e, h⟩ := Res.bind_eq_ok h
  obtain ⟨w', hd, h⟩ := Res.bind_eq_ok h
  simp only [Res.ok.injEq, Bool.and_eq_true, decide_eq_true_eq] at h
  have hs : ([5, 7, 7, 8, 9].map encodeInt).Pairwise fun a b => keyLe a b = true := by decide +kernel
  have hl : ∀ k ∈ [5, 7, 7, 8, 9].map encodeInt, k.length = 8 := by decide +kernel
  have hsam : Sampled ([5, 7, 7, 8, 9].map encodeInt) := ⟨fun j hj => by simp at hj; omega, by decide +kernel⟩
  have ho : IntOps (cfg95 5) 8 true w (copies w.flat ([5, 7, 7, 8, 9].map encodeInt)) :=
    .stream hl hs hsam (.inl (by decide)) (copies_le _ _) (fun _ hk => copies_mem.2 hk) e fun _ hk => copies_in hk
  refine ⟨w, w', _, e, hd, ho.delete (copies_mem.2 (by simp)) id
    (tameB_sound ((ho.sound cfg95_5 (by decide)).2.inv cfg95_5 (by decide)).weak h.1.1) (calmB_sound h.1.2) hd,
    fun x hx => copies_erase ?_ (.inr ⟨by decide +kernel, h.2⟩)⟩
  revert x; decide +kernel

end Verif.Props
