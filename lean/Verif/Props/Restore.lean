import Verif.Proof.Restore
import Verif.Props.Serial
import Verif.Props.SampleTame

/-!
# C40: a saved and restored filter goes on like the original
-/

namespace Verif.Props

/-- What a program does with a filter after construction. -/
inductive Step
  | insert (key : Key)
  | delete (key : Key)
  | saveRestore

/-- A program on one object. `saveRestore` writes the object to a buffer and goes on with the object read back. -/
def runSteps (intOpt : Bool) : Diva → List Step → Res Diva
  | d, [] => .ok d
  | d, .insert key :: ps => (d.insert key).bind fun d => runSteps intOpt d ps
  | d, .delete key :: ps => (d.delete key).bind fun d => runSteps intOpt d ps
  | d, .saveRestore :: ps => (Diva.restore intOpt (d.save intOpt)).bind fun d => runSteps intOpt d ps

/-! The generator gives the numbers the C++ standard asks for ([rand.predef]: seeded with 5489, and the first output) -/

example : (mtSeed 5489).length = 624 := by decide +kernel
example : (mtDraw (mtSeed 5489)).1 = 3499211612 := by decide +kernel

section
variable {s n : Nat} {f : Filter}

/-- The filter read back is the filter written, in every bit. -/
theorem restore_filter (hc : (cfg95 s).WF) (hn : n ≤ 20000) (h : States (cfg95 s) n f) (io : Bool) (seed : Nat)
    (more : List UInt8) : deserialize io (serialize io seed lfBits95 f ++ more) = .ok f := by
  have I := h.inv hc (by omega)
  have hs := hc.s2
  have hs' : s < 2 ^ 32 := by have : (cfg95 s).infixSize = s := rfl; omega
  rw [round_trip hs' I.cfg (keyPairwise I.q) (fun e he => Nat.le_trans (I.len e he) hn) io seed more,
    truncFilter_clean I.clean]

theorem restore_diva (hc : (cfg95 s).WF) (hn : n ≤ 20000) (h : States (cfg95 s) n f) (io : Bool) {seed : Nat}
    (hseed : seed < 2 ^ 32) (w : List Nat) (more : List UInt8) :
    Diva.restore io (Diva.save io ⟨f, seed, w⟩ ++ more) = .ok (Diva.start seed f) := by
  have hs := hc.s2
  have hs' : s < 2 ^ 32 := by have : (cfg95 s).infixSize = s := rfl; omega
  have hsf : f.cfg.infixSize = s := by rw [(h.inv hc (by omega)).cfg]; rfl
  unfold Diva.restore Diva.save
  have hm : deserializeMetadata io (serialize io seed lfBits95 f ++ more) = .ok (s, seed, f.tree.flatMap (serializeEntry f.cfg) ++
      leBytes 4 (2 ^ 32 - 1) ++ more) := by
    unfold serialize
    rw [List.append_assoc, List.append_assoc, hsf, metadata_trip io hs', Nat.mod_eq_of_lt hseed, List.append_assoc]
  rw [hm, Res.bind_ok]
  dsimp only
  rw [restore_filter hc hn h io seed more, Res.bind_ok, Diva.start]

theorem run_deletes (io : Bool) : ∀ (ks : List Key) (d d' : Diva), d.filter = d'.filter →
    (runSteps io d (ks.map .delete)).bind (fun d => .ok d.filter) = (runSteps io d' (ks.map .delete)).bind fun d => .ok d.filter
  | [], d, d', h => by simp only [List.map_nil, runSteps, Res.bind_ok]; rw [h]
  | k :: ks, d, d', h => by
    simp only [List.map_cons, runSteps, Diva.delete]
    rw [← h]
    cases delete d.filter k with
    | ub => simp only [Res.bind_ub]
    | hang => simp only [Res.bind_hang]
    | ok f => simp only [Res.bind_ok]; exact run_deletes io ks _ _ rfl

/-- C40, as far as it holds. In every state the filter read back from a saved buffer is bit for bit the filter that was
saved, and saving it again writes the same bytes (1). Deletes go on in the same way (2). If no key was inserted since
construction or the last restore, then every program goes on in the same way (3).
Missing: inserts after a restore of a filter that had inserts before, see `C40_false`, and boundary keys of more than
20000 bytes, see `C17_false`. -/
theorem C40_partial (hc : (cfg95 s).WF) (hn : n ≤ 20000) (h : States (cfg95 s) n f) (io : Bool) {seed : Nat}
    (hseed : seed < 2 ^ 32) (w : List Nat) :
    (∃ d, Diva.restore io (Diva.save io ⟨f, seed, w⟩) = .ok d ∧ d.filter = f ∧ d.seed = seed ∧
      d.save io = Diva.save io ⟨f, seed, w⟩) ∧
    (∀ ks : List Key, (runSteps io ⟨f, seed, w⟩ (.saveRestore :: ks.map .delete)).bind (fun d => .ok d.filter) =
      (runSteps io ⟨f, seed, w⟩ (ks.map .delete)).bind fun d => .ok d.filter) ∧
    ∀ ps, runSteps io (Diva.start seed f) (.saveRestore :: ps) = runSteps io (Diva.start seed f) ps := by
  have h1 := restore_diva hc hn h io hseed w []
  have h2 := restore_diva hc hn h io hseed (mtSeed seed) []
  rw [List.append_nil] at h1 h2
  refine ⟨⟨_, h1, by unfold Diva.start; dsimp only, by unfold Diva.start; dsimp only, by unfold Diva.save Diva.start; dsimp only⟩,
    fun ks => ?_, fun ps => ?_⟩
  · rw [runSteps, h1, Res.bind_ok]
    exact run_deletes io ks _ _ (by unfold Diva.start; dsimp only)
  · rw [runSteps]
    unfold Diva.start at h2 ⊢
    rw [h2, Res.bind_ok]

/-- The sample filter, which has had five inserts, comes back as it was. -/
example : ∃ d, Diva.restore true (Diva.save true ⟨sample, 42, mtSeed 42⟩) = .ok d ∧ d.filter = sample := by
  obtain ⟨d, h1, h2, _⟩ := (C40_partial cfg95_5 (by decide) (.reach sample_reach) true (seed := 42) (by decide) (mtSeed 42)).1
  exact ⟨d, h1, h2⟩

end

theorem draw0 : ((mtDraw (mtSeed 474)).1 % 1024 == 0) = true := by decide +kernel

theorem draw1 : ((mtDraw (mtDraw (mtSeed 474)).2).1 % 1024 == 0) = false := by decide +kernel

attribute [local irreducible] mtSeed mtDraw

theorem diva_insert {d : Diva} {key : Key} {b : Bool} {f : Filter} (h : ((mtDraw d.rng).1 % 1024 == 0) = b)
    (hi : insert d.filter key b = .ok f) : d.insert key = .ok ⟨f, d.seed, (mtDraw d.rng).2⟩ := by
  unfold Diva.insert
  rw [h, hi, Res.bind_ok]

/-- C40 is violated: the buffer does not hold the position of the random number generator, and restoring seeds it again.
Seed 474 makes the first insert split a region and the second not. After saving and restoring between the two, the second
insert splits too. The two filters then have different boundaries and differ on a key that was never inserted. -/
theorem C40_false : ∃ (K : List Key) (f : Filter) (k1 k2 q : Key) (d1 d2 : Diva),
    (∀ k ∈ K, k.length = 8) ∧ K.Pairwise (fun a b => keyLt a b = true) ∧ bulkFixed (cfg95 5) 8 K = .ok f ∧
    runSteps true (Diva.start 474 f) [.insert k1, .insert k2] = .ok d1 ∧
    runSteps true (Diva.start 474 f) [.insert k1, .saveRestore, .insert k2] = .ok d2 ∧
    (boundaries d1.filter).length ≠ (boundaries d2.filter).length ∧
    pointQuery d1.filter q = .ok true ∧ pointQuery d2.filter q = .ok false := by
  have hf1 : runFits (bulkFixed (cfg95 5) 8 sampleKeys) [(encodeInt 0x3000000000000000, true)] = true := by decide +kernel
  have hk1 : ∀ k ∈ sampleKeys, k.length = 8 := by decide +kernel
  have hk2 : sampleKeys.Pairwise fun a b => keyLt a b = true := by decide +kernel
  have r1 : (history (cfg95 5) 8 sampleKeys [(encodeInt 0x3000000000000000, true), (encodeInt 0x4123456789abcdef, false)]).bind
      (fun f => (pointQuery f (encodeInt 0x4123456789abcdee)).bind fun r => .ok (r, (boundaries f).length)) = .ok (true, 5) := by
    decide +kernel
  have r2 : (history (cfg95 5) 8 sampleKeys [(encodeInt 0x3000000000000000, true), (encodeInt 0x4123456789abcdef, true)]).bind
      (fun f => (pointQuery f (encodeInt 0x4123456789abcdee)).bind fun r => .ok (r, (boundaries f).length)) = .ok (false, 6) := by
    decide +kernel
  obtain ⟨f1, e1, r1⟩ := Res.bind_eq_ok r1
  obtain ⟨a1, q1, r1⟩ := Res.bind_eq_ok r1
  obtain ⟨f2, e2, r2⟩ := Res.bind_eq_ok r2
  obtain ⟨a2, q2, r2⟩ := Res.bind_eq_ok r2
  simp only [Res.ok.injEq, Prod.mk.injEq] at r1 r2
  rw [r1.1] at q1
  rw [r2.1] at q2
  unfold history at e1 e2
  cases hb : bulkFixed (cfg95 5) 8 sampleKeys with
  | ub => rw [hb, runOps_ub] at e1; cases e1
  | hang => rw [hb, runOps_hang] at e1; cases e1
  | ok f =>
    rw [hb] at e1 e2 hf1
    rw [runOps, Res.bind_ok, runOps] at e1 e2
    cases hi : insert f (encodeInt 0x3000000000000000) true with
    | ub => rw [hi, Res.bind_ub, runOps] at e1; cases e1
    | hang => rw [hi, Res.bind_hang, runOps] at e1; cases e1
    | ok g =>
      rw [hi, Res.bind_ok, runOps] at e1 e2
      have hB : BuiltFit (cfg95 5) 8 g _ := runOps_builtFit (ops := [(encodeInt 0x3000000000000000, true)])
        (.load hk1 (hk2.imp fun h => keyLt_keyLe h) hb) (by decide +kernel) hf1 (by rw [runOps, Res.bind_ok, runOps, hi])
      have hR := restore_diva (io := true) cfg95_5 (by decide) (.reach hB.toReach) (seed := 474) (by decide)
        (mtDraw (mtSeed 474)).2 []
      rw [List.append_nil] at hR
      have i1 : (Diva.start 474 f).insert (encodeInt 0x3000000000000000) = .ok ⟨g, 474, (mtDraw (mtSeed 474)).2⟩ :=
        diva_insert (d := ⟨f, 474, mtSeed 474⟩) draw0 hi
      have i2 : Diva.insert ⟨g, 474, (mtDraw (mtSeed 474)).2⟩ (encodeInt 0x4123456789abcdef) = .ok ⟨f1, 474, (mtDraw (mtDraw (mtSeed 474)).2).2⟩ :=
        diva_insert (d := ⟨g, 474, (mtDraw (mtSeed 474)).2⟩) draw1 e1
      have i3 : (Diva.start 474 g).insert (encodeInt 0x4123456789abcdef) = .ok ⟨f2, 474, (mtDraw (mtSeed 474)).2⟩ :=
        diva_insert (d := ⟨g, 474, mtSeed 474⟩) draw0 e2
      refine ⟨sampleKeys, f, encodeInt 0x3000000000000000, encodeInt 0x4123456789abcdef, encodeInt 0x4123456789abcdee,
        ⟨f1, 474, (mtDraw (mtDraw (mtSeed 474)).2).2⟩, ⟨f2, 474, (mtDraw (mtSeed 474)).2⟩, hk1, hk2, hb, ?_, ?_, ?_, q1, q2⟩
      · rw [runSteps, i1, Res.bind_ok, runSteps, i2, Res.bind_ok, runSteps]
      · rw [runSteps, i1, Res.bind_ok, runSteps, hR, Res.bind_ok, runSteps, i3, Res.bind_ok, runSteps]
      · rw [r1.2, r2.2]; decide

end Verif.Props
