import Verif.Proof.Scale
import Verif.Props.Regions
import Verif.Props.Serial

/-!
# C39: load factors

A `float` from 0.5 to 1 is `m / 2 ^ 24`, one from 1 to 2 is `m / 2 ^ 23`, with `m` between `2 ^ 23` and `2 ^ 24`.
-/

namespace Verif.Props

/-- The load factors from 0.93 to 0.995. -/
def MidLoad (m : Nat) : Prop := 93 * 2 ^ 24 ≤ 100 * m ∧ 1000 * m ≤ 995 * 2 ^ 24

theorem MidLoad.good {m : Nat} (h : MidLoad m) : GoodLf (m, 24) := by
  have h1 : (93 * 2 ^ 24 : ℚ) ≤ 100 * m := by exact_mod_cast h.1
  have h2 : (1000 * m : ℚ) ≤ 995 * 2 ^ 24 := by exact_mod_cast h.2
  unfold GoodLf fval
  constructor
  · rw [le_div_iff₀ (by norm_num)]; norm_num at *; linarith
  · rw [div_le_iff₀ (by norm_num)]; norm_num at *; linarith

/-- C39 for load factors from 0.93 to 0.995: the constructor returns, grades grow, keys that were inserted are found,
and every insert into a region of fewer than `c.cap` items, at least 1023, finds a free slot. Missing: the other load
factors, see `C39_false_small` and `C39_false_one`, and deserialisation, see `C39_false_restore`. -/
theorem C39_partial {m s : Nat} (h : MidLoad m) (h1 : 1 ≤ s) (h2 : s ≤ 46) :
    ∃ c, setupScaleFactors (m, 24) s = .ok c ∧ c.infixSize = s ∧ 1024 ≤ c.cap ∧ (∀ g, g < 255 → c.size g < c.size (g + 1)) ∧
    (∀ n f S, n < 2 ^ 28 → BuiltFit c n f S → ∀ k ∈ S, pointQuery f k = .ok true) ∧
    ∀ T st L x, T ≤ 1024 → RegionRun c T st L → x < T * 2 ^ s → x % 2 = 1 → st.elemCount + 1 < c.cap →
      RoomAndInside c T st x := by
  have hc := cfgOf_wf h.good h1 h2
  exact ⟨_, setup_ok h.good s, rfl, hc.cap_ge, hc.grow, fun n f S hn hb => (hb.reach hc hn).pos,
    fun T st L x hT hr hx ho hl => C10 hc hT hr hx ho hl⟩

/-- All theorems about tables with `Cfg.WF` apply. -/
theorem C39_tables {m s : Nat} (h : MidLoad m) (h1 : 1 ≤ s) (h2 : s ≤ 46) : (cfgOf (m, 24) s).WF :=
  cfgOf_wf h.good h1 h2

/-- Violation: for load factors from 0.5 to 0.92 the constructor converts a number above `2 ^ 64` to `uint64_t`. -/
theorem C39_false_small {m : Nat} (h1 : 2 ^ 23 ≤ m) (h2 : 100 * m ≤ 92 * 2 ^ 24) (s : Nat) :
    setupScaleFactors (m, 24) s = .ub := by
  have h1 : (2 ^ 23 : ℚ) ≤ m := by exact_mod_cast h1
  have h2 : (100 * m : ℚ) ≤ 92 * 2 ^ 24 := by exact_mod_cast h2
  apply setup_ub
  · unfold fval; rw [le_div_iff₀ (by norm_num)]; norm_num at *; linarith
  · unfold fval; rw [div_le_iff₀ (by norm_num)]; norm_num at *; linarith

/-- A region as `AddTreeKey` makes it, after a number of inserts. -/
def insertedRegion (c : Cfg) (T : Nat) (xs : List Nat) : Store := xs.foldl (fun st x => insertRaw c st x T) (Store.new growSep)

theorem insertedRegion_count {c : Cfg} {T : Nat} (h : c.size (growSep - 1) = 1024) (xs : List Nat) (hl : xs.length ≤ 1024) :
    (insertedRegion c T xs).elemCount = xs.length ∧ (insertedRegion c T xs).sizeGrade = growSep ∧
    (insertedRegion c T xs).status < 2 ^ 32 := by
  unfold insertedRegion
  induction xs using List.reverseRecOn with
  | nil =>
    obtain ⟨a, b, d, _⟩ := new_fields (g := growSep) (by decide)
    exact ⟨a, b, d⟩
  | append_singleton xs x ih =>
    rw [List.length_append, List.length_singleton] at *
    obtain ⟨a, b, d⟩ := ih (by omega)
    rw [List.foldl_append]
    simp only [List.foldl_cons, List.foldl_nil]
    generalize List.foldl (fun st x => insertRaw c st x T) (Store.new growSep) xs = st at *
    unfold insertRaw
    dsimp only
    rw [b, if_pos (show growSep ≠ 0 by decide), h, if_neg (by omega)]
    unfold insertPlace
    dsimp only
    have key : ∀ mm, (Store.incElemCount { st with mem := mm }).elemCount = xs.length + 1 ∧
        (Store.incElemCount { st with mem := mm }).sizeGrade = growSep ∧
        (Store.incElemCount { st with mem := mm }).status < 2 ^ 32 := by
      intro mm
      have e1 : Store.elemCount { st with mem := mm } = st.elemCount := rfl
      have e2 : Store.sizeGrade { st with mem := mm } = st.sizeGrade := rfl
      obtain ⟨p, q, r, _⟩ := incElemCount_fields (st := { st with mem := mm }) (by rw [e1]; omega) d
      exact ⟨by rw [p, e1, a], by rw [q, e2]; exact b, r⟩
    exact key _

/-- Violation: for load factors from 1 to 2 no grade has more than 1024 slots, so the 1025th insert into a region finds
no free slot. -/
theorem C39_false_one {m : Nat} (h1 : 2 ^ 23 ≤ m) (h2 : m < 2 ^ 24) (s T : Nat) (xs : List Nat) (hl : xs.length = 1024) (x : Nat) :
    (insertedRegion (cfgOf (m, 23) s) T xs).elemCount = 1024 ∧
    ¬ RoomAndInside (cfgOf (m, 23) s) T (insertedRegion (cfgOf (m, 23) s) T xs) x := by
  have hle : ∀ g, (cfgOf (m, 23) s).size g ≤ 1024 := by
    apply size_le_of_one
    · rcases Nat.eq_or_lt_of_le h1 with h | h
      · exact Or.inl (by rw [h])
      · right
        have h3 : (8388609 : ℚ) ≤ m := by exact_mod_cast h
        unfold fval
        rw [le_div_iff₀ (by norm_num)]
        linarith
    · have h3 : (m : ℚ) < 16777216 := by exact_mod_cast h2
      unfold fval
      rw [div_le_iff₀ (by norm_num)]
      dsimp only
      linarith
  have hsep : (cfgOf (m, 23) s).size (growSep - 1) = 1024 := by
    rw [size_down _ _ (by decide)]
    have : (cfg95 0).size (growSep - 1) = 1024 := by decide +kernel
    exact this
  obtain ⟨hc, _, _⟩ := insertedRegion_count (T := T) hsep xs (by omega)
  refine ⟨by rw [hc, hl], ?_⟩
  rintro ⟨st1, _, _, e1, e2, _⟩
  have := hle st1.sizeGrade
  omega

/-- Violation: a filter with another load factor than 0.95 cannot be restored from its own buffer. -/
theorem C39_false_restore {lf : Nat} (h : lf < 2 ^ 32) (hne : lf ≠ lfBits95) (io : Bool) (seed : Nat) (f : Filter)
    (tail : List UInt8) : deserialize io (serialize io seed lf f ++ tail) = .ub := by
  have hm : ∀ rest, deserializeMetadata io (serializeMetadata io f.cfg.infixSize seed lf ++ rest) = .ub := by
    intro rest
    unfold deserializeMetadata serializeMetadata
    have h1 : ∀ l : List UInt8, readLe 1 (UInt8.ofNat (b2n io) :: l) = .ok (b2n io, l) := by
      intro l
      have := readLe_append (n := 1) (xs := [UInt8.ofNat (b2n io)]) (rest := l) rfl
      rw [List.singleton_append] at this
      rw [this]
      cases io <;> rfl
    rw [List.cons_append, h1, Res.bind_ok]
    dsimp only
    rw [if_neg (by cases io <;> decide)]
    simp only [List.append_assoc]
    rw [expectLe_le (by decide), Res.bind_ok, expectLe_le (by decide), Res.bind_ok, expectLe_le (by decide), Res.bind_ok,
      expectLe_le (by decide), Res.bind_ok, expectLe_le (by decide), Res.bind_ok, expectLe_le (by decide), Res.bind_ok]
    have : expectLe lfBits95 (leBytes 4 lf ++ (leBytes 4 lfBits95 ++ (leBytes 4 f.cfg.infixSize ++ (leBytes 4 seed ++
        (leBytes 4 8 ++ (leBytes 4 20 ++ rest)))))) = .ub := by
      unfold expectLe
      rw [readLe_le, Res.bind_ok]
      dsimp only
      rw [if_neg (by rw [Nat.mod_eq_of_lt (by norm_num; omega)]; exact hne)]
    rw [this]; rfl
  unfold deserialize serialize
  rw [List.append_assoc, List.append_assoc, hm]
  rfl

/-- The float next to 0.97, and a history with it. -/
example : MidLoad 16273900 := by unfold MidLoad; omega

example : setupScaleFactors (16273900, 24) 5 = .ok (cfgOf (16273900, 24) 5) :=
  setup_ok (MidLoad.good (by unfold MidLoad; omega)) 5

example : (history (cfgOf (16273900, 24) 5) 8 sampleKeys sampleOps).bind
    (fun f => pointQuery f (encodeInt 0x2000000000000003)) = .ok true := by decide +kernel

/-- The tables differ from those for 0.95. -/
example : (cfgOf (16273900, 24) 5).size 100 < (cfg95 5).size 100 := by decide +kernel

/-- The floats 0.92 and 1.0. -/
example : setupScaleFactors (15435038, 24) 5 = .ub := C39_false_small (by omega) (by omega) 5

example : ∃ x, ¬ RoomAndInside (cfgOf (2 ^ 23, 23) 5) 1024
    (insertedRegion (cfgOf (2 ^ 23, 23) 5) 1024 ((List.range 1024).map fun i => 32 * i + 1)) x :=
  ⟨33, (C39_false_one (by omega) (by omega) 5 1024 _ (by simp) 33).2⟩

end Verif.Props
