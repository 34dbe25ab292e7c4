import Verif.Proof.Exact2
import Verif.Props.Inserts
import Verif.Props.Delete

/-!
# C43, C44: positive answers have a cause
-/

namespace Verif.Props

section
variable {c : Cfg} {n : Nat} {f f' : Filter}

/-- C43, one insert that splits a region (it adds a boundary): the only key that becomes positive is the inserted one,
and only ranges that contain it become positive. Missing: keys that are shorter than the prefixes of their region, see
`C43_false`, and splits that shift an item out of its word. -/
theorem C43_split_partial (hc : c.WF) (hn : n < 2 ^ 28) (h : Reach c n f) {key : Key} {split : Bool} (hk : key.length ≤ n)
    (hfit : InsertFits f key split) (hlong : LongKey f key) (hi : insert f key split = .ok f')
    (hb : boundaries f' ≠ boundaries f) :
    (∀ k, pointQuery f' k = .ok true → pointQuery f k = .ok true ∨ k = key) ∧
    ∀ l r, keyLe l r = true → rangeQuery false f' l r = .ok true →
      rangeQuery false f l r = .ok true ∨ (keyLe l key = true ∧ keyLe key r = true) := by
  have I := h.inv hc hn
  have hok' := (insert_spec I.ok hfit hn hk I.len hi).1
  rcases insert_back I.ok hfit hn hk I.len (fun _ => hlong) hi with ⟨e, _⟩ | ⟨_, h1, _⟩
  · exact absurd e hb
  · refine ⟨h1, fun l r hlr hr => ?_⟩
    obtain ⟨k, k1, k2, hk⟩ := (range_iff_point hok'.q hlr).1 hr
    rcases h1 k hk with hk | rfl
    · exact Or.inl ((range_iff_point I.ok.q hlr).2 ⟨k, k1, k2, hk⟩)
    · exact Or.inr ⟨k1, k2⟩

/-- C43, any number of inserts: whatever becomes positive is an inserted key or agrees with one on all bits that its
region kept in the filter `f` from before the inserts. Splits never make the filter less exact. -/
theorem C43_partial (hc : c.WF) (hn : n < 2 ^ 28) (h : Reach c n f) {X : List Key} (hg : Grown n f f' X) :
    (∀ k, pointQuery f' k = .ok true → pointQuery f k = .ok true ∨ k ∈ X ∨ ∃ x ∈ X, SameCell f x k) ∧
    ∀ l r, keyLe l r = true → rangeQuery false f' l r = .ok true →
      rangeQuery false f l r = .ok true ∨ ∃ k, keyLe l k = true ∧ keyLe k r = true ∧ (k ∈ X ∨ ∃ x ∈ X, SameCell f x k) := by
  have I := h.inv hc hn
  obtain ⟨h1, _, _, _, h5⟩ := hg.back I.ok hn I.len
  refine ⟨h5, fun l r hlr hr => ?_⟩
  obtain ⟨k, k1, k2, hk⟩ := (range_iff_point h1.q hlr).1 hr
  rcases h5 k hk with hk | hk
  · exact Or.inl ((range_iff_point I.ok.q hlr).2 ⟨k, k1, k2, hk⟩)
  · exact Or.inr ⟨k, k1, k2, hk⟩

/-- C43 from the bulk load on: every positive key is a boundary key of the loaded filter, an inserted key, or agrees with a
loaded or inserted key on all bits that the loaded filter kept. -/
theorem C43_bulk_partial (hc : c.WF) (hn : n < 2 ^ 28) {K : List Key} (hlen : ∀ k ∈ K, k.length = n)
    (hs : K.Pairwise fun a b => keyLt a b = true) (hl : bulkFixed c n K = .ok f) {X : List Key} (hg : Grown n f f' X)
    {k : Key} (hk : k.length = n) (hq : pointQuery f' k = .ok true) :
    k ∈ boundaries f ∨ k ∈ X ∨ ∃ x, (x ∈ K ∨ x ∈ X) ∧ SameCell f x k := by
  rcases (C43_partial hc hn (.fixed (Nat.le_refl n) hlen (hs.imp fun h => keyLt_keyLe h) hl) hg).1 k hq with hq | hq | ⟨x, hx, hq⟩
  · obtain ⟨b, hb, hiff⟩ := (C07_bulk hc hlen hs hl).2 k hk
    rw [hq] at hb
    obtain rfl : b = true := by injection hb with e; exact e.symm
    rcases hiff.1 rfl with hh | ⟨x, hx, _, hh⟩
    · exact Or.inl hh
    · exact Or.inr (Or.inr ⟨x, Or.inl hx, hh⟩)
  · exact Or.inr (Or.inl hq)
  · exact Or.inr (Or.inr ⟨x, Or.inr hx, hq⟩)

/-- C44: a range query is positive exactly if some key (byte string of any length) in the range is. Missing: states after a
faulty `Delete`, see `C44_false`, after `ShrinkInfixSize` or an overflowing insert. -/
theorem C44_partial (hc : c.WF) (hn : n < 2 ^ 28) (h : States c n f) {l r : Key} {io : Bool}
    (hio : io = true → n ≤ 8 ∧ l.length ≤ 8 ∧ r.length ≤ 8) (hlr : keyLe l r = true) :
    rangeQuery io f l r = .ok true ↔ ∃ k, keyLe l k = true ∧ keyLe k r = true ∧ pointQuery f k = .ok true := by
  rw [(h.inv hc hn).io hio]
  exact range_iff_point (h.inv hc hn).q hlr

end

/-- A positive range of the sample without a boundary key. -/
example : ∃ k, keyLe (encodeInt 0x2000000000000002) k = true ∧ keyLe k (encodeInt 0x2000000000000003) = true ∧
    pointQuery sample k = .ok true :=
  (C44_partial cfg95_5 (by decide) (.reach sample_reach) (io := true) (by decide) (by decide)).1 (sample_range (by decide +kernel))

/-- C44 is violated after a merge that leaves a region unsorted: a positive key in a negative range. -/
theorem C44_false : ∃ f S l r, Ops (cfg95 5) 8 f S ∧ keyLe l r = true ∧
    (∃ k, keyLe l k = true ∧ keyLe k r = true ∧ pointQuery f k = .ok true) ∧ ∀ io, rangeQuery io f l r = .ok false := by
  obtain ⟨f, S, l, k, r, h, h1, h2, h3, h4⟩ := C03_false
  exact ⟨f, S, l, r, h, keyLe_trans h1 h2, ⟨k, h1, h2, h3⟩, h4⟩

/-- The level of a region of the sample. -/
theorem sample_level : Level (encodeInt 0x3000000000000000) (encodeInt 0x7000000000000000) 11 := by
  refine ⟨1, 0, by decide, by decide, by decide, fun i h1 h2 => by omega, by decide, by decide +kernel⟩

theorem sample_long : LongKey sample (encodeInt 0x5000000000000000) := by
  intro prev next q ha h1 h2 hl
  have hok := (sample_reach.inv cfg95_5 (by decide)).ok
  have hadj : Adjacent sample (encodeInt 0x3000000000000000) (encodeInt 0x7000000000000000) := by
    rw [adjacent_mem, sample_boundaries]; decide
  obtain ⟨rfl, rfl⟩ := ha.unique hok hadj h1 h2 (by decide) (by decide)
  rw [hl.unique sample_level, sample_cfg]
  decide

/-- A split of a region of the sample, and the state as a grown one. -/
example : ∃ f', insert sample (encodeInt 0x5000000000000000) true = .ok f' ∧
    Grown 8 sample f' [encodeInt 0x5000000000000000] ∧
    ∀ k, pointQuery f' k = .ok true → pointQuery sample k = .ok true ∨ k = encodeInt 0x5000000000000000 := by
  have hd : (history (cfg95 5) 8 sampleKeys sampleOps).bind (fun f => (insert f (encodeInt 0x5000000000000000) true).bind fun f' =>
      .ok (fitsB f (encodeInt 0x5000000000000000) true && decide (boundaries f' ≠ boundaries f))) = .ok true := by decide +kernel
  rw [sample_eq, Res.bind_ok] at hd
  obtain ⟨f', hi, hd⟩ := Res.bind_eq_ok hd
  simp only [Res.ok.injEq, Bool.and_eq_true, decide_eq_true_eq] at hd
  exact ⟨f', hi, .insert .refl (by decide) (fitsB_sound hd.1) (fun _ => sample_long) hi,
    (C43_split_partial cfg95_5 (by decide) sample_reach (by decide) (fitsB_sound hd.1) sample_long hi hd.2).1⟩

/-- Keys with a narrow region. -/
def narrowKeys : List Key := [0x1000000000000000, 0x1000000000000040, 0x1000000000000100].map encodeInt

theorem narrow_level : Level (encodeInt 0x1000000000000000) (encodeInt 0x1000000000000100) 65 := by
  refine ⟨55, 0, by decide, by decide, by decide, fun i h1 h2 => by omega, by decide, by decide +kernel⟩

/-- C43 is violated in narrow regions: there a prefix may be longer than the key, and a splitting insert flags the new
boundary as partial although the key was not cut. Inserting a present key again, within the widths, makes another key
positive that agrees with no present one. -/
theorem C43_false : ∃ f S x f' k, BuiltFit (cfg95 5) 8 f S ∧ x ∈ S ∧ InsertFits f x true ∧ insert f x true = .ok f' ∧
    k.length = 8 ∧ pointQuery f k = .ok false ∧ pointQuery f' k = .ok true ∧ ∀ y ∈ S, ¬ SameCell f y k := by
  have hd : (history (cfg95 5) 8 narrowKeys []).bind (fun f => (insert f (encodeInt 0x1000000000000040) true).bind fun f' =>
      (pointQuery f (encodeInt 0x1000000000000045)).bind fun a => (pointQuery f' (encodeInt 0x1000000000000045)).bind fun b =>
      .ok (boundaries f, fitsB f (encodeInt 0x1000000000000040) true, a, b)) =
      .ok ([0, 0x1000000000000000, 0x1000000000000100, 0xffffffffffffffff].map encodeInt, true, false, true) := by decide +kernel
  obtain ⟨f, hf, hd⟩ := Res.bind_eq_ok hd
  obtain ⟨f', hi, hd⟩ := Res.bind_eq_ok hd
  obtain ⟨a, ha, hd⟩ := Res.bind_eq_ok hd
  obtain ⟨b, hb, hd⟩ := Res.bind_eq_ok hd
  simp only [Res.ok.injEq, Prod.mk.injEq] at hd
  obtain ⟨hbd, hfit, rfl, rfl⟩ := hd
  have hbuilt := history_builtFit (by decide +kernel) (by decide +kernel) (by decide +kernel) (by decide +kernel) hf
  refine ⟨f, _, _, f', _, hbuilt, ?_, fitsB_sound hfit, hi, by decide, ha, hb, ?_⟩
  · decide
  · rintro y hy ⟨p, e, q, ha, hl, c1, c2, c3, c4, c5⟩
    have I := (hbuilt.toReach).inv cfg95_5 (by decide)
    have hadj : Adjacent f (encodeInt 0x1000000000000000) (encodeInt 0x1000000000000100) := by
      rw [adjacent_mem, hbd]; decide
    obtain ⟨rfl, rfl⟩ := ha.unique I.ok hadj (keyLt_keyLe c3) c4 (by decide) (by decide)
    obtain rfl := hl.unique narrow_level
    rw [I.cfg] at c5
    have h64 := pre_eq_len (show 64 ≤ 65 + (cfg95 5).infixSize - 1 by decide) c5
    have hne : ∀ y ∈ narrowKeys, pre 64 (encodeInt 0x1000000000000045) ≠ pre 64 y := by decide +kernel
    exact hne y (by simpa using hy) h64

end Verif.Props
