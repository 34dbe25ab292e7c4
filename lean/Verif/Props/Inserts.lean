import Verif.Props.Queries
import Verif.Proof.Defined

/-!
# C01, C02, C06, C08, C34, C35: what inserts do to the answers
-/

namespace Verif.Props

variable {c : Cfg} {n : Nat} {f : Filter} {S : List Key}

/-- C01 for histories that stay inside the fixed widths of the code (`InsertFits`). What is missing:
histories in which a split shifts an item out of its word; there the claim is false, see `C01_false`. -/
theorem C01_partial (hc : c.WF) (hn : n < 2 ^ 28) (h : BuiltFit c n f S) : ∀ k ∈ S, pointQuery f k = .ok true :=
  (h.reach hc hn).pos

example : pointQuery sample (encodeInt 0x6fffffffffffffff) = .ok true :=
  C01_partial cfg95_5 (by decide) sample_built _ (by decide)

/-- C02, likewise. -/
theorem C02_partial (hc : c.WF) (hn : n < 2 ^ 28) (h : BuiltFit c n f S) {l k r : Key} {io : Bool}
    (hio : io = true → n ≤ 8 ∧ l.length ≤ 8 ∧ r.length ≤ 8) (hk : k ∈ S) (h1 : keyLe l k = true) (h2 : keyLe k r = true) :
    rangeQuery io f l r = .ok true :=
  C03_partial hc hn (.reach h.toReach) hio h1 h2 (C01_partial hc hn h k hk)

example : rangeQuery true sample (encodeInt 0x6ffffffffffffffe) (encodeInt 0x6fffffffffffffff) = .ok true :=
  C02_partial cfg95_5 (by decide) sample_built (k := encodeInt 0x6fffffffffffffff) (by decide) (by decide) (by decide) (by decide)

/-- C06, likewise: also for keys that were never stored. With keys of different lengths a splitting insert
can lose proper prefixes of the inserted key only, see `C27_false`. -/
theorem C06_partial (hc : c.WF) (hn : n < 2 ^ 28) (h : Reach c n f) {x k : Key} {split : Bool} {f' : Filter}
    (hx : x.length ≤ n) (hxk : split = true → k <+: x → k = x) (hfit : InsertFits f x split) (hi : insert f x split = .ok f')
    (hk : pointQuery f k = .ok true) : pointQuery f' k = .ok true := by
  obtain ⟨_, _, _, _, h5⟩ := insert_spec (h.inv hc hn).ok hfit hn hx (h.inv hc hn).len hi
  exact h5 k hxk hk

/-- The key 0x2000000000000002 was never stored, is reported by the loaded filter, and is still reported
after the inserts and splits of the sample. -/
example : (bulkFixed (cfg95 5) 8 sampleKeys).bind (fun f => pointQuery f (encodeInt 0x2000000000000002)) = .ok true ∧
    pointQuery sample (encodeInt 0x2000000000000002) = .ok true :=
  ⟨by decide +kernel, sample_point (by decide +kernel)⟩

/-! ## The overflow -/

/-- Big-endian keys of `N` bytes. -/
def be (N x : Nat) : Key := (List.range N).map fun i => UInt8.ofNat (x / 256 ^ (N - 1 - i))

def overKeys : List Key := [be 9 (2 ^ 71 - 2 ^ 8), be 9 (2 ^ 72 - 2)]

def overKey : Key := be 9 (2 ^ 71 - 2 ^ 7 + 2 ^ 6)

theorem overHistory : ∃ f1 f2 S, Built (cfg95 5) 9 f1 S ∧ pointQuery f1 overKey = .ok true ∧ overKey ∈ S ∧
    insert f1 (be 9 (2 ^ 71 + 1)) true = .ok f2 ∧ pointQuery f2 overKey = .ok false ∧
    Built (cfg95 5) 9 f2 (be 9 (2 ^ 71 + 1) :: S) := by
  obtain ⟨f1, h1⟩ : ∃ f, history (cfg95 5) 9 overKeys [(overKey, false)] = .ok f := res_ok (by decide +kernel)
  obtain ⟨f2, h2⟩ : ∃ f, history (cfg95 5) 9 overKeys [(overKey, false), (be 9 (2 ^ 71 + 1), true)] = .ok f :=
    res_ok (by decide +kernel)
  have e : insert f1 (be 9 (2 ^ 71 + 1)) true = .ok f2 := by
    have : history (cfg95 5) 9 overKeys [(overKey, false), (be 9 (2 ^ 71 + 1), true)] =
      (history (cfg95 5) 9 overKeys [(overKey, false)]).bind fun f => insert f (be 9 (2 ^ 71 + 1)) true := rfl
    rw [h2, h1] at this
    exact this.symm
  have q1 : (history (cfg95 5) 9 overKeys [(overKey, false)]).bind (fun f => pointQuery f overKey) = .ok true := by
    decide +kernel
  have q2 : (history (cfg95 5) 9 overKeys [(overKey, false), (be 9 (2 ^ 71 + 1), true)]).bind
      (fun f => pointQuery f overKey) = .ok false := by decide +kernel
  rw [h1] at q1
  rw [h2] at q2
  have b1 := history_built (by decide +kernel) (by decide +kernel) (by decide +kernel) h1
  exact ⟨f1, f2, _, b1, q1, by simp, e, q2, b1.insert (by decide +kernel) e⟩

/-- C01 does not hold for the code: two loaded keys, one simple insert of a key and one splitting insert,
after which the first inserted key is not found. The split has to move an item to a level that is 63 bits
larger; the code shifts it by 68 bits in a 64-bit word. (In C++ such a shift has no defined behaviour; the
model takes the x86 one.) -/
theorem C01_false : ∃ f S k, Built (cfg95 5) 9 f S ∧ k ∈ S ∧ pointQuery f k = .ok false := by
  obtain ⟨f1, f2, S, _, _, hS, _, hq, hb⟩ := overHistory
  exact ⟨f2, _, overKey, hb, List.mem_cons_of_mem _ hS, hq⟩

theorem C02_false : ∃ f S l r k, Built (cfg95 5) 9 f S ∧ k ∈ S ∧ keyLe l k = true ∧ keyLe k r = true ∧
    rangeQuery false f l r = .ok false := by
  obtain ⟨f2, h2⟩ : ∃ f, history (cfg95 5) 9 overKeys [(overKey, false), (be 9 (2 ^ 71 + 1), true)] = .ok f :=
    res_ok (by decide +kernel)
  have q2 : (history (cfg95 5) 9 overKeys [(overKey, false), (be 9 (2 ^ 71 + 1), true)]).bind
      (fun f => rangeQuery false f overKey overKey) = .ok false := by decide +kernel
  rw [h2] at q2
  exact ⟨f2, _, overKey, overKey, overKey,
    history_built (by decide +kernel) (by decide +kernel) (by decide +kernel) h2, by simp, keyLe_refl _, keyLe_refl _, q2⟩

theorem C06_false : ∃ f S x k f', Built (cfg95 5) 9 f S ∧ x.length = 9 ∧ k.length = 9 ∧
    insert f x true = .ok f' ∧ pointQuery f k = .ok true ∧ pointQuery f' k = .ok false := by
  obtain ⟨f1, f2, S, h1, h2, _, h4, h5, _⟩ := overHistory
  exact ⟨f1, S, _, overKey, f2, h1, by decide +kernel, by decide +kernel, h4, h2, h5⟩

/-! ## Simple inserts -/

/-- C35: a simple insert changes only answers for keys strictly inside the region of the new key. -/
theorem C35_point (hc : c.WF) (hn : n < 2 ^ 28) (h : Reach c n f) {x : Key} {f' : Filter}
    (hfit : SimpleFits f x) (hi : insert f x false = .ok f') {k : Key}
    (hk : ¬ ∃ prev next, Adjacent f prev next ∧ keyLe prev x = true ∧ keyLt x next = true ∧ keyLt prev k = true ∧
      keyLt k next = true) : pointQuery f' k = pointQuery f k := by
  have hi' : insertSimple f x = .ok f' := by unfold insert at hi; simpa using hi
  obtain ⟨a1, _, a3, _, a4, _, _⟩ := insertSimple_cells (h.inv hc hn).ok hi' hfit
  apply point_ext (h.inv hc hn).ok.q a1.q a3
  rw [a4]
  refine ⟨fun hh => hh.elim id ?_, Or.inl⟩
  rintro ⟨prev, next, q, b1, _, b3, b4, b5, b6, _⟩
  exact absurd ⟨prev, next, b1, b3, b4, b5, b6⟩ hk

/-- C35 for ranges: only those strictly inside the region of the new key can change. -/
theorem C35_range (hc : c.WF) (hn : n < 2 ^ 28) (h : Reach c n f) {x : Key} {f' : Filter}
    (hfit : SimpleFits f x) (hi : insert f x false = .ok f') {l r : Key} (hlr : keyLe l r = true)
    (hk : ¬ ∃ prev next, Adjacent f prev next ∧ keyLe prev x = true ∧ keyLt x next = true ∧ keyLt prev l = true ∧
      keyLt r next = true) : rangeQuery false f' l r = rangeQuery false f l r := by
  have hi' : insertSimple f x = .ok f' := by unfold insert at hi; simpa using hi
  obtain ⟨a1, _, a3, _, _, a5, _⟩ := insertSimple_cells (h.inv hc hn).ok hi' hfit
  apply range_ext (h.inv hc hn).ok.q a1.q a3 hlr
  rw [a5 l r hlr]
  refine ⟨fun hh => hh.elim id ?_, Or.inl⟩
  rintro ⟨prev, next, q, b1, _, b3, b4, b5, b6, _⟩
  exact absurd ⟨prev, next, b1, b3, b4, b5, b6⟩ hk

/-- After a simple insert a key is positive exactly if it was before or falls together with the new key in
the bits that its region keeps. -/
theorem C35_exact (hc : c.WF) (hn : n < 2 ^ 28) (h : Reach c n f) {x : Key} {f' : Filter}
    (hfit : SimpleFits f x) (hi : insert f x false = .ok f') :
    boundaries f' = boundaries f ∧ ∀ k, pointQuery f' k = .ok true ↔ pointQuery f k = .ok true ∨ SameCell f x k := by
  have hi' : insertSimple f x = .ok f' := by unfold insert at hi; simpa using hi
  obtain ⟨_, _, a3, _, a4, _, _⟩ := insertSimple_cells (h.inv hc hn).ok hi' hfit
  exact ⟨a3, a4⟩

/-- An insert between 0x3000000000000000 and 0x7000000000000000 leaves the region below alone. -/
example : ∃ f', insert sample (encodeInt 0x4000000000000000) false = .ok f' ∧
    pointQuery f' (encodeInt 0x4000000000000001) = .ok true ∧
    pointQuery f' (encodeInt 0x2500000000000000) = pointQuery sample (encodeInt 0x2500000000000000) := by
  obtain ⟨f', hi, hq⟩ := sample_insert (x := encodeInt 0x4000000000000000) (k := encodeInt 0x4000000000000001)
    (b := true) (by decide +kernel)
  refine ⟨f', hi, hq, C35_point cfg95_5 (by decide) sample_reach (sample_fits _) hi ?_⟩
  simp only [adjacent_mem, sample_boundaries]
  have : ∀ w ∈ ([encodeInt 0, encodeInt 0x1000000000000000, [0x20, 0], encodeInt 0x3000000000000000,
      encodeInt 0x7000000000000000, encodeInt 0xffffffffffffffff] : List Key).zip
      [encodeInt 0x1000000000000000, [0x20, 0], encodeInt 0x3000000000000000, encodeInt 0x7000000000000000,
        encodeInt 0xffffffffffffffff],
      ¬ (keyLe w.1 (encodeInt 0x4000000000000000) = true ∧ keyLt (encodeInt 0x4000000000000000) w.2 = true ∧
        keyLt w.1 (encodeInt 0x2500000000000000) = true ∧ keyLt (encodeInt 0x2500000000000000) w.2 = true) := by decide
  rintro ⟨p, q, hm, hh⟩
  exact this (p, q) hm hh

/-- C08: answers do not depend on the order or repetition of simple inserts. The last hypothesis says that
no 20-bit counter overflows. -/
theorem C08_order (hc : c.WF) (hn : n < 2 ^ 28) (h : Reach c n f) {ks ks' : List Key} {f1 f2 : Filter}
    (hmem : ∀ k, k ∈ ks ↔ k ∈ ks') (hr : runSimple (.ok f) ks = .ok f1) (hr' : runSimple (.ok f) ks' = .ok f2)
    (hcnt : ∀ e ∈ f.tree, e.2.elemCount + max ks.length ks'.length < f.cfg.cap) :
    (∀ k, pointQuery f1 k = pointQuery f2 k) ∧
    ∀ l r, keyLe l r = true → rangeQuery false f1 l r = rangeQuery false f2 l r :=
  simple_order (h.inv hc hn).ok hmem hr hr' (fun e he => by have := hcnt e he; omega) fun e he => by have := hcnt e he; omega

/-- C08: every order of the same inserts is defined if one is. -/
theorem C08_defined (hc : c.WF) (hn : n < 2 ^ 28) (h : Reach c n f) {ks ks' : List Key} {f1 : Filter}
    (hmem : ∀ k, k ∈ ks' → k ∈ ks) (hr : runSimple (.ok f) ks = .ok f1)
    (hcnt : ∀ e ∈ f.tree, e.2.elemCount + max ks.length ks'.length < f.cfg.cap) :
    ∃ f2, runSimple (.ok f) ks' = .ok f2 := by
  have hdef := runSimple_defined (h.inv hc hn).ok (ks := ks) (fun e he => by have := hcnt e he; omega)
  have hdef' := runSimple_defined (h.inv hc hn).ok (ks := ks') (fun e he => by have := hcnt e he; omega)
  exact hdef'.2 fun k hk => (hdef.1 ⟨f1, hr⟩) k (hmem k hk)

/-- Two different orders on the sample, one with a repetition. -/
example : ∃ f1 f2, runSimple (.ok sample) [encodeInt 0x4000000000000000, encodeInt 0x4000000000000001] = .ok f1 ∧
    runSimple (.ok sample) [encodeInt 0x4000000000000001, encodeInt 0x4000000000000000, encodeInt 0x4000000000000001] = .ok f2 ∧
    ∀ k, pointQuery f1 k = pointQuery f2 k := by
  have hd : ∀ ks : List Key, ks.length ≤ 3 →
      (∀ k ∈ ks, keyLe (encodeInt 0x3000000000000000) k = true ∧ keyLt k (encodeInt 0x7000000000000000) = true) →
      ∃ f', runSimple (.ok sample) ks = .ok f' := by
    intro ks hl hk
    rw [runSimple_defined (sample_reach.inv cfg95_5 (by decide)).ok
      (fun e he => by have := sample_count e he; have := sample_room; omega)]
    intro k hkm
    exact ⟨encodeInt 0x3000000000000000, encodeInt 0x7000000000000000,
      by rw [adjacent_mem, sample_boundaries]; decide, (hk k hkm).1, (hk k hkm).2⟩
  obtain ⟨f1, h1⟩ := hd [encodeInt 0x4000000000000000, encodeInt 0x4000000000000001] (by decide) (by decide)
  obtain ⟨f2, h2⟩ := hd [encodeInt 0x4000000000000001, encodeInt 0x4000000000000000, encodeInt 0x4000000000000001]
    (by decide) (by decide)
  refine ⟨f1, f2, h1, h2, (C08_order cfg95_5 (by decide) sample_reach (fun k => ?_) h1 h2
    (fun e he => by have := sample_count e he; have := sample_room; simp only [List.length_cons, List.length_nil]; omega)).1⟩
  simp only [List.mem_cons, List.not_mem_nil, or_false]
  tauto

/-- C34: inserting a key again that is positive and not a boundary key changes no answer. Missing: boundary
keys, for which the claim is false, see `C34_false`. -/
theorem C34_partial (hc : c.WF) (hn : n < 2 ^ 28) (h : Reach c n f) {x : Key} {f' : Filter}
    (hfit : SimpleFits f x) (hi : insert f x false = .ok f') (hpos : pointQuery f x = .ok true) (hnb : x ∉ boundaries f) :
    (∀ k, pointQuery f' k = pointQuery f k) ∧
    ∀ l r, keyLe l r = true → rangeQuery false f' l r = rangeQuery false f l r := by
  have hi' : insertSimple f x = .ok f' := by unfold insert at hi; simpa using hi
  exact insert_again (h.inv hc hn).ok (h.inv hc hn).bits hi' hfit hpos hnb

example : ∃ f', insert sample (encodeInt 0x2000000000000003) false = .ok f' ∧
    ∀ k, pointQuery f' k = pointQuery sample k := by
  obtain ⟨f', hi, _⟩ := sample_insert (x := encodeInt 0x2000000000000003) (k := encodeInt 0) (b := true) (by decide +kernel)
  exact ⟨f', hi, (C34_partial cfg95_5 (by decide) sample_reach (sample_fits _) hi (sample_point (by decide +kernel))
    (by rw [sample_boundaries]; decide)).1⟩

/-- C34 does not hold for boundary keys: the key is stored a second time as an item of the region above
it, and a neighbouring key becomes positive. -/
theorem C34_false : ∃ f S x f' k, BuiltFit (cfg95 5) 8 f S ∧ x ∈ S ∧ insert f x false = .ok f' ∧
    pointQuery f k = .ok false ∧ pointQuery f' k = .ok true := by
  obtain ⟨f1, h1⟩ : ∃ f, history (cfg95 5) 8 sampleKeys [] = .ok f := res_ok (by decide +kernel)
  obtain ⟨f2, h2⟩ : ∃ f, history (cfg95 5) 8 sampleKeys [(encodeInt 0x1000000000000000, false)] = .ok f :=
    res_ok (by decide +kernel)
  have e : insert f1 (encodeInt 0x1000000000000000) false = .ok f2 := by
    have : history (cfg95 5) 8 sampleKeys [(encodeInt 0x1000000000000000, false)] =
      (history (cfg95 5) 8 sampleKeys []).bind fun f => insert f (encodeInt 0x1000000000000000) false := rfl
    rw [h2, h1] at this
    exact this.symm
  have q1 : (history (cfg95 5) 8 sampleKeys []).bind (fun f => pointQuery f (encodeInt 0x1000000000000001)) = .ok false := by
    decide +kernel
  have q2 : (history (cfg95 5) 8 sampleKeys [(encodeInt 0x1000000000000000, false)]).bind
      (fun f => pointQuery f (encodeInt 0x1000000000000001)) = .ok true := by decide +kernel
  rw [h1] at q1
  rw [h2] at q2
  exact ⟨f1, _, encodeInt 0x1000000000000000, f2, encodeInt 0x1000000000000001,
    history_builtFit (by decide +kernel) (by decide +kernel) (by decide +kernel) (by decide +kernel) h1,
    by decide +kernel, e, q1, q2⟩

end Verif.Props
