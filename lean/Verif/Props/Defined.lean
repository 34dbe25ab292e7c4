import Verif.Props.Inserts
import Verif.Proof.Small

/-!
# C13, C14: when the operations are defined and return

`ub` is the model's outcome for undefined behaviour, `hang` for an endless loop. The deletions of C13 are
in Props/Deletes.
-/

namespace Verif.Props

variable {c : Cfg} {n : Nat} {f : Filter} {S : List Key}

/-- The region of a key that is not the largest one. -/
theorem region_of_key (hc : c.WF) (hn : n < 2 ^ 28) (h : BuiltFit c n f S) {key : Key} (hk : key.length = n)
    (hmax : key ≠ List.replicate n 255) : ∃ A prev st next st' B,
      f.tree = A ++ (prev, st) :: (next, st') :: B ∧ keyLe prev key = true ∧ keyLt key next = true := by
  have hr := h.reach hc hn
  rcases hr.ok.spans_cases hr.spans hk with ⟨A, e, B, ht, rfl⟩ | ⟨A, p, e, B, ht, h1, h2⟩
  · cases B with
    | nil =>
      exfalso
      obtain ⟨x, hx, hxe⟩ := List.mem_map.1 hr.spans.2
      rw [ht] at hx
      have hle : keyLe e.1 x.1 = true := by rw [hxe, ← hk]; exact le_ones _
      rcases List.mem_append.1 hx with hx | hx
      · have := keyLt_of_padLt (hr.ok.before ht hx)
        rw [keyLe_iff_not_lt, this] at hle; cases hle
      · simp only [List.mem_singleton] at hx
        subst hx
        exact hmax hxe
    | cons e' B =>
      have ht2 : f.tree = A ++ (e.1, e.2) :: (e'.1, e'.2) :: B := ht
      exact ⟨A, e.1, e.2, e'.1, e'.2, B, ht2, keyLe_refl _, keyLt_of_padLt (hr.ok.after ht (by simp))⟩
  · exact ⟨A, p.1, p.2, e.1, e.2, B, ht, keyLt_keyLe h1, h2⟩

/-- C13 for simple inserts: every key except the largest one. -/
theorem C13_simple_partial (hc : c.WF) (hn : n < 2 ^ 28) (h : BuiltFit c n f S) {key : Key} (hk : key.length = n)
    (hmax : key ≠ List.replicate n 255) : ∃ f', insert f key false = .ok f' := by
  obtain ⟨A, prev, st, next, st', B, ht, h1, h2⟩ := region_of_key hc hn h hk hmax
  have := (insertSimple_defined (h.reach hc hn).ok key).2.2 ⟨prev, next, adjacent_of ht, h1, h2⟩
  unfold insert
  simpa using this

example : ∃ f', insert sample (encodeInt 0xfffffffffffffffe) false = .ok f' :=
  C13_simple_partial cfg95_5 (by decide) sample_built (by decide) (by decide)

/-- C13 for all inserts, if the levels fit and the regions have fewer than `c.cap / 1024 - 1` items,
which is 1023 for load factor 0.95. Missing: the
largest key (`C13_false_max`), splits that shift items out of their word (`C13_false_split`), large
regions. -/
theorem C13_partial (hc : c.WF) (hn : n < 2 ^ 28) (h : BuiltFit c n f S) {key : Key} (hk : key.length = n)
    (hmax : key ≠ List.replicate n 255) (hlev : LevelsFit f key) (hcnt : ∀ e ∈ f.tree, 1024 * (e.2.elemCount + 1) < c.cap)
    (split : Bool) : InsertFits f key split ∧ insert f key split ≠ .ub := by
  have hr := h.reach hc hn
  obtain ⟨A, prev, st, next, st', B, ht, h1, h2⟩ := region_of_key hc hn h hk hmax
  obtain ⟨hf, hd⟩ := insert_defined hr.ok hlev ht h1 h2 (by rw [hr.cfg]; exact hcnt (prev, st) (by rw [ht]; simp)) hn (Nat.le_of_eq hk) hr.len split
  refine ⟨hf, ?_⟩
  rcases hd with ⟨f', e⟩ | ⟨e, _⟩
  · rw [e]; simp
  · rw [e]; simp

/-- C14, likewise, if the key differs from the lower boundary of its region in the bits before the level.
Missing: keys that do not, for which a split may loop forever, see `C14_false`. -/
theorem C14_partial (hc : c.WF) (hn : n < 2 ^ 28) (h : BuiltFit c n f S) {key : Key} (hk : key.length = n)
    (hmax : key ≠ List.replicate n 255) (hlev : LevelsFit f key) (hcnt : ∀ e ∈ f.tree, 1024 * (e.2.elemCount + 1) < c.cap)
    (hfar : ∀ prev next p, Adjacent f prev next → keyLe prev key = true → keyLt key next = true → Level prev next p →
      pre p prev ≠ pre p key) (split : Bool) : ∃ f', insert f key split = .ok f' := by
  have hr := h.reach hc hn
  obtain ⟨A, prev, st, next, st', B, ht, h1, h2⟩ := region_of_key hc hn h hk hmax
  obtain ⟨_, hd⟩ := insert_defined hr.ok hlev ht h1 h2 (by rw [hr.cfg]; exact hcnt (prev, st) (by rw [ht]; simp)) hn (Nat.le_of_eq hk) hr.len split
  rcases hd with hd | ⟨_, _, p, E, hl, hcut, he | he⟩
  · exact hd
  · exfalso
    apply hfar prev next p (adjacent_of ht) h1 h2 hl
    rw [he p]
    rcases hcut with rfl | ⟨z, hz, g1, _⟩
    · rfl
    · exact pre_eq_len hz g1
  · exact absurd he (cut_not_next hcut h2 (by rw [hk]; exact hr.len (next, st') (by rw [ht]; simp)))

/-- C14 for simple inserts: no loop for any key. -/
theorem C14_simple (hc : c.WF) (hn : n < 2 ^ 28) (h : Reach c n f) (key : Key) : insert f key false ≠ .hang := by
  have := (insertSimple_defined (h.inv hc hn).ok key).1
  unfold insert
  simp only [Bool.false_eq_true, if_false]
  rcases this with e | ⟨f', e⟩ <;> rw [e] <;> simp

/-- Queries never loop; they are defined exactly for keys that are boundaries or between two. -/
theorem C14_query (hc : c.WF) (hn : n < 2 ^ 28) (h : Reach c n f) (k : Key) : pointQuery f k ≠ .hang := by
  rcases (pointQuery_defined (h.inv hc hn).ok.q k).1 with e | ⟨b, e⟩ <;> rw [e] <;> simp

/-- C13 and C14 without conditions on levels, for keys of at most `(54 - s) / 8` bytes, for example 32-bit
keys with infix size 5. -/
theorem C13_C14_short_partial (hc : c.WF) (h : BuiltFit c n f S) (hn : 8 * n + c.infixSize ≤ 54) {key : Key}
    (hk : key.length = n) (hmax : key ≠ List.replicate n 255) (hcnt : ∀ e ∈ f.tree, 1024 * (e.2.elemCount + 1) < c.cap)
    (split : Bool) : InsertFits f key split ∧ insert f key split ≠ .ub := by
  have hn' : n < 2 ^ 28 := by omega
  have hr := h.reach hc hn'
  exact C13_partial hc hn' h hk hmax (levelsFit_small (by rw [hr.cfg]; exact hn) hr.len (Nat.le_of_eq hk)) hcnt split

/-- A history of 32-bit keys with a split. -/
example : ∃ f S, BuiltFit (cfg95 5) 4 f S ∧ 8 * 4 + (cfg95 5).infixSize ≤ 54 ∧ (∀ e ∈ f.tree, e.2.elemCount ≤ 1022) ∧
    insert f (be 4 0x20000004) true ≠ .ub := by
  obtain ⟨f, h⟩ : ∃ f, history (cfg95 5) 4 [be 4 0x10000000, be 4 0x20000000, be 4 0x70000000]
    [(be 4 0x20000003, false), (be 4 0x30000000, true)] = .ok f := res_ok (by decide +kernel)
  have hb := history_builtFit (by decide +kernel) (by decide +kernel) (by decide +kernel) (by decide +kernel) h
  have hcnt : ∀ e ∈ f.tree, e.2.elemCount ≤ 1022 := by
    have hh : (history (cfg95 5) 4 [be 4 0x10000000, be 4 0x20000000, be 4 0x70000000]
      [(be 4 0x20000003, false), (be 4 0x30000000, true)]).bind
      (fun f => .ok (f.tree.all fun e => decide (e.2.elemCount ≤ 1022))) = .ok true := by decide +kernel
    rw [h] at hh
    simpa using hh
  exact ⟨f, _, hb, by decide, hcnt, (C13_C14_short_partial cfg95_5 hb (by decide) (by decide) (by decide)
    (fun e he => by have := hcnt e he; rw [cfg95_cap]; omega) true).2⟩

/-- The key 0x50000000 in the region from 0x30000000 to 0x70000000: the first ten bits differ from the
lower boundary. -/
example : ∃ f S f', BuiltFit (cfg95 5) 4 f S ∧ insert f (be 4 0x50000000) true = .ok f' := by
  obtain ⟨f, h⟩ : ∃ f, history (cfg95 5) 4 [be 4 0x10000000, be 4 0x20000000, be 4 0x70000000]
    [(be 4 0x20000003, false), (be 4 0x30000000, true)] = .ok f := res_ok (by decide +kernel)
  have hb := history_builtFit (by decide +kernel) (by decide +kernel) (by decide +kernel) (by decide +kernel) h
  have hcnt : ∀ e ∈ f.tree, e.2.elemCount ≤ 1022 := by
    have hh : (history (cfg95 5) 4 [be 4 0x10000000, be 4 0x20000000, be 4 0x70000000]
      [(be 4 0x20000003, false), (be 4 0x30000000, true)]).bind
      (fun f => .ok (f.tree.all fun e => decide (e.2.elemCount ≤ 1022))) = .ok true := by decide +kernel
    rw [h] at hh
    simpa using hh
  have hany : ((boundaries f).zip (boundaries f).tail).any (fun w => keyLe w.1 (be 4 0x50000000) && keyLt (be 4 0x50000000) w.2 &&
      (pre 10 w.1 == pre 10 (be 4 0x50000000))) = false := by
    have hh : (history (cfg95 5) 4 [be 4 0x10000000, be 4 0x20000000, be 4 0x70000000]
      [(be 4 0x20000003, false), (be 4 0x30000000, true)]).bind
      (fun f => .ok (((boundaries f).zip (boundaries f).tail).any fun w =>
        keyLe w.1 (be 4 0x50000000) && keyLt (be 4 0x50000000) w.2 && (pre 10 w.1 == pre 10 (be 4 0x50000000)))) = .ok false := by
      decide +kernel
    rw [h] at hh
    simpa using hh
  have hr := hb.reach cfg95_5 (by decide)
  obtain ⟨f', e⟩ := C14_partial cfg95_5 (by decide) hb (key := be 4 0x50000000) (by decide) (by decide)
    (levelsFit_small (by rw [hr.cfg]; decide) hr.len (by decide))
    (fun e he => by have := hcnt e he; rw [cfg95_cap]; omega) (by
      intro prev next p hadj h1 h2 hl he
      rw [adjacent_mem] at hadj
      have h10 := pre_eq_len (level_ge hl) he
      rw [List.any_eq_false] at hany
      have := hany _ hadj
      rw [h1, h2, h10] at this
      simp at this) true
  exact ⟨f, _, f', hb, e⟩

/-! ## Violations -/

/-- A step after a history. -/
theorem history_step {c : Cfg} {n : Nat} {K : List Key} {ops : List (Key × Bool)} {f : Filter} {k : Key} {b : Bool}
    {r : Res Filter} (h : history c n K ops = .ok f) (h2 : (history c n K ops).bind (fun f => insert f k b) = r) :
    insert f k b = r := by
  rw [h] at h2; exact h2

/-- Compares outcomes without comparing filters. -/
def outcome {α : Type} : Res α → Nat
  | .ok _ => 0
  | .ub => 1
  | .hang => 2

theorem outcome_ub {α : Type} {r : Res α} (h : outcome r = 1) : r = .ub := by cases r <;> simp_all [outcome]

theorem outcome_hang {α : Type} {r : Res α} (h : outcome r = 2) : r = .hang := by cases r <;> simp_all [outcome]

/-- C13 is violated by the largest 64-bit key: `Insert` reads the tree entry behind the last one. -/
theorem C13_false_max : ∃ f S, BuiltFit (cfg95 5) 8 f S ∧ insert f (encodeInt 0xffffffffffffffff) false = .ub ∧
    insert f (encodeInt 0xffffffffffffffff) true = .ub := by
  obtain ⟨f, h⟩ : ∃ f, history (cfg95 5) 8 sampleKeys [] = .ok f := res_ok (by decide +kernel)
  exact ⟨f, _, history_builtFit (by decide +kernel) (by decide +kernel) (by decide +kernel) (by decide +kernel) h,
    history_step h (outcome_ub (by decide +kernel)), history_step h (outcome_ub (by decide +kernel))⟩

/-- C13 is violated by a split that moves an item up by 55 or more bits: the code computes a wrong list
length and then reads or writes outside its array. -/
theorem C13_false_split : ∃ f S k, BuiltFit (cfg95 5) 8 f S ∧ k.length = 8 ∧ insert f k true = .ub := by
  obtain ⟨f, h⟩ : ∃ f, history (cfg95 5) 8 [encodeInt 0x7ffffffffffffffe, encodeInt 0xf000000000000000]
    [(encodeInt 0x7fffffffffffffff, false)] = .ok f := res_ok (by decide +kernel)
  exact ⟨f, _, encodeInt 0x8000000000000000,
    history_builtFit (by decide +kernel) (by decide +kernel) (by decide +kernel) (by decide +kernel) h,
    by decide, history_step h (outcome_ub (by decide +kernel))⟩

/-- C14 is violated: load 0 and 2^63, insert 1, then insert 2 with a split. The stored prefix of 1 is also
one of 2, so the code shortens the key 2 to this prefix, which is the boundary key 0 up to trailing zeros,
and looks forever for the first bit in which the two differ. -/
theorem C14_false : ∃ f S k, BuiltFit (cfg95 5) 8 f S ∧ k.length = 8 ∧ insert f k true = .hang := by
  obtain ⟨f, h⟩ : ∃ f, history (cfg95 5) 8 [encodeInt 0, encodeInt 0x8000000000000000] [(encodeInt 1, false)] = .ok f :=
    res_ok (by decide +kernel)
  exact ⟨f, _, encodeInt 2,
    history_builtFit (by decide +kernel) (by decide +kernel) (by decide +kernel) (by decide +kernel) h,
    by decide, history_step h (outcome_hang (by decide +kernel))⟩

/-- C14 is also violated by the insertion of a loaded boundary key. -/
theorem C14_false_boundary : ∃ f S k, BuiltFit (cfg95 5) 8 f S ∧ k ∈ S ∧ insert f k true = .hang := by
  obtain ⟨f, h⟩ : ∃ f, history (cfg95 5) 8 sampleKeys [] = .ok f := res_ok (by decide +kernel)
  exact ⟨f, _, encodeInt 0x1000000000000000,
    history_builtFit (by decide +kernel) (by decide +kernel) (by decide +kernel) (by decide +kernel) h,
    by decide, history_step h (outcome_hang (by decide +kernel))⟩

end Verif.Props
