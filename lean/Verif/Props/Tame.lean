import Verif.Proof.TameOps
import Verif.Proof.IntPath
import Verif.Props.SampleTame
import Verif.Props.Inserts

/-!
# What does hold for histories with deletions (C15, C36, C37)
-/

namespace Verif.Props

/-- Two splits, one of which makes a partial boundary key; three deletions, one of which removes that key; inserts
after the deletions. -/
def tameOps : List Op := [.ins 0x3055555555555555 false, .ins 0x2f00000000000000 true, .ins 0x3f00000000000000 true,
  .ins 0x3800000000000000 false, .ins 0x305555ffffffffff true, .del 0x3800000000000000, .del 0x305555ffffffffff,
  .ins 0x3100000000000000 false, .del 0x3055555555555555, .ins 0x3700000000000000 true]

/-- The state after `tameOps`; the boundary key `3f 0 …` can be deleted next. -/
theorem tame_sample : ∃ f S f', OpsTame (cfg95 5) 8 true f S ∧ encodeInt 0x3100000000000000 ∈ S.erase (encodeInt 0x3f00000000000000) ∧
    encodeInt 0x3f00000000000000 ∈ S ∧ DeleteTame false f (encodeInt 0x3f00000000000000) ∧
    delete f (encodeInt 0x3f00000000000000) = .ok f' := by
  have h : (opsTame 5 [0x8000000000000000, 0xc000000000000000] tameOps).bind
      (fun q => (delete q.1 (encodeInt 0x3f00000000000000)).bind fun _ =>
        .ok (decide (encodeInt 0x3100000000000000 ∈ q.2.erase (encodeInt 0x3f00000000000000)) &&
          decide (encodeInt 0x3f00000000000000 ∈ q.2) && tameB false q.1 (encodeInt 0x3f00000000000000))) = .ok true := by
    decide +kernel
  obtain ⟨f, S, ho, he⟩ := opsTame_eval cfg95_5 (by decide) (by decide) h
  obtain ⟨f', hd, he⟩ := bind_ok_iff.1 he
  simp only [Res.ok.injEq, Bool.and_eq_true, decide_eq_true_eq] at he
  exact ⟨f, S, f', ho, he.1.1, he.1.2, tameB_sound (ho.inv cfg95_5 (by decide)).weak he.2, hd⟩

variable {c : Cfg} {n : Nat} {ins : Bool} {f : Filter} {S : List Key}

theorem tame_pos (hc : c.WF) (hn : n < 2 ^ 28) (h : OpsTame c n ins f S) : ∀ k ∈ S, pointQuery f k = .ok true := by
  intro k hk
  have i := h.inv hc hn
  obtain ⟨hd, hm, hh⟩ := i.serve.mem hk
  exact i.weak.held hm hh

/-- C15 for histories that avoid the faults (`OpsTame`). What is missing: deletions that remove a partial boundary
key which is not a prefix of the deleted key (`C15_false`), that leave items out of order (`C36_false`, `C37_false`)
or overflow a counter. -/
theorem C15_partial (hc : c.WF) (hn : n < 2 ^ 28) (h : OpsTame c n ins f S) {k : Key} (hk : k ∈ S)
    (ht : DeleteTame false f k) {f' : Filter} (hd : delete f k = .ok f') :
    ∀ k' ∈ S.erase k, pointQuery f' k' = .ok true :=
  tame_pos (ins := false) hc hn (h.delete hk (by simp) ht hd)

example : ∃ f f', delete f (encodeInt 0x3f00000000000000) = .ok f' ∧ pointQuery f' (encodeInt 0x3100000000000000) = .ok true := by
  obtain ⟨f, S, f', h, h1, h2, h3, h4⟩ := tame_sample
  exact ⟨f, f', h4, C15_partial cfg95_5 (by decide) h h2 h3 h4 _ h1⟩

/-- C36, likewise. -/
theorem C36_partial (hc : c.WF) (hn : n < 2 ^ 28) (h : OpsTame c n true f S) {x : Key} (hx : x.length = n) {split : Bool}
    (hfit : InsertFits f x split) {f' : Filter} (hi : insert f x split = .ok f') :
    ∀ k ∈ x :: S, pointQuery f' k = .ok true :=
  tame_pos hc hn (h.insert hx hfit hi)

example : ∃ f S f', OpsTame (cfg95 5) 8 true f S ∧ insert f (encodeInt 0x5000000000000000) false = .ok f' ∧
    pointQuery f' (encodeInt 0x3100000000000000) = .ok true := by
  have h : (opsTame 5 [0x8000000000000000, 0xc000000000000000] tameOps).bind
      (fun q => (insert q.1 (encodeInt 0x5000000000000000) false).bind fun _ =>
        .ok (decide (encodeInt 0x3100000000000000 ∈ q.2) && fitsB q.1 (encodeInt 0x5000000000000000) false)) = .ok true := by
    decide +kernel
  obtain ⟨f, S, ho, he⟩ := opsTame_eval cfg95_5 (by decide) (by decide) h
  obtain ⟨f', hd, he⟩ := bind_ok_iff.1 he
  simp only [Res.ok.injEq, Bool.and_eq_true, decide_eq_true_eq] at he
  exact ⟨f, S, f', ho, hd, C36_partial cfg95_5 (by decide) ho (by decide) (fitsB_sound he.2) hd _ (List.mem_cons_of_mem _ he.1)⟩

/-- C37, likewise. -/
theorem C37_partial (hc : c.WF) (hn : n < 2 ^ 28) (h : OpsTame c n ins f S) {l k r : Key} {io : Bool}
    (hio : io = true → n ≤ 8 ∧ l.length ≤ 8 ∧ r.length ≤ 8) (hk : k ∈ S) (h1 : keyLe l k = true) (h2 : keyLe k r = true) :
    rangeQuery io f l r = .ok true := by
  have i := h.inv hc hn
  obtain ⟨hd, hm, hh⟩ := i.serve.mem hk
  have hr := i.weak.held_range hm hh h1 h2
  cases io with
  | false => exact hr
  | true =>
    obtain ⟨g1, g2, g3⟩ := hio rfl
    rw [rangeQuery_int i.weak.wf (fun e he => Nat.le_trans (i.len e he) g1) g2 g3, hr]

example : ∃ f S, OpsTame (cfg95 5) 8 true f S ∧
    rangeQuery true f (encodeInt 0x30ffffffffffffff) (encodeInt 0x3100000000000001) = .ok true := by
  obtain ⟨f, S, f', h, h1, _⟩ := tame_sample
  exact ⟨f, S, h, C37_partial cfg95_5 (by decide) h (k := encodeInt 0x3100000000000000) (by decide) (List.mem_of_mem_erase h1)
    (by decide) (by decide)⟩

/-- After deletions that avoid the faults a hit still implies the hit of every enclosing range (C03, C04). -/
example : ∃ f S, OpsTame (cfg95 5) 8 true f S ∧ encodeInt 0x3100000000000000 ∈ S ∧
    rangeQuery true f (encodeInt 0x3100000000000000) (encodeInt 0x3100000000000003) = .ok true ∧
    rangeQuery true f (encodeInt 0x30ffffffffffffff) (encodeInt 0x3200000000000001) = .ok true := by
  obtain ⟨f, S, f', h, h1, _⟩ := tame_sample
  have hm := List.mem_of_mem_erase h1
  have hr := C03_partial cfg95_5 (by decide) (.tame h) (l := encodeInt 0x3100000000000000) (k := encodeInt 0x3100000000000000)
    (r := encodeInt 0x3100000000000003) (io := true) (by decide) (by decide) (by decide) (tame_pos cfg95_5 (by decide) h _ hm)
  exact ⟨f, S, h, hm, hr, C04_partial cfg95_5 (by decide) (.tame h) (by decide) (by decide) (by decide) (by decide) hr⟩

/-- C16 for histories that avoid the faults: deleting a key with an item in its region, when the boundary is not
removed, takes one item out of the list of the region, the longest one that is a prefix of the key; the boundaries
and all other regions stay. What is missing: states in which a partial boundary that is not a prefix of the deleted
key is removed instead, see `C16_false`, and states after faulty deletions. -/
theorem C16_partial (hc : c.WF) (hn : n < 2 ^ 28) (h : OpsTame c n ins f S) {prev next k : Key} {q x : Nat}
    (ha : Adjacent f prev next) (h1 : keyLe prev k = true) (h2 : keyLt k next = true) (hq : Level prev next q)
    (hx : x ∈ itemsOf f prev) (hxk : PrefixItem c.infixSize q prev x k)
    (hr : ∀ p ∈ f.tree, p.1 = prev → ¬ Removes f p q k) :
    ∃ f' y X Y, delete f k = .ok f' ∧ itemsOf f prev = X ++ y :: Y ∧ itemsOf f' prev = X ++ Y ∧
      PrefixItem c.infixSize q prev y k ∧
      (∀ z ∈ itemsOf f prev, PrefixItem c.infixSize q prev z k → itemLen c.infixSize q z ≤ itemLen c.infixSize q y) ∧
      boundaries f' = boundaries f ∧ ∀ b, b ≠ prev → itemsOf f' b = itemsOf f b := by
  have i := h.inv hc hn
  have hw := i.weak
  have hcfg := i.cfg
  subst hcfg
  obtain ⟨A, st, st', B, ht⟩ := ha.split
  have hr := hr (prev, st) (by rw [ht]; simp) rfl
  obtain ⟨sh, ig, imp, L, R⟩ := hw.region ht
  have := hq.unique (R.lengths.level R.lt)
  subst this
  dsimp only at R
  have hit : itemsOf f prev = L := by rw [itemsOf_at (p := (prev, st)) hw.pairwise ht, R.list hw.wf]
  rw [removes_iff hw ht R] at hr
  rw [hit] at hx ⊢
  obtain ⟨x1, x2, _⟩ := R.item_lt hw.wf hx
  have hb : if st.isPartial then ∃ z ∈ L, Hits f.cfg.infixSize (sh + ig + imp) prev z k ∧
      8 * prev.length - st.invalidBits ≤ ilen f.cfg.infixSize (sh + ig + imp) z else prev ≠ k := by
    dsimp only at hr
    split_ifs at hr ⊢
    · push Not at hr
      exact hr
    · exact hr
  obtain ⟨y, X, Y, st2, hd, hL, hy, hmax, _, _, R'⟩ := hw.delete_item (p := (prev, st)) ht R h1 h2 hn
    (i.len _ (by rw [ht]; simp)) (i.len (next, st') (by rw [ht]; simp)) ⟨x, hx, (prefixItem_iff x1 x2).1 hxk⟩ hb
  have hyL : y ∈ L := by rw [hL]; simp
  obtain ⟨y1, y2, _⟩ := R.item_lt hw.wf hyL
  have hw' := hw.replace ht ⟨_, _, _, _, R'⟩
  refine ⟨_, y, X, Y, hd, hL, ?_, (prefixItem_iff y1 y2).2 hy, ?_, boundaries_replace ht, fun b hb => itemsOf_ne ht hb⟩
  · rw [itemsOf_at (A := A) (p := (prev, st2)) hw'.pairwise rfl]
    exact R'.list hw.wf
  · intro z hz hzk
    obtain ⟨z1, z2, _⟩ := R.item_lt hw.wf hz
    rw [itemLen_eq z1 z2, itemLen_eq y1 y2]
    exact hmax z hz ((prefixItem_iff z1 z2).1 hzk)

example : ∃ f f' X Y, delete f (encodeInt 0x3800000000000000) = .ok f' ∧ itemsOf f [0x30, 0x54] = X ++ 15714 :: Y ∧
    itemsOf f' [0x30, 0x54] = X ++ Y := by
  have h : (opsTame 5 [0x8000000000000000, 0xc000000000000000] (tameOps.take 5)).bind
      (fun q => .ok (decide (itemsOf q.1 [0x30, 0x54] = [11, 15714]) &&
          decide (([0x30, 0x54], encodeInt 0x3f00000000000000) ∈ (boundaries q.1).zip (boundaries q.1).tail) &&
          q.1.tree.all fun p => !(p.1 == [0x30, 0x54]) || !decide (Removes q.1 p 14 (encodeInt 0x3800000000000000)))) = .ok true := by
    decide +kernel
  obtain ⟨f, S, ho, he⟩ := opsTame_eval cfg95_5 (by decide) (by decide) h
  simp only [Res.ok.injEq, Bool.and_eq_true, decide_eq_true_eq, List.all_eq_true, Bool.or_eq_true, Bool.not_eq_true',
    decide_eq_false_iff_not, beq_eq_false_iff_ne] at he
  obtain ⟨⟨hi, ha⟩, hr⟩ := he
  obtain ⟨f', y, X, Y, hd, hy, hY, hyk, _⟩ := C16_partial cfg95_5 (by decide) ho (k := encodeInt 0x3800000000000000) (q := 14) (x := 15714)
    (adjacent_mem.2 ha) (by decide) (by decide)
    ⟨4, 0, by decide, by decide, by decide, by omega, by decide, by decide +kernel⟩ (by rw [hi]; decide)
    (by decide +kernel) (fun p hp he => (hr p hp).resolve_left (fun hne => hne he))
  have hm : y ∈ [11, 15714] := by rw [← hi, hy]; simp
  rcases List.mem_cons.1 hm with rfl | hm
  · exact absurd hyk (by decide +kernel)
  · obtain rfl := List.mem_singleton.1 hm
    exact ⟨f, f', X, Y, hd, hy, hY⟩

/-! ## Histories without splits -/

/-- C13 for `Delete`: deleting a present key other than the two extreme ones returns. What is missing: the extreme
keys, see `C13_delete_extreme`, infixes of more than 21 bits, see `C13_false_delete_shift`, and states after faulty
deletions. -/
theorem C13_delete_partial (hc : c.WF) (hn : n < 2 ^ 28) (hs : c.infixSize ≤ 21) (h : OpsTame c n ins f S) {k : Key}
    (hk : k ∈ S) (h0 : k ≠ List.replicate n 0) (h1 : k ≠ List.replicate n 255) : ∃ f', delete f k = .ok f' :=
  (h.inv hc hn).delete_total hs hk h0 h1

example : ∃ f S f', OpsTame (cfg95 5) 8 true f S ∧ delete f (encodeInt 0x3100000000000000) = .ok f' := by
  obtain ⟨f, S, _, h, h1, _⟩ := tame_sample
  obtain ⟨f', hd⟩ := C13_delete_partial cfg95_5 (by decide) (by decide) h (List.mem_of_mem_erase h1) (by decide) (by decide)
  exact ⟨f, S, f', h, hd⟩

/-- C13 fails for the two extreme keys in every state after a history that avoids the other faults, whether they are
present or not. -/
theorem C13_delete_extreme (hc : c.WF) (hn : n < 2 ^ 28) (h : OpsTame c n ins f S) :
    delete f (List.replicate n 0) = .ub ∧ delete f (List.replicate n 255) = .ub :=
  ⟨(h.inv hc hn).delete_first, (h.inv hc hn).delete_last⟩

example : ∃ f S, OpsTame (cfg95 5) 8 true f S ∧ delete f (encodeInt 0) = .ub := by
  obtain ⟨f, S, _, h, _⟩ := tame_sample
  exact ⟨f, S, h, (C13_delete_extreme cfg95_5 (by decide) h).1⟩

variable {m : Nat}

/-- C15 for histories without splits and with fewer than `c.cap` keys, with no condition on the deletions: `Delete`
of a present key that is not an extreme one returns, and all other present keys stay. -/
theorem C15_plain_partial (hc : c.WF) (hn : n < 2 ^ 28) (hs : c.infixSize ≤ 21) (hm : m < c.cap) (h : OpsPlain c n m ins f S)
    {k : Key} (hk : k ∈ S) (h0 : k ≠ List.replicate n 0) (h1 : k ≠ List.replicate n 255) :
    ∃ f', delete f k = .ok f' ∧ ∀ k' ∈ S.erase k, pointQuery f' k' = .ok true := by
  obtain ⟨f', hd⟩ := C13_delete_partial hc hn hs (h.inv hc hn hm).1 hk h0 h1
  exact ⟨f', hd, tame_pos hc hn ((h.delete hk hd).inv hc hn hm).1⟩

/-- C37, likewise. -/
theorem C37_plain_partial (hc : c.WF) (hn : n < 2 ^ 28) (hm : m < c.cap) (h : OpsPlain c n m ins f S) {l k r : Key} {io : Bool}
    (hio : io = true → n ≤ 8 ∧ l.length ≤ 8 ∧ r.length ≤ 8) (hk : k ∈ S) (h1 : keyLe l k = true) (h2 : keyLe k r = true) :
    rangeQuery io f l r = .ok true :=
  C37_partial hc hn (h.inv hc hn hm).1 hio hk h1 h2

/-- Two present keys after deletions, one of which removed the boundary key `10 0 …`. -/
theorem plain_sample : ∃ ins f S, OpsPlain (cfg95 5) 8 6 ins f S ∧ encodeInt 0x9000000000000000 ∈ S ∧
    encodeInt 0x7000000000000000 ∈ S.erase (encodeInt 0x9000000000000000) := by
  have h : (opsPlain 5 [0x1000000000000000, 0x8000000000000000, 0xc000000000000000]
      [0x7000000000000000, 0x7000000000000001, 0x9000000000000000] [0x7000000000000001, 0x1000000000000000]).bind
      (fun q => .ok (decide (encodeInt 0x9000000000000000 ∈ q.2) &&
        decide (encodeInt 0x7000000000000000 ∈ q.2.erase (encodeInt 0x9000000000000000)))) = .ok true := by
    decide +kernel
  obtain ⟨ins, f, S, ho, he⟩ := opsPlain_eval (by decide) (by decide) (by decide) h
  simp only [Res.ok.injEq, Bool.and_eq_true, decide_eq_true_eq] at he
  exact ⟨ins, f, S, ho, he.1, he.2⟩

example : ∃ f f', delete f (encodeInt 0x9000000000000000) = .ok f' ∧ pointQuery f' (encodeInt 0x7000000000000000) = .ok true := by
  obtain ⟨ins, f, S, h, h1, h2⟩ := plain_sample
  obtain ⟨f', hd, hp⟩ := C15_plain_partial cfg95_5 (by decide) (by decide) (by rw [cfg95_cap]; decide) h h1 (by decide) (by decide)
  exact ⟨f, f', hd, hp _ h2⟩

example : ∃ f, rangeQuery true f (encodeInt 0x6fffffffffffffff) (encodeInt 0x7000000000000000) = .ok true := by
  obtain ⟨ins, f, S, h, h1, h2⟩ := plain_sample
  exact ⟨f, C37_plain_partial cfg95_5 (by decide) (by rw [cfg95_cap]; decide) h (k := encodeInt 0x7000000000000000) (by decide)
    (List.mem_of_mem_erase h2) (by decide) (by decide)⟩

/-- The same after streaming three keys. -/
example : ∃ f f', streamAll (cfg95 5) ([0x1000000000000000, 0x8000000000000000, 0xc000000000000000].map encodeInt) = .ok f ∧
    delete f (encodeInt 0x8000000000000000) = .ok f' ∧ pointQuery f' (encodeInt 0x1000000000000000) = .ok true := by
  obtain ⟨f, hf⟩ : ∃ f, streamAll (cfg95 5) ([0x1000000000000000, 0x8000000000000000, 0xc000000000000000].map encodeInt) = .ok f :=
    res_ok (by decide +kernel)
  have h : OpsPlain (cfg95 5) 8 3 true f ([0x1000000000000000, 0x8000000000000000, 0xc000000000000000].map encodeInt) :=
    .stream (by decide) (by decide) (by decide) (.inl (by decide)) hf
  obtain ⟨f', hd, hp⟩ := C15_plain_partial cfg95_5 (by decide) (by decide) (by rw [cfg95_cap]; decide) h
    (k := encodeInt 0x8000000000000000) (by decide) (by decide) (by decide)
  exact ⟨f, f', hf, hd, hp _ (by decide)⟩

end Verif.Props
