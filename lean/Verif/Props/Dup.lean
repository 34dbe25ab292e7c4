import Mathlib.Data.List.Dedup
import Mathlib.Data.List.Count
import Verif.Props.Present
import Verif.Props.Tame

/-!
# C57: bulk loading repeated keys
-/

namespace Verif.Props

variable {c : Cfg} {n : Nat} {f : Filter}

/-- C57 for the constructor for keys of one length, if each of the keys at positions 0, 1024, 2048, … and the last one
differs from the next. Otherwise the claim is false, see `C57_hang`. -/
theorem C57_partial (hc : c.WF) {K : List Key} (hne : K ≠ []) (hlen : ∀ k ∈ K, k.length = n)
    (hs : K.Pairwise fun a b => keyLe a b = true) (hsam : Sampled K) :
    ∃ f, bulkFixed c n K = .ok f ∧ ∀ k ∈ K, pointQuery f k = .ok true := by
  obtain ⟨f, e, hl, hsp, _⟩ := (bulkFixed_dup hc hlen hs hne).2 hsam
  exact ⟨f, e, fun k hk => hl.all hc hsp hk (hlen k hk)⟩

/-- The same for the constructor that accepts keys of different lengths. -/
theorem C57_var_partial (hc : c.WF) {K : List Key} (hne : K ≠ []) (hs : K.Pairwise PadLeq)
    (hZ : ∀ k ∈ K, k = List.replicate 8 0 ∨ PadLt (List.replicate 8 0) k) (hsam : Sampled K) :
    ∃ f, bulkVar c K = .ok f ∧ ∀ k ∈ K, pointQuery f k = .ok true := by
  obtain ⟨f, m, e, hl, hlen, hs1, hs2, _⟩ := (bulkVar_dup hc hs hne hZ).2 hsam
  refine ⟨f, e, fun k hk => hl.all_of hc hs1 hs2 ?_ (le_ones_len k (hlen k hk)) hk⟩
  rcases hZ k hk with h | h
  · rw [h]; exact keyLe_refl _
  · exact keyLt_keyLe (keyLt_of_padLt h)

/-- The same for streamed keys. -/
theorem C57_stream_partial (hc : c.WF) {m : Nat} {K : List Key} (hne : K ≠ [])
    (hm : m = K.foldl (fun m k => max m k.length) 0) (hs : K.Pairwise PadLeq)
    (hZ : ∀ k ∈ K, k = List.replicate m 0 ∨ PadLt (List.replicate m 0) k)
    (hcond : K.length ≤ 1024 ∨ K.getD 0 [] ≠ List.replicate m 0) (hsam : Sampled K) :
    ∃ f, streamAll c K = .ok f ∧ ∀ k ∈ K, pointQuery f k = .ok true := by
  obtain ⟨f, e, hl, hsp, hlen, _⟩ := stream_dup hc hs hne hm hZ hsam hcond
  refine ⟨f, e, fun k hk => hl.all_of hc hsp.1 hsp.2 ?_ (le_ones_len k (hlen k hk)) hk⟩
  rcases hZ k hk with h | h
  · rw [h]; exact keyLe_refl _
  · exact keyLt_keyLe (keyLt_of_padLt h)

/-- After such a load all later guarantees hold as after a load of distinct keys. -/
theorem C57_present {K : List Key} (hlen : ∀ k ∈ K, k.length = n) (hs : K.Pairwise fun a b => keyLe a b = true)
    (h : bulkFixed c n K = .ok f) : Present c n f K ∧ States c n f :=
  ⟨.built (.fixed (Nat.le_refl _) hlen hs h), .reach (.fixed (Nat.le_refl _) hlen hs h)⟩

/-- The condition is exact: otherwise the constructors never return. -/
theorem C57_hang (hc : c.WF) {K : List Key} (hne : K ≠ []) (hsam : ¬ Sampled K) :
    ((∀ k ∈ K, k.length = n) → (K.Pairwise fun a b => keyLe a b = true) → bulkFixed c n K = .hang) ∧
    ((∀ k ∈ K, k = List.replicate 8 0 ∨ PadLt (List.replicate 8 0) k) → K.Pairwise PadLeq → bulkVar c K = .hang) :=
  ⟨fun h1 h2 => (bulkFixed_dup hc h1 h2 hne).1 hsam, fun h1 h2 => (bulkVar_dup hc h2 hne h1).1 hsam⟩

/-! ## In terms of how often keys occur -/

theorem getD_replicate_mid {A B : List Key} {k : Key} {m i : Nat} (h1 : A.length ≤ i) (h2 : i < A.length + m) :
    (A ++ List.replicate m k ++ B).getD i [] = k := by
  rw [List.getD_eq_getElem?_getD, List.append_assoc, List.getElem?_append_right h1,
    List.getElem?_append_left (by rw [List.length_replicate]; omega), List.getElem?_replicate, if_pos (by omega)]
  rfl

/-- A key that occurs 2048 times, wherever it stands. -/
theorem popular_not_sampled {A B : List Key} {k : Key} {m : Nat} (hm : 2048 ≤ m) :
    ¬ Sampled (A ++ List.replicate m k ++ B) := by
  intro h
  have hj : 1024 * ((A.length + 1023) / 1024 + 1) < (A ++ List.replicate m k ++ B).length := by
    simp only [List.length_append, List.length_replicate]; omega
  apply h.1 _ hj
  rw [getD_replicate_mid (by omega) (by omega), getD_replicate_mid (by omega) (by omega)]

/-- The largest key twice at the end of 2, 1026, 2050, … keys. -/
theorem last_not_sampled {A : List Key} {k : Key} (hA : A.length % 1024 = 0) : ¬ Sampled (A ++ [k, k]) := by
  intro h
  apply h.2
  have e : (A ++ [k, k]).length = A.length + 2 := by simp
  have g : ∀ i, i < 2 → (A ++ [k, k]).getD (A.length + i) [] = k := by
    intro i hi
    have := getD_replicate_mid (A := A) (B := []) (k := k) (m := 2) (i := A.length + i) (by omega) (by omega)
    simpa using this
  rw [e, show 1024 * ((A.length + 2 - 1) / 1024) = A.length + 0 by omega, g 0 (by omega),
    show A.length + 2 - 1 = A.length + 1 by omega, g 1 (by omega)]

theorem slice_count {K : List Key} (hs : K.Pairwise fun a b => keyLe a b = true) {i j : Nat} (hij : i < j)
    (hj : j < K.length) (he : K.getD i [] = K.getD j []) : j - i + 1 ≤ K.count (K.getD i []) := by
  have e := slice hij hj
  have hs' := hs
  rw [e, List.pairwise_append, List.pairwise_cons, List.pairwise_append] at hs'
  obtain ⟨_, ⟨h2, _, _, h6⟩, _⟩ := hs'
  have hmid : (K.drop (i + 1)).take (j - i - 1) = List.replicate (j - i - 1) (K.getD i []) := by
    rw [List.eq_replicate_iff]
    exact ⟨by rw [List.length_take, List.length_drop]; omega, fun k hk =>
      keyLe_antisymm (by rw [he]; exact h6 k hk _ (by simp)) (h2 k (by simp [hk]))⟩
  generalize K.getD i [] = x at *
  rw [e, hmid, ← he]
  simp only [List.count_append, List.count_cons_self, List.count_replicate_self]
  omega

/-- A condition on the number of occurrences: no key occurs more than 1024 times, the largest key occurs once, and the
number of keys is not 1 modulo 1024. -/
theorem sampled_of_count {K : List Key} (hs : K.Pairwise fun a b => keyLe a b = true) (hn0 : K ≠ [])
    (hmod : K.length % 1024 ≠ 1) (hcnt : ∀ k ∈ K, K.count k ≤ 1024) (hlast : K.count (K.getD (K.length - 1) []) = 1) :
    Sampled K := by
  have hn : K.length ≠ 0 := fun e => hn0 (List.length_eq_zero_iff.1 e)
  refine ⟨fun j hj he => ?_, fun he => ?_⟩
  · have := slice_count hs (by omega) hj he
    have := hcnt _ (getD_mem (K := K) (i := 1024 * j) (by omega))
    omega
  · have := slice_count hs (by omega) (by omega) he
    rw [he, hlast] at this
    omega

theorem C57_count_partial (hc : c.WF) {K : List Key} (hne : K ≠ []) (hlen : ∀ k ∈ K, k.length = n)
    (hs : K.Pairwise fun a b => keyLe a b = true) (hmod : K.length % 1024 ≠ 1) (hcnt : ∀ k ∈ K, K.count k ≤ 1024)
    (hlast : K.count (K.getD (K.length - 1) []) = 1) :
    ∃ f, bulkFixed c n K = .ok f ∧ ∀ k ∈ K, pointQuery f k = .ok true :=
  C57_partial hc hne hlen hs (sampled_of_count hs hne hmod hcnt hlast)

/-- C57 is violated: a key that occurs 2048 times among any others, or the largest key twice at the end of 2, 1026, …
keys, and the constructor never returns. -/
theorem C57_popular (hc : c.WF) {A B : List Key} {k : Key} {m : Nat} (hm : 2048 ≤ m)
    (hlen : ∀ a ∈ A ++ List.replicate m k ++ B, a.length = n)
    (hs : (A ++ List.replicate m k ++ B).Pairwise fun a b => keyLe a b = true) :
    bulkFixed c n (A ++ List.replicate m k ++ B) = .hang := by
  refine (C57_hang hc ?_ (popular_not_sampled hm)).1 hlen hs
  intro e
  have := congrArg List.length e
  simp at this
  omega

theorem C57_twice (hc : c.WF) {A : List Key} {k : Key} (hA : A.length % 1024 = 0) (hlen : ∀ a ∈ A ++ [k, k], a.length = n)
    (hs : (A ++ [k, k]).Pairwise fun a b => keyLe a b = true) : bulkFixed c n (A ++ [k, k]) = .hang :=
  (C57_hang hc (by simp) (last_not_sampled hA)).1 hlen hs

theorem C57_false : ∃ (c : Cfg) (n : Nat) (K : List Key), c.WF ∧ K ≠ [] ∧ K.length % 1024 ≠ 1 ∧ (∀ k ∈ K, k.length = n) ∧
    (K.Pairwise fun a b => keyLe a b = true) ∧ bulkFixed c n K = .hang :=
  ⟨cfg95 5, 8, [encodeInt 7, encodeInt 7], cfg95_5, by simp, by simp, by simp [encodeInt], by simp [keyLe_refl],
    C57_twice cfg95_5 (A := []) rfl (by simp [encodeInt]) (by simp [keyLe_refl])⟩

/-- 5, 7, 7, 7, 9 is loaded and all keys are reported, also after an insert of 7. -/
example : ∃ f f', bulkFixed (cfg95 5) 8 ([5, 7, 7, 7, 9].map encodeInt) = .ok f ∧ pointQuery f (encodeInt 7) = .ok true ∧
    insert f (encodeInt 7) false = .ok f' ∧ pointQuery f' (encodeInt 7) = .ok true := by
  have hs : ([5, 7, 7, 7, 9].map encodeInt).Pairwise fun a b => keyLe a b = true := by decide +kernel
  obtain ⟨f, e, h⟩ := C57_count_partial cfg95_5 (n := 8) (K := [5, 7, 7, 7, 9].map encodeInt) (by simp)
    (by decide +kernel) hs (by decide) (by decide +kernel) (by decide +kernel)
  have h1 : (bulkFixed (cfg95 5) 8 ([5, 7, 7, 7, 9].map encodeInt)).bind (fun f =>
      (insert f (encodeInt 7) false).bind fun f' => .ok ()) = .ok () := by decide +kernel
  have h2 : (bulkFixed (cfg95 5) 8 ([5, 7, 7, 7, 9].map encodeInt)).bind (fun f =>
      .ok (fitsB f (encodeInt 7) false)) = .ok true := by decide +kernel
  rw [e, Res.bind_ok] at h1 h2
  obtain ⟨f', h3, _⟩ := Res.bind_eq_ok h1
  have hb : BuiltVar (cfg95 5) 8 f ([5, 7, 7, 7, 9].map encodeInt) := .fixed (Nat.le_refl _) (by decide +kernel) hs e
  have hb' := hb.insert (split := false) (by decide) (fitsB_sound (by simpa using h2)) (by simp) h3
  exact ⟨f, f', e, h _ (by simp), h3, present_point cfg95_5 (by decide) (.built hb') (by simp)⟩

/-- The loaded keys, boundary keys once. -/
def copies (f : Filter) (K : List Key) : List Key :=
  (K.filter fun k => k ∉ boundaries f) ++ (K.filter fun k => k ∈ boundaries f).dedup

theorem copies_mem {K : List Key} {k : Key} : k ∈ copies f K ↔ k ∈ K := by
  unfold copies
  simp only [List.mem_append, List.mem_filter, List.mem_dedup, decide_eq_true_eq]
  tauto

theorem copies_out {K : List Key} {k : Key} (h : k ∉ boundaries f) : (copies f K).count k = K.count k := by
  unfold copies
  have h0 : (K.filter fun k => k ∈ boundaries f).dedup.count k = 0 := List.count_eq_zero.2 (by simp [h])
  rw [List.count_append, List.count_filter (by simpa using h), h0, Nat.add_zero]

theorem copies_in {K : List Key} {k : Key} (h : k ∈ boundaries f) : (copies f K).count k ≤ 1 := by
  unfold copies
  rw [List.count_append, (List.count_eq_zero (a := k)).2 (by simp [h]), Nat.zero_add]
  exact List.nodup_iff_count_le_one.1 (List.nodup_dedup _) k

theorem copies_le (f : Filter) (K : List Key) (k : Key) : (copies f K).count k ≤ K.count k := by
  by_cases h : k ∈ boundaries f
  · by_cases hk : k ∈ K
    · exact Nat.le_trans (copies_in h) (List.count_pos_iff.2 hk)
    · rw [List.count_eq_zero.2 fun h => hk (copies_mem.1 h)]; exact Nat.zero_le _
  · exact Nat.le_of_eq (copies_out h)

theorem copies_load {K : List Key} (hlen : ∀ k ∈ K, k.length = n) (hs : K.Pairwise fun a b => keyLe a b = true)
    (hl : bulkFixed c n K = .ok f) : OpsTame c n true f (copies f K) :=
  .load hlen hs (copies_le f K) (fun _ hk => copies_mem.2 hk) hl (fun _ hk => copies_in hk)

theorem copies_erase {K : List Key} {k x : Key} (hx : x ∈ K) (h : x ≠ k ∨ (2 ≤ K.count k ∧ k ∉ boundaries f)) :
    x ∈ (copies f K).erase k := by
  by_cases e : x = k
  · subst e
    obtain ⟨h2, h3⟩ := h.resolve_left (fun h => h rfl)
    rw [← List.count_pos_iff, List.count_erase_self, copies_out h3]
    omega
  · exact (List.mem_erase_of_ne e).2 (copies_mem.2 hx)

/-- Deleting a loaded key takes away one copy of it: the other keys are still reported, and so is the key itself if it
was loaded more than once. Missing: deletions that run into one of the faults of C15, C36 and C37, and the copies of
keys that are boundaries. -/
theorem C57_delete_partial (hc : c.WF) (hn : n < 2 ^ 28) {K : List Key} (hlen : ∀ k ∈ K, k.length = n)
    (hs : K.Pairwise fun a b => keyLe a b = true) (hl : bulkFixed c n K = .ok f) {k : Key} (hk : k ∈ K)
    (ht : DeleteTame false f k) {f' : Filter} (hd : delete f k = .ok f') :
    ∀ x ∈ K, x ≠ k ∨ (2 ≤ K.count k ∧ k ∉ boundaries f) → pointQuery f' x = .ok true :=
  fun x hx h => C15_partial hc hn (copies_load hlen hs hl) (copies_mem.2 hk) ht hd x (copies_erase hx h)

/-- The same after streaming; the conditions on the keys are those of `C57_stream_partial`. -/
theorem C57_stream_delete_partial (hc : c.WF) (hn : n < 2 ^ 28) {K : List Key} (hlen : ∀ k ∈ K, k.length = n)
    (hs : K.Pairwise fun a b => keyLe a b = true) (hsam : Sampled K)
    (h0 : K.length ≤ 1024 ∨ K.getD 0 [] ≠ List.replicate n 0) (hl : streamAll c K = .ok f) {k : Key} (hk : k ∈ K)
    (ht : DeleteTame false f k) {f' : Filter} (hd : delete f k = .ok f') :
    ∀ x ∈ K, x ≠ k ∨ (2 ≤ K.count k ∧ k ∉ boundaries f) → pointQuery f' x = .ok true :=
  fun x hx h => C15_partial hc hn (.stream hlen hs hsam h0 (copies_le f K) (fun _ hk => copies_mem.2 hk) hl
    fun _ hk => copies_in hk) (copies_mem.2 hk) ht hd x (copies_erase hx h)

/-- 5, 7, 7, 8, 9 is loaded and 7 is deleted; all keys are still reported. -/
example : ∃ f f', bulkFixed (cfg95 5) 8 ([5, 7, 7, 8, 9].map encodeInt) = .ok f ∧ delete f (encodeInt 7) = .ok f' ∧
    ∀ x ∈ [5, 7, 8, 9], pointQuery f' (encodeInt x) = .ok true := by
  have h : (bulkFixed (cfg95 5) 8 ([5, 7, 7, 8, 9].map encodeInt)).bind (fun f => (delete f (encodeInt 7)).bind fun _ =>
      .ok (tameB false f (encodeInt 7) && decide (encodeInt 7 ∉ boundaries f))) = .ok true := by decide +kernel
  obtain ⟨f, e, h⟩ := Res.bind_eq_ok h
  obtain ⟨f', hd, h⟩ := Res.bind_eq_ok h
  simp only [Res.ok.injEq, Bool.and_eq_true, decide_eq_true_eq] at h
  have hs : ([5, 7, 7, 8, 9].map encodeInt).Pairwise fun a b => keyLe a b = true := by decide +kernel
  have hl : ∀ k ∈ [5, 7, 7, 8, 9].map encodeInt, k.length = 8 := by decide +kernel
  refine ⟨f, f', e, hd, fun x hx => C57_delete_partial cfg95_5 (by decide) hl hs e (by simp)
    (tameB_sound ((copies_load hl hs e).inv cfg95_5 (by decide)).weak h.1) hd _ ?_ (.inr ⟨by decide +kernel, h.2⟩)⟩
  revert x; decide +kernel
/-- 5, 7, 7, 8, 9 is streamed and 7 is deleted; all keys are still reported. -/
example : ∃ f f', streamAll (cfg95 5) ([5, 7, 7, 8, 9].map encodeInt) = .ok f ∧ delete f (encodeInt 7) = .ok f' ∧
    ∀ x ∈ [5, 7, 8, 9], pointQuery f' (encodeInt x) = .ok true := by
  have h : (streamAll (cfg95 5) ([5, 7, 7, 8, 9].map encodeInt)).bind (fun f => (delete f (encodeInt 7)).bind fun _ =>
      .ok (tameB false f (encodeInt 7) && decide (encodeInt 7 ∉ boundaries f))) = .ok true := by decide +kernel
  obtain ⟨f, e, h⟩ := Res.bind_eq_ok h
  obtain ⟨f', hd, h⟩ := Res.bind_eq_ok h
  simp only [Res.ok.injEq, Bool.and_eq_true, decide_eq_true_eq] at h
  have hs : ([5, 7, 7, 8, 9].map encodeInt).Pairwise fun a b => keyLe a b = true := by decide +kernel
  have hl : ∀ k ∈ [5, 7, 7, 8, 9].map encodeInt, k.length = 8 := by decide +kernel
  have hsam : Sampled ([5, 7, 7, 8, 9].map encodeInt) := ⟨fun j hj => by simp at hj; omega, by decide +kernel⟩
  have ho : OpsTame (cfg95 5) 8 true f (copies f ([5, 7, 7, 8, 9].map encodeInt)) :=
    .stream hl hs hsam (.inl (by decide)) (copies_le _ _) (fun _ hk => copies_mem.2 hk) e fun _ hk => copies_in hk
  refine ⟨f, f', e, hd, fun x hx => C57_stream_delete_partial cfg95_5 (by decide) hl hs hsam (.inl (by decide)) e (by simp)
    (tameB_sound (ho.inv cfg95_5 (by decide)).weak h.1) hd _ ?_ (.inr ⟨by decide +kernel, h.2⟩)⟩
  revert x; decide +kernel
/-- A key loaded up to 1000 times among others. -/
example {m : Nat} (hm : m ≤ 1000) :
    ∃ f, bulkFixed (cfg95 5) 8 (encodeInt 3 :: (List.replicate m (encodeInt 5) ++ [encodeInt 9])) = .ok f ∧
      (m ≠ 0 → pointQuery f (encodeInt 5) = .ok true) := by
  have hl : (encodeInt 3 :: (List.replicate m (encodeInt 5) ++ [encodeInt 9])).length = m + 2 := by simp
  obtain ⟨f, e, h⟩ := C57_partial cfg95_5 (n := 8)
    (K := encodeInt 3 :: (List.replicate m (encodeInt 5) ++ [encodeInt 9])) (by simp)
    (by
      intro k hk
      simp only [List.mem_cons, List.mem_append, List.mem_replicate, List.not_mem_nil, or_false] at hk
      rcases hk with rfl | ⟨_, rfl⟩ | rfl <;> rfl)
    (by
      rw [List.pairwise_cons, List.pairwise_append]
      refine ⟨?_, List.pairwise_replicate.2 (Or.inr (keyLe_refl _)), by simp, ?_⟩
      · intro k hk
        simp only [List.mem_append, List.mem_replicate, List.mem_singleton] at hk
        rcases hk with ⟨_, rfl⟩ | rfl <;> decide
      · intro a ha b hb
        rw [List.mem_replicate] at ha
        rw [List.mem_singleton] at hb
        rw [ha.2, hb]; decide)
    ⟨fun j hj => by rw [hl] at hj; omega, by
        rw [hl, show 1024 * ((m + 2 - 1) / 1024) = 0 by omega, show m + 2 - 1 = m + 1 by omega, List.getD_cons_succ,
          List.getD_cons_zero, List.getD_eq_getElem?_getD, List.getElem?_append_right (by simp)]
        simp only [List.length_replicate, Nat.sub_self, List.getElem?_cons_zero, Option.getD_some]
        decide⟩
  exact ⟨f, e, fun h0 => h _ (by simp [h0])⟩

end Verif.Props
