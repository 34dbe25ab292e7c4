import Verif.Props.Defined
import Verif.Proof.StreamLost
import Verif.Proof.WhInt

/-!
# C11, C12, C27: bulk loading and keys of different lengths
-/

namespace Verif.Props

variable {c : Cfg} {n : Nat} {f : Filter} {S : List Key}

/-- C11 unless the number of keys is 1 modulo 1024; in that case the claim is false, see `C11_hang`. -/
theorem C11_partial (hc : c.WF) {K : List Key} (hne : K ≠ []) (hmod : K.length % 1024 ≠ 1)
    (hlen : ∀ k ∈ K, k.length = n) (hs : K.Pairwise fun a b => keyLt a b = true) :
    ∃ f, bulkFixed c n K = .ok f ∧ ∀ k ∈ K, pointQuery f k = .ok true := by
  obtain ⟨f, e, hl, hsp, _⟩ := (bulkFixed_spec hc hlen hs hne).2 hmod
  exact ⟨f, e, fun k hk => hl.all hc hsp hk (hlen k hk)⟩

example : ∃ f, bulkFixed (cfg95 5) 8 ((List.range 3000).map encodeInt) = .ok f ∧ pointQuery f (encodeInt 2999) = .ok true := by
  obtain ⟨f, e, h⟩ := C11_partial cfg95_5 (n := 8) (K := (List.range 3000).map encodeInt) (by simp) (by simp)
    (by intro k hk; obtain ⟨x, _, rfl⟩ := List.mem_map.1 hk; rfl)
    (List.pairwise_map.2 ((List.pairwise_lt_range (n := 3000)).imp_of_mem fun ha hb hab =>
      (encode_lt (by have := List.mem_range.1 ha; omega) (by have := List.mem_range.1 hb; omega)).2 hab))
  exact ⟨f, e, h _ (List.mem_map.2 ⟨2999, by simp, rfl⟩)⟩

/-- The same for the constructor that accepts keys of different lengths. The keys must be distinct after zero
padding, and none may be an all-zero string shorter than 8 bytes. -/
theorem C11_var_partial (hc : c.WF) {K : List Key} (hne : K ≠ []) (hmod : K.length % 1024 ≠ 1) (hs : K.Pairwise PadLt)
    (hZ : ∀ k ∈ K, k = List.replicate 8 0 ∨ PadLt (List.replicate 8 0) k) :
    ∃ f, bulkVar c K = .ok f ∧ ∀ k ∈ K, pointQuery f k = .ok true := by
  obtain ⟨f, m, e, _⟩ := (bulkVar_spec hc hs hne hZ).2 hmod
  refine ⟨f, e, fun k hk => ?_⟩
  obtain ⟨f', m, e', hl, hlen, hs1, hs2, _⟩ := (bulkVar_spec hc hs hne hZ).2 hmod
  rw [e] at e'
  obtain rfl : f = f' := by injection e'
  refine hl.all_of hc hs1 hs2 ?_ (le_ones_len k (hlen k hk)) hk
  rcases hZ k hk with h | h
  · rw [h]; exact keyLe_refl _
  · exact keyLt_keyLe (keyLt_of_padLt h)

/-- C11 is violated: with 1, 1025, 2049, ... keys both constructors look for the first difference between the
last key and itself and never return. -/
theorem C11_hang (hc : c.WF) {K : List Key} (hmod : K.length % 1024 = 1) :
    ((∀ k ∈ K, k.length = n) → (K.Pairwise fun a b => keyLt a b = true) → bulkFixed c n K = .hang) ∧
    ((∀ k ∈ K, k = List.replicate 8 0 ∨ PadLt (List.replicate 8 0) k) → K.Pairwise PadLt → bulkVar c K = .hang) := by
  have hne : K ≠ [] := by rintro rfl; simp at hmod
  exact ⟨fun h1 h2 => (bulkFixed_spec hc h1 h2 hne).1 hmod, fun h1 h2 => (bulkVar_spec hc h2 hne h1).1 hmod⟩

theorem C11_false : ∃ (c : Cfg) (n : Nat) (K : List Key), c.WF ∧ K ≠ [] ∧ (∀ k ∈ K, k.length = n) ∧
    (K.Pairwise fun a b => keyLt a b = true) ∧ bulkFixed c n K = .hang :=
  ⟨cfg95 5, 8, [encodeInt 7], cfg95_5, by simp, by simp [encodeInt], by simp,
    (C11_hang cfg95_5 (by simp)).1 (by simp [encodeInt]) (by simp)⟩

/-- C12 unless the number of keys is 1 modulo 1024, or there are more than 1024 keys and the all-zero key is the
first; in these cases the claim is false, see `C12_false_single` and `C12_false_zero`. `m` is the length of the
longest key. -/
theorem C12_partial (hc : c.WF) {m : Nat} {K : List Key} (hne : K ≠ []) (hmod : K.length % 1024 ≠ 1)
    (hm : m = K.foldl (fun m k => max m k.length) 0) (hs : K.Pairwise PadLt)
    (hZ : ∀ k ∈ K, k = List.replicate m 0 ∨ PadLt (List.replicate m 0) k)
    (hcond : K.length ≤ 1024 ∨ K.getD 0 [] ≠ List.replicate m 0) :
    ∃ f, streamAll c K = .ok f ∧ ∀ k ∈ K, pointQuery f k = .ok true := by
  obtain ⟨f, e, hl, hsp, hlen, _⟩ := stream_spec hc hs hne hm hZ hmod hcond
  refine ⟨f, e, fun k hk => hl.all_of hc hsp.1 hsp.2 ?_ (le_ones_len k (hlen k hk)) hk⟩
  rcases hZ k hk with h | h
  · rw [h]; exact keyLe_refl _
  · exact keyLt_keyLe (keyLt_of_padLt h)

/-- C12 is violated by a single key: it is neither stored in the tree nor in a region. -/
theorem C12_false_single : ∃ f, streamAll (cfg95 5) [encodeInt 5] = .ok f ∧ pointQuery f (encodeInt 5) = .ok false := by
  obtain ⟨f, h⟩ : ∃ f, streamAll (cfg95 5) [encodeInt 5] = .ok f := res_ok (by decide +kernel)
  refine ⟨f, h, ?_⟩
  have : (streamAll (cfg95 5) [encodeInt 5]).bind (fun f => pointQuery f (encodeInt 5)) = .ok false := by decide +kernel
  rwa [h] at this

/-- C12 is violated by 1026 to 2048 keys of which the first is all zeros: `BulkLoadStreamingFinish` replaces the
first region by an empty one, and all keys of that region are lost. -/
theorem C12_false_zero (hc : c.WF) {A B : List Key} {x : Key} (hA : A.length = 1023) (hB : B.length ≤ 1023)
    (hB1 : B ≠ []) (hlen : ∀ k ∈ A ++ x :: B, k.length = n)
    (hs : (List.replicate n 0 :: (A ++ x :: B)).Pairwise fun a b => keyLt a b = true) :
    ∃ f, streamAll c (List.replicate n 0 :: (A ++ x :: B)) = .ok f ∧ ∀ k ∈ A, pointQuery f k = .ok false := by
  apply stream_lost hc hA hB hB1 hlen
  apply List.Pairwise.imp_of_mem _ hs
  have hl : ∀ a ∈ List.replicate n 0 :: (A ++ x :: B), a.length = n := by
    intro a ha
    rcases List.mem_cons.1 ha with rfl | ha
    · simp
    · exact hlen a ha
  intro a b ha hb hab
  exact padLt_of_keyLt hab (by rw [hl a ha, hl b hb])

/-- For example the integers from 0 to 1025. -/
theorem C12_false : ∃ f, streamAll (cfg95 5) ((List.range 1026).map encodeInt) = .ok f ∧
    pointQuery f (encodeInt 5) = .ok false := by
  have e : (List.range 1026).map encodeInt = List.replicate 8 0 ::
      (((List.range 1023).map fun i => encodeInt (i + 1)) ++ encodeInt 1024 :: [encodeInt 1025]) := by
    rw [show 1026 = 1 + 1023 + 2 by rfl, List.range_add, List.range_add, List.map_append, List.map_append,
      List.map_map, List.map_map]
    have e0 : (List.range 1).map encodeInt = [List.replicate 8 0] := by decide
    have e2 : (List.range 2).map (encodeInt ∘ fun x => 1 + 1023 + x) = [encodeInt 1024, encodeInt 1025] := by decide
    have e1 : (List.range 1023).map (encodeInt ∘ fun x => 1 + x) = (List.range 1023).map fun i => encodeInt (i + 1) :=
      List.map_congr_left fun i _ => by rw [Function.comp_apply, Nat.add_comm]
    rw [e0, e1, e2, List.append_assoc, List.cons_append, List.nil_append]
  rw [e]
  obtain ⟨f, h1, h2⟩ := C12_false_zero cfg95_5 (n := 8) (A := (List.range 1023).map fun i => encodeInt (i + 1))
    (x := encodeInt 1024) (B := [encodeInt 1025]) (by simp) (by simp) (by simp)
    (by
      intro k hk
      rcases List.mem_append.1 hk with hk | hk
      · obtain ⟨x, _, rfl⟩ := List.mem_map.1 hk; rfl
      · simp only [List.mem_cons, List.not_mem_nil, or_false] at hk
        rcases hk with rfl | rfl <;> rfl)
    (by
      rw [← e]
      exact List.pairwise_map.2 ((List.pairwise_lt_range (n := 1026)).imp_of_mem fun ha hb hab =>
        (encode_lt (by have := List.mem_range.1 ha; omega) (by have := List.mem_range.1 hb; omega)).2 hab))
  exact ⟨f, h1, h2 _ (List.mem_map.2 ⟨4, by simp, rfl⟩)⟩

/-! ## Keys of different lengths -/

/-- C27 for histories that stay inside the fixed widths and in which no splitting insert gets a key of which an
earlier key is a proper prefix. In particular, a set of keys none of which is a prefix of another is never lost.
What is missing is false, see `C27_false`. -/
theorem C27_partial (hc : c.WF) (hn : n < 2 ^ 28) (h : BuiltVar c n f S) : ∀ k ∈ S, pointQuery f k = .ok true := h.pos hc hn

/-- The keys "a" and "c" are loaded. -/
def varKeys : List Key := [[0x61], [0x63]]

theorem var_step {K : List Key} {ops : List (Key × Bool)} {f : Filter} {k : Key} {b : Bool} {α : Type} {r : Res α}
    {q : Filter → Res α} (h : runOps (bulkVar c K) ops = .ok f)
    (h2 : (runOps (bulkVar c K) (ops ++ [(k, b)])).bind q = r) : (insert f k b).bind q = r := by
  have : ∀ (ops : List (Key × Bool)) (x : Res Filter), runOps x (ops ++ [(k, b)]) = (runOps x ops).bind fun f => insert f k b := by
    intro ops
    induction ops with
    | nil => intro x; rfl
    | cons a ops ih => intro x; obtain ⟨k', b'⟩ := a; exact ih _
  rw [this, h] at h2
  exact h2

theorem varKeys_pairwise : varKeys.Pairwise PadLt := by
  simp only [varKeys, List.pairwise_cons, List.mem_singleton, forall_eq, List.not_mem_nil, false_imp_iff, implies_true,
    List.Pairwise.nil, and_true]
  exact ⟨8, by decide⟩

theorem varKeys_pos : ∀ k ∈ varKeys, k = List.replicate 8 0 ∨ PadLt (List.replicate 8 0) k := by
  simp only [varKeys, List.mem_cons, List.not_mem_nil, or_false, forall_eq_or_imp, forall_eq]
  exact ⟨Or.inr ⟨8, by decide⟩, Or.inr ⟨8, by decide⟩⟩

/-- "a" and "c" are loaded, then "ab" is inserted. -/
theorem var_built : ∃ f, runOps (bulkVar (cfg95 5) varKeys) [([0x61, 0x62], false)] = .ok f ∧
    BuiltVar (cfg95 5) 8 f ([0x61, 0x62] :: varKeys) := by
  obtain ⟨f0, h0⟩ : ∃ f, bulkVar (cfg95 5) varKeys = .ok f := res_ok (by decide +kernel)
  obtain ⟨f, h⟩ : ∃ f, runOps (bulkVar (cfg95 5) varKeys) [([0x61, 0x62], false)] = .ok f := res_ok (by decide +kernel)
  refine ⟨f, h, ?_⟩
  have hb : BuiltVar (cfg95 5) 8 f0 varKeys := .var (by decide) (by decide) (leq_of_lt varKeys_pairwise) varKeys_pos h0
  have hf : (bulkVar (cfg95 5) varKeys).bind (fun f => .ok (fitsB f [0x61, 0x62] false)) = .ok true := by decide +kernel
  rw [h0] at hf h
  exact hb.insert (split := false) (by decide) (fitsB_sound (by simpa using hf)) (by simp) h

/-- Then "b", of another length, with a split. -/
example : ∃ f S, BuiltVar (cfg95 5) 8 f S ∧ [0x61, 0x62] ∈ S ∧ [0x62] ∈ S ∧ pointQuery f [0x61, 0x62] = .ok true ∧
    [0x62] ∈ boundaries f := by
  obtain ⟨f, h, hb⟩ := var_built
  have hf : (runOps (bulkVar (cfg95 5) varKeys) [([0x61, 0x62], false)]).bind (fun f => .ok (fitsB f [0x62] true)) =
    .ok true := by decide +kernel
  rw [h] at hf
  have ho : ∃ f', insert f [0x62] true = .ok f' := by
    have := var_step (q := fun f => .ok f) h rfl (k := [0x62]) (b := true)
    exact res_ok (by
      have h2 : outcome ((runOps (bulkVar (cfg95 5) varKeys) ([([0x61, 0x62], false)] ++ [([0x62], true)])).bind .ok) = 0 := by
        decide +kernel
      rw [← this] at h2
      cases hi : insert f [0x62] true <;> rw [hi] at h2 <;> first | rfl | cases h2)
  obtain ⟨f', hi⟩ := ho
  have hb' := hb.insert (by decide) (fitsB_sound (by simpa using hf)) (by
    intro _ k hk hp
    simp only [varKeys, List.mem_cons, List.not_mem_nil, or_false] at hk
    rcases hk with rfl | rfl | rfl <;> revert hp <;> decide) hi
  refine ⟨f', _, hb', by simp, by simp, C27_partial cfg95_5 (by decide) hb' _ (by simp), ?_⟩
  have hq := var_step (q := fun f => .ok (decide ([0x62] ∈ boundaries f))) h (k := [0x62]) (b := true) (r := .ok true)
    (by decide +kernel)
  rw [hi] at hq
  simpa using hq

/-- C27 is violated: then "ab\0\0\x01" with a split. The new boundary is "ab\0", the stored prefix of "ab" goes to
the region above it, and "ab" is searched below it. -/
theorem C27_false : ∃ f S k x f', BuiltVar (cfg95 5) 8 f S ∧ k ∈ S ∧ InsertFits f x true ∧ insert f x true = .ok f' ∧
    pointQuery f' k = .ok false := by
  obtain ⟨f, h, hb⟩ := var_built
  have hf : (runOps (bulkVar (cfg95 5) varKeys) [([0x61, 0x62], false)]).bind
    (fun f => .ok (fitsB f [0x61, 0x62, 0, 0, 1] true)) = .ok true := by decide +kernel
  rw [h] at hf
  have hq := var_step (q := fun f => pointQuery f [0x61, 0x62]) h (k := [0x61, 0x62, 0, 0, 1]) (b := true) (r := .ok false)
    (by decide +kernel)
  cases hi : insert f [0x61, 0x62, 0, 0, 1] true with
  | ok f' =>
    rw [hi] at hq
    exact ⟨f, _, [0x61, 0x62], [0x61, 0x62, 0, 0, 1], f', hb, by simp, fitsB_sound (by simpa using hf), hi, hq⟩
  | ub => rw [hi] at hq; cases hq
  | hang => rw [hi] at hq; cases hq

end Verif.Props
