import Verif.Proof.Serial
import Verif.Proof.Reach2
import Verif.Props.Sample
import Verif.Props.Queries

/-!
# C17, C18: serialisation
-/

namespace Verif.Props

section
variable {s n : Nat} {f : Filter}

theorem keyPairwise (h : FilterQ f) : f.tree.Pairwise fun a b => keyLt a.1 b.1 = true :=
  h.pairwise.imp fun hab => keyLt_of_padLt hab

/-- C17: the deserialiser accepts what the serialiser wrote, also when more bytes follow, and the new filter gives the
same answer for every query. Missing: boundary keys of more than 20000 bytes, see `C17_false`. -/
theorem C17_partial (hc : (cfg95 s).WF) (hn : n ≤ 20000) (h : States (cfg95 s) n f) (io : Bool) (seed : Nat)
    (more : List UInt8) : ∃ f', deserialize io (serialize io seed lfBits95 f ++ more) = .ok f' ∧
    boundaries f' = boundaries f ∧ (∀ k, pointQuery f' k = pointQuery f k) ∧
    (∀ l r, keyLe l r = true → rangeQuery false f' l r = rangeQuery false f l r) ∧
    (n ≤ 8 → ∀ l r, l.length ≤ 8 → r.length ≤ 8 → keyLe l r = true → rangeQuery true f' l r = rangeQuery true f l r) := by
  have I := h.inv hc (by omega)
  have hs := hc.s2
  have hs' : s < 2 ^ 32 := by have : (cfg95 s).infixSize = s := rfl; omega
  refine ⟨truncFilter f, round_trip hs' I.cfg (keyPairwise I.q) (fun e he => Nat.le_trans (I.len e he) hn) io seed more,
    trunc_boundaries f, trunc_point I.q, fun l r hlr => trunc_range I.q hlr, fun h8 l r hl hr hlr => ?_⟩
  rw [rangeQuery_int I.q.wf (fun e he => Nat.le_trans (I.len e he) h8) hl hr, ← trunc_range I.q hlr]
  refine rangeQuery_int (f := truncFilter f) I.q.wf (fun e he => ?_) hl hr
  obtain ⟨a, ha, rfl⟩ := List.mem_map.1 he
  exact Nat.le_trans (I.len a ha) h8

example : ∃ f', deserialize true (serialize true 42 lfBits95 sample) = .ok f' ∧
    pointQuery f' (encodeInt 0x6fffffffffffffff) = .ok true ∧ pointQuery f' (encodeInt 0x5000000000000000) = .ok false := by
  obtain ⟨f', h1, _, h2, _⟩ := C17_partial cfg95_5 (by decide) (.reach sample_reach) true 42 []
  rw [List.append_nil] at h1
  exact ⟨f', h1, by rw [h2]; exact sample_point (by decide +kernel), by rw [h2]; exact sample_point (by decide +kernel)⟩

theorem long_key {m : Nat} (hm : 20000 < m) (hm' : m < 2 ^ 32 - 1) : ∃ f, Reach (cfg95 5) m f ∧
    ∀ io seed, deserialize io (serialize io seed lfBits95 f) = .ub := by
  have hK1 : ∀ k ∈ [List.replicate m (1 : UInt8), List.replicate m 2], k.length = m := by
    intro k hk
    simp only [List.mem_cons, List.not_mem_nil, or_false] at hk
    rcases hk with rfl | rfl <;> exact List.length_replicate
  have hK2 : [List.replicate m (1 : UInt8), List.replicate m 2].Pairwise fun a b => keyLt a b = true := by
    rw [List.pairwise_pair]
    obtain ⟨k, rfl⟩ : ∃ k, m = k + 1 := ⟨m - 1, by omega⟩
    rw [List.replicate_succ, List.replicate_succ]
    simp [keyLt]
  obtain ⟨f, e, hl, hs, hlen, _⟩ := (bulkFixed_spec cfg95_5 hK1 hK2 (by simp)).2 (by simp)
  have hR : Reach (cfg95 5) m f := .fixed (Nat.le_refl _) hK1 (hK2.imp fun h => keyLt_keyLe h) e
  refine ⟨f, hR, fun io seed => ?_⟩
  have hcf := hl.cfg
  unfold deserialize serialize
  have hsf : f.cfg.infixSize = 5 := by rw [hcf]; rfl
  rw [List.append_assoc, hsf, metadata_trip io (by decide), Res.bind_ok]
  dsimp only
  cases ht : f.tree with
  | nil => have := hs.1; rw [ht] at this; cases this
  | cons e0 t =>
    have h0 := hlen e0 (by rw [ht]; simp)
    rw [List.flatMap_cons]
    rw [show serializeEntry f.cfg e0 = leBytes 4 e0.1.length ++ (e0.1 ++ List.replicate (roundKeyLen e0.1.length - e0.1.length) 0) ++
      serializeStore f.cfg e0.2 from rfl, List.append_assoc, List.append_assoc, List.append_assoc, deserLoop, readLe_le, Res.bind_ok]
    dsimp only
    rw [h0, Nat.mod_eq_of_lt (show m < 256 ^ 4 by norm_num; omega), if_neg (by omega), if_pos (Or.inl (by omega)), Res.bind_ub]

/-- C17 is violated for long keys: the deserialiser copies a boundary key to an array of 20000 bytes without a check
(outside of DEBUG builds), so with boundary keys of 20001 bytes it writes past the array. -/
theorem C17_false : ∃ n f, Reach (cfg95 5) n f ∧ ∀ io seed, deserialize io (serialize io seed lfBits95 f) = .ub :=
  ⟨20001, long_key (by decide) (by decide)⟩

/-! ## Size -/

theorem sizeEntry_eq (c : Cfg) (e : Key × Store) (io : Bool) (h : io = true → e.1.length % 8 = 0) :
    sizeEntry io c e = (serializeEntry c e).length := by
  have := le_roundKeyLen e.1.length
  unfold sizeEntry serializeEntry serializeStore
  simp only [List.length_append, leBytes_length, List.length_replicate]
  cases io with
  | false => simp only [Bool.false_eq_true, if_false]; omega
  | true =>
    have h := h rfl
    have : roundKeyLen e.1.length = e.1.length := by unfold roundKeyLen; omega
    simp only [if_true]; omega

theorem size_sum (c : Cfg) (io : Bool) : ∀ (t : Tree) (a : Nat), (io = true → ∀ e ∈ t, e.1.length % 8 = 0) →
    t.foldl (fun res e => res + sizeEntry io c e) a = a + (t.flatMap (serializeEntry c)).length
  | [], a, _ => by simp
  | e :: t, a, h => by
    rw [List.foldl_cons, size_sum c io t _ (fun hi x hx => h hi x (by simp [hx])), List.flatMap_cons, List.length_append,
      sizeEntry_eq c e io (fun hi => h hi e (by simp))]
    omega

/-- C18 for every filter of the generic variant that fits in 4 GiB, and for filters of the integer variant all of whose
boundary keys have eight bytes. Missing: shorter boundary keys, see `C18_false`. -/
theorem C18_partial (io : Bool) (seed lf : Nat) (f : Filter) (hio : io = true → ∀ e ∈ f.tree, e.1.length = 8)
    (hfit : (serialize io seed lf f).length < 2 ^ 32) : sizeOf io f = (serialize io seed lf f).length := by
  unfold sizeOf
  rw [size_sum f.cfg io f.tree _ (fun hi e he => by rw [hio hi e he])]
  rw [← Nat.mod_eq_of_lt hfit]
  unfold serialize
  rw [List.length_append, List.length_append]
  simp only [serializeMetadata, List.length_cons, List.length_append, leBytes_length]

example : (history (cfg95 5) 8 sampleKeys []).bind (fun f => .ok (f.tree.all fun e => decide (e.1.length = 8))) = .ok true := by
  decide +kernel

/-- C18 is violated: a splitting insert can shorten the new boundary key. The integer variant of `Size` counts the
shortened key, `Serialize` writes it padded to eight bytes: six bytes past a buffer of `Size()` bytes. -/
theorem C18_false : ∃ f S, BuiltFit (cfg95 5) 8 f S ∧
    ∀ seed, (serialize true seed lfBits95 f).length = sizeOf true f + 6 := by
  refine ⟨sample, _, sample_built, fun seed => ?_⟩
  have h : (history (cfg95 5) 8 sampleKeys sampleOps).bind (fun f => .ok (sizeOf true f,
    (f.tree.map fun e => 4 + roundKeyLen e.1.length + (4 + ptrWordCount (f.cfg.size e.2.sizeGrade) f.cfg.infixSize * 8)).sum)) =
      .ok (3527, 3480) := by decide +kernel
  rw [sample_eq, Res.bind_ok] at h
  simp only [Res.ok.injEq, Prod.mk.injEq] at h
  have hl : ∀ t : Tree, (t.flatMap (serializeEntry sample.cfg)).length =
      (t.map fun e => 4 + roundKeyLen e.1.length + (4 + ptrWordCount (sample.cfg.size e.2.sizeGrade) sample.cfg.infixSize * 8)).sum := by
    intro t
    induction t with
    | nil => rfl
    | cons e t ih =>
      have := le_roundKeyLen e.1.length
      rw [List.flatMap_cons, List.length_append, ih, List.map_cons, List.sum_cons]
      unfold serializeEntry serializeStore
      simp only [List.length_append, leBytes_length, List.length_replicate]
      omega
  unfold serialize
  rw [List.length_append, List.length_append, hl, h.2, h.1]
  simp only [serializeMetadata, List.length_cons, List.length_append, leBytes_length]

end
end Verif.Props
