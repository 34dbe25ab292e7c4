import Verif.Proof.Fpr
import Verif.Spec.Rate
import Verif.Proof.WhInt
import Verif.Props.Exact

/-!
# C46: the false positive rate
-/

namespace Verif.Props

section
variable {c : Cfg} {n w : Nat} {f f' : Filter}

theorem window_le {l r : Key} (h : Window n w l r) : keyLe l r = true :=
  keyLe_of_value h.1 h.2.1 (by have := h.2.2; omega)

theorem load_facts (hc : c.WF) {K : List Key} (hlen : ∀ k ∈ K, k.length = n)
    (hs : K.Pairwise fun a b => keyLt a b = true) (hl : bulkFixed c n K = .ok f) : Loaded c K f ∧ Spans n f ∧ LenLe n f ∧
    ∀ e ∈ f.tree, e.1 ∈ K ∨ e.1 = List.replicate n 0 ∨ e.1 = List.replicate n 255 := by
  have hne : K ≠ [] := by
    rintro rfl
    revert hl
    simp [bulkFixed, bulkCore, Res.bind]
  obtain ⟨r1, r2⟩ := bulkFixed_spec hc hlen hs hne
  by_cases hm : K.length % 1024 = 1
  · rw [r1 hm] at hl; cases hl
  · obtain ⟨f1, e, a1, a2, a3, a4⟩ := r2 hm
    rw [e] at hl
    obtain rfl : f1 = f := by injection hl
    exact ⟨a1, a2, fun e he => Nat.le_of_eq (a3 e he), a4⟩

theorem grown_reach (h : Reach c n f) {X : List Key} (hg : Grown n f f' X) : Reach c n f' := by
  induction hg with
  | refl => exact h
  | insert _ h1 h2 _ h4 ih => exact .insert ih h1 h2 h4

/-- C46, one region between the neighbouring boundaries `prev` and `next` of a loaded filter `f`, after inserts `X`: of
all ranges of `w` keys strictly inside the region, the fraction that is a false positive is at most the number of keys
in the region divided by `510 * 2 ^ (s - 1)`. The bound does not depend on `w` nor on where the keys lie. `P` is any
list of false positive ranges without repetition and `A` any list containing all keys strictly inside the region.
Missing: inserts that split a region whose prefixes are longer than the keys, see `C43_false`. -/
theorem C46_region_partial (hc : c.WF) (hn : n < 2 ^ 28) {K : List Key} (hlen : ∀ k ∈ K, k.length = n)
    (hs : K.Pairwise fun a b => keyLt a b = true) (hl : bulkFixed c n K = .ok f) {X : List Key} (hg : Grown n f f' X)
    (hX : ∀ x ∈ X, x.length = n) {io : Bool} (hio : io = true → n ≤ 8) {prev next : Key} (ha : Adjacent f prev next)
    {P : List (Key × Key)} (hP : P.Nodup) (hin : ∀ e ∈ P, keyLt prev e.1 = true ∧ keyLt e.2 next = true)
    (hw : ∀ e ∈ P, Window n w e.1 e.2) (hf : ∀ e ∈ P, FalseRange io f' (K ++ X) e.1 e.2)
    {A : List Key} (hA : ∀ k : Key, k.length = n → keyLt prev k = true → keyLt k next = true → k ∈ A) :
    P.length * (510 * 2 ^ (c.infixSize - 1)) ≤
      ((K.filter fun k => keyLt prev k && keyLt k next).length + (X.filter fun k => keyLe prev k && keyLt k next).length) *
        A.length := by
  obtain ⟨a1, _, a3, _⟩ := load_facts hc hlen hs hl
  have I := (grown_reach (.fixed (Nat.le_refl n) hlen (hs.imp fun h => keyLt_keyLe h) hl) hg).inv hc hn
  refine Nat.le_trans (fpr_region (w := w) hc hn hlen hX a1 a3 hg ha hP ?_) (Nat.mul_le_mul_left _ (count_between hA))
  intro e he
  obtain ⟨w1, w2, _, w4⟩ := hw e he
  obtain ⟨f1, f2⟩ := hf e he
  rw [I.io (fun h => ⟨hio h, by rw [w1]; exact hio h, by rw [w2]; exact hio h⟩)] at f1
  exact ⟨w1, w2, window_le (hw e he), w4, (hin e he).1, (hin e he).2, f1,
    fun x hx => f2 x (List.mem_append.2 hx)⟩

/-- C46 for a loaded filter: a region holds at most 1023 keys besides its boundaries, so at most a fraction of
`1023 / (510 * 2 ^ (s - 1))` of its ranges of any given width is a false positive. -/
theorem C46_region (hc : c.WF) (hn : n < 2 ^ 28) {K : List Key} (hlen : ∀ k ∈ K, k.length = n)
    (hs : K.Pairwise fun a b => keyLt a b = true) (hl : bulkFixed c n K = .ok f)
    {io : Bool} (hio : io = true → n ≤ 8) {prev next : Key} (ha : Adjacent f prev next)
    {P : List (Key × Key)} (hP : P.Nodup) (hin : ∀ e ∈ P, keyLt prev e.1 = true ∧ keyLt e.2 next = true)
    (hw : ∀ e ∈ P, Window n w e.1 e.2) (hf : ∀ e ∈ P, FalseRange io f K e.1 e.2)
    {A : List Key} (hA : ∀ k : Key, k.length = n → keyLt prev k = true → keyLt k next = true → k ∈ A) :
    P.length * (510 * 2 ^ (c.infixSize - 1)) ≤ 1023 * A.length := by
  have h := C46_region_partial hc hn hlen hs hl .refl (by simp) hio ha hP hin hw (by simpa using hf) hA
  refine Nat.le_trans h (Nat.mul_le_mul_right _ ?_)
  obtain ⟨a1, _, _, _⟩ := load_facts hc hlen hs hl
  obtain ⟨A', st, st', B, ht⟩ := ha.split
  have hch := a1.chain
  rw [ht] at hch
  obtain ⟨sh, ig, imp, R, _, hcnt⟩ := (List.isChain_append_cons_cons.1 hch).2.1
  simpa using hcnt

/-- C46, all keys: of the `2 ^ (8 n)` ranges of a given width, at most a fraction of `(1023 + I) / (510 * 2 ^ (s - 1))` is
a false positive, if no region of the loaded filter got more than `I` inserts. Ranges around the all-zero and all-ones
keys are not counted; these two are always reported. Missing: as for `C46_region_partial`. -/
theorem C46_partial (hc : c.WF) (hn : n < 2 ^ 28) {K : List Key} (hlen : ∀ k ∈ K, k.length = n)
    (hs : K.Pairwise fun a b => keyLt a b = true) (hl : bulkFixed c n K = .ok f) {X : List Key} (hg : Grown n f f' X)
    (hX : ∀ x ∈ X, x.length = n) {I : Nat}
    (hI : ∀ prev next, Adjacent f prev next → (X.filter fun k => keyLe prev k && keyLt k next).length ≤ I)
    {io : Bool} (hio : io = true → n ≤ 8) {P : List (Key × Key)} (hP : P.Nodup)
    (hw : ∀ e ∈ P, Window n w e.1 e.2)
    (hf : ∀ e ∈ P, FalseRange io f' (List.replicate n 0 :: List.replicate n 255 :: (K ++ X)) e.1 e.2) :
    P.length * (510 * 2 ^ (c.infixSize - 1)) ≤ (1023 + I) * 2 ^ (8 * n) := by
  obtain ⟨a1, a2, a3, a4⟩ := load_facts hc hlen hs hl
  have J := (grown_reach (.fixed (Nat.le_refl n) hlen (hs.imp fun h => keyLt_keyLe h) hl) hg).inv hc hn
  have hok := a1.ok hc
  cases ht : f.tree with
  | nil =>
    have := a2.1
    rw [ht] at this; cases this
  | cons p B =>
    have hfac : ∀ e ∈ P, e.1.length = n ∧ e.2.length = n ∧ keyLe e.1 e.2 = true ∧ pre (8 * n) e.2 + 1 = pre (8 * n) e.1 + w ∧
      keyLt p.1 e.1 = true ∧ (∃ prev next, Adjacent f prev next ∧ keyLt prev e.1 = true ∧ keyLt e.2 next = true) ∧
      rangeQuery false f' e.1 e.2 = .ok true ∧
      ∀ x, x ∈ K ∨ x ∈ X → ¬ (keyLe e.1 x = true ∧ keyLe x e.2 = true) := by
      intro e he
      obtain ⟨w1, w2, _, w4⟩ := hw e he
      obtain ⟨f1, f2⟩ := hf e he
      have hle := window_le (hw e he)
      rw [J.io (fun h => ⟨hio h, by rw [w1]; exact hio h, by rw [w2]; exact hio h⟩)] at f1
      have hno : ∀ b ∈ boundaries f, ¬ (keyLe e.1 b = true ∧ keyLe b e.2 = true) := by
        intro b hb
        obtain ⟨d, hd, rfl⟩ := List.mem_map.1 hb
        apply f2
        rcases a4 d hd with h | h | h
        · simp [h]
        · simp [h]
        · simp [h]
      obtain ⟨prev, next, ha, g1, g2⟩ := range_in_region hok a2 w1 hle hno
      refine ⟨w1, w2, hle, w4, ?_, ⟨prev, next, ha, g1, g2⟩, f1, fun x hx => f2 x ?_⟩
      · have hp := ha.mem.1
        unfold boundaries at hp
        rw [ht] at hp
        rcases List.mem_cons.1 hp with rfl | hp
        · exact g1
        · obtain ⟨d, hd, rfl⟩ := List.mem_map.1 hp
          exact keyLt_of_le_of_lt (keyLt_keyLe (keyLt_of_padLt (hok.after (A := []) ht hd))) g1
      · rcases hx with hx | hx <;> simp [hx]
    have := fpr_above hc hn hlen hX a1 a3 hg hI B [] p ht P hP hfac
    omega

/-- C46 for a loaded filter: of all ranges of a given width fewer than `4.02 / 2 ^ s` are false positives. -/
theorem C46_loaded (hc : c.WF) (hn : n < 2 ^ 28) {K : List Key} (hlen : ∀ k ∈ K, k.length = n)
    (hs : K.Pairwise fun a b => keyLt a b = true) (hl : bulkFixed c n K = .ok f)
    {io : Bool} (hio : io = true → n ≤ 8) {P : List (Key × Key)} (hP : P.Nodup) (hw : ∀ e ∈ P, Window n w e.1 e.2)
    (hf : ∀ e ∈ P, FalseRange io f (List.replicate n 0 :: List.replicate n 255 :: K) e.1 e.2) :
    P.length * (510 * 2 ^ (c.infixSize - 1)) ≤ 1023 * 2 ^ (8 * n) := by
  have h := C46_partial (I := 0) hc hn hlen hs hl .refl (by simp) (by simp) hio hP hw (by simpa using hf)
  simpa using h

end

/-- Two ranges of two keys. -/
def samplePairs : List (Key × Key) :=
  [(encodeInt 0x2000000000000002, encodeInt 0x2000000000000003), (encodeInt 0x2000000000000007, encodeInt 0x2000000000000008)]

/-- They are false positives of the loaded sample, which keeps 15 bits of the keys in their region. -/
example : ∃ f, bulkFixed (cfg95 5) 8 sampleKeys = .ok f ∧ samplePairs.Nodup ∧ (∀ e ∈ samplePairs, Window 8 2 e.1 e.2) ∧
    (∀ e ∈ samplePairs, FalseRange true f (List.replicate 8 0 :: List.replicate 8 255 :: sampleKeys) e.1 e.2) ∧
    samplePairs.length * (510 * 2 ^ 4) ≤ 1023 * 2 ^ 64 := by
  have hd : (bulkFixed (cfg95 5) 8 sampleKeys).bind (fun f =>
      (rangeQuery true f (encodeInt 0x2000000000000002) (encodeInt 0x2000000000000003)).bind fun a =>
      (rangeQuery true f (encodeInt 0x2000000000000007) (encodeInt 0x2000000000000008)).bind fun b => .ok (a, b)) =
      .ok (true, true) := by decide +kernel
  obtain ⟨f, hf, hd⟩ := Res.bind_eq_ok hd
  obtain ⟨a, ha, hd⟩ := Res.bind_eq_ok hd
  obtain ⟨b, hb, hd⟩ := Res.bind_eq_ok hd
  simp only [Res.ok.injEq, Prod.mk.injEq] at hd
  obtain ⟨rfl, rfl⟩ := hd
  have h1 : samplePairs.Nodup := by decide +kernel
  have h2 : ∀ e ∈ samplePairs, Window 8 2 e.1 e.2 := by unfold Window; decide +kernel
  have h3 : ∀ e ∈ samplePairs, FalseRange true f (List.replicate 8 0 :: List.replicate 8 255 :: sampleKeys) e.1 e.2 := by
    have hk : ∀ e ∈ samplePairs, ∀ x ∈ List.replicate 8 0 :: List.replicate 8 255 :: sampleKeys,
        ¬ (keyLe e.1 x = true ∧ keyLe x e.2 = true) := by decide +kernel
    intro e he
    refine ⟨?_, hk e he⟩
    simp only [samplePairs, List.mem_cons, List.not_mem_nil, or_false] at he
    rcases he with rfl | rfl
    · exact ha
    · exact hb
  exact ⟨f, hf, h1, h2, h3, C46_loaded cfg95_5 (by decide) (by decide) (by decide +kernel) hf (by simp) h1 h2 h3⟩

/-- The sample after one insert, as a grown filter; the hypothesis on the number of inserts per region holds with 1. -/
example : ∃ f f', bulkFixed (cfg95 5) 8 sampleKeys = .ok f ∧ Grown 8 f f' [encodeInt 0x2100000000000000] ∧
    (∀ prev next, Adjacent f prev next →
      ([encodeInt 0x2100000000000000].filter fun k => keyLe prev k && keyLt k next).length ≤ 1) ∧
    ∀ k, Window 8 1 k k → FalseRange true f' (List.replicate 8 0 :: List.replicate 8 255 ::
      (sampleKeys ++ [encodeInt 0x2100000000000000])) k k → 1 * (510 * 2 ^ 4) ≤ (1023 + 1) * 2 ^ 64 := by
  have hd : (bulkFixed (cfg95 5) 8 sampleKeys).bind (fun f => (insert f (encodeInt 0x2100000000000000) false).bind fun f' =>
      .ok (fitsB f (encodeInt 0x2100000000000000) false)) = .ok true := by decide +kernel
  obtain ⟨f, hf, hd⟩ := Res.bind_eq_ok hd
  obtain ⟨f', hf', hd⟩ := Res.bind_eq_ok hd
  simp only [Res.ok.injEq] at hd
  have hg : Grown 8 f f' [encodeInt 0x2100000000000000] :=
    .insert .refl (by decide) (fitsB_sound hd) (fun h => by cases h) hf'
  have hI : ∀ prev next, Adjacent f prev next →
      ([encodeInt 0x2100000000000000].filter fun k => keyLe prev k && keyLt k next).length ≤ 1 :=
    fun _ _ _ => List.length_filter_le _ _
  refine ⟨f, f', hf, hg, hI, fun k h1 h2 => ?_⟩
  exact C46_partial cfg95_5 (by decide) (by decide) (by decide +kernel) hf hg (by decide) hI (by simp)
    (P := [(k, k)]) (by simp) (w := 1) (by simpa using h1) (by simpa using h2)

/-- The keys strictly inside the narrow region. -/
theorem narrow_all {k : Key} (hk : k.length = 8) (h1 : keyLt (encodeInt 0x1000000000000000) k = true)
    (h2 : keyLt k (encodeInt 0x1000000000000100) = true) :
    k ∈ (List.range 255).map fun i => encodeInt (0x1000000000000001 + i) := by
  obtain ⟨v, hv⟩ : ∃ v, pre 64 k = v := ⟨_, rfl⟩
  have hlt : v < 2 ^ 64 := by rw [← hv]; exact pre_lt _ _
  have e : k = encodeInt v := by
    have h3 : pre (8 * 8) k = pre (8 * 8) (encodeInt v) := by
      rw [show 8 * 8 = 64 by rfl, pre64_encode hlt, hv]
    exact keyLe_antisymm (keyLe_of_value hk (encode_length v) (by omega)) (keyLe_of_value (encode_length v) hk (by omega))
  subst e
  rw [encode_lt (by decide) hlt] at h1
  rw [encode_lt hlt (by decide)] at h2
  rw [List.mem_map]
  refine ⟨v - 0x1000000000000001, List.mem_range.2 (by omega), ?_⟩
  rw [show 0x1000000000000001 + (v - 0x1000000000000001) = v by omega]

/-- C46 is violated in narrow regions after a splitting insert, within the widths, of a key that is already there: one key
among the 255 of the region, one insert, and yet a false positive. -/
theorem C46_false : ∃ f f' x k prev next, ∃ A : List Key, bulkFixed (cfg95 5) 8 narrowKeys = .ok f ∧ x ∈ narrowKeys ∧ InsertFits f x true ∧
    insert f x true = .ok f' ∧ Adjacent f prev next ∧ Window 8 1 k k ∧ keyLt prev k = true ∧ keyLt k next = true ∧
    FalseRange true f' (narrowKeys ++ [x]) k k ∧
    (∀ k : Key, k.length = 8 → keyLt prev k = true → keyLt k next = true → k ∈ A) ∧
    ((narrowKeys.filter fun k => keyLt prev k && keyLt k next).length +
      ([x].filter fun k => keyLe prev k && keyLt k next).length) * A.length < 1 * (510 * 2 ^ ((cfg95 5).infixSize - 1)) := by
  have hd : (bulkFixed (cfg95 5) 8 narrowKeys).bind (fun f => (insert f (encodeInt 0x1000000000000040) true).bind fun f' =>
      (rangeQuery true f' (encodeInt 0x1000000000000045) (encodeInt 0x1000000000000045)).bind fun b =>
      .ok (boundaries f, fitsB f (encodeInt 0x1000000000000040) true, b)) =
      .ok ([0, 0x1000000000000000, 0x1000000000000100, 0xffffffffffffffff].map encodeInt, true, true) := by decide +kernel
  obtain ⟨f, hf, hd⟩ := Res.bind_eq_ok hd
  obtain ⟨f', hi, hd⟩ := Res.bind_eq_ok hd
  obtain ⟨b, hb, hd⟩ := Res.bind_eq_ok hd
  simp only [Res.ok.injEq, Prod.mk.injEq] at hd
  obtain ⟨hbd, hfit, rfl⟩ := hd
  have hadj : Adjacent f (encodeInt 0x1000000000000000) (encodeInt 0x1000000000000100) := by
    rw [adjacent_mem, hbd]; decide
  refine ⟨f, f', _, encodeInt 0x1000000000000045, _, _, _, hf, by decide, fitsB_sound hfit, hi, hadj, ?_, by decide, by decide,
    ⟨hb, ?_⟩, fun k h1 h2 h3 => narrow_all h1 h2 h3, ?_⟩
  · unfold Window; decide +kernel
  · decide +kernel
  · rw [List.length_map, List.length_range]; decide +kernel

end Verif.Props
