import Verif.Props.Sample
import Verif.Proof.States
import Verif.Proof.SelfRange

/-!
# C03, C04, C05, C07, C24, C33: what the queries answer

`Reach c n f` (Spec/History) are the states after any bulk load and any inserts that stay inside the fixed
widths of the code; `States c n f` (Spec/States) also the states after deletions that avoid the known faults.
`_partial`: states after a faulty `Delete` (see `C03_false`), after `ShrinkInfixSize` or an overflowing insert are
not covered. The Boolean `io` is the template parameter `int_optimized`; with it the keys have at most eight
bytes.
-/

namespace Verif.Props

variable {c : Cfg} {n : Nat} {f : Filter}

theorem sample_reach : Reach (cfg95 5) 8 sample := sample_built.toReach

theorem sample_cfg : sample.cfg = cfg95 5 := (sample_reach.inv cfg95_5 (by decide)).cfg

/-- C03: a point hit implies the hit of every enclosing range. -/
theorem C03_partial (hc : c.WF) (hn : n < 2 ^ 28) (h : States c n f) {l k r : Key} {io : Bool}
    (hio : io = true → n ≤ 8 ∧ l.length ≤ 8 ∧ r.length ≤ 8) (h1 : keyLe l k = true) (h2 : keyLe k r = true)
    (hk : pointQuery f k = .ok true) : rangeQuery io f l r = .ok true := by
  rw [(h.inv hc hn).io hio]
  exact range_of_point (h.inv hc hn).q h1 h2 hk

example : rangeQuery true sample (encodeInt 0x2000000000000002) (encodeInt 0x2000000000000005) = .ok true :=
  C03_partial cfg95_5 (by decide) (.reach sample_reach) (k := encodeInt 0x2000000000000003) (by decide) (by decide) (by decide)
    (sample_point (by decide +kernel))

/-- C04: range answers grow with the range. -/
theorem C04_partial (hc : c.WF) (hn : n < 2 ^ 28) (h : States c n f) {l r l' r' : Key} {io : Bool}
    (hio : io = true → n ≤ 8 ∧ l.length ≤ 8 ∧ r.length ≤ 8 ∧ l'.length ≤ 8 ∧ r'.length ≤ 8) (hl : keyLe l' l = true)
    (hlr : keyLe l r = true) (hr : keyLe r r' = true) (hq : rangeQuery io f l r = .ok true) :
    rangeQuery io f l' r' = .ok true := by
  rw [(h.inv hc hn).io fun e => by obtain ⟨a, b, d, _⟩ := hio e; exact ⟨a, b, d⟩] at hq
  rw [(h.inv hc hn).io fun e => by obtain ⟨a, _, _, b, d⟩ := hio e; exact ⟨a, b, d⟩]
  exact range_mono (h.inv hc hn).q hl hlr hr hq

example : rangeQuery true sample (encodeInt 0x1ffffffffffffff0) (encodeInt 0x2000000000000200) = .ok true :=
  C04_partial cfg95_5 (by decide) (.reach sample_reach) (l := encodeInt 0x2000000000000002) (r := encodeInt 0x2000000000000003)
    (by decide) (by decide) (by decide) (by decide) (sample_range (by decide +kernel))

/-- C05: in every state of a filter, also a corrupt one, a one-key range query is a point query, including the outcome
outside the boundaries. The integer variant holds boundary keys of at most eight bytes. -/
theorem C05 (f : Filter) (h1 : 1 ≤ f.cfg.infixSize) (h2 : f.cfg.infixSize ≤ 46) (k : Key) {io : Bool}
    (hio : io = true → (∀ x ∈ boundaries f, x.length ≤ 8) ∧ k.length ≤ 8) : rangeQuery io f k k = pointQuery f k := by
  rw [← rangeQuery_self h1 (by omega)]
  cases io with
  | false => rfl
  | true =>
    obtain ⟨g1, g2⟩ := hio rfl
    exact rangeQuery_int0 h1 h2 (fun e he => g1 _ (List.mem_map_of_mem he)) g2 g2

example : pointQuery sample (encodeInt 0x2500000000000000) = .ok false := by
  rw [← C05 sample (by rw [sample_cfg]; decide) (by rw [sample_cfg]; decide) (encodeInt 0x2500000000000000) (io := true)
    (by rw [sample_boundaries]; decide)]
  exact sample_range (by decide +kernel)

/-- C07 and C33: between two neighbouring boundary keys the filter holds a set of bit prefixes (length and
value), each of at most `q + s - 1` bits, where `q` is the level of the region. A point query is positive
exactly if one of them is a prefix of the key, a range query exactly if one of them covers a value in the
range. -/
theorem C07_prefixes (hc : c.WF) (hn : n < 2 ^ 28) (h : Reach c n f) {prev next : Key} (hadj : Adjacent f prev next) :
    ∃ (q : Nat) (P : List (Nat × Nat)), Level prev next q ∧ (∀ w ∈ P, w.1 ≤ q + c.infixSize - 1) ∧
      (∀ k, keyLt prev k = true → keyLt k next = true →
        ∃ b, pointQuery f k = .ok b ∧ (b = true ↔ ∃ w ∈ P, pre w.1 k = w.2)) ∧
      ∀ l r, keyLt prev l = true → keyLe l r = true → keyLt r next = true →
        ∃ b, rangeQuery false f l r = .ok b ∧ (b = true ↔ ∃ w ∈ P, pre w.1 l ≤ w.2 ∧ w.2 ≤ pre w.1 r) := by
  obtain ⟨q, P, h1, h2, _, h3⟩ := region_prefixes (h.inv hc hn).ok.q hadj
  rw [(h.inv hc hn).cfg] at h2
  exact ⟨q, P, h1, h2 (h.inv hc hn).bits, h3⟩

/-- The same after deletions. A region that was merged may start with a partial boundary that keeps more bits. -/
theorem C07_states (hc : c.WF) (hn : n < 2 ^ 28) (h : States c n f) {prev next : Key} (hadj : Adjacent f prev next) :
    ∃ (q : Nat) (P : List (Nat × Nat)), Level prev next q ∧
      (∀ w ∈ P, w.1 ≤ q + c.infixSize - 1 ∨ (w.1 ≤ 8 * prev.length ∧ w.2 = pre w.1 prev)) ∧
      (∀ k, keyLt prev k = true → keyLt k next = true →
        ∃ b, pointQuery f k = .ok b ∧ (b = true ↔ ∃ w ∈ P, pre w.1 k = w.2)) ∧
      ∀ l r, keyLt prev l = true → keyLe l r = true → keyLt r next = true →
        ∃ b, rangeQuery false f l r = .ok b ∧ (b = true ↔ ∃ w ∈ P, pre w.1 l ≤ w.2 ∧ w.2 ≤ pre w.1 r) := by
  obtain ⟨q, P, h1, _, h2, h3⟩ := region_prefixes (h.inv hc hn).q hadj
  rw [(h.inv hc hn).cfg] at h2
  exact ⟨q, P, h1, h2, h3⟩

/-- C07 after a bulk load: a key of the right length is positive exactly if it is a boundary key or agrees
with a loaded key of the same region, not itself a boundary, on all bits the region keeps. Every boundary
key is a loaded key or one of the two extreme keys. -/
theorem C07_bulk (hc : c.WF) {K : List Key} (hlen : ∀ k ∈ K, k.length = n)
    (hs : K.Pairwise fun a b => keyLt a b = true) (hl : bulkFixed c n K = .ok f) :
    (∀ x ∈ boundaries f, x ∈ K ∨ x = List.replicate n 0 ∨ x = List.replicate n 255) ∧
    ∀ k : Key, k.length = n → ∃ b, pointQuery f k = .ok b ∧
      (b = true ↔ k ∈ boundaries f ∨ ∃ k0 ∈ K, k0 ∉ boundaries f ∧ SameCell f k0 k) := by
  have hne : K ≠ [] := by
    rintro rfl
    unfold bulkFixed bulkCore at hl
    simp at hl
  obtain ⟨r1, r2⟩ := bulkFixed_spec hc hlen hs hne
  have hmod : K.length % 1024 ≠ 1 := fun e => by rw [r1 e] at hl; cases hl
  obtain ⟨f', e, L, hsp, hkl, hmem⟩ := r2 hmod
  rw [e] at hl
  obtain rfl : f' = f := by injection hl
  have hok := L.ok hc
  refine ⟨?_, ?_⟩
  · intro x hx
    obtain ⟨e, he, rfl⟩ := List.mem_map.1 hx
    exact hmem e he
  · intro k hk
    by_cases hb : k ∈ boundaries f'
    · obtain ⟨A, st, B, ht⟩ := mem_boundaries hb
      exact ⟨true, pointQuery_boundary hok ht, by simp [hb]⟩
    · rcases hok.spans_cases hsp hk with ⟨A, e, B, ht, rfl⟩ | ⟨A, p, e, B, ht, h1, h2⟩
      · exact absurd (boundary_of ht) hb
      · obtain ⟨b, q, hq, hlev, hiff⟩ := L.gap hc ht h1 h2
        have hadj : Adjacent f' p.1 e.1 := adjacent_of ht
        refine ⟨b, hq, ?_⟩
        rw [hiff]
        constructor
        · rintro ⟨k0, hk0, g1, g2, he⟩
          refine Or.inr ⟨k0, hk0, ?_, p.1, e.1, q, hadj, hlev, keyLt_keyLe g1, g2, h1, h2, by rw [L.cfg]; exact he⟩
          intro hk0b
          obtain ⟨A', st, B', ht'⟩ := mem_boundaries hk0b
          have hmem : (k0, st) ∈ A ++ p :: e :: B := by rw [← ht, ht']; simp
          rcases List.mem_append.1 hmem with hm | hm
          · have := keyLt_of_padLt (hok.before ht hm)
            rw [keyLt_asymm g1] at this; cases this
          · rcases List.mem_cons.1 hm with hm | hm
            · rw [← hm] at g1
              rw [keyLt_irrefl] at g1; cases g1
            · have ht2 : f'.tree = (A ++ [p]) ++ e :: B := by rw [ht]; simp
              rcases List.mem_cons.1 hm with hm | hm
              · rw [← hm] at g2
                rw [keyLt_irrefl] at g2; cases g2
              · have := keyLt_of_padLt (hok.after ht2 hm)
                rw [keyLt_asymm g2] at this; cases this
        · rintro (hh | ⟨k0, hk0, hnb, p', e', q', c1, c2, c3, c4, c5, c6, c7⟩)
          · exact absurd hh hb
          · obtain ⟨rfl, rfl⟩ := hadj.unique hok c1 (keyLt_keyLe h1) h2 (keyLt_keyLe c5) c6
            obtain rfl := hlev.unique c2
            refine ⟨k0, hk0, keyLt_iff.2 ⟨c3, ?_⟩, c4, by rw [← L.cfg]; exact c7⟩
            rintro rfl
            exact hnb (boundary_of ht)

/-- The loaded state of the sample: a negative and a false positive answer, both explained by `C07_bulk`. -/
example : (bulkFixed (cfg95 5) 8 sampleKeys).bind (fun f => pointQuery f (encodeInt 0x2500000000000000)) = .ok false ∧
    (bulkFixed (cfg95 5) 8 sampleKeys).bind (fun f => pointQuery f (encodeInt 0x2000000000000002)) = .ok true ∧
    (∀ k ∈ sampleKeys, k.length = 8) ∧ sampleKeys.Pairwise (fun a b => keyLt a b = true) := by decide +kernel

/-- C33: a negative range answer excludes boundary keys and positive point answers in the range. -/
theorem C33_negative (hc : c.WF) (hn : n < 2 ^ 28) (h : States c n f) {l r : Key} {io : Bool}
    (hio : io = true → n ≤ 8 ∧ l.length ≤ 8 ∧ r.length ≤ 8) (hlr : keyLe l r = true)
    (hq : rangeQuery io f l r = .ok false) :
    ∀ k, keyLe l k = true → keyLe k r = true → k ∉ boundaries f ∧ pointQuery f k = .ok false := by
  have hok := (h.inv hc hn).q
  rw [(h.inv hc hn).io hio] at hq
  intro k h1 h2
  have hnt : pointQuery f k ≠ .ok true := fun hk => by
    rw [range_of_point hok h1 h2 hk] at hq; cases hq
  have hnb : k ∉ boundaries f := fun hb => by
    obtain ⟨A, st, B, ht⟩ := mem_boundaries hb
    exact hnt (pointQuery_boundary0 hok.pairwise ht)
  refine ⟨hnb, ?_⟩
  obtain ⟨_, hd⟩ := rangeQuery_defined hok hlr
  rcases hd.1 ⟨_, hq⟩ with ⟨x, hx, g1, g2⟩ | ⟨prev, next, hadj, g1, g2⟩
  · obtain ⟨A, st, B, ht⟩ := mem_boundaries hx
    rw [rangeQuery_boundary0 hok.pairwise ht g1 g2] at hq; cases hq
  · have hlt : keyLt prev k = true := by
      rcases keyLe_or_lt k prev with hh | hh
      · have := keyLe_trans h1 hh
        rw [keyLe_iff_not_lt, g1] at this; cases this
      · exact hh
    obtain ⟨b, hb⟩ := ((pointQuery_defined hok k).2).2 (Or.inr ⟨prev, next, hadj, hlt, keyLt_of_le_of_lt h2 g2⟩)
    cases b with
    | true => exact absurd hb hnt
    | false => exact hb

example : pointQuery sample (encodeInt 0x2500000000000000) = .ok false :=
  (C33_negative cfg95_5 (by decide) (.reach sample_reach) (l := encodeInt 0x2400000000000000) (r := encodeInt 0x2600000000000000)
    (io := true) (by decide) (by decide) (sample_range (by decide +kernel)) _ (by decide) (by decide)).2

/-- C33: a positive range answer without a boundary key in the range comes from a prefix that covers a
value of the range, and every key of the region with that prefix is positive. -/
theorem C33_positive (hc : c.WF) (hn : n < 2 ^ 28) (h : States c n f) {l r : Key} {io : Bool}
    (hio : io = true → n ≤ 8 ∧ l.length ≤ 8 ∧ r.length ≤ 8) (hlr : keyLe l r = true)
    (hq : rangeQuery io f l r = .ok true) (hno : ∀ x ∈ boundaries f, ¬ (keyLe l x = true ∧ keyLe x r = true)) :
    ∃ prev next q w v, Adjacent f prev next ∧ keyLt prev l = true ∧ keyLt r next = true ∧ Level prev next q ∧
      (w ≤ q + c.infixSize - 1 ∨ (w ≤ 8 * prev.length ∧ v = pre w prev)) ∧ pre w l ≤ v ∧ v ≤ pre w r ∧
      ∀ k, keyLt prev k = true → keyLt k next = true → pre w k = v → pointQuery f k = .ok true := by
  have hok := (h.inv hc hn).q
  rw [(h.inv hc hn).io hio] at hq
  obtain ⟨_, hd⟩ := rangeQuery_defined hok hlr
  rcases hd.1 ⟨_, hq⟩ with ⟨x, hx, g1, g2⟩ | ⟨prev, next, hadj, g1, g2⟩
  · exact absurd ⟨g1, g2⟩ (hno x hx)
  · obtain ⟨q, P, hl, hP, hp, hr⟩ := C07_states hc hn h hadj
    obtain ⟨b, hb, hbt⟩ := hr l r g1 hlr g2
    rw [hq] at hb
    obtain rfl : b = true := by injection hb with hb; exact hb.symm
    obtain ⟨w, hw, e1, e2⟩ := hbt.1 rfl
    refine ⟨prev, next, q, w.1, w.2, hadj, g1, g2, hl, hP w hw, e1, e2, ?_⟩
    intro k k1 k2 he
    obtain ⟨b', hb', hbt'⟩ := hp k k1 k2
    rw [hb', hbt'.2 ⟨w, hw, he⟩]

/-- C24: in every tree whose keys are in order, a boundary key is reported by the point query and by every
range query whose range contains it. -/
theorem C24_boundary (f : Filter) (hs : (boundaries f).Pairwise fun a b => keyLt a b = true) {k : Key}
    (hk : k ∈ boundaries f) : pointQuery f k = .ok true ∧
    ∀ io l r, keyLe l k = true → keyLe k r = true → rangeQuery io f l r = .ok true := by
  obtain ⟨A, st, B, ht⟩ := mem_boundaries hk
  unfold boundaries at hs
  rw [List.pairwise_map] at hs
  constructor
  · rw [ht, List.pairwise_append] at hs
    have hA : ∀ a ∈ A, keyLt a.1 k = true := fun a ha => hs.2.2 a ha (k, st) (by simp)
    have hsk := seek_append (B := B) (e := (k, st)) hA (keyLe_refl _)
    unfold pointQuery
    simp only [ht, hsk, peek_append, Res.bind_ok, beq_self_eq_true, if_true]
  · intro io l r h1 h2
    have hex : ∃ e', treePeek f.tree (treeSeek f.tree l) = .ok e' := by
      unfold treePeek treeSeek
      have : f.tree.findIdx (fun e => keyLe l e.1) < f.tree.length :=
        List.findIdx_lt_length_of_exists ⟨(k, st), by rw [ht]; simp, h1⟩
      rw [List.getElem?_eq_getElem this]
      exact ⟨_, rfl⟩
    obtain ⟨e', he⟩ := hex
    obtain ⟨A', B', ht', _, hA', hle⟩ := seek_split he
    have hle' : keyLe e'.1 k = true := by
      have hmem : (k, st) ∈ A' ++ e' :: B' := by rw [← ht', ht]; simp
      rcases List.mem_append.1 hmem with hm | hm
      · have := hA' _ hm
        rw [keyLe_iff_not_lt, this] at h1; cases h1
      · rcases List.mem_cons.1 hm with hm | hm
        · rw [← hm]; exact keyLe_refl _
        · rw [ht', List.pairwise_append, List.pairwise_cons] at hs
          exact keyLt_keyLe (hs.2.1.1 _ hm)
    unfold rangeQuery
    simp only [he, Res.bind_ok, keyLe_trans hle' h2, if_true]

/-- Every reachable tree is in order. -/
theorem C24_states (hc : c.WF) (hn : n < 2 ^ 28) (h : States c n f) :
    (boundaries f).Pairwise fun a b => keyLt a b = true := by
  unfold boundaries
  rw [List.pairwise_map]
  exact (h.inv hc hn).q.pairwise.imp fun hab => keyLt_of_padLt hab

/-- The boundary `[0x20, 0]` of the sample is a shortened key from a split. -/
example : pointQuery sample [0x20, 0] = .ok true ∧
    rangeQuery false sample (encodeInt 0x1fffffffffffffff) (encodeInt 0x2000000000000000) = .ok true := by
  obtain ⟨h1, h2⟩ := C24_boundary sample (C24_states cfg95_5 (by decide) (.reach sample_reach)) (k := [0x20, 0])
    (by rw [sample_boundaries]; decide)
  exact ⟨h1, h2 _ _ _ (by decide) (by decide)⟩

/-- A region of the sample that meets the hypothesis of `C07_prefixes`, and a range without boundary key
that meets those of `C33_positive`. -/
example : Adjacent sample [0x20, 0] (encodeInt 0x3000000000000000) ∧
    rangeQuery true sample (encodeInt 0x2000000000000002) (encodeInt 0x2000000000000003) = .ok true ∧
    ∀ x ∈ boundaries sample, ¬ (keyLe (encodeInt 0x2000000000000002) x = true ∧ keyLe x (encodeInt 0x2000000000000003) = true) :=
  ⟨by rw [adjacent_mem, sample_boundaries]; decide, sample_range (by decide +kernel), by rw [sample_boundaries]; decide⟩

end Verif.Props
