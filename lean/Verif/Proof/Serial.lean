import Verif.Model.Serial
import Verif.Proof.LoadVar
import Verif.Proof.RegionRun
import Verif.Proof.Answers
import Verif.Proof.IntPath

/-!
# Serialisation round trip
-/

namespace Verif

theorem leBytes_length (n v : Nat) : (leBytes n v).length = n := by
  induction n generalizing v with
  | zero => rfl
  | succ n ih => simp [leBytes, ih]

theorem leVal_leBytes (n v : Nat) : leVal (leBytes n v) = v % 256 ^ n := by
  induction n generalizing v with
  | zero => simp [leBytes, leVal, Nat.mod_one]
  | succ n ih =>
    rw [leBytes, leVal, ih, pow_succ, Nat.mul_comm (256 ^ n), Nat.mod_mul]
    simp

theorem readLe_append {n : Nat} {xs rest : List UInt8} (h : xs.length = n) :
    readLe n (xs ++ rest) = .ok (leVal xs, rest) := by
  subst h
  unfold readLe
  rw [if_neg (by simp), List.take_left, List.drop_left]

theorem readLe_le (n v : Nat) (rest : List UInt8) : readLe n (leBytes n v ++ rest) = .ok (v % 256 ^ n, rest) := by
  rw [readLe_append (leBytes_length n v), leVal_leBytes]

theorem expectLe_le {v : Nat} (hv : v < 2 ^ 32) (rest : List UInt8) : expectLe v (leBytes 4 v ++ rest) = .ok rest := by
  unfold expectLe
  rw [readLe_le, Res.bind_ok]
  dsimp only
  rw [if_pos (Nat.mod_eq_of_lt (by norm_num; omega))]

theorem metadata_trip (io : Bool) {s : Nat} (hs : s < 2 ^ 32) (seed : Nat) (rest : List UInt8) :
    deserializeMetadata io (serializeMetadata io s seed lfBits95 ++ rest) = .ok (s, seed % 2 ^ 32, rest) := by
  unfold deserializeMetadata serializeMetadata
  have h1 : ∀ l : List UInt8, readLe 1 (UInt8.ofNat (b2n io) :: l) = .ok (b2n io, l) := by
    intro l
    have := readLe_append (n := 1) (xs := [UInt8.ofNat (b2n io)]) (rest := l) rfl
    rw [List.singleton_append] at this
    rw [this]
    cases io <;> rfl
  rw [List.cons_append, h1, Res.bind_ok]
  dsimp only
  rw [if_neg (by cases io <;> decide)]
  simp only [List.append_assoc]
  rw [expectLe_le (by decide), Res.bind_ok, expectLe_le (by decide), Res.bind_ok, expectLe_le (by decide), Res.bind_ok,
    expectLe_le (by decide), Res.bind_ok, expectLe_le (by decide), Res.bind_ok, expectLe_le (by decide), Res.bind_ok,
    expectLe_le (by decide), Res.bind_ok, expectLe_le (by decide), Res.bind_ok, readLe_le, Res.bind_ok]
  dsimp only
  rw [readLe_le, Res.bind_ok]
  dsimp only
  rw [expectLe_le (by decide), Res.bind_ok, expectLe_le (by decide), Res.bind_ok,
    Nat.mod_eq_of_lt (show s < 256 ^ 4 by norm_num; omega), show (256 : Nat) ^ 4 = 2 ^ 32 by norm_num]

/-- What is left of a region after the round trip: the words of its block. -/
def truncStore (c : Cfg) (st : Store) : Store :=
  ⟨st.status % 2 ^ 32, st.mem % 256 ^ (ptrWordCount (c.size st.sizeGrade) c.infixSize * 8)⟩

theorem sizeGrade_mod (a m m' : Nat) : Store.sizeGrade ⟨a % 2 ^ 32, m⟩ = Store.sizeGrade ⟨a, m'⟩ := by
  rw [sizeGrade_eq, sizeGrade_eq]
  dsimp only
  omega

theorem store_trip (c : Cfg) (st : Store) (rest : List UInt8) :
    deserializeStore c (serializeStore c st ++ rest) = .ok (truncStore c st, rest) := by
  unfold deserializeStore serializeStore
  rw [List.append_assoc, readLe_le, Res.bind_ok]
  dsimp only
  rw [show (256 : Nat) ^ 4 = 2 ^ 32 by norm_num, sizeGrade_mod st.status 0 st.mem, readLe_le, Res.bind_ok]
  rfl

theorem le_roundKeyLen (n : Nat) : n ≤ roundKeyLen n := by unfold roundKeyLen; omega

theorem loop_trip (c : Cfg) : ∀ (es t : Tree) (fuel : Nat) (tail : List UInt8), es.length < fuel →
    (∀ e ∈ es, e.1.length ≤ 20000) → (t ++ es).Pairwise (fun a b => keyLt a.1 b.1 = true) →
    deserLoop c fuel t (es.flatMap (serializeEntry c) ++ (leBytes 4 (2 ^ 32 - 1) ++ tail)) =
      .ok (t ++ es.map fun e => (e.1, truncStore c e.2))
  | _, _, 0, _, hf, _, _ => by omega
  | [], t, fuel + 1, tail, _, _, _ => by
    rw [List.flatMap_nil, List.nil_append, deserLoop, readLe_le, Res.bind_ok]
    dsimp only
    rw [if_pos (by norm_num)]
    simp
  | e :: es, t, fuel + 1, tail, hf, hlen, hp => by
    have he := hlen e (by simp)
    have hr := le_roundKeyLen e.1.length
    rw [List.flatMap_cons, deserLoop]
    rw [show serializeEntry c e = leBytes 4 e.1.length ++ (e.1 ++ List.replicate (roundKeyLen e.1.length - e.1.length) 0) ++
      serializeStore c e.2 from rfl, List.append_assoc, List.append_assoc, List.append_assoc, readLe_le, Res.bind_ok]
    dsimp only
    rw [show (256 : Nat) ^ 4 = 2 ^ 32 by norm_num, Nat.mod_eq_of_lt (show e.1.length < 2 ^ 32 by omega), if_neg (by omega),
      if_neg (by simp; omega)]
    have hd : ∀ l : List UInt8, List.drop (roundKeyLen e.1.length)
        ((e.1 ++ List.replicate (roundKeyLen e.1.length - e.1.length) 0) ++ l) = l := by
      intro l; exact List.drop_left' (by simp; omega)
    have ht : ∀ l : List UInt8, List.take e.1.length
        ((e.1 ++ List.replicate (roundKeyLen e.1.length - e.1.length) 0) ++ l) = e.1 := by
      intro l; rw [List.append_assoc]; exact List.take_left
    rw [hd, ht, store_trip, Res.bind_ok]
    dsimp only
    rw [treePut_last (t := t) (fun a ha => (List.pairwise_append.1 hp).2.2 a ha e (by simp))]
    have := loop_trip c es (t ++ [(e.1, truncStore c e.2)]) fuel tail (by simp at hf; omega)
      (fun x hx => hlen x (by simp [hx])) (by
        rw [List.append_assoc, List.singleton_append]
        rw [List.pairwise_append, List.pairwise_cons] at hp ⊢
        refine ⟨hp.1, ⟨fun a ha => hp.2.1.1 a ha, hp.2.1.2⟩, fun a ha b hb => ?_⟩
        rcases List.mem_cons.1 hb with rfl | hb
        · exact hp.2.2 a ha e (by simp)
        · exact hp.2.2 a ha b (by simp [hb]))
    rw [this]
    simp

theorem flatMap_length_ge {c : Cfg} (es : Tree) : es.length ≤ (es.flatMap (serializeEntry c)).length := by
  induction es with
  | nil => simp
  | cons e es ih =>
    rw [List.flatMap_cons, List.length_append, List.length_cons]
    have : 1 ≤ (serializeEntry c e).length := by
      unfold serializeEntry; simp [leBytes_length]; omega
    omega

/-- The filter a round trip returns. -/
def truncFilter (f : Filter) : Filter := ⟨f.cfg, f.tree.map fun e => (e.1, truncStore f.cfg e.2)⟩

theorem round_trip {s : Nat} {f : Filter} (hs : s < 2 ^ 32) (hc : f.cfg = cfg95 s)
    (hp : f.tree.Pairwise fun a b => keyLt a.1 b.1 = true) (hlen : ∀ e ∈ f.tree, e.1.length ≤ 20000) (io : Bool)
    (seed : Nat) (tail : List UInt8) : deserialize io (serialize io seed lfBits95 f ++ tail) = .ok (truncFilter f) := by
  unfold deserialize serialize
  have hsf : f.cfg.infixSize = s := by rw [hc]; rfl
  rw [List.append_assoc, List.append_assoc, hsf, metadata_trip io hs, Res.bind_ok]
  dsimp only
  have := flatMap_length_ge (c := f.cfg) f.tree
  rw [← hc, loop_trip f.cfg f.tree [] _ tail (by simp only [List.length_append]; omega) hlen (by simpa using hp), Res.bind_ok]
  rfl

/-! ## The block survives -/

theorem block_bits (n s : Nat) : 64 + 1024 + n * (1 + s) ≤ 8 * (ptrWordCount n s * 8) := by
  unfold ptrWordCount
  rw [Nat.add_comm s 1]
  omega

theorem trunc_sameBlock {c : Cfg} {st : Store} (h : st.status < 2 ^ 32) : SameBlock c st (truncStore c st) := by
  refine ⟨(Nat.mod_eq_of_lt h).symm, fun j hj => ?_⟩
  have hb := block_bits (c.size st.sizeGrade) c.infixSize
  unfold truncStore
  dsimp only
  rw [show (256 : Nat) = 2 ^ 8 by rfl, ← pow_mul, Nat.testBit_mod_two_pow]
  rw [show decide (j < 8 * (ptrWordCount (c.size st.sizeGrade) c.infixSize * 8)) = true by simp; omega]
  simp

theorem trunc_region {c : Cfg} {prev next : Key} {st : Store} {sh ig imp : Nat} {L : List Nat}
    (R : RegionHas c prev st next sh ig imp L) : RegionHas c prev (truncStore c st) next sh ig imp L := by
  have hst : st.status < 2 ^ 32 := by obtain ⟨_, I, _⟩ := R.has; exact I.status
  have hs := trunc_sameBlock (c := c) hst
  have e1 : (truncStore c st).isPartial = st.isPartial := by unfold Store.isPartial; rw [hs.1]
  exact .make R.lt R.sii (hs.has R.strong) R.inside (by rw [e1]; exact R.part)

theorem trunc_ok {f : Filter} (h : FilterOK f) : FilterOK (truncFilter f) := by
  refine ⟨h.wf, ?_⟩
  unfold truncFilter
  dsimp only
  rw [List.isChain_map]
  refine h.chain.imp fun a b hab => ?_
  obtain ⟨sh, ig, imp, L, R⟩ := hab
  exact ⟨sh, ig, imp, L, trunc_region R⟩

theorem trunc_base {c : Cfg} {prev next : Key} {st : Store} {sh ig imp : Nat} {L : List Nat}
    (R : RegionBase c prev st next sh ig imp L) : RegionBase c prev (truncStore c st) next sh ig imp L := by
  have hst : st.status < 2 ^ 32 := by obtain ⟨_, I, _⟩ := R.has; exact I.status
  exact ⟨R.lt, R.sii, (trunc_sameBlock (c := c) hst).hasW R.has⟩

theorem trunc_boundaries (f : Filter) : boundaries (truncFilter f) = boundaries f := by
  unfold boundaries truncFilter
  simp [Function.comp_def]

theorem trunc_tree {f : Filter} {A B : Tree} {p e : Key × Store} (ht : f.tree = A ++ p :: e :: B) :
    ∃ A' B', (truncFilter f).tree = A' ++ (p.1, truncStore f.cfg p.2) :: (e.1, truncStore f.cfg e.2) :: B' := by
  unfold truncFilter
  dsimp only
  rw [ht, List.map_append, List.map_cons, List.map_cons]
  exact ⟨_, _, rfl⟩

theorem trunc_gap {f : Filter} {p e : Key × Store} {sh ig imp : Nat} {L : List Nat}
    (R : RegionBase f.cfg p.1 p.2 e.1 sh ig imp L) : (truncStore f.cfg p.2).isPartial = p.2.isPartial ∧
    (truncStore f.cfg p.2).invalidBits = p.2.invalidBits := by
  have hst : p.2.status < 2 ^ 32 := by obtain ⟨_, I, _⟩ := R.has; exact I.status
  have hs := trunc_sameBlock (c := f.cfg) hst
  exact ⟨by unfold Store.isPartial; rw [hs.1], by unfold Store.invalidBits; rw [hs.1]⟩

theorem trunc_q {f : Filter} (h : FilterQ f) : FilterQ (truncFilter f) := by
  refine ⟨h.wf, ?_⟩
  unfold truncFilter
  dsimp only
  rw [List.isChain_map]
  refine h.chain.imp fun a b hab => ?_
  obtain ⟨⟨sh, ig, imp, L, R⟩, hp⟩ := hab
  exact ⟨⟨sh, ig, imp, L, trunc_base R⟩, by rw [(trunc_gap R).1]; exact hp⟩

theorem trunc_point {f : Filter} (h : FilterQ f) (k : Key) : pointQuery (truncFilter f) k = pointQuery f k := by
  have h' := trunc_q h
  rcases pointQuery_cases h k with ⟨A, e, B, ht, rfl, hq⟩ | ⟨A, p, e, B, ht, h1, h2, b, hq⟩ | hu
  · refine point_ext h h' (trunc_boundaries f) ?_
    have hb : e.1 ∈ boundaries (truncFilter f) := by rw [trunc_boundaries]; exact boundary_of ht
    obtain ⟨A', st', B', ht'⟩ := mem_boundaries hb
    have := pointQuery_boundary0 h'.pairwise ht'
    dsimp only at this
    rw [this, hq]
  · obtain ⟨sh, ig, imp, L, R⟩ := h.region ht
    obtain ⟨A', B', ht'⟩ := trunc_tree ht
    obtain ⟨e1, e2⟩ := trunc_gap R
    obtain ⟨b1, q1, r1⟩ := pointQuery_gap0 h.wf h.pairwise ht R h1 h2
    obtain ⟨b2, q2, r2⟩ := pointQuery_gap0 h'.wf h'.pairwise ht' (trunc_base R) h1 h2
    dsimp only at r1 r2
    rw [e1, e2] at r2
    rw [q1, q2, Bool.eq_iff_iff.2 (r2.trans r1.symm)]
  · refine point_ext h h' (trunc_boundaries f) ?_
    have a := (pointQuery_defined h k).2
    have b := (pointQuery_defined h' k).2
    rw [trunc_boundaries] at b
    simp only [Adjacent.congr (trunc_boundaries f)] at b
    constructor
    · intro hh
      obtain ⟨x, hx⟩ := a.2 (b.1 ⟨_, hh⟩)
      rw [hu] at hx; cases hx
    · intro hh; rw [hu] at hh; cases hh

theorem trunc_range {f : Filter} (h : FilterQ f) {l r : Key} (hlr : keyLe l r = true) :
    rangeQuery false (truncFilter f) l r = rangeQuery false f l r := by
  have h' := trunc_q h
  refine range_ext h h' (trunc_boundaries f) hlr ?_
  rcases rangeQuery_cases h hlr false with ⟨A, e, B, ht, h1, h2, hq⟩ | ⟨A, p, e, B, ht, h1, h2⟩ | hu
  · have hb : e.1 ∈ boundaries (truncFilter f) := by rw [trunc_boundaries]; exact boundary_of ht
    obtain ⟨A', st', B', ht'⟩ := mem_boundaries hb
    rw [hq, rangeQuery_boundary0 h'.pairwise ht' h1 h2]
  · obtain ⟨sh, ig, imp, L, R⟩ := h.region ht
    obtain ⟨A', B', ht'⟩ := trunc_tree ht
    obtain ⟨e1, e2⟩ := trunc_gap R
    obtain ⟨b1, q1, r1⟩ := rangeQuery_gap0 h.wf h.pairwise ht R h1 hlr h2
    obtain ⟨b2, q2, r2⟩ := rangeQuery_gap0 h'.wf h'.pairwise ht' (trunc_base R) h1 hlr h2
    dsimp only at r1 r2
    rw [e1, e2] at r2
    rw [q1, q2, Bool.eq_iff_iff.2 (r2.trans r1.symm)]
  · have a := (rangeQuery_defined h hlr).2
    have b := (rangeQuery_defined h' hlr).2
    rw [trunc_boundaries] at b
    simp only [Adjacent.congr (trunc_boundaries f)] at b
    constructor
    · intro hh
      obtain ⟨x, hx⟩ := a.2 (b.1 ⟨_, hh⟩)
      rw [hu] at hx; cases hx
    · intro hh; rw [hu] at hh; cases hh

end Verif
