import Verif.Model.Delete
import Verif.Proof.InsertSimple
import Verif.Proof.RegionDelete
import Verif.Proof.Plan

/-!
# Delete of an item at filter level
-/

namespace Verif

def RegionWeak (c : Cfg) (prev : Key) (st : Store) (next : Key) : Prop :=
  ∃ sh ig imp L, RegionW c prev st next sh ig imp L

/-- The filter invariant that survives deletions. -/
structure FilterW (f : Filter) : Prop where
  wf : f.cfg.WF
  chain : f.tree.IsChain fun e e' => RegionWeak f.cfg e.1 e.2 e'.1

theorem FilterOK.weak {f : Filter} (h : FilterOK f) : FilterW f :=
  ⟨h.wf, h.chain.imp fun _ _ ⟨sh, ig, imp, L, R⟩ => ⟨sh, ig, imp, L, R.toRegionW⟩⟩

theorem FilterW.q {f : Filter} (h : FilterW f) : FilterQ f :=
  ⟨h.wf, h.chain.imp fun _ _ ⟨sh, ig, imp, L, R⟩ => ⟨⟨sh, ig, imp, L, R.toRegionBase⟩, R.part⟩⟩

section
variable {f : Filter} {A B : Tree} {p e : Key × Store}

theorem FilterW.region (h : FilterW f) (ht : f.tree = A ++ p :: e :: B) : RegionWeak f.cfg p.1 p.2 e.1 := by
  have := h.chain
  rw [ht] at this
  exact (List.isChain_append_cons_cons.1 this).2.1

theorem FilterW.pairwise (h : FilterW f) : f.tree.Pairwise fun e e' => PadLt e.1 e'.1 := by
  have h1 : f.tree.IsChain fun e e' => PadLt e.1 e'.1 :=
    h.chain.imp fun a b hab => by obtain ⟨_, _, _, _, hr⟩ := hab; exact hr.lt
  have : IsTrans (Key × Store) (fun e e' => PadLt e.1 e'.1) := ⟨fun _ _ _ => PadLt.trans⟩
  exact h1.pairwise

theorem chain_replace {α : Type} {R : α → α → Prop} {A B : List α} {p p' e : α} (h : (A ++ p :: e :: B).IsChain R)
    (hp : ∀ x, R x p → R x p') (hr : R p' e) : (A ++ p' :: e :: B).IsChain R := by
  obtain ⟨h1, h2, h3⟩ := List.isChain_append_cons_cons.1 h
  refine List.isChain_append_cons_cons.2 ⟨?_, hr, h3⟩
  rw [List.isChain_append] at h1 ⊢
  obtain ⟨a, b, d⟩ := h1
  refine ⟨a, List.isChain_singleton _, ?_⟩
  intro x hx y hy
  simp only [List.head?_cons, Option.mem_def, Option.some.injEq] at hy
  subst hy
  exact hp x (d x hx p (by simp))

theorem FilterW.replace (h : FilterW f) (ht : f.tree = A ++ p :: e :: B) {st : Store}
    (hr : RegionWeak f.cfg p.1 st e.1) : FilterW { f with tree := A ++ (p.1, st) :: e :: B } := by
  refine ⟨h.wf, ?_⟩
  have hc := h.chain
  rw [ht] at hc
  exact chain_replace (p' := (p.1, st)) hc (fun _ hx => hx) hr

theorem below_of_le (hpw : f.tree.Pairwise fun e e' => PadLt e.1 e'.1) (ht : f.tree = A ++ p :: B) {k : Key}
    (hk : keyLe p.1 k = true) : ∀ a ∈ A, keyLt a.1 k = true := fun _ ha =>
  keyLt_of_padLt ((before_of_pairwise hpw ht ha).trans_le (keyLe_pre hk))

theorem locate_at (hpw : f.tree.Pairwise fun e e' => PadLt e.1 e'.1) (ht : f.tree = A ++ p :: e :: B) {k : Key}
    (h1 : keyLe p.1 k = true) (h2 : keyLt k e.1 = true) : locate f.tree k = .ok (A.length, p.1, p.2, e.1) := by
  have hA := below_of_le hpw ht h1
  unfold locate
  by_cases heq : p.1 = k
  · have hs := seek_append (A := A) (B := e :: B) (e := p) (key := k) hA (by rw [heq]; exact keyLe_refl _)
    simp only [ht, hs, peek_append, peek_append_succ, Res.bind_ok, heq, beq_self_eq_true, if_true]
  · have hlt := keyLt_iff.2 ⟨h1, heq⟩
    have hs := seek_gap (B := B) hA hlt (keyLt_keyLe h2)
    have hne : (e.1 == k) = false := by
      rw [beq_eq_false_iff_ne]
      rintro rfl
      rw [keyLt_irrefl] at h2; exact absurd h2 (by decide)
    simp only [ht, hs, peek_append, peek_append_succ, Res.bind_ok, hne, Bool.false_eq_true, if_false,
      Nat.succ_ne_zero, Nat.add_sub_cancel]

/-- `Delete` of a key that belongs to the region above `p`. -/
theorem delete_eq (hpw : f.tree.Pairwise fun e e' => PadLt e.1 e'.1) (ht : f.tree = A ++ p :: e :: B) {k : Key}
    (h1 : keyLe p.1 k = true) (h2 : keyLt k e.1 = true) {fr : RFrame} (hf : getFrame f.cfg.infixSize p.1 e.1 = .ok fr) :
    delete f k =
      if (p.1 = k ∧ p.2.isPartial = false) ∨ (p.2.isPartial = true ∧
          mergesPartial f.cfg fr p.1 p.2 (fr.item f.cfg.infixSize k) = true) then deleteMerge f A.length
      else .ok { f with tree := A ++ (p.1, deleteRaw f.cfg p.2 (fr.item f.cfg.infixSize k) fr.total) :: e :: B } := by
  have hA := below_of_le hpw ht h1
  have hl := locate_at hpw ht h1 h2
  have hset : ∀ st, f.tree.set A.length (p.1, st) = A ++ (p.1, st) :: e :: B := by
    intro st; rw [ht]; simp
  unfold delete
  dsimp only
  rw [hl]
  simp only [Res.bind_ok, hf, hset]
  by_cases heq : p.1 = k
  · have hs := seek_append (A := A) (B := e :: B) (e := p) (key := k) hA (by rw [heq]; exact keyLe_refl _)
    rw [← ht] at hs
    have hpk : treePeek f.tree A.length = .ok p := by rw [ht, peek_append]
    simp only [hs, hpk, Res.bind_ok, heq, beq_self_eq_true, true_and, Bool.not_eq_true',
      Bool.and_eq_true]
    cases p.2.isPartial <;> simp
  · have hlt := keyLt_iff.2 ⟨h1, heq⟩
    have hs := seek_gap (B := B) hA hlt (keyLt_keyLe h2)
    have hne : (e.1 == k) = false := by
      rw [beq_eq_false_iff_ne]
      rintro rfl
      rw [keyLt_irrefl] at h2; exact absurd h2 (by decide)
    rw [← ht] at hs
    have hpk : treePeek f.tree (A.length + 1) = .ok e := by rw [ht, peek_append_succ]
    simp only [hs, hpk, Res.bind_ok, heq, hne, Bool.false_eq_true, if_false, false_and, false_or,
      Bool.and_eq_true]

end
section
variable {c : Cfg} {prev next k : Key} {st : Store} {sh ig imp : Nat} {L : List Nat} {fr : RFrame}

theorem covers_or_one {x s v : Nat} (h0 : x % 2 ^ s ≠ 0) (hx : x < 2 ^ 64) : Covers x (v ||| 1) ↔ Covers x v := by
  obtain ⟨a, t, rfl, _⟩ := item_decomp h0
  rw [covers_odd hx, covers_odd hx, or_one_div]

/-- Item `x` of the region is a bit prefix of the key. -/
def Hits (s p : Nat) (prev : Key) (x : Nat) (k : Key) : Prop := pre (ilen s p x) k = ival s (pre p prev) x

theorem RegionBase.covers_item (R : RegionBase c prev st next sh ig imp L) (hc : c.WF) (hk : Between prev k next)
    (hf : getFrame c.infixSize prev next = .ok fr) {x : Nat} (hx : x ∈ L) :
    Covers x (fr.item c.infixSize k) ↔ Hits c.infixSize (sh + ig + imp) prev x k := by
  obtain ⟨_, h2, _, _⟩ := R.value hc hk hf
  obtain ⟨a, b, _⟩ := R.item_lt hc hx
  rw [h2, covers_or_one a b, covers_relVal a b (hk _).1]
  rfl

theorem RegionBase.ilen_le_iff (R : RegionBase c prev st next sh ig imp L) (hc : c.WF) {x y : Nat} (hx : x ∈ L)
    (hy : y ∈ L) : ilen c.infixSize (sh + ig + imp) x ≤ ilen c.infixSize (sh + ig + imp) y ↔ lb64 y ≤ lb64 x := by
  obtain ⟨a1, a2, _⟩ := R.item_lt hc hx
  obtain ⟨b1, b2, _⟩ := R.item_lt hc hy
  obtain ⟨a, t, rfl, ht⟩ := item_decomp a1
  obtain ⟨b, u, rfl, hu⟩ := item_decomp b1
  rw [ilen_odd a2, ilen_odd b2, lb64_odd a2, lb64_odd b2, Nat.pow_le_pow_iff_right (by decide)]
  omega

/-- Deleting a key that some stored item covers. -/
theorem RegionW.delete (R : RegionW c prev st next sh ig imp L) (hc : c.WF) (hk : Between prev k next)
    (hf : getFrame c.infixSize prev next = .ok fr) (hh : HitL c.infixSize (sh + ig + imp) prev L k) :
    (deleteRaw c st (fr.item c.infixSize k) fr.total).invalidBits = st.invalidBits ∧
    (deleteRaw c st (fr.item c.infixSize k) fr.total).isPartial = st.isPartial ∧
    ∃ y X Y, L = X ++ y :: Y ∧ Hits c.infixSize (sh + ig + imp) prev y k ∧
      (∀ z ∈ L, Hits c.infixSize (sh + ig + imp) prev z k →
        ilen c.infixSize (sh + ig + imp) z ≤ ilen c.infixSize (sh + ig + imp) y) ∧
      RegionW c prev (deleteRaw c st (fr.item c.infixSize k) fr.total) next sh ig imp (X ++ Y) ∧
      (RegionHas c prev st next sh ig imp L → Loose c (deleteBase c st fr.total) →
        RegionHas c prev (deleteRaw c st (fr.item c.infixSize k) fr.total) next sh ig imp (X ++ Y)) ∧
      (CleanStore c st → CleanStore c (deleteRaw c st (fr.item c.infixSize k) fr.total)) := by
  obtain ⟨fr', h1, _, _, _, _, hT⟩ := R.frame hc
  rw [hf] at h1
  obtain rfl : fr = fr' := by injection h1
  obtain ⟨_, hv, _, hq⟩ := R.value hc hk hf
  have hodd : fr.item c.infixSize k % 2 = 1 := by rw [hv, or_one]; omega
  have hcov : ∃ x ∈ L, Covers x (fr.item c.infixSize k) := by
    obtain ⟨x, hx, e⟩ := hh
    exact ⟨x, hx, (R.covers_item hc hk hf hx).2 e⟩
  have hle := R.T_le
  obtain ⟨g1, g2, y, X, Y, tk, hw⟩ := deleteRaw_hasW hc R.has hle hodd hcov
  rw [← hT] at g1 g2 hw
  have hy : y ∈ L := by rw [tk.split]; simp
  have sub : ∀ x ∈ X ++ Y, x ∈ L := by
    intro x hx; rw [tk.split]
    rcases List.mem_append.1 hx with h | h
    · exact List.mem_append_left _ h
    · exact List.mem_append_right _ (List.mem_cons_of_mem _ h)
  have RW : RegionW c prev (deleteRaw c st (fr.item c.infixSize k) fr.total) next sh ig imp (X ++ Y) :=
    ⟨⟨R.lt, R.sii, by rw [hT] at hw ⊢; exact hw⟩, fun x hx => R.inside x (sub x hx), by rw [g2]; exact R.part⟩
  refine ⟨g1, g2, y, X, Y, tk.split, (R.covers_item hc hk hf hy).1 tk.cov, ?_, RW, ?_,
    fun hcl => by rw [hT]; exact clean_deleteRaw hc R.has hle hcl hodd hcov⟩
  · intro z hz hzk
    rw [R.ilen_le_iff hc hz hy]
    exact tk.longest z hz ((R.covers_item hc hk hf hz).2 hzk)
  · intro hs hl
    obtain ⟨_, _, y', X', Y', tk', hs'⟩ := deleteRaw_has hc (hT ▸ hs.strong) (by rw [hT]; exact hle) hodd hl hcov
    have e1 := hs'.list hc (by rw [hT]; exact hle)
    have e2 := RW.list hc
    rw [e1] at e2
    rw [e2] at hs'
    exact ⟨RW, by rw [← hT]; exact hs'⟩

/-- `Delete` takes the merging branch of a partial boundary exactly if no covering item is as long as
the boundary. -/
theorem RegionW.merges_iff (R : RegionW c prev st next sh ig imp L) (hc : c.WF) (hk : Between prev k next)
    (hf : getFrame c.infixSize prev next = .ok fr) (hp : st.isPartial = true) {n : Nat} (hn : n < 2 ^ 28)
    (h1 : prev.length ≤ n) (h2 : next.length ≤ n) :
    mergesPartial c fr prev st (fr.item c.infixSize k) = true ↔
      ∀ z ∈ L, Hits c.infixSize (sh + ig + imp) prev z k →
        ilen c.infixSize (sh + ig + imp) z < 8 * prev.length - st.invalidBits := by
  obtain ⟨fr', g1, e1, e2, e3, _, hT⟩ := R.frame hc
  rw [hf] at g1
  obtain rfl : fr = fr' := by injection g1
  obtain ⟨_, hv, _, hq⟩ := R.value hc hk hf
  have hodd : fr.item c.infixSize k % 2 = 1 := by rw [hv, or_one]; omega
  have hle := R.T_le
  have hs2 := hc.s2
  have hib := invalidBits_lt st
  have hne : prev ≠ [] := R.part hp
  have hlen : 1 ≤ prev.length := List.length_pos_iff.2 hne
  have hlev := R.lengths.bound h1 h2
  unfold mergesPartial
  dsimp only
  rw [Bool.or_eq_true, beq_iff_eq, decide_eq_true_iff, e1, e2, e3]
  rcases longestMatch_spec hc R.has hle (key := fr.item c.infixSize k) (by rw [hv]; omega) hodd with
    ⟨m0, hno⟩ | ⟨y, hy, hyc, hmax, m1, m2, hlb⟩
  · refine ⟨fun _ z hz hzk => absurd ((R.covers_item hc hk hf hz).2 hzk) (hno z hz), fun _ => Or.inl m0⟩
  · have hyk := (R.covers_item hc hk hf hy).1 hyc
    have hil : ilen c.infixSize (sh + ig + imp) y = sh + ig + imp + longestMatch c st (fr.item c.infixSize k) - 1 := by
      unfold ilen tz
      rw [hlb, Nat.log2_two_pow]; omega
    rw [sub32_of_le (by omega) (by omega), sub32_of_le (by omega) (by omega), ← hil]
    constructor
    · rintro (h | h) z hz hzk
      · omega
      · have := (R.ilen_le_iff hc hz hy).2 (hmax z hz ((R.covers_item hc hk hf hz).2 hzk))
        omega
    · intro h
      exact Or.inr (h y hy hyk)

end

end Verif
