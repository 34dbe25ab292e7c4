import Verif.Proof.Serve
import Verif.Proof.Merge
import Verif.Proof.Defined

/-!
# The holders of a filter

Every boundary key and every stored item holds a set of keys.
-/

namespace Verif

/-- Keys held by the boundary `p` in front of the boundary key `next`. -/
def bHold (p : Key × Store) (next : Key) : Hold := fun k =>
  k = p.1 ∨ (p.2.isPartial = true ∧ keyLe p.1 k = true ∧ keyLt k next = true ∧ isPrefixOf p.1 k p.2.invalidBits = true)

/-- Keys held by an item. -/
def iHold (s : Nat) (prev next : Key) (x : Nat) : Hold := fun k =>
  keyLe prev k = true ∧ keyLt k next = true ∧ ∃ q, Level prev next q ∧ Hits s q prev x k

/-- Holders of the region above `p`. -/
def rHolds (c : Cfg) (p : Key × Store) (next : Key) : List Hold :=
  bHold p next :: (getInfixList c p.2).map (iHold c.infixSize p.1 next)

/-- Holders of a tree. -/
def holds (c : Cfg) : Tree → List Hold
  | [] => []
  | [p] => [fun k => k = p.1]
  | p :: e :: T => rHolds c p e.1 ++ holds c (e :: T)

/-- Holders of the regions of `A` when the next boundary key is `k`. -/
def fHolds (c : Cfg) : Tree → Key → List Hold
  | [], _ => []
  | [p], k => rHolds c p k
  | p :: e :: T, k => rHolds c p e.1 ++ fHolds c (e :: T) k

theorem holds_append (c : Cfg) : ∀ (A : Tree) (p : Key × Store) (B : Tree),
    holds c (A ++ p :: B) = fHolds c A p.1 ++ holds c (p :: B)
  | [], p, B => rfl
  | [a], p, B => rfl
  | a :: b :: A, p, B => by
    have := holds_append c (b :: A) p B
    simp only [List.cons_append, holds, fHolds, List.append_assoc] at this ⊢
    rw [this]

theorem rHolds_range {c : Cfg} {p : Key × Store} {next : Key} (hlt : keyLt p.1 next = true) {h : Hold}
    (hm : h ∈ rHolds c p next) {k : Key} (hk : h k) : keyLe p.1 k = true ∧ keyLt k next = true := by
  rcases List.mem_cons.1 hm with rfl | hm
  · rcases hk with rfl | ⟨_, a, b, _⟩
    · exact ⟨keyLe_refl _, hlt⟩
    · exact ⟨a, b⟩
  · obtain ⟨x, _, rfl⟩ := List.mem_map.1 hm
    exact ⟨hk.1, hk.2.1⟩

theorem fHolds_lt {c : Cfg} : ∀ {A : Tree} {k0 : Key}, A.Pairwise (fun e e' => PadLt e.1 e'.1) →
    (∀ a ∈ A, PadLt a.1 k0) → ∀ {h : Hold}, h ∈ fHolds c A k0 → ∀ {k : Key}, h k → keyLt k k0 = true
  | [], _, _, _, h, hm, _, _ => absurd hm (by simp [fHolds])
  | [a], k0, _, hA, h, hm, k, hk => (rHolds_range (keyLt_of_padLt (hA a (by simp))) hm hk).2
  | a :: b :: A, k0, hp, hA, h, hm, k, hk => by
    rw [fHolds, List.mem_append] at hm
    rw [List.pairwise_cons] at hp
    rcases hm with hm | hm
    · have h1 := (rHolds_range (keyLt_of_padLt (hp.1 b (by simp))) hm hk).2
      exact keyLt_of_lt_of_le h1 (keyLt_keyLe (keyLt_of_padLt (hA b (by simp))))
    · exact fHolds_lt hp.2 (fun x hx => hA x (List.mem_cons_of_mem _ hx)) hm hk

theorem holds_ge {c : Cfg} : ∀ {p : Key × Store} {T : Tree}, (p :: T).Pairwise (fun e e' => PadLt e.1 e'.1) →
    ∀ {h : Hold}, h ∈ holds c (p :: T) → ∀ {k : Key}, h k → keyLe p.1 k = true
  | p, [], _, h, hm, k, hk => by
    rw [holds, List.mem_singleton] at hm
    subst hm
    rw [show k = p.1 from hk]
    exact keyLe_refl _
  | p, e :: T, hp, h, hm, k, hk => by
    rw [holds, List.mem_append] at hm
    rw [List.pairwise_cons] at hp
    have hlt := keyLt_of_padLt (hp.1 e (by simp))
    rcases hm with hm | hm
    · exact (rHolds_range hlt hm hk).1
    · exact keyLe_trans (keyLt_keyLe hlt) (holds_ge hp.2 hm hk)

theorem iHold_iff {c : Cfg} {prev next k : Key} {st : Store} {sh ig imp : Nat} {L : List Nat}
    (R : RegionBase c prev st next sh ig imp L) {x : Nat} :
    iHold c.infixSize prev next x k ↔ keyLe prev k = true ∧ keyLt k next = true ∧ Hits c.infixSize (sh + ig + imp) prev x k := by
  have hl := R.lengths.level R.lt
  unfold iHold
  constructor
  · rintro ⟨a, b, q, hq, hh⟩
    rw [hq.unique hl] at hh
    exact ⟨a, b, hh⟩
  · rintro ⟨a, b, hh⟩
    exact ⟨a, b, _, hl, hh⟩

theorem keyLt_le_absurd {a b : Key} (h1 : keyLt a b = true) (h2 : keyLe b a = true) : False := by
  rw [keyLe_iff_not_lt, h1] at h2
  exact absurd h2 (by decide)

/-- Where a key with a holder lies. -/
theorem holds_locate {c : Cfg} : ∀ {T : Tree} {h : Hold}, T.Pairwise (fun e e' => PadLt e.1 e'.1) → h ∈ holds c T →
    ∀ {k : Key}, h k → (∃ A p e B, T = A ++ p :: e :: B ∧ h ∈ rHolds c p e.1 ∧ keyLe p.1 k = true ∧ keyLt k e.1 = true) ∨
      ∃ A p, T = A ++ [p] ∧ p.1 = k
  | [], h, _, hm, _, _ => absurd hm (by simp [holds])
  | [p], h, _, hm, k, hk => by
    rw [holds, List.mem_singleton] at hm
    subst hm
    exact .inr ⟨[], p, rfl, Eq.symm hk⟩
  | p :: e :: T, h, hp, hm, k, hk => by
    rw [holds, List.mem_append] at hm
    rw [List.pairwise_cons] at hp
    have hlt := keyLt_of_padLt (hp.1 e (by simp))
    rcases hm with hm | hm
    · obtain ⟨a, b⟩ := rHolds_range hlt hm hk
      exact .inl ⟨[], p, e, T, rfl, hm, a, b⟩
    · rcases holds_locate hp.2 hm hk with ⟨A, p', e', B, h1, h2⟩ | ⟨A, p', h1, h2⟩
      · exact .inl ⟨p :: A, p', e', B, by rw [h1]; rfl, h2⟩
      · exact .inr ⟨p :: A, p', by rw [h1]; rfl, h2⟩

section
variable {f : Filter}

/-- A key with a holder is found. -/
theorem FilterW.held {f : Filter} (h : FilterW f) {hd : Hold} (hm : hd ∈ holds f.cfg f.tree) {k : Key} (hk : hd k) :
    pointQuery f k = .ok true := by
  rcases holds_locate h.pairwise hm hk with ⟨A, p, e, B, ht, hr, h1, h2⟩ | ⟨A, p, ht, rfl⟩
  · by_cases heq : p.1 = k
    · rw [← heq]; exact pointQuery_boundary0 h.pairwise ht
    · obtain ⟨sh, ig, imp, L, R⟩ := h.region ht
      obtain ⟨b, hb, hbt⟩ := pointQuery_gap0 h.wf h.pairwise ht R.toRegionBase (keyLt_iff.2 ⟨h1, heq⟩) h2
      rw [hb]
      congr 1
      rw [hbt]
      rcases List.mem_cons.1 hr with rfl | hr
      · rcases hk with rfl | ⟨a, _, _, b⟩
        · exact absurd rfl heq
        · exact .inl ⟨a, b⟩
      · obtain ⟨x, hx, rfl⟩ := List.mem_map.1 hr
        rw [R.list h.wf] at hx
        exact .inr ⟨x, hx, ((iHold_iff R.toRegionBase).1 hk).2.2⟩
  · exact pointQuery_boundary0 h.pairwise ht

/-- A range with a held key is not empty. -/
theorem FilterW.held_range {f : Filter} (h : FilterW f) {hd : Hold} (hm : hd ∈ holds f.cfg f.tree) {k : Key} (hk : hd k)
    {l r : Key} (hl : keyLe l k = true) (hr : keyLe k r = true) : rangeQuery false f l r = .ok true := by
  rcases holds_locate h.pairwise hm hk with ⟨A, p, e, B, ht, hrr, h1, h2⟩ | ⟨A, p, ht, rfl⟩
  · rcases keyLe_or_lt l p.1 with hlp | hlp
    · exact rangeQuery_boundary0 h.pairwise ht hlp (keyLe_trans h1 hr)
    · rcases keyLe_or_lt e.1 r with her | her
      · have ht' : f.tree = (A ++ [p]) ++ e :: B := by rw [ht]; simp
        exact rangeQuery_boundary0 h.pairwise ht' (keyLe_trans hl (keyLt_keyLe h2)) her
      · obtain ⟨sh, ig, imp, L, R⟩ := h.region ht
        obtain ⟨b, hb, hbt⟩ := rangeQuery_gap0 h.wf h.pairwise ht R.toRegionBase hlp (keyLe_trans hl hr) her
        rw [hb]
        congr 1
        rw [hbt]
        rcases List.mem_cons.1 hrr with rfl | hrr
        · rcases hk with rfl | ⟨a, _, _, b⟩
          · exact absurd (keyLt_le_absurd hlp hl) id
          · left
            exact ⟨a, isPrefixOf_convex (invalidBits_lt _) hlp hl b⟩
        · obtain ⟨x, hx, rfl⟩ := List.mem_map.1 hrr
          rw [R.list h.wf] at hx
          right
          have hh := ((iHold_iff R.toRegionBase).1 hk).2.2
          refine ⟨x, hx, ?_⟩
          have i1 := keyLe_pre hl (ilen f.cfg.infixSize (sh + ig + imp) x)
          have i2 := keyLe_pre hr (ilen f.cfg.infixSize (sh + ig + imp) x)
          unfold Hits at hh
          omega
  · exact rangeQuery_boundary0 h.pairwise (A := A) (B := []) ht hl hr

end
/-! ## Deletion -/

section
variable {f : Filter} {A B : Tree} {p e : Key × Store}

theorem holds_mid (c : Cfg) (A B : Tree) (p e : Key × Store) :
    holds c (A ++ p :: e :: B) = fHolds c A p.1 ++ (rHolds c p e.1 ++ holds c (e :: B)) := by
  rw [holds_append]; rfl

theorem FilterW.outside (h : FilterW f) (ht : f.tree = A ++ p :: e :: B) {k : Key} (h1 : keyLe p.1 k = true)
    (h2 : keyLt k e.1 = true) : (∀ g ∈ fHolds f.cfg A p.1, ¬ g k) ∧ ∀ g ∈ holds f.cfg (e :: B), ¬ g k := by
  have hpw := h.pairwise
  rw [ht, List.pairwise_append] at hpw
  obtain ⟨a1, a2, a3⟩ := hpw
  rw [List.pairwise_cons] at a2
  constructor
  · intro g hg hk
    exact keyLt_le_absurd (fHolds_lt a1 (fun x hx => a3 x hx p (by simp)) hg hk) h1
  · intro g hg hk
    exact keyLt_le_absurd h2 (holds_ge a2.2 hg hk)

/-- Removing an item keeps the other keys served. -/
theorem FilterW.serve_raw (h : FilterW f) (ht : f.tree = A ++ p :: e :: B)
    {sh ig imp : Nat} {L : List Nat} (R : RegionW f.cfg p.1 p.2 e.1 sh ig imp L) {k : Key}
    (h1 : keyLe p.1 k = true) (h2 : keyLt k e.1 = true) {X Y : List Nat} {y : Nat} (hL : L = X ++ y :: Y)
    (hy : Hits f.cfg.infixSize (sh + ig + imp) p.1 y k)
    (hmax : ∀ z ∈ L, Hits f.cfg.infixSize (sh + ig + imp) p.1 z k →
        ilen f.cfg.infixSize (sh + ig + imp) z ≤ ilen f.cfg.infixSize (sh + ig + imp) y)
    (hb : if p.2.isPartial then 8 * p.1.length - p.2.invalidBits ≤ ilen f.cfg.infixSize (sh + ig + imp) y else p.1 ≠ k)
    {st : Store} (hpart : st.isPartial = p.2.isPartial) (hib : st.invalidBits = p.2.invalidBits)
    (R' : RegionW f.cfg p.1 st e.1 sh ig imp (X ++ Y)) {S : List Key} {n : Nat} (hS : ∀ k ∈ S, k.length = n)
    (hln : p.1.length ≤ n) (hk : k ∈ S) (hs : Serve (holds f.cfg f.tree) S) :
    Serve (holds f.cfg (A ++ (p.1, st) :: e :: B)) (S.erase k) := by
  have l1 := R.list h.wf
  have l2 := R'.list h.wf
  rw [ht, holds_mid] at hs
  rw [holds_mid]
  dsimp only
  unfold rHolds at hs ⊢
  rw [l1, hL] at hs
  rw [l2]
  have eb : bHold (p.1, st) e.1 = bHold p e.1 := by
    unfold bHold
    dsimp only
    rw [hpart, hib]
  dsimp only
  rw [eb]
  set it := iHold f.cfg.infixSize p.1 e.1 with hit
  have hp : (fHolds f.cfg A p.1 ++ (bHold p e.1 :: (X ++ y :: Y).map it ++ holds f.cfg (e :: B))).Perm
      (it y :: (fHolds f.cfg A p.1 ++ (bHold p e.1 :: (X ++ Y).map it ++ holds f.cfg (e :: B)))) := by
    rw [List.map_append, List.map_append, List.map_cons]
    have : ((bHold p e.1 :: (X.map it ++ it y :: Y.map it)) ++ holds f.cfg (e :: B)) =
      (bHold p e.1 :: X.map it) ++ it y :: (Y.map it ++ holds f.cfg (e :: B)) := by simp
    rw [this, ← List.append_assoc]
    refine List.perm_middle.trans ?_
    simp
  refine (hs.perm hp).remove hk ?_
  have out := h.outside ht h1 h2
  intro g hg hgk k' hk' hyk
  obtain ⟨y1, y2, y3⟩ := (iHold_iff R.toRegionBase).1 hyk
  rcases List.mem_append.1 hg with hg | hg
  · exact absurd hgk (out.1 g hg)
  rcases List.mem_append.1 hg with hg | hg
  · rcases List.mem_cons.1 hg with rfl | hg
    · by_cases hpp : p.2.isPartial = true
      · rw [if_pos hpp] at hb
        have hpre : isPrefixOf p.1 k p.2.invalidBits = true := by
          rcases hgk with rfl | ⟨_, _, _, hpre⟩
          · rw [isPrefixOf_iff (invalidBits_lt _)]
            exact ⟨R.part hpp, Nat.le_refl _, rfl⟩
          · exact hpre
        refine .inr ⟨hpp, y1, y2, ?_⟩
        rw [isPrefixOf_iff (invalidBits_lt _)] at hpre ⊢
        refine ⟨hpre.1, by rw [hS k' hk']; exact hln, ?_⟩
        rw [hpre.2.2]
        refine pre_eq_len hb ?_
        unfold Hits at hy y3
        omega
      · rw [if_neg hpp] at hb
        rcases hgk with rfl | ⟨h, _⟩
        · exact absurd rfl hb
        · exact absurd h hpp
    · obtain ⟨x, hx, rfl⟩ := List.mem_map.1 hg
      have hxL : x ∈ L := by
        rw [hL]
        rcases List.mem_append.1 hx with h | h
        · exact List.mem_append_left _ h
        · exact List.mem_append_right _ (List.mem_cons_of_mem _ h)
      have hxk := ((iHold_iff R.toRegionBase).1 hgk).2.2
      refine (iHold_iff R.toRegionBase).2 ⟨y1, y2, ?_⟩
      have := hmax x hxL hxk
      unfold Hits at hxk hy y3 ⊢
      rw [← hxk]
      exact pre_eq_len this (by omega)
  · exact absurd hgk (out.2 g hg)

theorem Level.exists_of {c : Cfg} {prev next : Key} {st : Store} {sh ig imp : Nat} {L : List Nat}
    (R : RegionBase c prev st next sh ig imp L) : Level prev next (sh + ig + imp) := R.lengths.level R.lt

/-- Removing a boundary keeps the other keys served. -/
theorem FilterW.serve_merge (h : FilterW f) {a : Key × Store} (ht : f.tree = A ++ a :: p :: e :: B)
    {sh1 ig1 imp1 sh2 ig2 imp2 sh ig imp : Nat} {La Lp Na Np : List Nat} {f' : Filter} {st : Store}
    (Ra : RegionW f.cfg a.1 a.2 p.1 sh1 ig1 imp1 La) (Rp : RegionW f.cfg p.1 p.2 e.1 sh2 ig2 imp2 Lp)
    (M : MergeDone f f' A a p e B (sh1 + ig1 + imp1) (sh2 + ig2 + imp2) (sh + ig + imp) La Lp Na Np st)
    (R' : RegionHas f.cfg a.1 st e.1 sh ig imp (Na ++ Np)) {k : Key} (h1 : keyLe p.1 k = true)
    (h2 : keyLt k e.1 = true)
    (hb : if p.2.isPartial then isPrefixOf p.1 k p.2.invalidBits = true ∧
      ∀ z ∈ Lp, Hits f.cfg.infixSize (sh2 + ig2 + imp2) p.1 z k →
        ilen f.cfg.infixSize (sh2 + ig2 + imp2) z < 8 * p.1.length - p.2.invalidBits else p.1 = k)
    {S : List Key} (hk : k ∈ S) (hs : Serve (holds f.cfg f.tree) S) :
    Serve (holds f'.cfg f'.tree) (S.erase k) := by
  have l1 := Ra.list h.wf
  have l2 := Rp.list h.wf
  have l3 := R'.list h.wf
  have ht2 : f.tree = (A ++ [a]) ++ p :: e :: B := by rw [ht]; simp
  have out := h.outside ht2 h1 h2
  have hfA : fHolds f.cfg (A ++ [a]) p.1 = fHolds f.cfg A a.1 ++ rHolds f.cfg a p.1 := by
    have e1 := holds_append f.cfg (A ++ [a]) p []
    have e2 := holds_append f.cfg A a [p]
    rw [List.append_assoc, List.singleton_append, e2] at e1
    rw [show holds f.cfg (a :: [p]) = rHolds f.cfg a p.1 ++ holds f.cfg [p] from rfl, ← List.append_assoc] at e1
    exact (List.append_cancel_right e1).symm
  have hap := keyLt_of_padLt Ra.lt
  have hpe := keyLt_of_padLt Rp.lt
  have s1 : Serve (fHolds f.cfg (A ++ [a]) p.1 ++ (Lp.map (iHold f.cfg.infixSize p.1 e.1) ++ holds f.cfg (e :: B)))
      (S.erase k) := by
    rw [ht2, holds_mid] at hs
    unfold rHolds at hs
    rw [l2, List.cons_append] at hs
    refine (hs.perm List.perm_middle).remove hk ?_
    intro g hg hgk k' hk' hyk
    rcases List.mem_append.1 hg with hg | hg
    · exact absurd hgk (out.1 g hg)
    rcases List.mem_append.1 hg with hg | hg
    · obtain ⟨x, hx, rfl⟩ := List.mem_map.1 hg
      have hxk := ((iHold_iff Rp.toRegionBase).1 hgk).2.2
      by_cases hpp : p.2.isPartial = true
      · rw [if_pos hpp] at hb
        obtain ⟨b1, b2⟩ := hb
        have b3 := b2 x hx hxk
        have hk1 : keyLe p.1 k' = true ∧ keyLt k' e.1 = true ∧
            pre (8 * p.1.length - p.2.invalidBits) p.1 = pre (8 * p.1.length - p.2.invalidBits) k' := by
          rcases hyk with rfl | ⟨_, c1, c2, c3⟩
          · exact ⟨keyLe_refl _, hpe, rfl⟩
          · exact ⟨c1, c2, ((isPrefixOf_iff (invalidBits_lt _)).1 c3).2.2⟩
        refine (iHold_iff Rp.toRegionBase).2 ⟨hk1.1, hk1.2.1, ?_⟩
        have b4 := ((isPrefixOf_iff (invalidBits_lt _)).1 b1).2.2
        unfold Hits at hxk ⊢
        rw [← hxk]
        exact pre_eq_len (Nat.le_of_lt b3) (by omega)
      · rw [if_neg hpp] at hb
        rcases hyk with he | ⟨h, _⟩
        · rw [he.trans hb]; exact hgk
        · exact absurd h hpp
    · exact absurd hgk (out.2 g hg)
  rw [hfA] at s1
  rw [M.out]
  dsimp only
  rw [holds_mid]
  dsimp only
  unfold rHolds at s1 ⊢
  dsimp only
  rw [l1] at s1
  rw [l3, List.map_append]
  rw [List.append_assoc, List.cons_append] at s1
  rw [List.cons_append, List.append_assoc]
  refine s1.weaken ?_
  have hid : ∀ G : List Hold, List.Forall₂ (fun h g : Hold => ∀ k' ∈ S.erase k, h k' → g k') G G :=
    fun G => List.forall₂_same.2 fun _ _ _ _ h => h
  refine List.rel_append (hid _) (.cons ?_ (List.rel_append ?_ (List.rel_append ?_ (hid _))))
  · intro k' _ hk'
    rcases hk' with rfl | ⟨c1, c2, c3, c4⟩
    · exact .inl rfl
    · right
      dsimp only
      rw [M.part, M.ib]
      exact ⟨c1, c2, keyLt_of_lt_of_le c3 (keyLt_keyLe hpe), c4⟩
  · rw [List.forall₂_map_left_iff, List.forall₂_map_right_iff]
    refine M.lower.imp fun x y hxy k' _ hk' => ?_
    obtain ⟨c1, c2, c3⟩ := (iHold_iff Ra.toRegionBase).1 hk'
    exact (iHold_iff R'.toRegionBase).2 ⟨c1, keyLt_of_lt_of_le c2 (keyLt_keyLe hpe), hxy.hits c3⟩
  · rw [List.forall₂_map_left_iff, List.forall₂_map_right_iff]
    refine M.upper.imp fun x y hxy k' _ hk' => ?_
    obtain ⟨c1, c2, c3⟩ := (iHold_iff Rp.toRegionBase).1 hk'
    exact (iHold_iff R'.toRegionBase).2 ⟨keyLe_trans (keyLt_keyLe hap) c1, c2, hxy.hits c3⟩

end

end Verif
