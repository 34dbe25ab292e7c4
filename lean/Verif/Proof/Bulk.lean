import Verif.Proof.Insert
import Verif.Proof.Clean

/-!
# Bulk loading
-/

namespace Verif

/-- The item the code stores for key `k` in the region above `prev` at level `p`. -/
def itemOf (s p : Nat) (prev k : Key) : Nat := relVal s p prev k ||| 1

theorem ile_of_odd {x y : Nat} (hx : x % 2 = 1) (hy : y % 2 = 1) (hx64 : x < 2 ^ 64) (hy64 : y < 2 ^ 64) (h : x ≤ y) :
    ile x y := by
  obtain ⟨a, rfl⟩ : ∃ a, x = (2 * a + 1) * 2 ^ 0 := ⟨x / 2, by omega⟩
  obtain ⟨b, rfl⟩ : ∃ b, y = (2 * b + 1) * 2 ^ 0 := ⟨y / 2, by omega⟩
  unfold ile
  rw [nolb64_odd hx64, nolb64_odd hy64, lb64_odd hx64, lb64_odd hy64]
  simp only [pow_zero]
  omega

theorem size_growSep {c : Cfg} (hc : c.WF) : 1024 ≤ c.size growSep := by
  have := hc.sep1
  unfold Cfg.size
  rw [Nat.shiftRight_eq_div_pow]
  omega

section
variable {c : Cfg} {left right : Key} {mid : List Key}

/-- The items of keys between two boundaries. -/
theorem items_ok (hc : c.WF) {sh ig imp : Nat} (hlt : PadLt left right)
    (hs : sharedIgnoreImplicit left right = some (sh, ig, imp))
    (hmid : ∀ k ∈ mid, Between left k right) (hsort : mid.Pairwise fun a b => ∀ p, pre p a ≤ pre p b) :
    Loadable c.infixSize (pre (sh + ig + imp) right - pre (sh + ig + imp) left + 1)
      (mid.map (itemOf c.infixSize (sh + ig + imp) left)) ∧
    (∀ x ∈ mid.map (itemOf c.infixSize (sh + ig + imp) left), Inside c.infixSize (sh + ig + imp) left right x) ∧
    ∀ fr, getFrame c.infixSize left right = .ok fr → bulkItems c.infixSize fr mid =
      mid.map (itemOf c.infixSize (sh + ig + imp) left) := by
  have R0 : RegionHas c left (Store.new 0) right sh ig imp [] := by
    refine .make hlt hs (new_has ⟨by omega, Or.inl rfl⟩) (by simp) ?_
    rw [(new_fields (g := 0) (by omega)).2.2.2.2]; simp
  obtain ⟨fr, hf, _⟩ := R0.frame hc
  have hT := R0.T_le
  have hval : ∀ k ∈ mid, itemOf c.infixSize (sh + ig + imp) left k % 2 = 1 ∧
      itemOf c.infixSize (sh + ig + imp) left k / 2 ^ c.infixSize <
        pre (sh + ig + imp) right - pre (sh + ig + imp) left + 1 ∧
      itemOf c.infixSize (sh + ig + imp) left k < 2 ^ 64 := by
    intro k hk
    obtain ⟨_, _, _, hq⟩ := R0.value hc (hmid k hk) hf
    unfold itemOf
    refine ⟨by rw [or_one]; omega, hq, ?_⟩
    exact (item_bound (s := c.infixSize) (by have := hc.s2; omega) (by omega)).2
  refine ⟨⟨?_, ?_⟩, ?_, ?_⟩
  · rw [List.pairwise_map]
    apply List.Pairwise.imp_of_mem _ hsort
    intro a b ha hb hab
    exact ile_of_odd (hval a ha).1 (hval b hb).1 (hval a ha).2.2 (hval b hb).2.2 (relVal_mono (hab _))
  · intro x hx
    obtain ⟨k, hk, rfl⟩ := List.mem_map.1 hx
    obtain ⟨h1, h2, h3⟩ := hval k hk
    refine ⟨?_, h2⟩
    intro h0
    have : 2 ∣ 2 ^ c.infixSize := dvd_pow_self 2 (by have := hc.s1; omega)
    have := Nat.dvd_trans this (Nat.dvd_of_mod_eq_zero h0)
    omega
  · intro x hx
    obtain ⟨k, hk, rfl⟩ := List.mem_map.1 hx
    have := R0.item_prefix hc (hmid k hk)
    unfold Inside itemOf
    rw [this.1, this.2]
    exact hmid k hk _
  · intro fr hf
    unfold bulkItems
    apply List.map_congr_left
    intro k hk
    exact (R0.value hc (hmid k hk) hf).2.1

theorem bulkRegion_spec (hc : c.WF) {t : Tree} {g : Nat} (hg : c.Fine g) (hlt : PadLt left right)
    (hmid : ∀ k ∈ mid, Between left k right) (hsort : mid.Pairwise fun a b => ∀ p, pre p a ≤ pre p b)
    (hlen : mid.length ≤ c.size g) (hcnt : mid.length < 2 ^ 20) :
    ∃ st sh ig imp, bulkRegion c t left right mid g = .ok (treePut t left st) ∧
      RegionHas c left st right sh ig imp (mid.map (itemOf c.infixSize (sh + ig + imp) left)) ∧
      st.isPartial = false ∧ CleanStore c st := by
  cases hs : sharedIgnoreImplicit left right with
  | none =>
    rw [sii_none] at hs
    obtain ⟨q, hq⟩ := hlt
    have := hs q; omega
  | some v =>
    obtain ⟨sh, ig, imp⟩ := v
    obtain ⟨h1, h2, h3⟩ := items_ok hc hlt hs hmid hsort
    have R0 : RegionHas c left (Store.new 0) right sh ig imp [] := by
      refine .make hlt hs (new_has ⟨by omega, Or.inl rfl⟩) (by simp) ?_
      rw [(new_fields (g := 0) (by omega)).2.2.2.2]; simp
    obtain ⟨fr, hf, _, _, _, _, hT⟩ := R0.frame hc
    obtain ⟨f1, f2, f3, f4, f5⟩ := new_fields hg.1
    obtain ⟨l1, l2, l3, l4⟩ := loadList_has (st := Store.new g) (z := false) hc R0.T_le f3
      (by rw [f2]; exact hg) (Or.inr (blank_zero _ _)) h1 (by rw [f2, List.length_map]; exact hlen) (by rw [List.length_map]; exact hcnt)
    refine ⟨_, sh, ig, imp, ?_, .make hlt hs l4 h2 ?_, ?_, clean_load hc R0.T_le f3 (by rw [f2]; exact hg) (Or.inr rfl) h1
      (by rw [f2, List.length_map]; exact hlen) (by rw [List.length_map]; exact hcnt)⟩
    · unfold bulkRegion
      rw [hf, Res.bind_ok, h3 fr hf, hT]
    · rw [l3, f5]; simp
    · rw [l3, f5]

end

/-! ## The loop -/

/-- The region from `prev` to `next` holds exactly the items of the keys of `K` strictly inside, at most 1023. -/
def RegionOf (c : Cfg) (K : List Key) (prev : Key) (st : Store) (next : Key) : Prop :=
  ∃ sh ig imp, RegionHas c prev st next sh ig imp
    ((K.filter fun k => keyLt prev k && keyLt k next).map (itemOf c.infixSize (sh + ig + imp) prev)) ∧
    st.isPartial = false ∧ (K.filter fun k => keyLt prev k && keyLt k next).length ≤ 1023

/-- The same for loads with repeated keys: `M` are the keys placed in the region, among them every copy of
a key strictly inside, and nothing else if the loaded keys are distinct. -/
def RegionIn (c : Cfg) (K : List Key) (prev : Key) (st : Store) (next : Key) : Prop :=
  ∃ sh ig imp M, RegionHas c prev st next sh ig imp (M.map (itemOf c.infixSize (sh + ig + imp) prev)) ∧
    st.isPartial = false ∧ M.length ≤ 1023 ∧ (∀ k, keyLt prev k = true → keyLt k next = true → K.count k ≤ M.count k) ∧
    (K.Pairwise PadLt → M = K.filter fun k => keyLt prev k && keyLt k next)

theorem mem_of_count {K M : List Key} {k : Key} (hk : k ∈ K) (h : K.count k ≤ M.count k) : k ∈ M :=
  List.count_pos_iff.1 (Nat.lt_of_lt_of_le (List.count_pos_iff.2 hk) h)

theorem RegionIn.exact {c : Cfg} {K : List Key} {prev next : Key} {st : Store} (h : RegionIn c K prev st next)
    (hK : K.Pairwise PadLt) : RegionOf c K prev st next := by
  obtain ⟨sh, ig, imp, M, R, hp, hl, _, hM⟩ := h
  rw [hM hK] at R hl
  exact ⟨sh, ig, imp, R, hp, hl⟩

theorem PadLeq.le {a b : Key} (h : PadLeq a b) (p : Nat) : pre p a ≤ pre p b := by
  rcases h with rfl | h
  · exact Nat.le_refl _
  · exact h.le p

theorem PadLeq.lt {a b : Key} (h : PadLeq a b) (hne : a ≠ b) : PadLt a b := h.resolve_left hne

theorem PadLeq.not_lt {a b : Key} (h : PadLeq a b) : keyLt b a = false := by
  rcases h with rfl | h
  · exact keyLt_irrefl _
  · exact keyLt_asymm (keyLt_of_padLt h)

theorem between_count {K1 M K2 : List Key} {l r : Key} (h : (K1 ++ l :: (M ++ r :: K2)).Pairwise PadLeq) :
    ∀ k, keyLt l k = true → keyLt k r = true → (K1 ++ l :: (M ++ r :: K2)).count k ≤ M.count k := by
  rw [List.pairwise_append, List.pairwise_cons, List.pairwise_append, List.pairwise_cons] at h
  obtain ⟨h1, ⟨h2, h3, ⟨h4, h5⟩, h6⟩, h7⟩ := h
  intro k hl hr
  have e1 : K1.count k = 0 := List.count_eq_zero.2 fun hk => by
    rw [(h7 k hk l (by simp)).not_lt] at hl; cases hl
  have e2 : K2.count k = 0 := List.count_eq_zero.2 fun hk => by
    rw [(h4 k hk).not_lt] at hr; cases hr
  have e3 : l ≠ k := by rintro rfl; rw [keyLt_irrefl] at hl; cases hl
  have e4 : r ≠ k := by rintro rfl; rw [keyLt_irrefl] at hr; cases hr
  rw [List.count_append, List.count_cons_of_ne e3, List.count_append, List.count_cons_of_ne e4]
  omega

theorem filter_between {K1 M K2 : List Key} {l r : Key} (h : (K1 ++ l :: (M ++ r :: K2)).Pairwise PadLt) :
    (K1 ++ l :: (M ++ r :: K2)).filter (fun k => keyLt l k && keyLt k r) = M := by
  rw [List.pairwise_append, List.pairwise_cons, List.pairwise_append, List.pairwise_cons] at h
  obtain ⟨h1, ⟨h2, h3, ⟨h4, h5⟩, h6⟩, h7⟩ := h
  have e1 : K1.filter (fun k => keyLt l k && keyLt k r) = [] := by
    rw [List.filter_eq_nil_iff]
    intro k hk
    rw [keyLt_asymm (keyLt_of_padLt (h7 k hk l (by simp)))]; simp
  have e2 : K2.filter (fun k => keyLt l k && keyLt k r) = [] := by
    rw [List.filter_eq_nil_iff]
    intro k hk
    rw [keyLt_asymm (keyLt_of_padLt (h4 k hk))]; simp
  have e3 : M.filter (fun k => keyLt l k && keyLt k r) = M := by
    rw [List.filter_eq_self]
    intro k hk
    rw [keyLt_of_padLt (h2 k (by simp [hk])), keyLt_of_padLt (h6 k hk r (by simp))]; rfl
  rw [List.filter_append, e1, List.filter_cons_of_neg (by rw [keyLt_irrefl]; simp), List.filter_append, e3,
    List.filter_cons_of_neg (by rw [keyLt_irrefl]; simp), e2]
  simp

theorem slice {K : List Key} {i j : Nat} (hij : i < j) (hj : j < K.length) :
    K = K.take i ++ K.getD i [] :: ((K.drop (i + 1)).take (j - i - 1) ++ K.getD j [] :: K.drop (j + 1)) := by
  have ei : K.getD i [] = K[i] := by
    rw [List.getD_eq_getElem?_getD, List.getElem?_eq_getElem (by omega)]; rfl
  have ej : K.getD j [] = K[j] := by
    rw [List.getD_eq_getElem?_getD, List.getElem?_eq_getElem hj]; rfl
  have h2 : K.drop (i + 1) = (K.drop (i + 1)).take (j - i - 1) ++ K.getD j [] :: K.drop (j + 1) := by
    conv_lhs => rw [← List.take_append_drop (j - i - 1) (K.drop (i + 1))]
    rw [List.drop_drop, show i + 1 + (j - i - 1) = j by omega, List.drop_eq_getElem_cons hj, ej]
  rw [← h2, ei, ← List.drop_eq_getElem_cons (by omega), List.take_append_drop]

/-- What lies above `left` in the tree during the load; `b` says whether `F` is there. -/
def Tail (b : Bool) (F : Key) (rest : Tree) (left : Key) : Prop :=
  (rest = [] ∧ b = false) ∨ (∃ x, rest = [(left, x)] ∧ (b = true → left = F)) ∨
    (b = true ∧ keyLt left F = true ∧ ∃ y, rest = [(F, y)]) ∨
    (b = true ∧ keyLt left F = true ∧ ∃ x y, rest = [(left, x), (F, y)])

def Above (b : Bool) (F left : Key) (R : Tree) : Prop :=
  (R = [] ∧ (b = true → left = F)) ∨ (b = true ∧ keyLt left F = true ∧ ∃ y, R = [(F, y)])

theorem Tail.put {b : Bool} {F : Key} {rest : Tree} {left : Key} (h : Tail b F rest left) :
    ∃ R, Above b F left R ∧ ∀ st, treePut rest left st = (left, st) :: R := by
  rcases h with ⟨rfl, hb⟩ | ⟨x, rfl, hb⟩ | ⟨hb, hF, y, rfl⟩ | ⟨hb, hF, x, y, rfl⟩
  · exact ⟨[], Or.inl ⟨rfl, by simp [hb]⟩, fun _ => rfl⟩
  · refine ⟨[], Or.inl ⟨rfl, hb⟩, fun st => ?_⟩
    have := treePut_replace (A := []) (B := []) (k := left) (st := x) (st2 := st) (by simp)
    simpa using this
  · refine ⟨[(F, y)], Or.inr ⟨hb, hF, y, rfl⟩, fun st => ?_⟩
    have := treePut_insert (A := []) (B := []) (k := left) (e := (F, y)) (st := st) (by simp) hF
    simpa using this
  · refine ⟨[(F, y)], Or.inr ⟨hb, hF, y, rfl⟩, fun st => ?_⟩
    have := treePut_replace (A := []) (B := [(F, y)]) (k := left) (st := x) (st2 := st) (by simp)
    simpa using this

theorem Above.tail {b : Bool} {F left right : Key} {R : Tree} (h : Above b F left R) (hlt : keyLt left right = true)
    (hle : keyLe right F = true) : Tail b F R right := by
  rcases h with ⟨rfl, hb⟩ | ⟨hb, _, y, rfl⟩
  · refine Or.inl ⟨rfl, ?_⟩
    cases b with
    | false => rfl
    | true =>
      rw [← hb rfl] at hle
      rw [keyLe_iff_not_lt, hlt] at hle; cases hle
  · by_cases he : right = F
    · subst he; exact Or.inr (Or.inl ⟨y, rfl, fun _ => rfl⟩)
    · exact Or.inr (Or.inr (Or.inl ⟨hb, keyLt_iff.2 ⟨hle, he⟩, y, rfl⟩))

/-- State of the bulk load with `left` as the next lower boundary. -/
def BulkInv (b : Bool) (B0 : List Key) (c : Cfg) (K : List Key) (F : Key) (t : Tree) (left : Key) : Prop :=
  ∃ T0 rest, t = T0 ++ rest ∧ (∀ a ∈ T0, PadLt a.1 left) ∧
    (T0 ++ [(left, Store.new 0)]).IsChain (fun e e' => RegionIn c K e.1 e.2 e'.1) ∧ Tail b F rest left ∧
    K.getD 0 [] ∈ (T0 ++ [(left, Store.new 0)]).map Prod.fst ∧
    (∀ a ∈ T0, a.1 ∈ B0 ∨ a.1 ∈ K) ∧ (∀ k ∈ B0, k ∈ T0.map Prod.fst) ∧ CleanTree c t

theorem chain_snoc {r : Key → Store → Key → Prop} {T : Tree} {left right : Key} {st0 st st2 : Store}
    (h : (T ++ [(left, st0)]).IsChain (fun e e' => r e.1 e.2 e'.1)) (hr : r left st right) :
    (T ++ [(left, st)] ++ [(right, st2)]).IsChain (fun e e' => r e.1 e.2 e'.1) := by
  rw [List.isChain_append] at h
  rw [List.append_assoc, List.cons_append, List.nil_append]
  rw [List.isChain_append_cons_cons]
  refine ⟨?_, hr, List.isChain_singleton _⟩
  rw [List.isChain_append]
  refine ⟨h.1, List.isChain_singleton _, ?_⟩
  intro x hx y hy
  simp only [List.head?_cons, Option.mem_def, Option.some.injEq] at hy
  subst hy
  exact h.2.2 x hx (left, st0) (by simp)

section
variable {b : Bool} {B0 : List Key} {c : Cfg} {K : List Key} {F : Key}

theorem pad_getD (hK : K.Pairwise PadLt) {i j : Nat} (hij : i < j) (hj : j < K.length) :
    PadLt (K.getD i []) (K.getD j []) := by
  have e := slice hij hj
  rw [e, List.pairwise_append, List.pairwise_cons] at hK
  exact hK.2.1.1 _ (by simp)

theorem leq_getD (hK : K.Pairwise PadLeq) {i j : Nat} (hij : i < j) (hj : j < K.length) :
    PadLeq (K.getD i []) (K.getD j []) := by
  have e := slice hij hj
  rw [e, List.pairwise_append, List.pairwise_cons] at hK
  exact hK.2.1.1 _ (by simp)

theorem leq_of_lt (hK : K.Pairwise PadLt) : K.Pairwise PadLeq := hK.imp fun h => Or.inr h

/-- With distinct keys only the number of keys matters. -/
theorem sampled_iff (hK : K.Pairwise PadLt) (hn : K.length ≠ 0) : Sampled K ↔ K.length % 1024 ≠ 1 := by
  constructor
  · intro h h1
    apply h.2
    rw [show 1024 * ((K.length - 1) / 1024) = K.length - 1 by omega]
  · intro h1
    refine ⟨fun j hj he => ?_, fun he => ?_⟩
    · have := pad_getD hK (i := 1024 * j) (j := 1024 * (j + 1)) (by omega) hj
      rw [he] at this; exact PadLt.irrefl _ this
    · have := pad_getD hK (i := 1024 * ((K.length - 1) / 1024)) (j := K.length - 1) (by omega) (by omega)
      rw [he] at this; exact PadLt.irrefl _ this

/-- A region between two equal keys. -/
theorem bulkRegion_hang {t : Tree} {k : Key} {M : List Key} {g : Nat} : bulkRegion c t k k M g = .hang := by
  unfold bulkRegion getFrame
  rw [sii_none.2 (fun _ => rfl)]
  rfl

/-- Storing one region. -/
theorem bulk_step (hc : c.WF) (hK : K.Pairwise PadLeq) (hF : ∀ k ∈ K, keyLe k F = true) {i j g : Nat} (hij : i < j)
    (hj : j < K.length) (hne : K.getD i [] ≠ K.getD j []) {t : Tree} (hinv : BulkInv b B0 c K F t (K.getD i [])) (hg : c.Fine g)
    (hlen : j - i - 1 ≤ c.size g) (hcnt : j - i - 1 ≤ 1023) :
    ∃ t', bulkRegion c t (K.getD i []) (K.getD j []) ((K.drop (i + 1)).take (j - i - 1)) g = .ok t' ∧
      BulkInv b B0 c K F t' (K.getD j []) := by
  have e := slice hij hj
  have hK' := hK
  rw [e] at hK'
  have hbm := between_count hK'
  rw [← e] at hbm
  have hfil : K.Pairwise PadLt → (K.drop (i + 1)).take (j - i - 1) =
      K.filter (fun k => keyLt (K.getD i []) k && keyLt k (K.getD j [])) := by
    intro h
    have := h
    rw [e] at this
    have := filter_between this
    rw [← e] at this
    exact this.symm
  rw [List.pairwise_append, List.pairwise_cons, List.pairwise_append, List.pairwise_cons] at hK'
  obtain ⟨_, ⟨h2, h3, ⟨h4, h5⟩, h6⟩, h7⟩ := hK'
  have hlt := (h2 (K.getD j []) (by simp)).lt hne
  obtain ⟨st, sh, ig, imp, hb, R, hp, hcl⟩ := bulkRegion_spec (t := t) hc hg hlt
    (mid := (K.drop (i + 1)).take (j - i - 1))
    (fun k hk q => ⟨(h2 k (by simp [hk])).le q, (h6 k hk _ (by simp)).le q⟩)
    (h3.imp fun hab => hab.le) (by rw [List.length_take]; omega) (by rw [List.length_take]; omega)
  refine ⟨_, hb, ?_⟩
  obtain ⟨T0, rest, rfl, hT0, hch, htl, hfst, hB1, hB2, hct⟩ := hinv
  obtain ⟨Rr, hab, hput⟩ := htl.put
  have hmem : K.getD j [] ∈ K := by
    rw [List.getD_eq_getElem?_getD, List.getElem?_eq_getElem hj]; exact List.getElem_mem _
  have hmemi : K.getD i [] ∈ K := by
    rw [List.getD_eq_getElem?_getD, List.getElem?_eq_getElem (by omega)]; exact List.getElem_mem _
  refine ⟨T0 ++ [(K.getD i [], st)], Rr, ?_, ?_, ?_, hab.tail (keyLt_of_padLt hlt) (hF _ hmem), ?_, ?_, ?_, hct.put hcl⟩
  · rw [treePut_below (fun a ha => keyLt_of_padLt (hT0 a ha)), hput]; simp
  · intro a ha
    rcases List.mem_append.1 ha with ha | ha
    · exact (hT0 a ha).trans hlt
    · simp only [List.mem_singleton] at ha; subst ha; exact hlt
  · apply chain_snoc hch
    exact ⟨sh, ig, imp, _, R, hp, by rw [List.length_take]; omega, hbm, hfil⟩
  · simp only [List.map_append, List.mem_append, List.map_cons, List.map_nil, List.mem_singleton] at hfst ⊢
    tauto
  · intro a ha
    rcases List.mem_append.1 ha with ha | ha
    · exact hB1 a ha
    · simp only [List.mem_singleton] at ha; subst ha; exact Or.inr hmemi
  · intro k hk
    rw [List.map_append, List.mem_append]
    exact Or.inl (hB2 k hk)

theorem bulkLoop_spec (hc : c.WF) (hK : K.Pairwise PadLeq) (hF : ∀ k ∈ K, keyLe k F = true) :
    ∀ fuel j last t, 1 ≤ j → fuel + j = K.length → last = 1024 * ((j - 1) / 1024) →
      BulkInv b B0 c K F t (K.getD last []) →
      (∀ i, j ≤ 1024 * (i + 1) → 1024 * (i + 1) < K.length → K.getD (1024 * i) [] ≠ K.getD (1024 * (i + 1)) []) →
      ∃ t', bulkLoop c K fuel j last t = .ok (t', 1024 * ((K.length - 1) / 1024)) ∧
        BulkInv b B0 c K F t' (K.getD (1024 * ((K.length - 1) / 1024)) []) := by
  intro fuel
  induction fuel with
  | zero =>
    intro j last t h1 h2 h3 hinv _
    have : last = 1024 * ((K.length - 1) / 1024) := by rw [h3]; congr 2; omega
    rw [this] at hinv
    exact ⟨t, by rw [bulkLoop, this], hinv⟩
  | succ fuel ih =>
    intro j last t h1 h2 h3 hinv hd
    rw [bulkLoop]
    by_cases hj : j % 1024 = 0
    · rw [if_pos hj]
      have e : j - last - 1 = 1023 := by omega
      have hne : K.getD last [] ≠ K.getD j [] := by
        have := hd ((j - 1) / 1024) (by omega) (by omega)
        rwa [← h3, show 1024 * ((j - 1) / 1024 + 1) = j by omega] at this
      obtain ⟨t', hb, hinv'⟩ := bulk_step hc hK hF (i := last) (j := j) (g := growSep) (by omega) (by omega) hne hinv
        hc.fine_sep (by have := size_growSep hc; omega) (by omega)
      rw [e] at hb
      rw [hb, Res.bind_ok]
      have e2 : last + 1024 = j := by omega
      rw [e2]
      exact ih (j + 1) j t' (by omega) (by omega) (by omega) hinv' (fun i hi => hd i (by omega))
    · rw [if_neg hj]
      exact ih (j + 1) last t (by omega) (by omega) (by omega) hinv (fun i hi => hd i (by omega))

/-- Two equal neighbours among the sampled keys. -/
theorem bulkLoop_hang (hc : c.WF) (hK : K.Pairwise PadLeq) (hF : ∀ k ∈ K, keyLe k F = true) :
    ∀ fuel j last t, 1 ≤ j → fuel + j = K.length → last = 1024 * ((j - 1) / 1024) →
      BulkInv b B0 c K F t (K.getD last []) →
      (∃ i, j ≤ 1024 * (i + 1) ∧ 1024 * (i + 1) < K.length ∧ K.getD (1024 * i) [] = K.getD (1024 * (i + 1)) []) →
      bulkLoop c K fuel j last t = .hang := by
  intro fuel
  induction fuel with
  | zero =>
    intro j last t h1 h2 h3 hinv ⟨i, hi, _⟩
    omega
  | succ fuel ih =>
    intro j last t h1 h2 h3 hinv ⟨i, hi1, hi2, hi3⟩
    rw [bulkLoop]
    by_cases hj : j % 1024 = 0
    · rw [if_pos hj]
      have e : j - last - 1 = 1023 := by omega
      by_cases hne : K.getD last [] = K.getD j []
      · rw [hne, bulkRegion_hang]; rfl
      · obtain ⟨t', hb, hinv'⟩ := bulk_step hc hK hF (i := last) (j := j) (g := growSep) (by omega) (by omega) hne hinv
          hc.fine_sep (by have := size_growSep hc; omega) (by omega)
        rw [e] at hb
        rw [hb, Res.bind_ok]
        have e2 : last + 1024 = j := by omega
        rw [e2]
        refine ih (j + 1) j t' (by omega) (by omega) (by omega) hinv' ⟨i, ?_, hi2, hi3⟩
        by_contra hlt
        have e3 : 1024 * (i + 1) = j := by omega
        rw [e3, show 1024 * i = last by omega] at hi3
        exact hne hi3
    · rw [if_neg hj]
      exact ih (j + 1) last t (by omega) (by omega) (by omega) hinv ⟨i, by omega, hi2, hi3⟩

/-- Both bulk loads: what is built, and when. -/
theorem bulkCore_spec (hc : c.WF) (hK : K.Pairwise PadLeq) (hF : ∀ k ∈ K, keyLe k F = true) {t : Tree}
    (hinv : BulkInv b B0 c K F t (K.getD 0 [])) (hn : K.length ≠ 0) :
    (¬ Sampled K → bulkCore c t K = .hang) ∧
    (Sampled K → ∃ T R, bulkCore c t K = .ok (T ++ (K.getD (K.length - 1) [], Store.new growSep) :: R) ∧
      Above b F (K.getD (K.length - 1) []) R ∧
      (T ++ [(K.getD (K.length - 1) [], Store.new growSep)]).IsChain (fun e e' => RegionIn c K e.1 e.2 e'.1) ∧
      K.getD 0 [] ∈ (T ++ [(K.getD (K.length - 1) [], Store.new growSep)]).map Prod.fst ∧
      (∀ a ∈ T, a.1 ∈ B0 ∨ a.1 ∈ K) ∧ (∀ k ∈ B0, k ∈ T.map Prod.fst) ∧
      CleanTree c (T ++ (K.getD (K.length - 1) [], Store.new growSep) :: R)) := by
  by_cases hd : ∃ i, 1 ≤ 1024 * (i + 1) ∧ 1024 * (i + 1) < K.length ∧ K.getD (1024 * i) [] = K.getD (1024 * (i + 1)) []
  · refine ⟨fun _ => ?_, fun h => ?_⟩
    · unfold bulkCore
      rw [if_neg hn, bulkLoop_hang hc hK hF (K.length - 1) 1 0 t (by omega) (by omega) (by omega) hinv hd]; rfl
    · obtain ⟨i, _, hi, he⟩ := hd
      exact absurd he (h.1 i hi)
  have hd' : ∀ i, 1 ≤ 1024 * (i + 1) → 1024 * (i + 1) < K.length → K.getD (1024 * i) [] ≠ K.getD (1024 * (i + 1)) [] :=
    fun i h1 h2 h3 => hd ⟨i, h1, h2, h3⟩
  obtain ⟨t', hl, hinv'⟩ := bulkLoop_spec hc hK hF (K.length - 1) 1 0 t (by omega) (by omega) (by omega) hinv hd'
  have hcore : bulkCore c t K = (bulkRegion c t' (K.getD (1024 * ((K.length - 1) / 1024)) []) (K.getD (K.length - 1) [])
      ((K.drop (1024 * ((K.length - 1) / 1024) + 1)).take (K.length - 1 - (1024 * ((K.length - 1) / 1024) + 1)))
      (findGrade c ((K.drop (1024 * ((K.length - 1) / 1024) + 1)).take
        (K.length - 1 - (1024 * ((K.length - 1) / 1024) + 1))).length 500 0)).bind fun t2 =>
        .ok (if K.length - 1 ≠ 1024 * ((K.length - 1) / 1024) then addTreeKey t2 (K.getD (K.length - 1) []) else t2) := by
    unfold bulkCore
    rw [if_neg hn, hl]; rfl
  rw [hcore]
  constructor
  · intro h1
    have e : K.getD (1024 * ((K.length - 1) / 1024)) [] = K.getD (K.length - 1) [] := by
      by_contra he
      exact h1 ⟨fun i hi => hd' i (by omega) hi, he⟩
    rw [e, bulkRegion_hang]
    rfl
  · intro hsam
    have hlne := hsam.2
    have hl1 : 1024 * ((K.length - 1) / 1024) ≠ K.length - 1 := fun e => hlne (by rw [e])
    generalize hlast : 1024 * ((K.length - 1) / 1024) = last at *
    have h2 : last < K.length - 1 := by omega
    rw [show K.length - 1 - (last + 1) = K.length - 1 - last - 1 by omega]
    have hml : ((K.drop (last + 1)).take (K.length - 1 - last - 1)).length = K.length - 1 - last - 1 := by
      rw [List.length_take, List.length_drop]; omega
    rw [hml]
    obtain ⟨g1, g2⟩ := findGrade_lt (c := c) (len := K.length - 1 - last - 1) (by omega) (by have := hc.top; omega)
    obtain ⟨t2, hb, hinv2⟩ := bulk_step hc hK hF (i := last) (j := K.length - 1) h2 (by omega) hlne hinv' g2 g1 (by omega)
    rw [hb, Res.bind_ok, if_pos (by omega)]
    obtain ⟨T0, rest, rfl, hT0, hch, htl, hfst, hB1, hB2, hct⟩ := hinv2
    obtain ⟨R, hab, hput⟩ := htl.put
    have eput : addTreeKey (T0 ++ rest) (K.getD (K.length - 1) []) =
        T0 ++ (K.getD (K.length - 1) [], Store.new growSep) :: R := by
      unfold addTreeKey
      rw [treePut_below (fun a ha => keyLt_of_padLt (hT0 a ha)), hput]
    refine ⟨T0, R, by rw [eput], hab, ?_, ?_, hB1, hB2, by rw [← eput]; exact hct.add⟩
    · rw [List.isChain_append] at hch ⊢
      refine ⟨hch.1, List.isChain_singleton _, ?_⟩
      intro x hx y hy
      simp only [List.head?_cons, Option.mem_def, Option.some.injEq] at hy
      subst hy
      exact hch.2.2 x hx (K.getD (K.length - 1) [], Store.new 0) (by simp)
    · simpa using hfst

end

end Verif
