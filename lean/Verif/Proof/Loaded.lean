import Verif.Proof.Bulk

/-!
# Filters built by bulk load
-/

namespace Verif

theorem padLt_of_keyLt {a b : Key} (h : keyLt a b = true) (hl : a.length = b.length) : PadLt a b := by
  rcases pad_trichotomy a b with h1 | h1 | h1
  · exact h1
  · rw [padEq_length h1 hl, keyLt_irrefl] at h; cases h
  · have := keyLt_of_padLt h1
    rw [keyLt_asymm h] at this; cases this

theorem zeros_le : ∀ (k : Key), keyLe (List.replicate k.length 0) k = true
  | [] => rfl
  | a :: k => by
    rw [List.length_cons, List.replicate_succ, keyLe]
    have ih := zeros_le k
    have h0 : (0 : UInt8).toNat = 0 := rfl
    by_cases h : a = 0
    · subst h; simp [ih]
    · have : (0 : UInt8) < a := by
        rw [UInt8.lt_iff_toNat_lt, h0]
        have : a.toNat ≠ 0 := fun e => h (UInt8.toNat_inj.1 (by rw [e, h0]))
        omega
      simp [this]

theorem le_ones : ∀ (k : Key), keyLe k (List.replicate k.length 255) = true
  | [] => rfl
  | a :: k => by
    rw [List.length_cons, List.replicate_succ, keyLe]
    have ih := le_ones k
    have h0 : (255 : UInt8).toNat = 255 := rfl
    by_cases h : a = 255
    · subst h; simp [ih]
    · have : a < (255 : UInt8) := by
        rw [UInt8.lt_iff_toNat_lt, h0]
        have : a.toNat ≠ 255 := fun e => h (UInt8.toNat_inj.1 (by rw [e, h0]))
        have := a.toNat_lt
        omega
      simp [this]

/-- A fresh empty region. -/
theorem regionOf_new {c : Cfg} (hc : c.WF) {K : List Key} {prev next : Key} (hlt : PadLt prev next)
    (hK : ∀ k ∈ K, keyLt prev k = true → keyLt k next = true → False) :
    RegionOf c K prev (Store.new growSep) next := by
  have e : K.filter (fun k => keyLt prev k && keyLt k next) = [] := by
    rw [List.filter_eq_nil_iff]
    intro k hk h
    rw [Bool.and_eq_true] at h
    exact hK k hk h.1 h.2
  cases hs : sharedIgnoreImplicit prev next with
  | none =>
    rw [sii_none] at hs
    obtain ⟨q, hq⟩ := hlt
    have := hs q; omega
  | some v =>
    obtain ⟨sh, ig, imp⟩ := v
    have hf := (new_fields (g := growSep) (by decide)).2.2.2.2
    refine ⟨sh, ig, imp, ?_, hf, by rw [e]; simp⟩
    rw [e]
    exact .make hlt hs (new_has hc.fine_sep) (by simp) (by rw [hf]; simp)

theorem regionIn_new {c : Cfg} (hc : c.WF) {K : List Key} {prev next : Key} (hlt : PadLt prev next)
    (hK : ∀ k ∈ K, keyLt prev k = true → keyLt k next = true → False) :
    RegionIn c K prev (Store.new growSep) next := by
  obtain ⟨sh, ig, imp, R, hp, hl⟩ := regionOf_new hc hlt hK
  refine ⟨sh, ig, imp, _, R, hp, hl, fun k h1 h2 => ?_, fun _ => rfl⟩
  rw [List.count_eq_zero.2 fun hk => hK k hk h1 h2]
  exact Nat.zero_le _

/-- A filter holding the keys `K`, possibly repeated. -/
structure LoadedIn (c : Cfg) (K : List Key) (f : Filter) : Prop where
  cfg : f.cfg = c
  chain : f.tree.IsChain fun e e' => RegionIn c K e.1 e.2 e'.1
  clean : CleanTree c f.tree

theorem LoadedIn.ok {c : Cfg} (hc : c.WF) {K : List Key} {f : Filter} (h : LoadedIn c K f) : FilterOK f := by
  refine ⟨by rw [h.cfg]; exact hc, ?_⟩
  rw [h.cfg]
  exact h.chain.imp fun a b hab => by obtain ⟨sh, ig, imp, _, R, _⟩ := hab; exact ⟨sh, ig, imp, _, R⟩

theorem LoadedIn.bits {c : Cfg} {K : List Key} {f : Filter} (h : LoadedIn c K f) : BitsOK f :=
  h.chain.imp fun a b hab => by
    obtain ⟨sh, ig, imp, _, _, hp, _⟩ := hab
    intro _ _ _ _ h
    rw [hp] at h; cases h

theorem LoadedIn.cleaned {c : Cfg} {K : List Key} {f : Filter} (h : LoadedIn c K f) : CleanTree f.cfg f.tree := by
  rw [h.cfg]; exact h.clean

/-- A filter holding exactly the keys `K`. -/
structure Loaded (c : Cfg) (K : List Key) (f : Filter) : Prop where
  cfg : f.cfg = c
  chain : f.tree.IsChain fun e e' => RegionOf c K e.1 e.2 e'.1
  clean : CleanTree c f.tree

theorem Loaded.ok {c : Cfg} (hc : c.WF) {K : List Key} {f : Filter} (h : Loaded c K f) : FilterOK f := by
  refine ⟨by rw [h.cfg]; exact hc, ?_⟩
  rw [h.cfg]
  exact h.chain.imp fun a b hab => by obtain ⟨sh, ig, imp, R, _⟩ := hab; exact ⟨sh, ig, imp, _, R⟩

theorem Loaded.bits {c : Cfg} {K : List Key} {f : Filter} (h : Loaded c K f) : BitsOK f :=
  h.chain.imp fun a b hab => by
    obtain ⟨sh, ig, imp, _, hp, _⟩ := hab
    intro _ _ _ _ h
    rw [hp] at h; cases h

theorem Loaded.cleaned {c : Cfg} {K : List Key} {f : Filter} (h : Loaded c K f) : CleanTree f.cfg f.tree := by
  rw [h.cfg]; exact h.clean

theorem LoadedIn.exact {c : Cfg} {K : List Key} {f : Filter} (h : LoadedIn c K f) (hK : K.Pairwise PadLt) :
    Loaded c K f := ⟨h.cfg, h.chain.imp fun _ _ hab => hab.exact hK, h.clean⟩

/-- The extreme keys of length `n` are boundary keys. -/
def Spans (n : Nat) (f : Filter) : Prop :=
  List.replicate n 0 ∈ f.tree.map Prod.fst ∧ List.replicate n 255 ∈ f.tree.map Prod.fst

/-- A key between two boundary keys is a boundary or between two neighbouring boundaries. -/
theorem FilterOK.key_cases {f : Filter} (hf : FilterOK f) {a b k : Key} (ha : a ∈ f.tree.map Prod.fst)
    (hb : b ∈ f.tree.map Prod.fst) (hak : keyLe a k = true) (hkb : keyLe k b = true) :
    (∃ A e B, f.tree = A ++ e :: B ∧ e.1 = k) ∨
    (∃ A p e B, f.tree = A ++ p :: e :: B ∧ keyLt p.1 k = true ∧ keyLt k e.1 = true) := by
  rcases tree_cases f k with h1 | h1 | ⟨e, B, ht, h1⟩ | h1
  · exact Or.inl h1
  · exact Or.inr h1
  · obtain ⟨x, hx, rfl⟩ := List.mem_map.1 ha
    have hlt : keyLt x.1 e.1 = true := by
      rcases keyLe_or_lt e.1 x.1 with h3 | h3
      · have := keyLe_trans h3 hak
        rw [keyLe_iff_not_lt, h1] at this; cases this
      · exact h3
    rw [ht] at hx
    rcases List.mem_cons.1 hx with rfl | hx
    · rw [keyLt_irrefl] at hlt; cases hlt
    · have := keyLt_of_padLt (hf.after (A := []) (p := e) (B := B) ht hx)
      rw [keyLt_asymm hlt] at this; cases this
  · obtain ⟨x, hx, rfl⟩ := List.mem_map.1 hb
    rw [keyLe_iff_not_lt, h1 x hx] at hkb; cases hkb

theorem FilterOK.spans_cases {n : Nat} {f : Filter} (hf : FilterOK f) (h : Spans n f) {k : Key} (hk : k.length = n) :
    (∃ A e B, f.tree = A ++ e :: B ∧ e.1 = k) ∨
    (∃ A p e B, f.tree = A ++ p :: e :: B ∧ keyLt p.1 k = true ∧ keyLt k e.1 = true) := by
  subst hk
  exact hf.key_cases h.1 h.2 (zeros_le k) (le_ones k)

theorem first_le {K : List Key} (hK : K.Pairwise PadLeq) : ∀ k ∈ K, k = K.getD 0 [] ∨ PadLt (K.getD 0 []) k := by
  intro k hk
  cases K with
  | nil => cases hk
  | cons a K' =>
    rw [List.pairwise_cons] at hK
    rcases List.mem_cons.1 hk with rfl | hk
    · exact Or.inl rfl
    · rcases hK.1 k hk with h | h
      · exact Or.inl h.symm
      · exact Or.inr h

theorem le_last {K : List Key} (hK : K.Pairwise PadLeq) :
    ∀ k ∈ K, k = K.getD (K.length - 1) [] ∨ PadLt k (K.getD (K.length - 1) []) := by
  intro k hk
  obtain ⟨i, hi, rfl⟩ := List.mem_iff_getElem.1 hk
  by_cases h : i = K.length - 1
  · left
    rw [List.getD_eq_getElem?_getD, List.getElem?_eq_getElem (by omega)]
    simp [h]
  · have := leq_getD hK (i := i) (j := K.length - 1) (by omega) (by omega)
    rw [List.getD_eq_getElem?_getD, List.getElem?_eq_getElem hi] at this
    exact this

theorem bulkFixed_dup {c : Cfg} (hc : c.WF) {n : Nat} {K : List Key} (hlen : ∀ k ∈ K, k.length = n)
    (hs : K.Pairwise fun a b => keyLe a b = true) (hne : K ≠ []) :
    (¬ Sampled K → bulkFixed c n K = .hang) ∧
    (Sampled K → ∃ f, bulkFixed c n K = .ok f ∧ LoadedIn c K f ∧ Spans n f ∧
      (∀ e ∈ f.tree, e.1.length = n) ∧ ∀ e ∈ f.tree, e.1 ∈ K ∨ e.1 = List.replicate n 0 ∨ e.1 = List.replicate n 255) := by
  have hK : K.Pairwise PadLeq := by
    apply List.Pairwise.imp_of_mem _ hs
    intro a b ha hb hab
    by_cases he : a = b
    · exact Or.inl he
    · exact Or.inr (padLt_of_keyLt (keyLt_iff.2 ⟨hab, he⟩) (by rw [hlen a ha, hlen b hb]))
  have hn0 : K.length ≠ 0 := fun e => hne (List.length_eq_zero_iff.1 e)
  have hmem : ∀ i, i < K.length → K.getD i [] ∈ K := by
    intro i hi
    rw [List.getD_eq_getElem?_getD, List.getElem?_eq_getElem hi]; exact List.getElem_mem _
  have hF : ∀ k ∈ K, keyLe k (List.replicate n 255) = true := by
    intro k hk
    have := le_ones k
    rwa [hlen k hk] at this
  have hZ : ∀ k ∈ K, keyLe (List.replicate n 0) k = true := by
    intro k hk
    have := zeros_le k
    rwa [hlen k hk] at this
  have hfirst := first_le hK
  have hlast := le_last hK
  have hZF : n ≠ 0 → keyLt (List.replicate n (0 : UInt8)) (List.replicate n 255) = true := by
    intro h
    rw [keyLt_iff]
    refine ⟨by simpa using zeros_le (List.replicate n 255), ?_⟩
    intro e
    obtain ⟨m, rfl⟩ := Nat.exists_eq_succ_of_ne_zero h
    rw [List.replicate_succ, List.replicate_succ, List.cons.injEq] at e
    exact absurd e.1 (by decide)
  have hl0 : (K.getD 0 []).length = n := hlen _ (hmem 0 (by omega))
  have hlL : (K.getD (K.length - 1) []).length = n := hlen _ (hmem _ (by omega))
  have hct0 : CleanTree c (addTreeKey (addTreeKey [] (List.replicate n 0)) (List.replicate n 255)) :=
    (CleanTree.add (t := []) (by intro e he; cases he)).add
  have ht0 : ∃ B0, BulkInv true B0 c K (List.replicate n 255)
      (addTreeKey (addTreeKey [] (List.replicate n 0)) (List.replicate n 255)) (K.getD 0 []) ∧
      (∀ k ∈ B0, k = List.replicate n 0) ∧ (List.replicate n 0 ∈ B0 ∨ List.replicate n 0 = K.getD 0 []) := by
    by_cases h0 : n = 0
    · subst h0
      have e1 : K.getD 0 [] = [] := List.length_eq_zero_iff.1 hl0
      refine ⟨[], ⟨[], _, rfl, by simp, List.isChain_singleton _, Or.inr (Or.inl ⟨Store.new growSep, ?_, fun _ => ?_⟩),
        by simp, by simp, by simp, hct0⟩, by simp, ?_⟩
      · rw [e1]; rfl
      · rw [e1]; rfl
      · rw [e1]; right; rfl
    · have hz := hZF h0
      have et : addTreeKey (addTreeKey [] (List.replicate n 0)) (List.replicate n 255) =
          [(List.replicate n 0, Store.new growSep), (List.replicate n 255, Store.new growSep)] := by
        unfold addTreeKey
        have := treePut_below (A := [(List.replicate n 0, Store.new growSep)]) (B := []) (k := List.replicate n 255)
          (st := Store.new growSep) (by simpa using hz)
        simpa [treePut] using this
      rw [et] at hct0 ⊢
      by_cases he : K.getD 0 [] = List.replicate n 0
      · refine ⟨[], ⟨[], _, rfl, by simp, List.isChain_singleton _, Or.inr (Or.inr (Or.inr ⟨rfl, ?_, Store.new growSep,
          Store.new growSep, ?_⟩)), by simp, by simp, by simp, hct0⟩, by simp, ?_⟩
        · rw [he]; exact hz
        · rw [he]
        · rw [he]; right; rfl
      · have hlt : PadLt (List.replicate n 0) (K.getD 0 []) :=
          padLt_of_keyLt (keyLt_iff.2 ⟨hZ _ (hmem 0 (by omega)), fun e => he e.symm⟩)
            (by rw [hl0, List.length_replicate])
        refine ⟨[List.replicate n 0], ⟨[(List.replicate n 0, Store.new growSep)],
          [(List.replicate n 255, Store.new growSep)], ?_, ?_, ?_, ?_, ?_, ?_, ?_, hct0⟩, by simp, by simp⟩
        · rfl
        · simpa using hlt
        · simp only [List.cons_append, List.nil_append, List.isChain_cons_cons, List.isChain_singleton, and_true]
          apply regionIn_new hc hlt
          intro k hk _ h2
          rcases hfirst k hk with rfl | h3
          · rw [keyLt_irrefl] at h2; cases h2
          · rw [keyLt_asymm (keyLt_of_padLt h3)] at h2; cases h2
        · by_cases hf : K.getD 0 [] = List.replicate n 255
          · right; left
            exact ⟨Store.new growSep, by rw [hf], fun _ => hf⟩
          · right; right; left
            exact ⟨rfl, keyLt_iff.2 ⟨hF _ (hmem 0 (by omega)), hf⟩, Store.new growSep, rfl⟩
        · simp
        · simp
        · simp
  obtain ⟨B0, hinv, hB0, hB0'⟩ := ht0
  obtain ⟨r1, r2⟩ := bulkCore_spec hc hK hF hinv hn0
  constructor
  · intro h1
    unfold bulkFixed
    dsimp only
    rw [r1 h1]; rfl
  · intro h1
    obtain ⟨T, R, hcore, hab, hch, hfst, hB1, hB2, hct⟩ := r2 h1
    refine ⟨⟨c, T ++ (K.getD (K.length - 1) [], Store.new growSep) :: R⟩, ?_, ⟨rfl, ?_, hct⟩, ⟨?_, ?_⟩, ?_⟩
    · unfold bulkFixed
      dsimp only
      rw [hcore]; rfl
    · dsimp only
      rcases hab with ⟨rfl, _⟩ | ⟨_, hlt, y, rfl⟩
      · exact hch
      · rw [List.isChain_append_cons_cons]
        refine ⟨hch, ?_, List.isChain_singleton _⟩
        apply regionIn_new hc (padLt_of_keyLt hlt (by rw [hlL, List.length_replicate]))
        intro k hk h2 _
        rcases hlast k hk with rfl | h3
        · rw [keyLt_irrefl] at h2; cases h2
        · rw [keyLt_asymm (keyLt_of_padLt h3)] at h2; cases h2
    · rcases hB0' with h | h
      · have := hB2 _ h
        simp only [List.map_append, List.mem_append]
        exact Or.inl this
      · rw [h]
        rw [List.map_append, List.mem_append] at hfst ⊢
        rcases hfst with h | h
        · exact Or.inl h
        · simp only [List.map_cons, List.map_nil, List.mem_singleton] at h
          right; rw [h]; simp
    · rw [List.map_append, List.mem_append]
      right
      rcases hab with ⟨rfl, hb⟩ | ⟨_, hlt, y, rfl⟩
      · rw [← hb rfl]; simp
      · simp
    · have hin : ∀ e ∈ T ++ (K.getD (K.length - 1) [], Store.new growSep) :: R,
          e.1 ∈ K ∨ e.1 = List.replicate n 0 ∨ e.1 = List.replicate n 255 := by
        intro e he
        rcases List.mem_append.1 he with he | he
        · rcases hB1 e he with h | h
          · exact Or.inr (Or.inl (hB0 _ h))
          · exact Or.inl h
        · rcases List.mem_cons.1 he with rfl | he
          · exact Or.inl (hmem _ (by omega))
          · rcases hab with ⟨rfl, hb⟩ | ⟨_, hlt, y, rfl⟩
            · cases he
            · simp only [List.mem_singleton] at he; subst he
              exact Or.inr (Or.inr rfl)
      refine ⟨?_, hin⟩
      intro e he
      rcases hin e he with h | h | h
      · exact hlen _ h
      · rw [h]; simp
      · rw [h]; simp

theorem bulkFixed_spec {c : Cfg} (hc : c.WF) {n : Nat} {K : List Key} (hlen : ∀ k ∈ K, k.length = n)
    (hs : K.Pairwise fun a b => keyLt a b = true) (hne : K ≠ []) :
    (K.length % 1024 = 1 → bulkFixed c n K = .hang) ∧
    (K.length % 1024 ≠ 1 → ∃ f, bulkFixed c n K = .ok f ∧ Loaded c K f ∧ Spans n f ∧
      (∀ e ∈ f.tree, e.1.length = n) ∧ ∀ e ∈ f.tree, e.1 ∈ K ∨ e.1 = List.replicate n 0 ∨ e.1 = List.replicate n 255) := by
  have hK : K.Pairwise PadLt := by
    apply List.Pairwise.imp_of_mem _ hs
    intro a b ha hb hab
    exact padLt_of_keyLt hab (by rw [hlen a ha, hlen b hb])
  obtain ⟨r1, r2⟩ := bulkFixed_dup hc hlen (hs.imp fun h => keyLt_keyLe h) hne
  rw [sampled_iff hK (fun e => hne (List.length_eq_zero_iff.1 e))] at r1 r2
  refine ⟨fun h => r1 (by omega), fun h => ?_⟩
  obtain ⟨f, e, hl, hr⟩ := r2 h
  exact ⟨f, e, hl.exact hK, hr⟩

end Verif
