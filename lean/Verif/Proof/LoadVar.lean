import Verif.Proof.Loaded

/-!
# Bulk load of variable-length keys and streaming bulk load
-/

namespace Verif

theorem le_ones_len : ∀ (k : Key) {m : Nat}, k.length ≤ m → keyLe k (List.replicate m 255) = true
  | [], _, _ => rfl
  | a :: k, 0, h => by simp at h
  | a :: k, m + 1, h => by
    rw [List.replicate_succ, keyLe]
    have ih := le_ones_len k (m := m) (by simpa using h)
    have h0 : (255 : UInt8).toNat = 255 := rfl
    by_cases h : a = 255
    · subst h; simp [ih]
    · have : a < (255 : UInt8) := by
        rw [UInt8.lt_iff_toNat_lt, h0]
        have : a.toNat ≠ 255 := fun e => h (UInt8.toNat_inj.1 (by rw [e, h0]))
        have := a.toNat_lt
        omega
      simp [this]

theorem byteAt_ones {m i : Nat} (h : i < m) : byteAt (List.replicate m 255) i = 255 := by
  unfold byteAt
  rw [List.getD_eq_getElem?_getD, List.getElem?_replicate, if_pos h]; rfl

/-- A key of at most `m` bytes is all ones or smaller after padding. -/
theorem ones_or_lt {k : Key} {m : Nat} (h : k.length ≤ m) :
    k = List.replicate m 255 ∨ PadLt k (List.replicate m 255) := by
  rcases pad_trichotomy k (List.replicate m 255) with h1 | h1 | h1
  · exact Or.inr h1
  · left
    apply padEq_length h1
    rw [List.length_replicate]
    by_contra hne
    have hlt : k.length < m := by omega
    have e := byteAt_of_pre (a := k) (b := List.replicate m 255) (i := k.length) (p := 8 * k.length + 8) (h1 _)
      (Nat.le_refl _)
    rw [byteAt_of_ge (Nat.le_refl _), byteAt_ones hlt] at e
    cases e
  · have := keyLt_of_padLt h1
    have h2 := le_ones_len k h
    rw [keyLe_iff_not_lt, this] at h2; cases h2

theorem foldl_max : ∀ (K : List Key) (m : Nat),
    m ≤ K.foldl (fun m k => max m k.length) m ∧ ∀ k ∈ K, k.length ≤ K.foldl (fun m k => max m k.length) m
  | [], m => by simp
  | a :: K, m => by
    rw [List.foldl_cons]
    obtain ⟨h1, h2⟩ := foldl_max K (max m a.length)
    refine ⟨by omega, ?_⟩
    intro k hk
    rcases List.mem_cons.1 hk with rfl | hk
    · omega
    · exact h2 k hk

theorem getD_mem {K : List Key} {i : Nat} (h : i < K.length) : K.getD i [] ∈ K := by
  rw [List.getD_eq_getElem?_getD, List.getElem?_eq_getElem h]; exact List.getElem_mem _

/-- A region below the first key. -/
theorem regionIn_first {c : Cfg} (hc : c.WF) {K : List Key} (hK : K.Pairwise PadLeq) {Z : Key} (hlt : PadLt Z (K.getD 0 [])) :
    RegionIn c K Z (Store.new growSep) (K.getD 0 []) := by
  apply regionIn_new hc hlt
  intro k hk _ h2
  rcases first_le hK k hk with rfl | h3
  · rw [keyLt_irrefl] at h2; cases h2
  · rw [keyLt_asymm (keyLt_of_padLt h3)] at h2; cases h2

/-- A region above the last key. -/
theorem regionIn_last {c : Cfg} (hc : c.WF) {K : List Key} (hK : K.Pairwise PadLeq) {F : Key} (hlt : PadLt (K.getD (K.length - 1) []) F) :
    RegionIn c K (K.getD (K.length - 1) []) (Store.new growSep) F := by
  apply regionIn_new hc hlt
  intro k hk h2 _
  rcases le_last hK k hk with rfl | h3
  · rw [keyLt_irrefl] at h2; cases h2
  · rw [keyLt_asymm (keyLt_of_padLt h3)] at h2; cases h2

theorem bulkVar_dup {c : Cfg} (hc : c.WF) {K : List Key} (hK : K.Pairwise PadLeq) (hne : K ≠ [])
    (hZ : ∀ k ∈ K, k = List.replicate 8 0 ∨ PadLt (List.replicate 8 0) k) :
    (¬ Sampled K → bulkVar c K = .hang) ∧
    (Sampled K → ∃ f m, bulkVar c K = .ok f ∧ LoadedIn c K f ∧ (∀ k ∈ K, k.length ≤ m) ∧
      List.replicate 8 0 ∈ f.tree.map Prod.fst ∧ List.replicate m 255 ∈ f.tree.map Prod.fst ∧
      (∀ e ∈ f.tree, e.1 ∈ K ∨ e.1 = List.replicate 8 0 ∨ e.1 = List.replicate m 255) ∧
      m = K.foldl (fun m k => max m k.length) 0) := by
  have hn0 : K.length ≠ 0 := fun e => hne (List.length_eq_zero_iff.1 e)
  generalize hm : K.foldl (fun m k => max m k.length) 0 = m
  have hlen : ∀ k ∈ K, k.length ≤ m := by rw [← hm]; exact (foldl_max K 0).2
  have hF : ∀ k ∈ K, keyLe k (List.replicate m 255) = true := fun k hk => le_ones_len k (hlen k hk)
  have h0 := hZ _ (getD_mem (K := K) (i := 0) (by omega))
  have hct0 : CleanTree c (addTreeKey [] (List.replicate 8 0)) := CleanTree.add (t := []) (by intro e he; cases he)
  have ht0 : ∃ B0, BulkInv false B0 c K (List.replicate m 255) (addTreeKey [] (List.replicate 8 0)) (K.getD 0 []) ∧
      (∀ k ∈ B0, k = List.replicate 8 0) ∧ (List.replicate 8 0 ∈ B0 ∨ List.replicate 8 0 = K.getD 0 []) := by
    rcases h0 with he | hlt
    · refine ⟨[], ⟨[], _, rfl, by simp, List.isChain_singleton _, Or.inr (Or.inl ⟨Store.new growSep, ?_, by simp⟩),
        by simp, by simp, by simp, hct0⟩, by simp, Or.inr he.symm⟩
      rw [he]
    · refine ⟨[List.replicate 8 0], ⟨[(List.replicate 8 0, Store.new growSep)], [], rfl, by simpa using hlt, ?_,
        Or.inl ⟨rfl, rfl⟩, by simp, by simp, by simp, hct0⟩, by simp, by simp⟩
      simp only [List.cons_append, List.nil_append, List.isChain_cons_cons, List.isChain_singleton, and_true]
      exact regionIn_first hc hK hlt
  obtain ⟨B0, hinv, hB0, hB0'⟩ := ht0
  obtain ⟨r1, r2⟩ := bulkCore_spec hc hK hF hinv hn0
  constructor
  · intro h1
    unfold bulkVar
    dsimp only
    rw [r1 h1]; rfl
  · intro h1
    obtain ⟨T, R, hcore, hab, hch, hfst, hB1, hB2, hct⟩ := r2 h1
    obtain ⟨rfl, _⟩ : R = [] ∧ True := by
      rcases hab with ⟨h, _⟩ | ⟨h, _⟩
      · exact ⟨h, trivial⟩
      · cases h
    have hlm := getD_mem (K := K) (i := K.length - 1) (by omega)
    have hZin : List.replicate 8 0 ∈ (T ++ [(K.getD (K.length - 1) [], Store.new growSep)]).map Prod.fst := by
      rcases hB0' with h | h
      · rw [List.map_append, List.mem_append]
        exact Or.inl (hB2 _ h)
      · rw [h]; exact hfst
    have hTm : ∀ e ∈ T, e.1 ∈ K ∨ e.1 = List.replicate 8 0 := by
      intro e he
      rcases hB1 e he with h | h
      · exact Or.inr (hB0 _ h)
      · exact Or.inl h
    have hok : FilterOK ⟨c, T ++ [(K.getD (K.length - 1) [], Store.new growSep)]⟩ :=
      LoadedIn.ok hc (K := K) ⟨rfl, hch, hct⟩
    have hbel : ∀ a ∈ T, keyLt a.1 (K.getD (K.length - 1) []) = true := fun a ha =>
      keyLt_of_padLt (hok.before (p := (K.getD (K.length - 1) [], Store.new growSep)) (B := []) rfl ha)
    rcases ones_or_lt (hlen _ hlm) with he | hlt
    · -- the last key is the upper end
      have hput : addTreeKey (T ++ [(K.getD (K.length - 1) [], Store.new growSep)]) (List.replicate m 255) =
          T ++ [(K.getD (K.length - 1) [], Store.new growSep)] := by
        unfold addTreeKey
        rw [← he]
        exact treePut_replace hbel
      refine ⟨⟨c, T ++ [(K.getD (K.length - 1) [], Store.new growSep)]⟩, m, ?_, ⟨rfl, hch, hct⟩, hlen, hZin, ?_, ?_⟩
      · unfold bulkVar
        dsimp only
        rw [hcore, Res.bind_ok, hm, hput]
      · rw [← he]; simp
      · refine ⟨?_, rfl⟩
        intro e hem
        rcases List.mem_append.1 hem with h | h
        · rcases hTm e h with h | h
          · exact Or.inl h
          · exact Or.inr (Or.inl h)
        · simp only [List.mem_singleton] at h; subst h; exact Or.inl hlm
    · have hput : addTreeKey (T ++ [(K.getD (K.length - 1) [], Store.new growSep)]) (List.replicate m 255) =
          T ++ (K.getD (K.length - 1) [], Store.new growSep) :: [(List.replicate m 255, Store.new growSep)] := by
        unfold addTreeKey
        have := treePut_below (A := T ++ [(K.getD (K.length - 1) [], Store.new growSep)]) (B := [])
          (k := List.replicate m 255) (st := Store.new growSep) (by
            intro a ha
            rcases List.mem_append.1 ha with ha | ha
            · exact keyLt_of_padLt ((hok.before (p := (K.getD (K.length - 1) [], Store.new growSep)) (B := []) rfl ha).trans hlt)
            · simp only [List.mem_singleton] at ha; subst ha; exact keyLt_of_padLt hlt)
        simpa [treePut] using this
      refine ⟨⟨c, T ++ (K.getD (K.length - 1) [], Store.new growSep) :: [(List.replicate m 255, Store.new growSep)]⟩, m, ?_,
        ⟨rfl, ?_, by rw [← hput]; exact hct.add⟩, hlen, ?_, ?_, ?_⟩
      · unfold bulkVar
        dsimp only
        rw [hcore, Res.bind_ok, hm, hput]
      · dsimp only
        rw [List.isChain_append_cons_cons]
        exact ⟨hch, regionIn_last hc hK hlt, List.isChain_singleton _⟩
      · simp only [List.map_append, List.mem_append, List.map_cons, List.map_nil, List.mem_cons, List.not_mem_nil,
          or_false] at hZin ⊢
        tauto
      · simp
      · refine ⟨?_, rfl⟩
        intro e hem
        rcases List.mem_append.1 hem with h | h
        · rcases hTm e h with h | h
          · exact Or.inl h
          · exact Or.inr (Or.inl h)
        · rcases List.mem_cons.1 h with rfl | h
          · exact Or.inl hlm
          · simp only [List.mem_singleton] at h; subst h; exact Or.inr (Or.inr rfl)

theorem bulkVar_spec {c : Cfg} (hc : c.WF) {K : List Key} (hK : K.Pairwise PadLt) (hne : K ≠ [])
    (hZ : ∀ k ∈ K, k = List.replicate 8 0 ∨ PadLt (List.replicate 8 0) k) :
    (K.length % 1024 = 1 → bulkVar c K = .hang) ∧
    (K.length % 1024 ≠ 1 → ∃ f m, bulkVar c K = .ok f ∧ Loaded c K f ∧ (∀ k ∈ K, k.length ≤ m) ∧
      List.replicate 8 0 ∈ f.tree.map Prod.fst ∧ List.replicate m 255 ∈ f.tree.map Prod.fst ∧
      (∀ e ∈ f.tree, e.1 ∈ K ∨ e.1 = List.replicate 8 0 ∨ e.1 = List.replicate m 255) ∧
      m = K.foldl (fun m k => max m k.length) 0) := by
  obtain ⟨r1, r2⟩ := bulkVar_dup hc (leq_of_lt hK) hne hZ
  rw [sampled_iff hK (fun e => hne (List.length_eq_zero_iff.1 e))] at r1 r2
  refine ⟨fun h => r1 (by omega), fun h => ?_⟩
  obtain ⟨f, m, e, hl, hr⟩ := r2 h
  exact ⟨f, m, e, hl.exact hK, hr⟩

/-! ## Streaming -/

theorem treePut_head {t : Tree} {k : Key} {st : Store} (h : ∀ e ∈ t, keyLt k e.1 = true) :
    treePut t k st = (k, st) :: t := by
  cases t with
  | nil => rfl
  | cons e t => rw [treePut, if_pos (h e (by simp))]

theorem treePut_last {t : Tree} {k : Key} {st : Store} (h : ∀ e ∈ t, keyLt e.1 k = true) :
    treePut t k st = t ++ [(k, st)] := by
  have := treePut_below (B := []) (st := st) h
  rw [List.append_nil] at this
  rw [this]; rfl

section
variable {c : Cfg} {K : List Key} {m : Nat}

/-- `BulkLoadStreamingFinish` adds the two extreme keys. -/
theorem put_ends (hc : c.WF) (hK : K.Pairwise PadLeq) (hlen : ∀ k ∈ K, k.length ≤ m)
    (hZ : ∀ k ∈ K, k = List.replicate m 0 ∨ PadLt (List.replicate m 0) k) {t : Tree} {left : Key} (hleft : left ∈ K)
    (hinv : BulkInv false [] c K (List.replicate m 255) t left)
    (hcond : left = K.getD 0 [] ∨ K.getD 0 [] ≠ List.replicate m 0) :
    ∃ B0, BulkInv true B0 c K (List.replicate m 255)
      (addTreeKey (addTreeKey t (List.replicate m 0)) (List.replicate m 255)) left ∧
      (∀ k ∈ B0, k = List.replicate m 0) ∧ (List.replicate m 0 ∈ B0 ∨ List.replicate m 0 = K.getD 0 []) := by
  obtain ⟨T0, rest, rfl, hT0, hch, htl, hfst, hB1, hB2, hct⟩ := hinv
  have hct0 : CleanTree c (addTreeKey (addTreeKey (T0 ++ rest) (List.replicate m 0)) (List.replicate m 255)) := hct.add.add
  have hB1' : ∀ a ∈ T0, a.1 ∈ K := fun a ha => by
    rcases hB1 a ha with h | h
    · cases h
    · exact h
  have hrest : rest = [] ∨ ∃ x, rest = [(left, x)] := by
    rcases htl with ⟨h, _⟩ | ⟨x, h, _⟩ | ⟨h, _⟩ | ⟨h, _⟩
    · exact Or.inl h
    · exact Or.inr ⟨x, h⟩
    · cases h
    · cases h
  have hFl := ones_or_lt (hlen left hleft)
  have hT0F : ∀ a ∈ T0, keyLt a.1 (List.replicate m 255) = true := by
    intro a ha
    have := hT0 a ha
    rcases hFl with h | h
    · rw [← h]; exact keyLt_of_padLt this
    · exact keyLt_of_padLt (this.trans h)
  -- the upper end
  have hup : ∀ (T : Tree) (r : Tree), (∀ a ∈ T, keyLt a.1 (List.replicate m 255) = true) →
      (r = [] ∨ ∃ x, r = [(left, x)]) → ∃ r', treePut (T ++ r) (List.replicate m 255) (Store.new growSep) = T ++ r' ∧
        Tail true (List.replicate m 255) r' left := by
    intro T r hT hr
    rw [treePut_below hT]
    rcases hFl with h | h
    · refine ⟨[(left, Store.new growSep)], ?_, Or.inr (Or.inl ⟨_, rfl, fun _ => h⟩)⟩
      rw [← h]
      rcases hr with rfl | ⟨x, rfl⟩
      · rfl
      · have := treePut_replace (A := []) (B := []) (k := left) (st := x) (st2 := Store.new growSep) (by simp)
        simp only [List.nil_append] at this
        rw [this]
    · have hlt := keyLt_of_padLt h
      rcases hr with rfl | ⟨x, rfl⟩
      · exact ⟨[(List.replicate m 255, Store.new growSep)], rfl, Or.inr (Or.inr (Or.inl ⟨rfl, hlt, _, rfl⟩))⟩
      · refine ⟨[(left, x), (List.replicate m 255, Store.new growSep)], ?_,
          Or.inr (Or.inr (Or.inr ⟨rfl, hlt, _, _, rfl⟩))⟩
        rw [treePut_last (by simpa using hlt)]; rfl
  have hK0 : K.getD 0 [] ∈ K := getD_mem (by
    cases K with
    | nil => cases hleft
    | cons => simp)
  unfold addTreeKey at hct0 ⊢
  by_cases he : K.getD 0 [] = List.replicate m 0
  · have hl : left = K.getD 0 [] := by
      rcases hcond with h | h
      · exact h
      · exact absurd he h
    have hT : T0 = [] := by
      cases T0 with
      | nil => rfl
      | cons a T =>
        have h1 := hT0 a (by simp)
        rw [hl] at h1
        rcases first_le hK a.1 (hB1' a (by simp)) with h2 | h2
        · rw [h2] at h1; exact absurd h1 (PadLt.irrefl _)
        · exact absurd (h1.trans h2) (PadLt.irrefl _)
    subst hT
    have hp1 : treePut ([] ++ rest) (List.replicate m 0) (Store.new growSep) = [] ++ [(left, Store.new growSep)] := by
      rw [← he, ← hl, List.nil_append]
      rcases hrest with rfl | ⟨x, rfl⟩
      · rfl
      · have := treePut_replace (A := []) (B := []) (k := left) (st := x) (st2 := Store.new growSep) (by simp)
        simpa using this
    obtain ⟨r', e1, e2⟩ := hup [] [(left, Store.new growSep)] (by simp) (Or.inr ⟨_, rfl⟩)
    refine ⟨[], ⟨[], r', ?_, by simp, hch, e2, hfst, by simp, by simp, hct0⟩, by simp, Or.inr he.symm⟩
    rw [hp1, e1]
  · have hlt0 : PadLt (List.replicate m 0) (K.getD 0 []) := by
      rcases hZ _ hK0 with h | h
      · exact absurd h he
      · exact h
    have hbelow : ∀ k ∈ K, PadLt (List.replicate m 0) k := by
      intro k hk
      rcases first_le hK k hk with h | h
      · rw [h]; exact hlt0
      · exact hlt0.trans h
    have hp1 : treePut (T0 ++ rest) (List.replicate m 0) (Store.new growSep) =
        ((List.replicate m 0, Store.new growSep) :: T0) ++ rest := by
      apply treePut_head
      intro e hem
      rcases List.mem_append.1 hem with h | h
      · exact keyLt_of_padLt (hbelow _ (hB1' e h))
      · rcases hrest with rfl | ⟨x, rfl⟩
        · cases h
        · simp only [List.mem_singleton] at h; subst h; exact keyLt_of_padLt (hbelow _ hleft)
    obtain ⟨r', e1, e2⟩ := hup ((List.replicate m 0, Store.new growSep) :: T0) rest (by
      intro a ha
      rcases List.mem_cons.1 ha with rfl | ha
      · have := hbelow left hleft
        rcases hFl with h | h
        · rw [h] at this; exact keyLt_of_padLt this
        · exact keyLt_of_padLt (this.trans h)
      · exact hT0F a ha) hrest
    refine ⟨[List.replicate m 0], ⟨(List.replicate m 0, Store.new growSep) :: T0, r', ?_, ?_, ?_, e2, ?_, ?_, ?_, hct0⟩, by simp,
      by simp⟩
    · rw [hp1, e1]
    · intro a ha
      rcases List.mem_cons.1 ha with rfl | ha
      · exact hbelow left hleft
      · exact hT0 a ha
    · -- the head of the old chain is the first key
      have hhead : ∃ x L, T0 ++ [(left, Store.new 0)] = (K.getD 0 [], x) :: L := by
        cases T0 with
        | nil =>
          simp only [List.nil_append, List.map_cons, List.map_nil, List.mem_singleton] at hfst
          exact ⟨Store.new 0, [], by rw [hfst]; rfl⟩
        | cons a T =>
          have hpw : (a :: T ++ [(left, Store.new 0)]).Pairwise fun e e' => PadLt e.1 e'.1 := by
            have : IsTrans (Key × Store) (fun e e' => PadLt e.1 e'.1) := ⟨fun _ _ _ => PadLt.trans⟩
            exact (hch.imp fun _ _ h => by obtain ⟨_, _, _, _, R, _⟩ := h; exact R.lt).pairwise
          rw [List.cons_append] at hpw hfst ⊢
          rw [List.map_cons, List.mem_cons] at hfst
          rcases hfst with h | h
          · refine ⟨a.2, T ++ [(left, Store.new 0)], ?_⟩
            rw [h]
          · obtain ⟨e, hem, heq⟩ := List.mem_map.1 h
            have h1 := (List.pairwise_cons.1 hpw).1 e hem
            rw [heq] at h1
            rcases first_le hK a.1 (hB1' a (by simp)) with h2 | h2
            · rw [h2] at h1; exact absurd h1 (PadLt.irrefl _)
            · exact absurd (h1.trans h2) (PadLt.irrefl _)
      obtain ⟨x, L, hx⟩ := hhead
      rw [List.cons_append, hx, List.isChain_cons_cons]
      rw [hx] at hch
      exact ⟨regionIn_first hc hK hlt0, hch⟩
    · rw [List.cons_append, List.map_cons]; exact List.mem_cons_of_mem _ hfst
    · intro a ha
      rcases List.mem_cons.1 ha with rfl | ha
      · exact Or.inl (by simp)
      · exact Or.inr (hB1' a ha)
    · intro k hk
      simp only [List.mem_singleton] at hk
      subst hk; simp

/-- Both bulk loads end with the last key. -/
theorem bulk_finish {B0 : List Key} (hc : c.WF) (hK : K.Pairwise PadLeq) (hn0 : K.length ≠ 0) (hlen : ∀ k ∈ K, k.length ≤ m)
    (hB0 : ∀ k ∈ B0, k = List.replicate m 0) (hB0' : List.replicate m 0 ∈ B0 ∨ List.replicate m 0 = K.getD 0 []) {t : Tree}
    (hinv : BulkInv true B0 c K (List.replicate m 255) t (K.getD (K.length - 1) [])) :
    LoadedIn c K ⟨c, addTreeKey t (K.getD (K.length - 1) [])⟩ ∧ Spans m ⟨c, addTreeKey t (K.getD (K.length - 1) [])⟩ ∧
    (∀ e ∈ addTreeKey t (K.getD (K.length - 1) []),
      e.1 ∈ K ∨ e.1 = List.replicate m 0 ∨ e.1 = List.replicate m 255) ∧
    K.getD 0 [] ∈ (addTreeKey t (K.getD (K.length - 1) [])).map Prod.fst := by
  obtain ⟨T, rest, rfl, hT0, hch0, htl, hfst, hB1, hB2, hct⟩ := hinv
  obtain ⟨R, hab, hput⟩ := htl.put
  have hlm := getD_mem (K := K) (i := K.length - 1) (by omega)
  have et : addTreeKey (T ++ rest) (K.getD (K.length - 1) []) =
      T ++ (K.getD (K.length - 1) [], Store.new growSep) :: R := by
    unfold addTreeKey
    rw [treePut_below (fun a ha => keyLt_of_padLt (hT0 a ha)), hput]
  have hch : (T ++ [(K.getD (K.length - 1) [], Store.new growSep)]).IsChain fun e e' => RegionIn c K e.1 e.2 e'.1 := by
    rw [List.isChain_append] at hch0 ⊢
    refine ⟨hch0.1, List.isChain_singleton _, ?_⟩
    intro x hx y hy
    simp only [List.head?_cons, Option.mem_def, Option.some.injEq] at hy
    subst hy
    exact hch0.2.2 x hx (K.getD (K.length - 1) [], Store.new 0) (by simp)
  have hct1 : CleanTree c (addTreeKey (T ++ rest) (K.getD (K.length - 1) [])) := hct.add
  rw [et] at hct1 ⊢
  refine ⟨⟨rfl, ?_, hct1⟩, ⟨?_, ?_⟩, ?_, by
    rw [List.map_append, List.mem_append] at hfst ⊢
    rcases hfst with h | h
    · exact Or.inl h
    · simp only [List.map_cons, List.map_nil, List.mem_singleton] at h
      right; rw [h]; simp⟩
  · dsimp only
    rcases hab with ⟨rfl, _⟩ | ⟨_, hlt, y, rfl⟩
    · exact hch
    · rw [List.isChain_append_cons_cons]
      refine ⟨hch, regionIn_last hc hK ?_, List.isChain_singleton _⟩
      rcases ones_or_lt (hlen _ hlm) with h | h
      · rw [h, keyLt_irrefl] at hlt; cases hlt
      · exact h
  · rcases hB0' with h | h
    · have := hB2 _ h
      simp only [List.map_append, List.mem_append]
      exact Or.inl this
    · rw [h]
      rw [List.map_append, List.mem_append] at hfst ⊢
      rcases hfst with h | h
      · exact Or.inl h
      · simp only [List.map_cons, List.map_nil, List.mem_singleton] at h
        right; rw [h]; simp
  · rw [List.map_append, List.mem_append]
    right
    rcases hab with ⟨rfl, hb⟩ | ⟨_, hlt, y, rfl⟩
    · rw [← hb rfl]; simp
    · simp
  · intro e he
    rcases List.mem_append.1 he with he | he
    · rcases hB1 e he with h | h
      · exact Or.inr (Or.inl (hB0 _ h))
      · exact Or.inl h
    · rcases List.mem_cons.1 he with rfl | he
      · exact Or.inl hlm
      · rcases hab with ⟨rfl, hb⟩ | ⟨_, hlt, y, rfl⟩
        · cases he
        · simp only [List.mem_singleton] at he; subst he
          exact Or.inr (Or.inr rfl)

/-- The streaming loader after the first `j` keys. -/
def streamTake (c : Cfg) (K : List Key) (j : Nat) : Res (Filter × Stream) :=
  (K.take j).foldl (fun r k => Res.bind r fun (f, b) => streamKey f b k) (Res.ok (⟨c, []⟩, ⟨none, [], 0⟩))

theorem streamTake_succ {j : Nat} (hj : j < K.length) :
    streamTake c K (j + 1) = (streamTake c K j).bind fun (f, b) => streamKey f b (K.getD j []) := by
  unfold streamTake
  rw [List.take_succ_eq_append_getElem hj, List.foldl_append]
  have : K.getD j [] = K[j] := by
    rw [List.getD_eq_getElem?_getD, List.getElem?_eq_getElem hj]; rfl
  rw [this]; rfl

theorem streamTake_spec (hc : c.WF) (hK : K.Pairwise PadLeq) (hF : ∀ k ∈ K, keyLe k (List.replicate m 255) = true)
    (hd : ∀ i, 1024 * (i + 1) < K.length → K.getD (1024 * i) [] ≠ K.getD (1024 * (i + 1)) []) :
    ∀ j, 1 ≤ j → j ≤ K.length → ∃ t mx, streamTake c K j = .ok (⟨c, t⟩,
      ⟨some (K.getD (1024 * ((j - 1) / 1024)) []),
        (K.drop (1024 * ((j - 1) / 1024) + 1)).take (j - 1 - 1024 * ((j - 1) / 1024)), mx⟩) ∧
      mx = (K.take j).foldl (fun m k => max m k.length) 0 ∧
      BulkInv false [] c K (List.replicate m 255) t (K.getD (1024 * ((j - 1) / 1024)) []) := by
  intro j
  induction j with
  | zero => intro h; omega
  | succ j ih =>
    intro _ hj
    rw [streamTake_succ (by omega)]
    by_cases h0 : j = 0
    · subst h0
      refine ⟨[], (K.getD 0 []).length, ?_, ?_, ?_⟩
      · unfold streamTake
        simp [streamKey]
      · cases K with
        | nil => simp at hj
        | cons a K' => simp
      · exact ⟨[], [], rfl, by simp, List.isChain_singleton _, Or.inl ⟨rfl, rfl⟩, by simp, by simp, by simp, by intro e he; cases he⟩
    · obtain ⟨t, mx, hst, hmx, hinv⟩ := ih (by omega) (by omega)
      rw [hst, Res.bind_ok]
      have hmx' : max mx (K.getD j []).length = (K.take (j + 1)).foldl (fun m k => max m k.length) 0 := by
        rw [List.take_succ_eq_append_getElem (by omega), List.foldl_append, hmx]
        have : K.getD j [] = K[j] := by
          rw [List.getD_eq_getElem?_getD, List.getElem?_eq_getElem (by omega)]; rfl
        rw [this]; rfl
      unfold streamKey
      dsimp only
      generalize hlast : 1024 * ((j - 1) / 1024) = last at *
      have hlk : ((K.drop (last + 1)).take (j - 1 - last)).length = j - 1 - last := by
        rw [List.length_take, List.length_drop]; omega
      rw [hlk]
      by_cases hlt : j - 1 - last < 1023
      · rw [if_pos hlt]
        have hl2 : 1024 * ((j + 1 - 1) / 1024) = last := by omega
        rw [hl2]
        refine ⟨t, _, ?_, hmx', hinv⟩
        have e : (K.drop (last + 1)).take (j + 1 - 1 - last) =
            (K.drop (last + 1)).take (j - 1 - last) ++ [K.getD j []] := by
          rw [show j + 1 - 1 - last = j - 1 - last + 1 by omega,
            List.take_succ_eq_append_getElem (by rw [List.length_drop]; omega)]
          congr 2
          rw [List.getD_eq_getElem?_getD, List.getElem?_eq_getElem (by omega)]
          simp only [List.getElem_drop, Option.getD_some]
          congr 1
          omega
        rw [e]
      · rw [if_neg hlt]
        have hj1 : j - last - 1 = j - 1 - last := by omega
        have hne : K.getD last [] ≠ K.getD j [] := by
          have := hd ((j - 1) / 1024) (by omega)
          rwa [hlast, show 1024 * ((j - 1) / 1024 + 1) = j by omega] at this
        obtain ⟨t', hb, hinv'⟩ := bulk_step hc hK hF (i := last) (j := j) (g := growSep) (by omega) (by omega) hne hinv
          hc.fine_sep (by have := size_growSep hc; omega) (by omega)
        rw [hj1] at hb
        rw [hb, Res.bind_ok]
        have hl2 : 1024 * ((j + 1 - 1) / 1024) = j := by omega
        rw [hl2]
        refine ⟨t', _, ?_, hmx', hinv'⟩
        rw [show j + 1 - 1 - j = 0 by omega, List.take_zero]

/-- Streaming bulk load builds the filter of the keys, unless the number of keys is 1 modulo 1024 or the
first region would be overwritten. -/
theorem stream_dup (hc : c.WF) (hK : K.Pairwise PadLeq) (hne : K ≠ [])
    (hm : m = K.foldl (fun m k => max m k.length) 0)
    (hZ : ∀ k ∈ K, k = List.replicate m 0 ∨ PadLt (List.replicate m 0) k) (hsam : Sampled K)
    (hcond : K.length ≤ 1024 ∨ K.getD 0 [] ≠ List.replicate m 0) :
    ∃ f, streamAll c K = .ok f ∧ LoadedIn c K f ∧ Spans m f ∧ (∀ k ∈ K, k.length ≤ m) ∧
      (∀ e ∈ f.tree, e.1 ∈ K ∨ e.1 = List.replicate m 0 ∨ e.1 = List.replicate m 255) ∧
      K.getD 0 [] ∈ f.tree.map Prod.fst := by
  have hn0 : K.length ≠ 0 := fun e => hne (List.length_eq_zero_iff.1 e)
  have hlen : ∀ k ∈ K, k.length ≤ m := by rw [hm]; exact (foldl_max K 0).2
  have hF : ∀ k ∈ K, keyLe k (List.replicate m 255) = true := fun k hk => le_ones_len k (hlen k hk)
  obtain ⟨t, mx, hst, hmx, hinv⟩ := streamTake_spec hc hK hF hsam.1 K.length (by omega) (Nat.le_refl _)
  unfold streamTake at hst
  rw [List.take_length] at hst hmx
  rw [← hm] at hmx
  subst hmx
  have hlne := hsam.2
  have hl1 : 1024 * ((K.length - 1) / 1024) ≠ K.length - 1 := fun e => hlne (by rw [e])
  generalize hlast : 1024 * ((K.length - 1) / 1024) = last at *
  have hl : last < K.length - 1 := by omega
  obtain ⟨B0, hinv1, hB0, hB0'⟩ := put_ends hc hK hlen hZ (getD_mem (by omega)) hinv (by
    rcases hcond with h | h
    · left; rw [show last = 0 by omega]
    · exact Or.inr h)
  generalize ht1 : addTreeKey (addTreeKey t (List.replicate mx 0)) (List.replicate mx 255) = t1 at *
  have hkeys : (K.drop (last + 1)).take (K.length - 1 - last) =
      (K.drop (last + 1)).take (K.length - 1 - last - 1) ++ [K.getD (K.length - 1) []] := by
    rw [show K.length - 1 - last = K.length - 1 - last - 1 + 1 by omega,
      List.take_succ_eq_append_getElem (by rw [List.length_drop]; omega)]
    congr 2
    rw [List.getD_eq_getElem?_getD, List.getElem?_eq_getElem (by omega)]
    simp only [List.getElem_drop, Option.getD_some]
    congr 1
    omega
  have hml : ((K.drop (last + 1)).take (K.length - 1 - last - 1)).length = K.length - 1 - last - 1 := by
    rw [List.length_take, List.length_drop]; omega
  obtain ⟨g1, g2⟩ := findGrade_lt (c := c) (len := K.length - 1 - last - 1) (by omega) (by have := hc.top; omega)
  obtain ⟨t2, hb, hinv2⟩ := bulk_step hc hK hF (i := last) (j := K.length - 1) hl (by omega) hlne hinv1 g2 g1 (by omega)
  obtain ⟨L1, L2, L3, L4⟩ := bulk_finish hc hK hn0 hlen hB0 hB0' hinv2
  refine ⟨⟨c, addTreeKey t2 (K.getD (K.length - 1) [])⟩, ?_, L1, L2, hlen, L3, L4⟩
  unfold streamAll
  rw [hst, Res.bind_ok]
  dsimp only
  unfold streamFinish
  dsimp only
  rw [hkeys, ht1]
  simp only [Option.isNone_some, Bool.false_eq_true, if_false, List.length_append, List.length_cons, List.length_nil,
    Option.getD_some, List.dropLast_concat, hml]
  rw [if_pos (by omega), List.getLastD_concat, hb]
  rfl

theorem stream_spec (hc : c.WF) (hK : K.Pairwise PadLt) (hne : K ≠ [])
    (hm : m = K.foldl (fun m k => max m k.length) 0)
    (hZ : ∀ k ∈ K, k = List.replicate m 0 ∨ PadLt (List.replicate m 0) k) (hmod : K.length % 1024 ≠ 1)
    (hcond : K.length ≤ 1024 ∨ K.getD 0 [] ≠ List.replicate m 0) :
    ∃ f, streamAll c K = .ok f ∧ Loaded c K f ∧ Spans m f ∧ (∀ k ∈ K, k.length ≤ m) ∧
      (∀ e ∈ f.tree, e.1 ∈ K ∨ e.1 = List.replicate m 0 ∨ e.1 = List.replicate m 255) ∧
      K.getD 0 [] ∈ f.tree.map Prod.fst := by
  obtain ⟨f, e, hl, hr⟩ := stream_dup hc (leq_of_lt hK) hne hm hZ
    ((sampled_iff hK (fun e => hne (List.length_eq_zero_iff.1 e))).2 hmod) hcond
  exact ⟨f, e, hl.exact hK, hr⟩

end

end Verif
