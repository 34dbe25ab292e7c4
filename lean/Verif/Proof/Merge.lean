import Verif.Proof.MergeOrder
import Verif.Proof.DeleteItem
import Verif.Proof.Reach

/-!
# Merging two regions
-/

namespace Verif

theorem mapRes_forall₂ {f : Nat → Res Nat} : ∀ {l out : List Nat}, mapRes f l = .ok out →
    List.Forall₂ (fun x z => f x = .ok z) l out
  | [], out, h => by
    simp only [mapRes, Res.ok.injEq] at h
    subst h; exact .nil
  | x :: l, out, h => by
    simp only [mapRes] at h
    cases hx : f x with
    | ub => rw [hx] at h; cases h
    | hang => rw [hx] at h; cases h
    | ok z =>
      rw [hx, Res.bind_ok] at h
      cases hl : mapRes f l with
      | ub => rw [hl] at h; cases h
      | hang => rw [hl] at h; cases h
      | ok o =>
        rw [hl, Res.bind_ok, Res.ok.injEq] at h
        subst h
        exact .cons hx (mapRes_forall₂ hl)

theorem forall₂_map_ok {f : Nat → Nat} : ∀ l : List Nat, List.Forall₂ (fun x z => Res.ok (f x) = Res.ok z) l (l.map f)
  | [] => .nil
  | _ :: l => .cons rfl (forall₂_map_ok l)

section
variable {K1 K2 l r : Key} {s sh ig imp oSh oIg oImp : Nat}

/-- What merging does with one item of a region with level `oP` above `l`. -/
structure Merged (s oP : Nat) (l r : Key) (nP : Nat) (K : Key) (x y : Nat) : Prop extends CutItem s oP l nP K x y where
  item : y % 2 ^ s ≠ 0
  top : y / 2 ^ s + pre nP K ≤ pre nP r
  lt : y < 2 ^ 64

/-- `UpdateInfixListDelete` on the items of one region. -/
theorem updateDelete_spec (L : Lengths K1 K2 sh ig imp) (hlt : PadLt K1 K2) (O : Lengths l r oSh oIg oImp) (holt : PadLt l r)
    (hl : Between K1 l K2) (hr : Between K1 r K2) (hs1 : 1 ≤ s) (hs : s ≤ 46) (hb : oSh + oIg < 2 ^ 31) {list out : List Nat}
    (hx : ∀ x ∈ list, x % 2 ^ s ≠ 0 ∧ x < 2 ^ 64 ∧ x / 2 ^ s < pre (oSh + oIg + oImp) r - pre (oSh + oIg + oImp) l + 1)
    (h : updateInfixListDelete s sh ig imp l r list = .ok out) :
    List.Forall₂ (Merged s (oSh + oIg + oImp) l r (sh + ig + imp) K1) list
      (out.map fun z => sub64 z (shl64 (extractPartialKey s K1 sh ig imp 0 >>> s) s)) := by
  have hsame : pre (8 * (sh / 64 * 8)) l = pre (8 * (sh / 64 * 8)) r := by
    have h1 : pre sh K1 = pre sh K2 := pre_eq_iff.2 L.same
    have h2 := hl sh
    have h3 := hr sh
    exact pre_eq_len (show 8 * (sh / 64 * 8) ≤ sh by omega) (by omega)
  unfold updateInfixListDelete at h
  cases e : siiFrom (sh / 64 * 8) l r with
  | ub => rw [e] at h; cases h
  | hang => rw [e] at h; cases h
  | ok v =>
    obtain ⟨a, b, g⟩ := v
    obtain ⟨rfl, rfl, rfl⟩ := O.unique (siiFrom_ok e hsame)
    rw [e, Res.bind_ok] at h
    dsimp only at h
    have hall : List.Forall₂ (fun x z => mergeFn s sh ig imp oSh oIg oImp l x = .ok z) list out := by
      unfold mergeFn
      split_ifs at h ⊢ with hc
      · injection h with h
        subst h
        exact forall₂_map_ok _
      · exact mapRes_forall₂ h
    clear h e
    induction hall with
    | nil => exact .nil
    | @cons x z list out hz _ ih =>
      refine .cons ?_ (ih fun x hx' => hx x (List.mem_cons_of_mem _ hx'))
      obtain ⟨a1, a2, a3⟩ := hx x (by simp)
      have h2 := holt.le (oSh + oIg + oImp)
      rcases merge_item L hlt O holt hl hr hs1 hs hb a1 a2 (by omega) with hu | ⟨z', hz', b1, b2, b3, b4⟩
      · rw [hz] at hu; cases hu
      · rw [hz] at hz'
        injection hz' with hz'
        subst hz'
        exact ⟨b4, b1, b2, b3⟩

end

theorem StoreHas.flags' {c : Cfg} {T : Nat} {st : Store} {L : List Nat} (h : StoreHas c T st L) {v : Nat} {b : Bool}
    (hv : v < 8) : StoreHas c T ((st.setPartial b).setInvalidBits v) L ∧
      ((st.setPartial b).setInvalidBits v).invalidBits = v ∧ ((st.setPartial b).setInvalidBits v).isPartial = b := by
  obtain ⟨lay, I, rfl⟩ := h
  have h0 := I.status
  have e1 := setPartial_status (v := b) h0
  have hb : b.toNat ≤ 1 := Bool.toNat_le b
  have h1 : (st.setPartial b).status < 2 ^ 32 := by rw [e1]; omega
  have e2 := setInvalidBits_status (v := v) h1 hv
  have em : ((st.setPartial b).setInvalidBits v).mem = st.mem := by rw [setInvalidBits_mem, setPartial_mem]
  have eg : ((st.setPartial b).setInvalidBits v).sizeGrade = st.sizeGrade := by
    rw [sizeGrade_eq, sizeGrade_eq, e2, e1]; omega
  have ec : ((st.setPartial b).setInvalidBits v).elemCount = st.elemCount := by
    rw [elemCount_eq, elemCount_eq, e2, e1]; omega
  refine ⟨⟨lay, ⟨?_, ?_, ?_, ?_, by rw [eg]; exact I.fine⟩, by rw [eg]⟩, ?_, ?_⟩
  · rw [eg]; exact I.wf
  · rw [eg, em]; exact I.rep
  · rw [eg, ec]; exact I.count
  · rw [e2]; omega
  · rw [invalidBits_eq, e2, e1]; omega
  · rw [isPartial_eq, e2, e1]
    cases b
    · simp; omega
    · simp; omega

/-! ## The merged list -/

section
variable {s oP oQ nP T : Nat} {a m b : Key} {La Lb Na Nb : List Nat}

theorem forall₂_mem_right {α β : Type} {R : α → β → Prop} : ∀ {l : List α} {l' : List β}, List.Forall₂ R l l' →
    ∀ y ∈ l', ∃ x ∈ l, R x y
  | _, _, .nil, y, h => by cases h
  | _, _, .cons h t, y, hy => by
    rcases List.mem_cons.1 hy with rfl | hy
    · exact ⟨_, by simp, h⟩
    · obtain ⟨x, hx, hr⟩ := forall₂_mem_right t y hy
      exact ⟨x, List.mem_cons_of_mem _ hx, hr⟩

theorem Merged.cut_le {l r K : Key} {x y : Nat} (M : Merged s oP l r nP K x y) :
    ilen s nP y ≤ ilen s oP x := by rw [M.len]; exact Nat.min_le_left _ _

/-- The prefix of the new item is a prefix of the old one. -/
theorem Merged.hits {l r K k : Key} {x y : Nat} (M : Merged s oP l r nP K x y) (h : Hits s oP l x k) :
    Hits s nP K y k := by
  unfold Hits at h ⊢
  have := M.cut_le
  rw [M.val, ← h, ← pre_shorten k (p := ilen s nP y) (q := ilen s oP x) (by omega)]

theorem Merged.inside {l r K k1 k2 : Key} {x y : Nat} (M : Merged s oP l r nP K x y)
    (h : pre (ilen s oP x) k1 ≤ ival s (pre oP l) x ∧ ival s (pre oP l) x ≤ pre (ilen s oP x) k2) :
    pre (ilen s nP y) k1 ≤ ival s (pre nP K) y ∧ ival s (pre nP K) y ≤ pre (ilen s nP y) k2 := by
  have := M.cut_le
  rw [M.val, pre_shorten k1 (p := ilen s nP y) (q := ilen s oP x) (d := ilen s oP x - ilen s nP y) (by omega),
    pre_shorten k2 (p := ilen s nP y) (q := ilen s oP x) (d := ilen s oP x - ilen s nP y) (by omega)]
  exact ⟨Nat.div_le_div_right h.1, Nat.div_le_div_right h.2⟩

theorem Merged.ile {l r l' r' K : Key} {x y x' y' : Nat} (M : Merged s oP l r nP K x y) (M' : Merged s oQ l' r' nP K x' y')
    (h : ple (min (ilen s oP x) (nP + s - 1))
        (ival s (pre oP l) x / 2 ^ (ilen s oP x - min (ilen s oP x) (nP + s - 1))) (min (ilen s oQ x') (nP + s - 1))
        (ival s (pre oQ l') x' / 2 ^ (ilen s oQ x' - min (ilen s oQ x') (nP + s - 1)))) : Verif.ile y y' := by
  rw [ile_iff_ple (p := nP) (base := pre nP K) M.item M.lt M'.item M'.lt, M.val, M'.val, M.len, M'.len]
  exact h

theorem merged_sorted {l r K : Key} {L N : List Nat} (h : List.Forall₂ (Merged s oP l r nP K) L N) (hs : L.Pairwise ile)
    (hi : ∀ x ∈ L, x % 2 ^ s ≠ 0 ∧ x < 2 ^ 64) : N.Pairwise ile := by
  induction h with
  | nil => exact .nil
  | @cons x y L N hxy hLN ih =>
    rw [List.pairwise_cons] at hs ⊢
    refine ⟨?_, ih hs.2 fun x hx => hi x (List.mem_cons_of_mem _ hx)⟩
    intro y' hy'
    obtain ⟨x', hx', hr⟩ := forall₂_mem_right hLN y' hy'
    have h1 := hs.1 x' hx'
    obtain ⟨a1, a2⟩ := hi x (by simp)
    obtain ⟨b1, b2⟩ := hi x' (List.mem_cons_of_mem _ hx')
    rw [ile_iff_ple (p := oP) (base := pre oP l) a1 a2 b1 b2] at h1
    exact hxy.ile hr (ple_cut h1)

end

/-! ## The whole operation -/

/-- No item of the upper region that is a prefix of the removed boundary is shorter than the items of the merged
region. -/
def NoShort (s oP : Nat) (m : Key) (L : List Nat) (nP : Nat) : Prop :=
  ∀ x ∈ L, Hits s oP m x m → nP + s - 1 ≤ ilen s oP x

/-- The state after a merge. -/
structure MergeDone (f f' : Filter) (A : Tree) (a p e : Key × Store) (B : Tree) (P Q N : Nat) (La Lp Na Np : List Nat)
    (st : Store) : Prop where
  out : f' = { f with tree := A ++ (a.1, st) :: e :: B }
  clean : CleanStore f.cfg st
  part : st.isPartial = a.2.isPartial
  ib : st.invalidBits = a.2.invalidBits
  lower : List.Forall₂ (Merged f.cfg.infixSize P a.1 p.1 N a.1) La Na
  upper : List.Forall₂ (Merged f.cfg.infixSize Q p.1 e.1 N a.1) Lp Np

theorem treeDel_mid {A B : Tree} {p : Key × Store} (hpw : (A ++ p :: B).Pairwise fun e e' => PadLt e.1 e'.1) :
    treeDel (A ++ p :: B) p.1 = A ++ B := by
  unfold treeDel
  rw [List.pairwise_append, List.pairwise_cons] at hpw
  rw [List.filter_append, List.filter_cons_of_neg (by simp), List.filter_eq_self.2, List.filter_eq_self.2]
  · intro x hx
    simp only [bne_iff_ne, ne_eq]
    intro he
    have := hpw.2.1.1 x hx
    rw [he] at this
    exact PadLt.irrefl _ this
  · intro x hx
    simp only [bne_iff_ne, ne_eq]
    intro he
    have := hpw.2.2 x hx p (by simp)
    rw [he] at this
    exact PadLt.irrefl _ this

theorem deleteMerge_spec {f : Filter} (h : FilterW f) {A B : Tree} {a p e : Key × Store} (ht : f.tree = A ++ a :: p :: e :: B)
    {sh1 ig1 imp1 sh2 ig2 imp2 : Nat} {La Lp : List Nat} (Ra : RegionW f.cfg a.1 a.2 p.1 sh1 ig1 imp1 La)
    (Rp : RegionW f.cfg p.1 p.2 e.1 sh2 ig2 imp2 Lp) {n : Nat} (hn : n < 2 ^ 28) (hla : a.1.length ≤ n) (hlp : p.1.length ≤ n)
    (hle : e.1.length ≤ n) (hcnt : La.length + Lp.length < f.cfg.cap)
    (hshort : ∀ N, Level a.1 e.1 N → NoShort f.cfg.infixSize (sh2 + ig2 + imp2) p.1 Lp N)
    {f' : Filter} (hd : deleteMerge f (A.length + 1) = .ok f') :
    ∃ st sh ig imp Na Np, MergeDone f f' A a p e B (sh1 + ig1 + imp1) (sh2 + ig2 + imp2) (sh + ig + imp) La Lp Na Np st ∧
      RegionHas f.cfg a.1 st e.1 sh ig imp (Na ++ Np) := by
  have hwf := h.wf
  have hpw := h.pairwise
  have hs1 := hwf.s1
  have hs2 := hwf.s2
  have hlt : PadLt a.1 e.1 := Ra.lt.trans Rp.lt
  obtain ⟨sh, ig, imp, hsii⟩ : ∃ sh ig imp, sharedIgnoreImplicit a.1 e.1 = some (sh, ig, imp) := by
    cases hs : sharedIgnoreImplicit a.1 e.1 with
    | none =>
      rw [sii_none] at hs
      obtain ⟨q, hq⟩ := hlt
      have := hs q; omega
    | some v => obtain ⟨x, y, z⟩ := v; exact ⟨x, y, z, rfl⟩
  have hL : Lengths a.1 e.1 sh ig imp := sii_spec hsii
  obtain ⟨fr, hf, e1, e2, e3, e4, e5⟩ : ∃ fr, getFrame f.cfg.infixSize a.1 e.1 = .ok fr ∧ fr.shared = sh ∧ fr.ignore = ig ∧
      fr.implicitSize = imp ∧ fr.prevImplicit = extractPartialKey f.cfg.infixSize a.1 sh ig imp 0 >>> f.cfg.infixSize ∧
      fr.total = pre (sh + ig + imp) e.1 - pre (sh + ig + imp) a.1 + 1 := by
    unfold getFrame
    rw [hsii]
    exact ⟨_, rfl, rfl, rfl, rfl, rfl, hL.totalImplicit hlt hs2⟩
  have pk1 : treePeek f.tree (A.length + 1) = .ok p := by rw [ht, peek_append_succ]
  have pk2 : treePeek f.tree (A.length + 1 + 1) = .ok e := by
    have : f.tree = (A ++ [a]) ++ p :: e :: B := by rw [ht]; simp
    rw [this]
    have := peek_append_succ (A := A ++ [a]) (p := p) (e := e) (B := B)
    simpa using this
  have pk0 : treePeek f.tree (A.length + 1 - 1) = .ok a := by
    rw [Nat.add_sub_cancel, ht, peek_append]
  have l1 := Ra.list hwf
  have l2 := Rp.list hwf
  have c1 := Ra.has.count
  have c2 := Rp.has.count
  have b1 : Between a.1 a.1 e.1 := between_left hlt
  have b2 : Between a.1 p.1 e.1 := fun q => ⟨Ra.lt.le q, Rp.lt.le q⟩
  have b3 : Between a.1 e.1 e.1 := fun q => ⟨hlt.le q, Nat.le_refl _⟩
  unfold deleteMerge at hd
  dsimp only at hd
  simp only [pk0, pk1, pk2, Res.bind_ok, Nat.succ_ne_zero, if_false, l1, l2, hf, c1, c2, ne_eq, not_true_eq_false,
    or_self] at hd
  rw [e1, e2, e3, e4] at hd
  obtain ⟨newL, hnl, hd⟩ := Res.bind_eq_ok hd
  obtain ⟨newR, hnr, hd⟩ := Res.bind_eq_ok hd
  have k1 := Ra.lengths.bound hla hlp
  have k2 := Rp.lengths.bound hlp hle
  have k3 := Ra.lengths.imp_cases
  have k4 := Rp.lengths.imp_cases
  have F1 := updateDelete_spec hL hlt Ra.lengths Ra.lt b1 b2 hs1 hs2 (by omega) (fun x hx => Ra.item_lt hwf hx) hnl
  have F2 := updateDelete_spec hL hlt Rp.lengths Rp.lt b2 b3 hs1 hs2 (by omega) (fun x hx => Rp.item_lt hwf hx) hnr
  rw [List.map_append] at hd
  generalize newL.map (fun z => sub64 z (shl64 (extractPartialKey f.cfg.infixSize a.1 sh ig imp 0 >>> f.cfg.infixSize) f.cfg.infixSize)) = Na at F1 hd
  generalize newR.map (fun z => sub64 z (shl64 (extractPartialKey f.cfg.infixSize a.1 sh ig imp 0 >>> f.cfg.infixSize) f.cfg.infixSize)) = Np at F2 hd
  injection hd with hd
  have hT : pre (sh + ig + imp) e.1 - pre (sh + ig + imp) a.1 + 1 ≤ 1024 := by
    obtain ⟨_, h⟩ := hL.total hlt
    omega
  have hload : Loadable f.cfg.infixSize (pre (sh + ig + imp) e.1 - pre (sh + ig + imp) a.1 + 1) (Na ++ Np) := by
    refine ⟨?_, ?_⟩
    · rw [List.pairwise_append]
      refine ⟨merged_sorted F1 Ra.has.loadable.sorted fun x hx => ⟨(Ra.item_lt hwf hx).1, (Ra.item_lt hwf hx).2.1⟩,
        merged_sorted F2 Rp.has.loadable.sorted fun x hx => ⟨(Rp.item_lt hwf hx).1, (Rp.item_lt hwf hx).2.1⟩, ?_⟩
      intro y hy y' hy'
      obtain ⟨x, hx, hr⟩ := forall₂_mem_right F1 y hy
      obtain ⟨x', hx', hr'⟩ := forall₂_mem_right F2 y' hy'
      refine hr.ile hr' (ple_cross (k := p.1) (Ra.inside x hx).2 (Rp.inside x' hx').1 ?_)
      exact fun hh => hshort _ (hL.level hlt) x' hx' hh
    · intro y hy
      have hmono := hlt.le (sh + ig + imp)
      rcases List.mem_append.1 hy with hy | hy
      · obtain ⟨x, hx, hr⟩ := forall₂_mem_right F1 y hy
        have := hr.top
        have := (b2 (sh + ig + imp)).2
        exact ⟨hr.item, by omega⟩
      · obtain ⟨x, hx, hr⟩ := forall₂_mem_right F2 y hy
        have := hr.top
        exact ⟨hr.item, by omega⟩
  have hin : ∀ y ∈ Na ++ Np, Inside f.cfg.infixSize (sh + ig + imp) a.1 e.1 y := by
    intro y hy
    rcases List.mem_append.1 hy with hy | hy
    · obtain ⟨x, hx, hr⟩ := forall₂_mem_right F1 y hy
      have := hr.inside (Ra.inside x hx)
      exact ⟨this.1, Nat.le_trans this.2 (b2 _).2⟩
    · obtain ⟨x, hx, hr⟩ := forall₂_mem_right F2 y hy
      have := hr.inside (Rp.inside x hx)
      exact ⟨Nat.le_trans (b2 _).1 this.1, this.2⟩
  have hlen : (Na ++ Np).length = La.length + Lp.length := by
    rw [List.length_append, ← F1.length_eq, ← F2.length_eq]
  obtain ⟨_, _, hal⟩ := allocWithList_has hwf hT hload (by omega)
  obtain ⟨g1, g2, g3⟩ := hal.flags' (v := a.2.invalidBits) (b := a.2.isPartial) (invalidBits_lt _)
  rw [e5] at hd
  have cal := (clean_alloc hwf hT hload (by omega)).flags' (v := a.2.invalidBits) (b := a.2.isPartial) (invalidBits_lt _)
  refine ⟨_, sh, ig, imp, Na, Np, ⟨?_, cal, g3, g2, F1, F2⟩, .make hlt hsii g1 hin (by rw [g3]; exact Ra.part)⟩
  rw [← hd]
  have e6 : treeDel f.tree p.1 = A ++ a :: e :: B := by
    have hpw' := hpw
    rw [ht, show A ++ a :: p :: e :: B = (A ++ [a]) ++ p :: (e :: B) by simp] at hpw'
    rw [ht, show A ++ a :: p :: e :: B = (A ++ [a]) ++ p :: (e :: B) by simp, treeDel_mid hpw']
    simp
  rw [e6]
  rw [show a = (a.1, a.2) from rfl, treePut_replace (fun x hx => keyLt_of_padLt (before_of_pairwise hpw ht hx))]

end Verif
