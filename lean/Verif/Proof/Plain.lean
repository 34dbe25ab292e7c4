import Verif.Spec.Plain
import Verif.Proof.TameOps

/-!
# Histories without splits are tame
-/

namespace Verif

/-- Number of items in all regions. -/
def tcount (c : Cfg) (t : Tree) : Nat := (t.dropLast.map fun e => (getInfixList c e.2).length).sum

theorem tcount_cons (c : Cfg) (p e : Key × Store) (B : Tree) :
    tcount c (p :: e :: B) = (getInfixList c p.2).length + tcount c (e :: B) := by
  unfold tcount
  rw [List.dropLast_cons_cons, List.map_cons, List.sum_cons]

theorem tcount_append (c : Cfg) (A : Tree) (p : Key × Store) (B : Tree) :
    tcount c (A ++ p :: B) = (A.map fun e => (getInfixList c e.2).length).sum + tcount c (p :: B) := by
  unfold tcount
  rw [List.dropLast_append_of_ne_nil (by simp), List.map_append, List.sum_append]

/-- No partial boundary and no short item; at most `m` items. -/
structure PlainInv (m : Nat) (f : Filter) : Prop where
  chain : f.tree.IsChain fun p _ => p.2.isPartial = false ∧ ∀ x ∈ getInfixList f.cfg p.2, x % 2 = 1
  cnt : tcount f.cfg f.tree ≤ m

theorem PlainInv.at {m : Nat} {f : Filter} (h : PlainInv m f) {A B : Tree} {p e : Key × Store}
    (ht : f.tree = A ++ p :: e :: B) : p.2.isPartial = false ∧ ∀ x ∈ getInfixList f.cfg p.2, x % 2 = 1 := by
  have := h.chain
  rw [ht] at this
  exact (List.isChain_append_cons_cons.1 this).2.1

/-- Replacing the stretch of the tree between two entries. -/
theorem chain_mid {Q : Key × Store → Prop} {A B D : Tree} {p e p' : Key × Store}
    (h : (A ++ p :: (D ++ e :: B)).IsChain fun x _ => Q x) (hp : Q p') :
    (A ++ p' :: e :: B).IsChain fun x _ => Q x := by
  have h1 : (A ++ p :: D ++ e :: B).IsChain fun x _ => Q x := by simpa using h
  have h2 := (List.isChain_append.1 h1).2.1
  have h3 := List.isChain_append.1 h
  rw [List.isChain_append]
  refine ⟨h3.1, List.isChain_cons_cons.2 ⟨hp, h2⟩, ?_⟩
  intro x hx y hy
  exact h3.2.2 x hx p (by simp)

theorem PlainInv.replace {m m' : Nat} {f : Filter} (h : PlainInv m f) {A B D : Tree} {p e p' : Key × Store}
    (ht : f.tree = A ++ p :: (D ++ e :: B)) (hp : p'.2.isPartial = false)
    (ho : ∀ x ∈ getInfixList f.cfg p'.2, x % 2 = 1)
    (hc : m' + ((p :: D).map fun e => (getInfixList f.cfg e.2).length).sum = m + (getInfixList f.cfg p'.2).length) :
    PlainInv m' { f with tree := A ++ p' :: e :: B } := by
  refine ⟨?_, ?_⟩
  · have := h.chain
    rw [ht] at this
    exact chain_mid (Q := fun x => x.2.isPartial = false ∧ ∀ y ∈ getInfixList f.cfg x.2, y % 2 = 1) this ⟨hp, ho⟩
  · have := h.cnt
    rw [ht, tcount_append, show p :: (D ++ e :: B) = (p :: D) ++ e :: B by simp, tcount_append] at this
    dsimp only
    rw [tcount_append, tcount_cons]
    omega

theorem odd_of_full {s p y : Nat} (h0 : y % 2 ^ s ≠ 0) (hy : y < 2 ^ 64) (h : p + s - 1 ≤ ilen s p y) : y % 2 = 1 := by
  obtain ⟨a, t, rfl, ht⟩ := item_decomp h0
  rw [ilen_odd hy] at h
  obtain rfl : t = 0 := by omega
  omega

theorem full_of_odd {s p y : Nat} (hy : y < 2 ^ 64) (h : y % 2 = 1) : ilen s p y = p + s - 1 := by
  obtain ⟨a, rfl⟩ : ∃ a, y = (2 * a + 1) * 2 ^ 0 := ⟨y / 2, by omega⟩
  rw [ilen_odd hy]; rfl

/-- Inserting without a split. -/
theorem PlainInv.insert {m : Nat} {f f' : Filter} {key : Key} (h : PlainInv m f) (hok : FilterOK f)
    (hi : insertSimple f key = .ok f') (hfit : SimpleFits f key) : PlainInv (m + 1) f' := by
  obtain ⟨A, prev, st, st2, next, st', B, sh, ig, imp, X, Y, ht, ht', hcfg, h1, h2, e1, e2, R, R2, _⟩ :=
    insertSimple_spec hok hi hfit
  obtain ⟨a1, a2⟩ := h.at ht
  dsimp only at a1 a2
  have l1 := R.list hok.wf
  have l2 := R2.list hok.wf
  rw [l1] at a2
  have := h.replace (m' := m + 1) (D := []) (p' := (prev, st2)) ht (by rw [e1]; exact a1) (by
    dsimp only
    rw [l2]
    intro x hx
    rcases List.mem_append.1 hx with hx | hx
    · exact a2 x (List.mem_append_left _ hx)
    · rcases List.mem_cons.1 hx with rfl | hx
      · rw [or_one]; omega
      · exact a2 x (List.mem_append_right _ hx)) (by
    simp only [List.map_cons, List.map_nil, List.sum_cons, List.sum_nil, l1, l2, List.length_append, List.length_cons]
    omega)
  rw [← ht', ← hcfg] at this
  exact this

theorem PlainInv.fits {m : Nat} {f : Filter} {key : Key} (h : PlainInv m f) (hok : FilterOK f) (hm : m + 1 < f.cfg.cap) :
    SimpleFits f key := by
  intro i prev st next hl
  obtain ⟨A, st', B, ht, _⟩ := locate_spec hok hl
  obtain ⟨sh, ig, imp, L, R⟩ := hok.region ht
  have := h.cnt
  rw [ht, tcount_append, tcount_cons] at this
  dsimp only at this
  rw [R.list hok.wf] at this
  have hc := R.has.count
  dsimp only at hc
  omega

/-- Deleting. -/
theorem PlainInv.delete {c : Cfg} {n m : Nat} (hn : n < 2 ^ 28) {ins : Bool} {f f' : Filter} {S : List Key} {k : Key}
    (h : PlainInv m f) (hm : m < c.cap) (ht : TameInv c n ins f S) (hk : k ∈ S) (hd : delete f k = .ok f') :
    DeleteTame false f k ∧ PlainInv m f' := by
  have hw := ht.weak
  have hwf := hw.wf
  have tame : DeleteTame false f k := by
    intro A p e B q htr h1 h2 hq
    obtain ⟨sh, ig, imp, L, R⟩ := hw.region htr
    have := hq.unique (R.lengths.level R.lt)
    subst this
    obtain ⟨a1, a2⟩ := h.at htr
    have hit : itemsOf f p.1 = L := by rw [itemsOf_at hw.pairwise htr, R.list hwf]
    refine ⟨fun hp => absurd hp (by rw [a1]; decide), ?_, ?_, fun hi => absurd hi (by decide)⟩
    · rintro _ A' a N rfl hN x hx hxp
      have ht3 : f.tree = A' ++ a :: p :: e :: B := by rw [htr]; simp
      obtain ⟨sh1, ig1, imp1, La, Ra⟩ := hw.region ht3
      have hx' := hx
      rw [hit] at hx
      obtain ⟨b1, b2, _⟩ := R.item_lt hwf hx
      rw [itemLen_eq b1 b2, full_of_odd b2 (a2 x (by rw [R.list hwf]; exact hx))]
      have hlt : PadLt a.1 e.1 := Ra.lt.trans R.lt
      cases hs : sharedIgnoreImplicit a.1 e.1 with
      | none =>
        rw [sii_none] at hs
        obtain ⟨q, hq⟩ := hlt
        have := hs q; omega
      | some v =>
        obtain ⟨sh', ig', imp'⟩ := v
        have hL := sii_spec hs
        have := hN.unique (hL.level hlt)
        subst this
        have := hL.level_le hlt R.lengths R.lt (fun q => ⟨Ra.lt.le q, R.lt.le q⟩) (fun q => ⟨hlt.le q, Nat.le_refl _⟩)
        omega
    · rintro _ A' a rfl
      have ht3 : f.tree = A' ++ a :: p :: e :: B := by rw [htr]; simp
      have := h.cnt
      rw [itemsOf_at hw.pairwise ht3, itemsOf_at hw.pairwise htr]
      rw [ht3, tcount_append, tcount_cons, tcount_cons] at this
      have := congrArg Cfg.cap ht.cfg
      omega
  refine ⟨tame, ?_⟩
  obtain ⟨hd0, hmm, hhk⟩ := ht.serve.mem hk
  rcases holds_locate hw.pairwise hmm hhk with ⟨A, p, e, B, htr, hr, h1, h2⟩ | ⟨A, p, htr, rfl⟩
  swap
  · rw [delete_last hw.pairwise htr] at hd
    cases hd
  obtain ⟨sh, ig, imp, L, R⟩ := hw.region htr
  have hlev := R.lengths.level R.lt
  have T := tame A p e B _ htr h1 h2 hlev
  obtain ⟨fr, hf, _, _, _, _, hT⟩ := R.frame hwf
  have hlp : p.1.length ≤ n := ht.len p (by rw [htr]; simp)
  have hle : e.1.length ≤ n := ht.len e (by rw [htr]; simp)
  have hbt : Between p.1 k e.1 := between_of_le h1 (keyLt_keyLe h2)
  have hde := delete_eq hw.pairwise htr h1 h2 hf
  rw [hd] at hde
  obtain ⟨a1, a2⟩ := h.at htr
  rw [R.list hwf] at a2
  rw [a1] at hde
  simp only [and_true, Bool.false_eq_true, false_and, or_false] at hde
  by_cases hpk : p.1 = k
  · rw [if_pos hpk] at hde
    have hrm : Removes f p (sh + ig + imp) k := by unfold Removes; rw [a1]; simpa using hpk
    rcases List.eq_nil_or_concat A with rfl | ⟨A', a, rfl⟩
    · obtain ⟨e1, _⟩ := ht.ends.first_mem htr
      rw [← hpk, e1, ht.delete_first] at hd
      cases hd
    rw [List.concat_eq_append] at *
    have ht3 : f.tree = A' ++ a :: p :: e :: B := by rw [htr]; simp
    have hla : a.1.length ≤ n := ht.len a (by rw [ht3]; simp)
    obtain ⟨sh1, ig1, imp1, La, Ra⟩ := hw.region ht3
    have hit : itemsOf f p.1 = L := by rw [itemsOf_at hw.pairwise htr, R.list hwf]
    have hita : itemsOf f a.1 = La := by rw [itemsOf_at hw.pairwise ht3, Ra.list hwf]
    have hcnt := T.count hrm A' a rfl
    rw [hit, hita] at hcnt
    have hshort : ∀ N, Level a.1 e.1 N → NoShort f.cfg.infixSize (sh + ig + imp) p.1 L N := by
      intro N hN x hx hxp
      obtain ⟨c1, c2, _⟩ := R.item_lt hwf hx
      have := T.long hrm A' a N rfl hN x (by rw [hit]; exact hx) ((prefixItem_iff c1 c2).2 hxp)
      rwa [itemLen_eq c1 c2] at this
    rw [List.length_append, List.length_singleton] at hde
    obtain ⟨st, sh3, ig3, imp3, Na, Np, M, R'⟩ := deleteMerge_spec hw ht3 Ra R hn hla hlp hle hcnt hshort hde.symm
    obtain ⟨a3, a4⟩ := h.at ht3
    rw [Ra.list hwf] at a4
    have hlt : PadLt a.1 e.1 := Ra.lt.trans R.lt
    have hl3 := R'.list hwf
    have v1 := R'.lengths.level_le hlt Ra.lengths Ra.lt (fun q => ⟨Nat.le_refl _, hlt.le q⟩) (fun q => ⟨Ra.lt.le q, R.lt.le q⟩)
    have v2 := R'.lengths.level_le hlt R.lengths R.lt (fun q => ⟨Ra.lt.le q, R.lt.le q⟩) (fun q => ⟨hlt.le q, Nat.le_refl _⟩)
    rw [M.out]
    refine h.replace (D := [p]) (p' := (a.1, st)) ht3 (by rw [M.part]; exact a3) ?_ ?_
    · dsimp only
      rw [hl3]
      intro y hy
      rcases List.mem_append.1 hy with hy | hy
      · obtain ⟨x, hx, hr⟩ := forall₂_mem_right M.lower y hy
        refine odd_of_full hr.item hr.lt (?_ : sh3 + ig3 + imp3 + _ - 1 ≤ _)
        rw [hr.len, full_of_odd (Ra.item_lt hwf hx).2.1 (a4 x hx)]
        omega
      · obtain ⟨x, hx, hr⟩ := forall₂_mem_right M.upper y hy
        refine odd_of_full hr.item hr.lt (?_ : sh3 + ig3 + imp3 + _ - 1 ≤ _)
        rw [hr.len, full_of_odd (R.item_lt hwf hx).2.1 (a2 x hx)]
        omega
    · have e1 := M.lower.length_eq
      have e2 := M.upper.length_eq
      simp only [List.map_cons, List.map_nil, List.sum_cons, List.sum_nil, hl3, Ra.list hwf, R.list hwf, List.length_append]
      omega
  · rw [if_neg hpk] at hde
    have hh : HitL f.cfg.infixSize (sh + ig + imp) p.1 L k := by
      rcases List.mem_cons.1 hr with rfl | hr
      · rcases hhk with rfl | ⟨hc, _⟩
        · exact absurd rfl hpk
        · rw [a1] at hc; cases hc
      · obtain ⟨x, hx, rfl⟩ := List.mem_map.1 hr
        rw [R.list hwf] at hx
        exact ⟨x, hx, ((iHold_iff R.toRegionBase).1 hhk).2.2⟩
    obtain ⟨g1, g2, y, X, Y, hL, hy, hmax, hR, hRs⟩ := R.delete hwf hbt hf hh
    have hde' : f' = { f with tree := A ++ (p.1, deleteRaw f.cfg p.2 (fr.item f.cfg.infixSize k) fr.total) :: e :: B } := by
      injection hde
    generalize deleteRaw f.cfg p.2 (fr.item f.cfg.infixSize k) fr.total = st at *
    subst hde'
    have hl := hR.list hwf
    have hl0 := R.list hwf
    subst hL
    have : PlainInv (m - 1) { f with tree := A ++ (p.1, st) :: e :: B } := by
      have hcnt := h.cnt
      rw [htr, tcount_append, tcount_cons, hl0, List.length_append, List.length_cons] at hcnt
      refine h.replace (D := []) (p' := (p.1, st)) htr (by rw [g2]; exact a1) ?_ ?_
      · dsimp only
        rw [hl]
        intro x hx
        refine a2 x ?_
        rw [List.mem_append] at hx ⊢
        rw [List.mem_cons]
        tauto
      · simp only [List.map_cons, List.map_nil, List.sum_cons, List.sum_nil, hl, hl0, List.length_append, List.length_cons]
        omega
    exact ⟨this.chain, Nat.le_trans this.cnt (Nat.sub_le _ _)⟩

theorem filter_len_add {p q r : Key → Bool} (hpq : ∀ k, p k = true → q k = true → False) (hp : ∀ k, p k = true → r k = true)
    (hq : ∀ k, q k = true → r k = true) : ∀ {K : List Key}, (K.filter p).length + (K.filter q).length ≤ (K.filter r).length
  | [] => by simp
  | a :: K => by
    have ih := filter_len_add hpq hp hq (K := K)
    rw [List.filter_cons, List.filter_cons, List.filter_cons]
    have e1 := hpq a
    have e2 := hp a
    have e3 := hq a
    cases h1 : p a <;> cases h2 : q a <;> cases h3 : r a <;> simp_all <;> omega

/-- The regions of a loaded filter. -/
theorem load_count {c : Cfg} (hc : c.WF) {K : List Key} : ∀ {t : Tree}, (t.IsChain fun e e' => RegionOf c K e.1 e.2 e'.1) →
    ∀ p B, t = p :: B → tcount c t ≤ (K.filter fun k => keyLt p.1 k).length
  | [], _, p, B, h => by cases h
  | [x], _, p, B, h => by simp [tcount]
  | x :: e :: B, hch, p, B', h => by
    injection h with h1 h2
    subst h1
    rw [List.isChain_cons_cons] at hch
    have ih := load_count hc hch.2 e B rfl
    obtain ⟨sh, ig, imp, R, _⟩ := hch.1
    rw [tcount_cons, R.list hc, List.length_map]
    have hsplit : (K.filter fun k => keyLt x.1 k && keyLt k e.1).length + (K.filter fun k => keyLt e.1 k).length ≤
        (K.filter fun k => keyLt x.1 k).length := by
      have hlt := keyLt_of_padLt R.lt
      refine filter_len_add (fun k h1 h2 => ?_) (fun k h1 => ?_) (fun k h1 => keyLt_of_le_of_lt (keyLt_keyLe hlt) h1)
      · rw [Bool.and_eq_true] at h1
        rw [keyLt_asymm h1.2] at h2
        cases h2
      · rw [Bool.and_eq_true] at h1
        exact h1.1
    omega

theorem Loaded.plain {c : Cfg} (hc : c.WF) {K : List Key} {f : Filter} (hl : Loaded c K f) : PlainInv K.length f := by
  refine ⟨?_, ?_⟩
  · rw [hl.cfg]
    refine hl.chain.imp fun a b hab => ?_
    obtain ⟨sh, ig, imp, R, hp, _⟩ := hab
    refine ⟨hp, ?_⟩
    rw [R.list hc]
    intro x hx
    obtain ⟨k, _, rfl⟩ := List.mem_map.1 hx
    unfold itemOf
    rw [or_one]; omega
  · rw [hl.cfg]
    cases ht : f.tree with
    | nil => simp [tcount]
    | cons p B =>
      have := load_count hc hl.chain p B ht
      rw [ht] at this
      exact Nat.le_trans this (List.length_filter_le _ _)

theorem OpsPlain.inv {c : Cfg} (hc : c.WF) {n : Nat} (hn : n < 2 ^ 28) {m : Nat} {ins : Bool} {f : Filter} {S : List Key}
    (h : OpsPlain c n m ins f S) (hm : m < c.cap) : OpsTame c n ins f S ∧ PlainInv m f := by
  induction h with
  | @load K f h1 h2 h3 =>
    refine ⟨.strict h1 h2 h3, ?_⟩
    by_cases hne : K = []
    · subst hne
      unfold bulkFixed bulkCore at h3
      simp at h3
    · obtain ⟨r1, r2⟩ := bulkFixed_spec hc h1 h2 hne
      by_cases hmm : K.length % 1024 = 1
      · rw [r1 hmm] at h3; cases h3
      · obtain ⟨f', e, hl, hs, hlen, _⟩ := r2 hmm
        rw [e] at h3
        obtain rfl : f' = f := by injection h3
        exact hl.plain hc
  | @stream K f h1 h2 hmod h0 h3 =>
    have hne : K ≠ [] := by
      rintro rfl
      unfold streamAll streamFinish at h3
      simp at h3
    have hK : K.Pairwise PadLt := h2.imp_of_mem fun ha hb hab => padLt_of_keyLt hab (by rw [h1 _ ha, h1 _ hb])
    have hsam := (sampled_iff hK (fun e => hne (List.length_eq_zero_iff.1 e))).2 hmod
    have hle : K.Pairwise fun a b => keyLe a b = true := h2.imp fun h => keyLt_keyLe h
    refine ⟨.stream h1 hle hsam h0 (fun _ => Nat.le_refl _) (fun _ h => h) h3 fun k _ => ?_,
      ((stream_fixed hc h1 hle hsam h0 h3).1.exact hK).plain hc⟩
    exact List.nodup_iff_count_le_one.1 (h2.imp fun hab he => by rw [he, keyLt_irrefl] at hab; cases hab) k
  | @insert m f f' S key hb hk hi ih =>
    obtain ⟨t, i⟩ := ih (by omega)
    have hok := (t.inv hc hn).strong rfl
    have hfit := i.fits (key := key) hok (by rw [(t.inv hc hn).cfg]; exact hm)
    have hi' : insertSimple f key = .ok f' := by
      unfold Verif.insert at hi
      simpa using hi
    exact ⟨t.insert hk (by unfold InsertFits; exact hfit) hi, i.insert hok hi' hfit⟩
  | @delete m ins f f' S key hb hk hd ih =>
    obtain ⟨t, i⟩ := ih hm
    obtain ⟨g1, g2⟩ := i.delete hn hm (t.inv hc hn) hk hd
    exact ⟨t.delete hk (by simp) g1 hd, g2⟩

end Verif
