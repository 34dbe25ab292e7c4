import Verif.Proof.WhBulk
import Verif.Model.WhScan
import Verif.Proof.LoadVar
import Verif.Proof.WhFresh

/-!
# The streaming load on the integer tree
-/

namespace Verif

section
variable {t : Wh} {m : Tree} {k : Key} {n : Nat}

theorem put_empty (k : Key) (st : Store) :
    Wh.empty.put k st = .ok [⟨[], (Leaf.new []).slots.set 0 (k, st), 1, 1⟩] := by
  have h : Wh.jump Wh.empty k = 0 := by
    unfold Wh.jump Wh.empty
    rw [List.findIdx_cons]
    cases hb : keyLt k (Leaf.new []).anchor <;> simp
  unfold Wh.put
  rw [h]
  rfl

theorem put_empty_findable {t : Wh} (k k' : Key) {st : Store} (h : Wh.empty.put k st = .ok t) : Findable t k' := by
  rw [put_empty] at h
  obtain rfl := Res.ok.inj h
  intro l hl
  rw [List.mem_singleton.1 hl]
  exact fun hh => hh

theorem bulkRegion_fresh (c : Cfg) (h : WhRep t m) (hk : k.length ≤ 8) (hf : Findable t k) (right : Key) (mid : List Key) (g : Nat) :
    RelRes (fun t' m' => ∃ st, t.put k st = .ok t' ∧ WhRep t' m' ∧ m' = treePut m k st ∧
      ∀ k', Findable t k' → (k' ≠ k ∨ k ∈ keysOf m) → Findable t' k') (whBulkRegion c t k right mid g)
      (bulkRegion c m k right mid g) := by
  unfold whBulkRegion bulkRegion
  cases getFrame c.infixSize k right with
  | ub => trivial
  | hang => trivial
  | ok fr =>
    rw [Res.bind_ok, Res.bind_ok]
    obtain ⟨t', e, h', hf'⟩ := put_spec h hk hf (loadList c (Store.new g) (bulkItems c.infixSize fr mid) fr.total false)
    rw [e]
    exact ⟨_, e, h', rfl, hf'⟩

/-- The keys taken so far are `D`, the left end of the current region, and the keys behind it; the boundaries in the tree are
from `D` and below this left end. -/
structure SInv (n : Nat) (P : List Key) (p : WhFilter × Stream) (q : Filter × Stream) : Prop where
  twin : Twin p.1 q.1
  same : p.2 = q.2
  zero : Findable p.1.tree (List.replicate n 0)
  none : q.2.left = none → P = [] ∧ q.2.keys = [] ∧ p.1.tree = Wh.empty ∧ q.1.tree = []
  some : ∀ l, q.2.left = some l → ∃ D, P = D ++ l :: q.2.keys ∧ (∀ k ∈ keysOf q.1.tree, k ∈ D ∧ keyLt k l = true) ∧ q.2.maxLen = n ∧
    ((D = [] ∧ p.1.tree = Wh.empty ∧ q.1.tree = []) ∨ ∃ d, d ∈ keysOf q.1.tree) ∧ D.length % 1024 = 0 ∧ q.2.keys.length ≤ 1023

theorem not_lt_zeros {a : Key} (h : a.length = n) : ¬ keyLt a (List.replicate n 0) = true := by
  intro hlt
  have := zeros_le a
  rw [h] at this
  have h2 := keyLt_iff.1 hlt
  exact h2.2 (keyLe_antisymm h2.1 this)

theorem not_ones_lt {a : Key} (h : a.length = n) : ¬ keyLt (List.replicate n 255) a = true := by
  intro hlt
  have h2 := keyLt_iff.1 hlt
  exact h2.2 (keyLe_antisymm h2.1 (le_ones_len a (by omega)))

theorem streamKey_wh {P : List Key} {p : WhFilter × Stream} {q : Filter × Stream} (hn : n ≤ 8) (h : SInv n P p q)
    (hlen : ∀ a ∈ P ++ [k], a.length = n) (hpw : (P ++ [k]).Pairwise fun a b => keyLe a b = true) :
    RelRes (SInv n (P ++ [k])) (whStreamKey p.1 p.2 k) (streamKey q.1 q.2 k) := by
  obtain ⟨w, b⟩ := p
  obtain ⟨f, b'⟩ := q
  obtain ⟨⟨hc, hr⟩, hs, hz, h0, h1⟩ := h
  dsimp only at hc hr hs hz h0 h1 ⊢
  subst hs
  have hkl : k.length = n := hlen k (by simp)
  unfold whStreamKey streamKey
  cases hl : b.left with
  | none =>
    obtain ⟨rfl, hk0, ht, hm⟩ := h0 hl
    refine ⟨⟨hc, hr⟩, rfl, hz, fun hh => (by cases hh), fun l hl' => ?_⟩
    cases hl'
    exact ⟨[], by rw [hk0], fun k' hk' => (by rw [hm] at hk'; simp [keysOf] at hk'), hkl, .inl ⟨rfl, ht, hm⟩, rfl,
      by rw [hk0]; exact Nat.zero_le _⟩
  | some l =>
    obtain ⟨D, rfl, hD, hmax, hemp, hmod, hle⟩ := h1 l hl
    dsimp only
    have hmx : max b.maxLen k.length = n := by rw [hmax, hkl]; exact Nat.max_self n
    rw [hmx]
    by_cases hlt : b.keys.length < 1023
    · rw [if_pos hlt, if_pos hlt]
      refine ⟨⟨hc, hr⟩, rfl, hz, fun hh => (by cases hh), fun l' hl' => ?_⟩
      cases hl'
      exact ⟨D, by simp, hD, rfl, hemp, hmod, by rw [List.length_append, List.length_singleton]; omega⟩
    · rw [if_neg hlt, if_neg hlt, hc]
      have hlk : keyLe l k = true := (List.pairwise_append.1 hpw).2.2 l (by simp) k (by simp)
      have irr : ∀ a : Key, ¬ keyLt a a = true := fun a => by rw [keyLt_irrefl]; simp
      have hnew : l ∉ keysOf f.tree := fun hm => irr _ (hD l hm).2
      have := bulkRegion_fresh f.cfg hr (k := l) (by rw [hlen l (by simp)]; exact hn) (findable_of_not_mem hr hnew) k b.keys growSep
      have hne : ∀ m, bulkRegion f.cfg f.tree l k b.keys growSep = .ok m → l ≠ k := fun m => bulkRegion_ne
      revert this hne
      generalize whBulkRegion f.cfg w.tree l k b.keys growSep = X
      generalize bulkRegion f.cfg f.tree l k b.keys growSep = Y
      cases X <;> cases Y <;> intro hx hne <;> first | exact hx.elim | trivial | skip
      have hlk : keyLt l k = true := keyLt_iff.2 ⟨hlk, hne _ rfl⟩
      obtain ⟨st, e, hr', rfl, hf'⟩ := hx
      refine ⟨⟨rfl, hr'⟩, rfl, ?_, fun hh => (by cases hh), fun l' hl' => ?_⟩
      · by_cases hl0 : List.replicate n 0 = l
        · obtain ⟨_, ht, _⟩ := hemp.resolve_right (by
            rintro ⟨d, hd⟩
            refine absurd (hD d hd).2 ?_
            rw [← hl0]
            exact not_lt_zeros (hlen d (by simp [(hD d hd).1])))
          rw [ht] at e
          exact put_empty_findable _ _ e
        · exact hf' _ hz (Or.inl hl0)
      · cases hl'
        refine ⟨D ++ l :: b.keys, by simp, fun k' hk' => ?_, rfl, .inr ⟨l, mem_treePut.2 (.inl rfl)⟩, ?_, Nat.zero_le _⟩
        · rcases mem_treePut.1 hk' with rfl | hk'
          · exact ⟨by simp, hlk⟩
          · exact ⟨List.mem_append_left _ (hD k' hk').1, keyLt_trans' (hD k' hk').2 hlk⟩
        · rw [List.length_append, List.length_cons]; omega

theorem streamFold_wh (hn : n ≤ 8) {K : List Key} (hlen : ∀ a ∈ K, a.length = n) (hpw : K.Pairwise fun a b => keyLe a b = true) :
    ∀ (R P : List Key) {X : Res (WhFilter × Stream)} {Y : Res (Filter × Stream)}, P ++ R = K → RelRes (SInv n P) X Y →
    RelRes (SInv n K) (R.foldl (fun r k => Res.bind r fun (f, b) => whStreamKey f b k) X)
      (R.foldl (fun r k => Res.bind r fun (f, b) => streamKey f b k) Y)
  | [], P, X, Y, hP, h => by rw [List.append_nil] at hP; rw [← hP]; exact h
  | k :: R, P, X, Y, hP, h => by
    rw [List.foldl_cons, List.foldl_cons]
    have hP' : P ++ [k] ++ R = K := by rw [List.append_assoc]; exact hP
    refine streamFold_wh hn hlen hpw R (P ++ [k]) hP' ?_
    revert h
    cases X <;> cases Y <;> intro h <;> first | exact h.elim | trivial | skip
    refine streamKey_wh hn h (fun a ha => hlen a ?_) ?_
    · rw [← hP']; exact List.mem_append_left _ ha
    · rw [← hP'] at hpw; exact (List.pairwise_append.1 hpw).1

theorem streamFinish_wh (hn : n ≤ 8) {K : List Key} (hlen : ∀ a ∈ K, a.length = n) (hpw : K.Pairwise fun a b => keyLe a b = true)
    (hcalm : K.length ≤ 1024 ∨ K.length % 1024 = 1 ∨ K.getLastD [] ≠ List.replicate n 255)
    {p : WhFilter × Stream} {q : Filter × Stream} (h : SInv n K p q) :
    RelRes (fun p q => Twin p.1 q.1) (whStreamFinish p.1 p.2) (streamFinish q.1 q.2) := by
  obtain ⟨w, b⟩ := p
  obtain ⟨f, b'⟩ := q
  obtain ⟨⟨hc, hr⟩, hs, hz, h0, h1⟩ := h
  dsimp only at hc hr hs hz h0 h1 ⊢
  subst hs
  unfold whStreamFinish streamFinish
  cases hl : b.left with
  | none => trivial
  | some l =>
    obtain ⟨D, hK, hD, hmax, hemp, hmod, hle⟩ := h1 l hl
    rw [if_neg (by simp), if_neg (by simp), hmax]
    have irr : ∀ a : Key, ¬ keyLt a a = true := fun a => by rw [keyLt_irrefl]; simp
    have hR : b.keys.length > 0 → ∃ B r, b.keys = B ++ [r] ∧ b.keys.getLastD [] = r := by
      intro hpos
      rcases List.eq_nil_or_concat b.keys with e | ⟨B, r, e⟩
      · rw [e] at hpos; simp at hpos
      · rw [List.concat_eq_append] at e
        exact ⟨B, r, e, by rw [e]; simp⟩
    have hln : l.length = n := hlen l (by rw [hK]; simp)
    have hrn : ∀ r, r ∈ b.keys → r.length = n := fun r hr => hlen r (by rw [hK]; simp [hr])
    have hrl : ∀ r, r ∈ b.keys → keyLe l r = true := fun r hr => by
      rw [hK] at hpw
      exact (List.pairwise_cons.1 (List.pairwise_append.1 hpw).2.1).1 r hr
    have hDl : ∀ d, d ∈ keysOf f.tree → ∀ x, x ∈ l :: b.keys → keyLt d x = true := fun d hd x hx => by
      rcases List.mem_cons.1 hx with rfl | hx
      · exact (hD d hd).2
      · have h1 := keyLt_iff.1 (hD d hd).2
        refine keyLt_iff.2 ⟨keyLe_trans h1.1 (hrl x hx), ?_⟩
        rintro rfl
        exact h1.2 (keyLe_antisymm h1.1 (hrl _ hx))
    -- the two keys of the last region
    have fin : ∀ {t2 : Wh} {m2 : Tree}, WhRep t2 m2 →
        (b.keys.length > 0 → l ≠ b.keys.getLastD [] → Findable t2 l) →
        (b.keys.length > 0 → l ≠ b.keys.getLastD [] → ∀ st t3, t2.put l st = .ok t3 → WhRep t3 (treePut m2 l st) → Findable t3 (b.keys.getLastD [])) →
        RelRes (fun p q => Twin p.1 q.1)
        (if b.keys.length > 0 then
          (whBulkRegion w.cfg t2 ((some l).getD []) (b.keys.getLastD []) b.keys.dropLast (findGrade w.cfg b.keys.dropLast.length 500 0)).bind
            fun t => (whAddTreeKey t (b.keys.getLastD [])).bind fun t => Res.ok ((⟨w.cfg, t⟩ : WhFilter), (⟨none, [], n⟩ : Stream))
        else Res.ok (⟨w.cfg, t2⟩, ⟨none, [], n⟩))
        (if b.keys.length > 0 then
          (bulkRegion f.cfg m2 ((some l).getD []) (b.keys.getLastD []) b.keys.dropLast (findGrade f.cfg b.keys.dropLast.length 500 0)).bind
            fun t => Res.ok ((⟨f.cfg, addTreeKey t (b.keys.getLastD [])⟩ : Filter), (⟨none, [], n⟩ : Stream))
        else Res.ok (⟨f.cfg, m2⟩, ⟨none, [], n⟩)) := by
      intro t2 m2 hr2 hfl hfr
      by_cases hpos : b.keys.length > 0
      · rw [if_pos hpos, if_pos hpos, hc]
        by_cases hne : l = b.keys.getLastD []
        · rw [← hne, Option.getD_some, bulkRegion_hang]
          unfold whBulkRegion getFrame
          rw [sii_none.2 (fun _ => rfl)]
          trivial
        have := bulkRegion_fresh f.cfg hr2 (k := l) (by omega) (hfl hpos hne) (b.keys.getLastD []) b.keys.dropLast
          (findGrade f.cfg b.keys.dropLast.length 500 0)
        revert this
        rw [Option.getD_some]
        generalize whBulkRegion f.cfg t2 l _ _ _ = X
        generalize bulkRegion f.cfg m2 l _ _ _ = Y
        cases X <;> cases Y <;> intro hx <;> first | exact hx.elim | trivial | skip
        obtain ⟨st, e, hr', rfl, hf'⟩ := hx
        obtain ⟨B, r, hB, hlast⟩ := hR hpos
        have hfr' := hfr hpos hne _ _ e hr'
        rw [hlast] at hfr' ⊢
        rw [Res.bind_ok, Res.bind_ok]
        obtain ⟨t4, e4, h4, _⟩ := put_spec hr' (k := r) (by rw [hrn r (by rw [hB]; simp)]; exact hn) hfr' (Store.new growSep)
        unfold whAddTreeKey
        rw [e4]
        exact ⟨rfl, h4⟩
      · rw [if_neg hpos, if_neg hpos]
        exact ⟨hc, hr2⟩
    rcases hemp with ⟨_, ht, hm⟩ | ⟨d, hd⟩
    · have hD := hD
      obtain ⟨t1, t2, e1, e2, he, hk2⟩ := whEnds hn
      rw [ht, hm, e1, Res.bind_ok, e2, Res.bind_ok]
      have hfl : ∀ x, Findable t2 x := fun x => by
        by_cases hx : x ∈ keysOf (addTreeKey (addTreeKey [] (List.replicate n 0)) (List.replicate n 255))
        · rcases hk2 x hx with rfl | rfl
          · exact he.fz
          · exact he.ff
        · exact findable_of_not_mem he.rep hx
      refine fin he.rep (fun _ _ => hfl l) fun hpos hne st t3 e hr3 => ?_
      obtain ⟨B, r, hB, hlast⟩ := hR hpos
      rw [hlast] at hne ⊢
      have hne : r ≠ l := fun hh => hne hh.symm
      obtain ⟨t3', e', _, hf'⟩ := put_spec he.rep (k := l) (by omega) (hfl l) st
      rw [e] at e'
      obtain rfl := Res.ok.inj e'
      exact hf' r (hfl r) (Or.inl hne)
    · have hdD := (hD d hd).1
      have hdn : d.length = n := hlen d (by rw [hK]; simp [hdD])
      have hn0 : n ≠ 0 := by
        intro hz
        have := hDl d hd l List.mem_cons_self
        rw [List.length_eq_zero_iff.1 (hdn.trans hz), List.length_eq_zero_iff.1 (hln.trans hz)] at this
        exact irr _ this
      have hzf : List.replicate n (255 : UInt8) ≠ List.replicate n 0 := by
        intro hh
        cases n with
        | zero => exact hn0 rfl
        | succ n => simp [List.replicate_succ] at hh
      have hlast : b.keys.length > 0 → b.keys.getLastD [] ≠ List.replicate n 255 := by
        intro hpos
        obtain ⟨B, r, hB, hlast⟩ := hR hpos
        have hKl : K.length = D.length + 1 + b.keys.length := by rw [hK]; simp; omega
        have hDpos := List.length_pos_of_mem hdD
        rcases hcalm with h | h | h
        · omega
        · omega
        · rw [hlast]
          rw [hK, hB, show D ++ l :: (B ++ [r]) = (D ++ l :: B) ++ [r] by simp, List.getLastD_concat] at h
          exact h
      obtain ⟨t1, e1, h1, _⟩ := put_spec hr (k := List.replicate n 0) (by simpa using hn) hz (Store.new growSep)
      have hmem1 : ∀ x, x ∈ keysOf (treePut f.tree (List.replicate n 0) (Store.new growSep)) → x = List.replicate n 0 ∨ x ∈ keysOf f.tree :=
        fun x hx => mem_treePut.1 hx
      have hnotD : ∀ x, x ∈ l :: b.keys → x ∉ keysOf f.tree := fun x hx hh => irr x (hDl x hh x hx)
      have hnotz : ∀ x, x ∈ l :: b.keys → x ≠ List.replicate n 0 := fun x hx hh => by
        have := hDl d hd x hx
        rw [hh] at this
        exact not_lt_zeros hdn this
      have hfD : List.replicate n 255 ∉ keysOf f.tree := fun hh => not_ones_lt hln (hDl _ hh l List.mem_cons_self)
      have hf1 : List.replicate n 255 ∉ keysOf (treePut f.tree (List.replicate n 0) (Store.new growSep)) := fun hh =>
        (hmem1 _ hh).elim hzf hfD
      obtain ⟨t2, e2, h2, _⟩ := put_spec h1 (k := List.replicate n 255) (by simpa using hn) (findable_of_not_mem h1 hf1) (Store.new growSep)
      unfold whAddTreeKey addTreeKey
      rw [e1, Res.bind_ok, e2, Res.bind_ok]
      have hmem2 : ∀ x, x ∈ keysOf (treePut (treePut f.tree (List.replicate n 0) (Store.new growSep)) (List.replicate n 255)
          (Store.new growSep)) → x = List.replicate n 255 ∨ x = List.replicate n 0 ∨ x ∈ keysOf f.tree := fun x hx =>
        (mem_treePut.1 hx).imp_right (hmem1 x)
      by_cases hpos : b.keys.length > 0
      · obtain ⟨B, r, hB, hlr⟩ := hR hpos
        have hrm : r ∈ b.keys := by rw [hB]; simp
        refine fin h2 (fun _ hne => findable_of_not_mem h2 fun hh => ?_) fun _ hne st t3 e hr3 => findable_of_not_mem hr3 fun hh => ?_
        · have hlne : l ≠ List.replicate n 255 := fun hh =>
            not_ones_lt (hrn r hrm) (hh ▸ keyLt_iff.2 ⟨hrl r hrm, by rw [← hlr]; exact hne⟩)
          rcases hmem2 l hh with hh | hh | hh
          · exact hlne hh
          · exact hnotz l List.mem_cons_self hh
          · exact hnotD l List.mem_cons_self hh
        · rcases mem_treePut.1 hh with hh | hh
          · exact hne hh.symm
          · rcases hmem2 _ hh with hh | hh | hh
            · exact hlast hpos hh
            · rw [hlr] at hh; exact hnotz r (List.mem_cons_of_mem _ hrm) hh
            · rw [hlr] at hh; exact hnotD r (List.mem_cons_of_mem _ hrm) hh
      · dsimp only
        rw [if_neg hpos, if_neg hpos]
        exact ⟨hc, h2⟩

theorem streamAll_wh (hn : n ≤ 8) {K : List Key} (c : Cfg) (hlen : ∀ a ∈ K, a.length = n)
    (hpw : K.Pairwise fun a b => keyLe a b = true)
    (hcalm : K.length ≤ 1024 ∨ K.length % 1024 = 1 ∨ K.getLastD [] ≠ List.replicate n 255) :
    RelRes Twin (whStreamAll c K) (streamAll c K) := by
  unfold whStreamAll streamAll
  have := streamFold_wh hn hlen hpw K [] (X := Res.ok (⟨c, Wh.empty⟩, ⟨none, [], 0⟩)) (Y := Res.ok (⟨c, []⟩, ⟨none, [], 0⟩)) rfl
    ⟨⟨rfl, whEmpty_rep⟩, rfl, findable_of_not_mem whEmpty_rep (by simp), fun _ => ⟨rfl, rfl, rfl, rfl⟩,
      fun l hl => (by cases hl)⟩
  revert this
  generalize K.foldl (fun r k => Res.bind r fun (f, b) => whStreamKey f b k) _ = X
  generalize K.foldl (fun r k => Res.bind r fun (f, b) => streamKey f b k) _ = Y
  cases X <;> cases Y <;> intro hr <;> first | exact hr.elim | trivial | skip
  rename_i p q
  have := streamFinish_wh hn hlen hpw hcalm hr
  obtain ⟨w, b⟩ := p
  obtain ⟨f, b'⟩ := q
  rw [Res.bind_ok, Res.bind_ok]
  dsimp only at this ⊢
  revert this
  generalize whStreamFinish w b = X
  generalize streamFinish f b' = Y
  cases X <;> cases Y <;> intro hr <;> first | exact hr.elim | trivial

end

end Verif
