import Verif.Proof.WhHash
import Verif.Spec.WhHash
import Mathlib.Data.List.Nodup

/-!
# The hash table under the index: growth, lookup, deletion
-/

namespace Verif

variable {h : Key → Nat} {t t' t1 : HTab} {s i j n : Nat} {e : Ent} {k : Key}

theorem and_mask {m a : Nat} (hm : m + 1 = 2 ^ a) (x : Nat) : x &&& m = x % 2 ^ a := by
  have : m = 2 ^ a - 1 := by omega
  rw [this, Nat.and_two_pow_sub_one_eq_mod]

theorem and_mask_double {m a : Nat} (hm : m + 1 = 2 ^ a) (x : Nat) : (x &&& (2 * m + 1)) % (m + 1) = x &&& m := by
  rw [and_mask (a := a + 1) (by rw [Nat.pow_succ]; omega), and_mask hm, hm]
  exact Nat.mod_mod_of_dvd _ ⟨2, by rw [Nat.pow_succ]⟩

/-! ## Expansion -/

theorem expandBkt_ok (T : TabOK h t) : ∀ {es : List Ent} {p : Nat} {t1 : HTab}, TabOK h t1 → t1.mask = 2 * t.mask + 1 →
    (∀ e ∈ es, EntOK h t s e) → p + es.length ≤ 8 → (∀ b, b % (t.mask + 1) = s → (t1.bkt b).length ≤ p) →
    ∃ t2, HTab.expandBkt h t.mask s es t1 = .ok t2 ∧ TabOK h t2 ∧ t2.mask = 2 * t.mask + 1 ∧ t2.all.Perm (es ++ t1.all) ∧
      ∀ b, b % (t.mask + 1) ≠ s → t2.bkt b = t1.bkt b
  | [], _, t1, T1, hm, _, _, _ => ⟨t1, rfl, T1, hm, List.Perm.refl _, fun _ _ => rfl⟩
  | e :: es, p, t1, T1, hm, he, hp, hc => by
    obtain ⟨a, ha⟩ := T.size
    obtain ⟨htag, hloc⟩ := he e (by simp)
    obtain ⟨x, hx⟩ : ∃ x, x = (if h e.key &&& t.mask = s then h e.key else bswap32 (h e.key)) &&& t1.mask := ⟨_, rfl⟩
    have hmod : x % (t.mask + 1) = s := by
      rw [hx, hm]
      by_cases hs : h e.key &&& t.mask = s
      · rw [if_pos hs, and_mask_double ha]; exact hs
      · rw [if_neg hs, and_mask_double ha]
        rcases hloc with hl | hl
        · exact absurd hl.symm hs
        · exact hl.symm
    have hlt : x < t1.bkts.length := by
      rw [T1.len, hx]
      exact Nat.lt_succ_of_le Nat.and_le_right
    have hlen : (t1.bkt x).length < 8 := by
      have := hc x hmod
      rw [List.length_cons] at hp
      omega
    have hok : EntOK h t1 x e := by
      refine ⟨htag, ?_⟩
      rw [hx]
      by_cases hs : h e.key &&& t.mask = s
      · rw [if_pos hs]; exact Or.inl rfl
      · rw [if_neg hs]; exact Or.inr rfl
    obtain ⟨t2, e2, T2, hm2, hall, hkeep⟩ := expandBkt_ok T (es := es) (p := p + 1) (t1 := t1.push x e)
      (T1.push hlt hlen hok) hm (fun y hy => he y (by simp [hy])) (by rw [List.length_cons] at hp; omega) (fun b hb => by
        have := (HTab.upd_bkt hlt (t1.bkt x ++ [e]) b)
        change ((t1.upd x (t1.bkt x ++ [e])).bkt b).length ≤ _
        rw [this]
        by_cases hbx : b = x
        · rw [if_pos hbx, List.length_append, List.length_singleton]
          have := hc x hmod
          omega
        · rw [if_neg hbx]
          have := hc b hb
          omega)
    refine ⟨t2, ?_, T2, hm2, ?_, fun b hb => ?_⟩
    · rw [HTab.expandBkt, HTab.expandEnt]
      rw [← hx, if_pos hlen, Res.bind_ok]
      exact e2
    · exact hall.trans ((HTab.push_all hlt).append_left es |>.trans List.perm_middle)
    · rw [hkeep b hb]
      exact (HTab.upd_bkt hlt _ b).trans (if_neg fun hc => hb (by rw [hc]; exact hmod))

theorem expandAll_ok (T : TabOK h t) : ∀ {bs : List (List Ent)} {s : Nat} {t1 : HTab}, TabOK h t1 → t1.mask = 2 * t.mask + 1 →
    (∀ i, bs.getD i [] = t.bkt (s + i)) → (∀ b, s ≤ b % (t.mask + 1) → t1.bkt b = []) →
    ∃ t2, HTab.expandAll h t.mask s bs t1 = .ok t2 ∧ TabOK h t2 ∧ t2.mask = 2 * t.mask + 1 ∧ t2.all.Perm (bs.flatten ++ t1.all)
  | [], _, t1, T1, hm, _, _ => ⟨t1, rfl, T1, hm, List.Perm.refl _⟩
  | b :: bs, s, t1, T1, hm, hb, he => by
    have hb0 : b = t.bkt s := hb 0
    obtain ⟨t2, e2, T2, hm2, hall, hkeep⟩ := expandBkt_ok T (s := s) (es := b) (p := 0) T1 hm
      (fun e h => T.loc s e (by rw [← hb0]; exact h)) (by rw [hb0, Nat.zero_add]; exact T.cap s)
      (fun x hx => by rw [he x (by omega)]; exact Nat.le_refl 0)
    obtain ⟨t3, e3, T3, hm3, hall3⟩ := expandAll_ok T (bs := bs) (s := s + 1) T2 hm2
      (fun i => by have := hb (i + 1); rw [List.getD_cons_succ] at this; rw [this]; congr 1; omega)
      (fun x hx => by rw [hkeep x (by omega)]; exact he x (by omega))
    refine ⟨t3, ?_, T3, hm3, ?_⟩
    · rw [HTab.expandAll, e2, Res.bind_ok]; exact e3
    · rw [List.flatten_cons, List.append_assoc]
      refine hall3.trans ((hall.append_left _).trans ?_)
      exact List.perm_append_comm_assoc _ _ _

/-- An empty table. -/
theorem tab_fresh {m a : Nat} (hm : m + 1 = 2 ^ a) : TabOK h ⟨m, List.replicate (m + 1) []⟩ ∧
    (∀ b, HTab.bkt ⟨m, List.replicate (m + 1) []⟩ b = []) ∧ HTab.all ⟨m, List.replicate (m + 1) []⟩ = [] := by
  have hb : ∀ b, HTab.bkt ⟨m, List.replicate (m + 1) []⟩ b = [] := by
    intro b
    unfold HTab.bkt
    rw [List.getD_eq_getElem?_getD, List.getElem?_replicate]
    split <;> rfl
  refine ⟨⟨⟨a, hm⟩, List.length_replicate, fun b => ?_, fun b e he => ?_⟩, hb, ?_⟩
  · rw [hb b]; exact Nat.zero_le _
  · rw [hb b] at he; cases he
  · unfold HTab.all
    simp

theorem squeezeBkt_ok : ∀ {n : Nat} {t : HTab}, TabOK h t → s < t.bkts.length → n ≤ (t.bkt s).length →
    ∃ t', HTab.squeezeBkt h s n t = .ok t' ∧ TabOK h t' ∧ t'.mask = t.mask ∧ t'.all.Perm t.all
  | 0, t, T, _, _ => ⟨t, rfl, T, rfl, List.Perm.refl _⟩
  | n + 1, t, T, hs, hn => by
    rw [HTab.squeezeBkt]
    have hlt : n < (t.bkt s).length := hn
    rw [List.getElem?_eq_getElem hlt]
    dsimp only
    obtain ⟨e, he⟩ : ∃ e, e = (t.bkt s)[n] := ⟨_, rfl⟩
    rw [← he]
    have hget : (t.bkt s)[n]? = some e := by rw [he]; exact List.getElem?_eq_getElem hlt
    have hmem : e ∈ t.bkt s := List.mem_of_getElem? hget
    by_cases h1 : t.first h e.key = s
    · rw [if_pos h1]
      exact squeezeBkt_ok T hs (by omega)
    · rw [if_neg h1]
      by_cases h2 : (t.bkt (t.first h e.key)).length < 8
      · rw [if_pos h2]
        have hfl := T.first_lt e.key
        have Tp : TabOK h (t.push (t.first h e.key) e) := T.push hfl h2 ⟨(T.loc s e hmem).1, Or.inl rfl⟩
        have hs' : s < (t.push (t.first h e.key) e).bkts.length := by
          rw [Tp.len]; rw [T.len] at hs; exact hs
        have hbk : (t.push (t.first h e.key) e).bkt s = t.bkt s :=
          (HTab.upd_bkt hfl _ s).trans (if_neg fun hc => h1 hc.symm)
        have hget' : ((t.push (t.first h e.key) e).bkt s)[n]? = some e := by rw [hbk]; exact hget
        have Td := Tp.drop hs' hget'
        have hlen : n ≤ (((t.push (t.first h e.key) e).drop s n).bkt s).length := by
          have := (HTab.upd_bkt hs' ((((t.push (t.first h e.key) e).bkt s).set n (((t.push (t.first h e.key) e).bkt s).getD
            (((t.push (t.first h e.key) e).bkt s).length - 1) ⟨0, []⟩)).dropLast) s).trans (if_pos rfl)
          change n ≤ ((HTab.upd _ s _).bkt s).length
          rw [this, List.length_dropLast, List.length_set, hbk]
          omega
        obtain ⟨t', e', T', hm', hall⟩ := squeezeBkt_ok (n := n) Td (by rw [Td.len]; rw [T.len] at hs; exact hs) hlen
        refine ⟨t', e', T', hm', hall.trans ?_⟩
        have a1 := HTab.drop_all hs' hget'
        have a2 := HTab.push_all (e := e) hfl
        exact (List.perm_cons _).1 (a1.trans a2)
      · rw [if_neg h2]
        exact squeezeBkt_ok T hs (by omega)

theorem squeeze_ok : ∀ {n s : Nat} {t : HTab}, TabOK h t → s + n ≤ t.bkts.length →
    ∃ t', HTab.squeeze h n s t = .ok t' ∧ TabOK h t' ∧ t'.mask = t.mask ∧ t'.all.Perm t.all
  | 0, _, t, T, _ => ⟨t, rfl, T, rfl, List.Perm.refl _⟩
  | n + 1, s, t, T, hn => by
    obtain ⟨t1, e1, T1, hm1, hall1⟩ := squeezeBkt_ok (s := s) T (by omega) (Nat.le_refl _)
    obtain ⟨t2, e2, T2, hm2, hall2⟩ := squeeze_ok (n := n) (s := s + 1) T1 (by rw [T1.len, hm1, ← T.len]; omega)
    refine ⟨t2, ?_, T2, hm2.trans hm1, hall2.trans hall1⟩
    rw [HTab.squeeze, e1, Res.bind_ok]
    exact e2

theorem expand_ok (T : TabOK h t) (hm : t.mask ≠ 4294967295) :
    ∃ t', t.expand h = .ok t' ∧ TabOK h t' ∧ t'.mask = 2 * t.mask + 1 ∧ t'.all.Perm t.all := by
  obtain ⟨a, ha⟩ := T.size
  obtain ⟨F1, F2, F3⟩ := tab_fresh (h := h) (m := 2 * t.mask + 1) (a := a + 1) (by rw [Nat.pow_succ]; omega)
  obtain ⟨t1, e1, T1, hm1, hall1⟩ := expandAll_ok T (bs := t.bkts) (s := 0) F1 rfl (fun i => by rw [Nat.zero_add]; rfl)
    (fun b _ => F2 b)
  obtain ⟨t2, e2, T2, hm2, hall2⟩ := squeeze_ok (n := t1.mask + 1) (s := 0) T1 (by rw [T1.len]; omega)
  refine ⟨t2, ?_, T2, hm2.trans hm1, hall2.trans ?_⟩
  · rw [HTab.expand, if_neg hm, show 2 * (t.mask + 1) = 2 * t.mask + 1 + 1 by omega, e1, Res.bind_ok]
    exact e2
  · rw [F3, List.append_nil] at hall1
    exact hall1

/-! ## Insertion -/

theorem set_ok : ∀ {n : Nat} {t : HTab}, TabOK h t → HTab.set h n t k ≠ .ub ∧ ∀ t', HTab.set h n t k = .ok t' →
    TabOK h t' ∧ t'.all.Perm (⟨pkey16 (h k), k⟩ :: t.all) ∧ t.mask ≤ t'.mask
  | 0, t, _ => ⟨by rw [HTab.set]; simp, fun t' e => by rw [HTab.set] at e; cases e⟩
  | n + 1, t, T => by
    rw [HTab.set]
    have ok1 : EntOK h t (t.first h k) ⟨pkey16 (h k), k⟩ := ⟨rfl, Or.inl rfl⟩
    have ok2 : EntOK h t (t.second h k) ⟨pkey16 (h k), k⟩ := ⟨rfl, Or.inr rfl⟩
    cases c1 : t.cuckoo h n (t.first h k) ⟨pkey16 (h k), k⟩ 1 with
    | ub => exact absurd c1 (cuckoo_ne_ub T)
    | hang => rw [Res.bind_hang]; exact ⟨by simp, fun _ e => by cases e⟩
    | ok q1 =>
      obtain ⟨b1, t1⟩ := q1
      rw [Res.bind_ok]
      cases b1 with
      | true =>
        rw [if_pos rfl]
        refine ⟨by simp, fun t' e => ?_⟩
        injection e with e
        subst e
        have P := cuckoo_done T (T.first_lt k) c1 (by omega) (by omega) ok1
        exact ⟨P.ok, P.all, by rw [P.mask]⟩
      | false =>
        have := cuckoo_false c1
        subst this
        rw [if_neg (by simp)]
        dsimp only
        cases c2 : t1.cuckoo h n (t1.second h k) ⟨pkey16 (h k), k⟩ 1 with
        | ub => exact absurd c2 (cuckoo_ne_ub T)
        | hang => rw [Res.bind_hang]; exact ⟨by simp, fun _ e => by cases e⟩
        | ok q2 =>
          obtain ⟨b2, t2⟩ := q2
          rw [Res.bind_ok]
          cases b2 with
          | true =>
            rw [if_pos rfl]
            refine ⟨by simp, fun t' e => ?_⟩
            injection e with e
            subst e
            have P := cuckoo_done T (T.second_lt k) c2 (by omega) (by omega) ok2
            exact ⟨P.ok, P.all, by rw [P.mask]⟩
          | false =>
            have := cuckoo_false c2
            subst this
            rw [if_neg (by simp)]
            dsimp only
            cases c3 : t2.cuckoo h n (t2.first h k) ⟨pkey16 (h k), k⟩ 2 with
            | ub => exact absurd c3 (cuckoo_ne_ub T)
            | hang => rw [Res.bind_hang]; exact ⟨by simp, fun _ e => by cases e⟩
            | ok q3 =>
              obtain ⟨b3, t3⟩ := q3
              rw [Res.bind_ok]
              cases b3 with
              | true =>
                rw [if_pos rfl]
                refine ⟨by simp, fun t' e => ?_⟩
                injection e with e
                subst e
                have P := cuckoo_done T (T.first_lt k) c3 (fun _ => ⟨n, _, c1⟩) (by omega) ok1
                exact ⟨P.ok, P.all, by rw [P.mask]⟩
              | false =>
                have := cuckoo_false c3
                subst this
                rw [if_neg (by simp)]
                dsimp only
                by_cases hm : t3.mask = 4294967295
                · rw [HTab.expand, if_pos hm, Res.bind_hang]
                  exact ⟨by simp, fun _ e => by cases e⟩
                · obtain ⟨t4, e4, T4, hm4, hall⟩ := expand_ok T hm
                  rw [e4, Res.bind_ok]
                  obtain ⟨r1, r2⟩ := set_ok (n := n) T4
                  refine ⟨r1, fun t' e => ?_⟩
                  obtain ⟨a1, a2, a3⟩ := r2 t' e
                  exact ⟨a1, a2.trans (hall.cons _), by omega⟩

/-! ## Lookup and deletion -/

theorem mem_bkt_all (he : e ∈ t.all) : ∃ b, b < t.bkts.length ∧ e ∈ t.bkt b := by
  unfold HTab.all at he
  obtain ⟨l, hl, hel⟩ := List.mem_flatten.1 he
  obtain ⟨i, hi, rfl⟩ := List.getElem_of_mem hl
  exact ⟨i, hi, by rw [HTab.bkt_eq hi]; exact hel⟩

theorem bkt_mem_all (he : e ∈ t.bkt i) : e ∈ t.all := by
  by_cases hi : i < t.bkts.length
  · rw [HTab.bkt_eq hi] at he
    exact List.mem_flatten.2 ⟨_, List.getElem_mem hi, he⟩
  · rw [HTab.bkt_out hi] at he; cases he

/-- The key has an entry in one of its buckets. -/
theorem TabOK.at_home (T : TabOK h t) (hk : k ∈ t.all.map Ent.key) : ∃ e, e.key = k ∧ e.tag = pkey16 (h k) ∧
    (e ∈ t.bkt (t.first h k) ∨ e ∈ t.bkt (t.second h k)) := by
  obtain ⟨e, he, rfl⟩ := List.mem_map.1 hk
  obtain ⟨b, _, hb⟩ := mem_bkt_all he
  obtain ⟨htag, hl⟩ := T.loc b e hb
  refine ⟨e, rfl, htag, ?_⟩
  rcases hl with hl | hl
  · exact Or.inl (by rw [← hl]; exact hb)
  · exact Or.inr (by rw [← hl]; exact hb)

theorem TabOK.peek (T : TabOK h t) (hk : k ∈ t.all.map Ent.key) : t.peek h k = true := by
  obtain ⟨e, _, htag, he⟩ := T.at_home hk
  unfold HTab.peek
  rw [Bool.or_eq_true, List.any_eq_true, List.any_eq_true]
  rcases he with he | he
  · exact Or.inl ⟨e, he, by rw [htag]; exact beq_self_eq_true _⟩
  · exact Or.inr ⟨e, he, by rw [htag]; exact beq_self_eq_true _⟩

theorem getSlot_some (he : t.getSlot h i k = some e) : e.key = k ∧ e ∈ t.bkt i := by
  unfold HTab.getSlot at he
  have := List.find?_some he
  rw [Bool.and_eq_true] at this
  exact ⟨of_decide_eq_true (by simpa using this.2), List.mem_of_find?_eq_some he⟩

theorem TabOK.get (T : TabOK h t) : (t.get h k).map Ent.key = if k ∈ t.all.map Ent.key then some k else none := by
  cases hg : t.get h k with
  | none =>
    rw [if_neg]
    · rfl
    · intro hk
      obtain ⟨e, hek, htag, he⟩ := T.at_home hk
      unfold HTab.get at hg
      rw [Option.or_eq_none_iff] at hg
      unfold HTab.getSlot at hg
      rw [List.find?_eq_none, List.find?_eq_none] at hg
      rcases he with he | he
      · exact hg.1 e he (by rw [htag, hek]; simp)
      · exact hg.2 e he (by rw [htag, hek]; simp)
  | some e =>
    unfold HTab.get at hg
    rw [Option.or_eq_some_iff] at hg
    have : e.key = k ∧ e ∈ t.all := by
      rcases hg with hg | ⟨_, hg⟩
      · exact ⟨(getSlot_some hg).1, bkt_mem_all (getSlot_some hg).2⟩
      · exact ⟨(getSlot_some hg).1, bkt_mem_all (getSlot_some hg).2⟩
    rw [if_pos (List.mem_map.2 ⟨e, this.2, this.1⟩), Option.map_some, this.1]

theorem delSlot_some (T : TabOK h t) (hi : i < t.bkts.length) (hd : t.delSlot h i k = some t') :
    TabOK h t' ∧ ∃ e, e.key = k ∧ (e :: t'.all).Perm t.all := by
  unfold HTab.delSlot at hd
  rw [Option.map_eq_some_iff] at hd
  obtain ⟨j, hj, rfl⟩ := hd
  obtain ⟨hlt, hp, _⟩ := List.findIdx?_eq_some_iff_getElem.1 hj
  have hget : (t.bkt i)[j]? = some (t.bkt i)[j] := List.getElem?_eq_getElem hlt
  rw [Bool.and_eq_true] at hp
  exact ⟨T.drop hi hget, _, by simpa using hp.2, HTab.drop_all hi hget⟩

theorem TabOK.del (T : TabOK h t) (hk : k ∈ t.all.map Ent.key) : ∃ t', t.del h k = some t' := by
  cases hd : t.del h k with
  | some t' => exact ⟨t', rfl⟩
  | none =>
    obtain ⟨e, hek, htag, he⟩ := T.at_home hk
    unfold HTab.del at hd
    rw [Option.or_eq_none_iff] at hd
    unfold HTab.delSlot at hd
    rw [Option.map_eq_none_iff, Option.map_eq_none_iff, List.findIdx?_eq_none_iff, List.findIdx?_eq_none_iff] at hd
    rcases he with he | he
    · have := hd.1 e he; rw [htag, hek] at this; simp at this
    · have := hd.2 e he; rw [htag, hek] at this; simp at this

theorem TabOK.del_some (T : TabOK h t) (hd : t.del h k = some t') : TabOK h t' ∧ ∃ e, e.key = k ∧ (e :: t'.all).Perm t.all := by
  unfold HTab.del at hd
  rw [Option.or_eq_some_iff] at hd
  rcases hd with hd | ⟨_, hd⟩
  · exact delSlot_some T (T.first_lt k) hd
  · exact delSlot_some T (T.second_lt k) hd

theorem pkey16_range (x : Nat) : 0 < pkey16 x ∧ pkey16 x < 65536 := by
  unfold pkey16
  have hx : (x % 65536) ^^^ (x / 65536 % 65536) < 2 ^ 16 := Nat.xor_lt_two_pow (by omega) (by omega)
  by_cases h0 : (x % 65536) ^^^ (x / 65536 % 65536) = 0
  · rw [if_pos h0]; omega
  · rw [if_neg h0]; omega

/-! ## Histories -/

variable {S : List Key}

theorem HashHist.ok (H : HashHist h t S) : TabOK h t ∧ (t.all.map Ent.key).Perm S ∧ S.Nodup := by
  induction H with
  | init =>
    obtain ⟨a, -, b⟩ := tab_fresh (h := h) (m := 4095) (a := 12) rfl
    refine ⟨a, ?_, List.nodup_nil⟩
    rw [show HTab.all HTab.init = [] from b]
    exact List.Perm.refl _
  | @set t t' S k fuel _ hk he ih =>
    obtain ⟨T, hp, hn⟩ := ih
    obtain ⟨T', hp', _⟩ := (set_ok T).2 t' he
    exact ⟨T', (hp'.map Ent.key).trans (hp.cons k), List.nodup_cons.2 ⟨hk, hn⟩⟩
  | @del t t' S k _ hk he ih =>
    obtain ⟨T, hp, hn⟩ := ih
    obtain ⟨T', e, rfl, hp'⟩ := T.del_some he
    refine ⟨T', ?_, hn.erase _⟩
    have a : (e.key :: t'.all.map Ent.key).Perm (e.key :: S.erase e.key) :=
      (hp'.map Ent.key).trans (hp.trans (List.perm_cons_erase hk))
    exact (List.perm_cons _).1 a

end Verif
