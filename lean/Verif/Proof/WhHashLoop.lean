import Verif.Proof.WhHashSet
import Mathlib.Data.Fintype.Card
import Mathlib.Order.WellFounded
import Mathlib.Logic.Relation

/-!
# The hash table under the index: when the recursion ends, and how many entries fit
-/

namespace Verif

variable {h : Key → Nat} {t t' : HTab} {n mid d : Nat} {e f : Ent}

/-! ## Endless recursion -/

/-- Buckets that are full, whose entries can only go to such buckets, with an entry away from its first bucket in each. -/
structure Stuck (h : Key → Nat) (t : HTab) (V : Nat → Prop) : Prop where
  full : ∀ v, V v → (t.bkt v).length = 8
  closed : ∀ v, V v → ∀ f ∈ t.bkt v, V (t.other h v f)
  away : ∀ v, V v → ∃ f ∈ t.bkt v, t.first h f.key ≠ v

theorem loop_hang {V : Nat → Prop} (K : Stuck h t V) (hv : V mid) {rec : HTab → Nat → Ent → Nat → Res (Bool × HTab)}
    (hrec : ∀ v f d, V v → rec t v f d = .hang ∨ d = 0 ∧ rec t v f d = .ok (false, t)) (hd : d ≠ 0) : ∀ {is : List Nat},
    (∀ i ∈ is, i < 8) → (∃ i ∈ is, ∃ f, (t.bkt mid)[i]? = some f ∧ t.first h f.key ≠ mid) →
    HTab.cuckooLoop h rec mid e d is t = .hang
  | [], _, hx => by obtain ⟨i, hi, _⟩ := hx; cases hi
  | i :: is, hi, hx => by
    have hlt : i < (t.bkt mid).length := by rw [K.full mid hv]; exact hi i (by simp)
    rw [HTab.cuckooLoop, List.getElem?_eq_getElem hlt]
    change (if t.other h mid (t.bkt mid)[i] ≠ mid then
        (rec t (t.other h mid (t.bkt mid)[i]) (t.bkt mid)[i] (t.left h mid (t.bkt mid)[i] d)).bind fun q => if q.1 = true then
          .ok (true, q.2.write mid i e) else HTab.cuckooLoop h rec mid e d is q.2 else HTab.cuckooLoop h rec mid e d is t) = _
    by_cases haway : t.first h (t.bkt mid)[i].key ≠ mid
    · have ho : t.other h mid (t.bkt mid)[i] = t.first h (t.bkt mid)[i].key := if_pos haway
      rw [ho, if_pos haway]
      rcases hrec _ (t.bkt mid)[i] (t.left h mid (t.bkt mid)[i] d) (ho ▸ K.closed mid hv _ (List.getElem_mem hlt)) with hr | ⟨h0, _⟩
      · rw [hr, Res.bind_hang]
      · rw [HTab.left, if_pos ho] at h0
        exact absurd h0 hd
    · have hx' : ∃ i ∈ is, ∃ f, (t.bkt mid)[i]? = some f ∧ t.first h f.key ≠ mid := by
        obtain ⟨j, hj, f, hf, hff⟩ := hx
        rcases List.mem_cons.1 hj with rfl | hj
        · rw [List.getElem?_eq_getElem hlt] at hf
          cases hf
          exact absurd hff haway
        · exact ⟨j, hj, f, hf, hff⟩
      have ih := loop_hang K hv hrec hd (fun j hj => hi j (by simp [hj])) hx' (is := is)
      by_cases ho : t.other h mid (t.bkt mid)[i] ≠ mid
      · rw [if_pos ho]
        rcases hrec _ (t.bkt mid)[i] (t.left h mid (t.bkt mid)[i] d) (K.closed mid hv _ (List.getElem_mem hlt)) with hr | ⟨_, hr⟩
        · rw [hr, Res.bind_hang]
        · rw [hr, Res.bind_ok, if_neg (by simp)]
          exact ih
      · rw [if_neg ho]
        exact ih

theorem cuckoo_stuck {V : Nat → Prop} (K : Stuck h t V) : ∀ {n v d : Nat} {e : Ent}, V v →
    t.cuckoo h n v e d = .hang ∨ d = 0 ∧ t.cuckoo h n v e d = .ok (false, t)
  | 0, _, _, _, _ => Or.inl rfl
  | n + 1, v, d, e, hv => by
    rw [HTab.cuckoo, if_neg (by rw [K.full v hv]; omega)]
    by_cases h0 : d = 0
    · rw [if_pos h0]; exact Or.inr ⟨h0, rfl⟩
    · rw [if_neg h0]
      refine Or.inl (loop_hang K hv (fun v f d hv => cuckoo_stuck K hv) h0 (fun i hi => List.mem_range.1 hi) ?_)
      obtain ⟨f, hf, hff⟩ := K.away v hv
      obtain ⟨i, hi, rfl⟩ := List.getElem_of_mem hf
      exact ⟨i, List.mem_range.2 (by rw [← K.full v hv]; exact hi), _, List.getElem?_eq_getElem hi, hff⟩

theorem set_stuck {V : Nat → Prop} (K : Stuck h t V) {k : Key} (hk : V (t.first h k)) (fuel : Nat) : t.set h fuel k = .hang := by
  cases fuel with
  | zero => rfl
  | succ n =>
    rw [HTab.set]
    rcases cuckoo_stuck K (n := n) (d := 1) (e := ⟨pkey16 (h k), k⟩) hk with hr | ⟨h0, _⟩
    · rw [hr, Res.bind_hang]
    · omega

/-! ## Room for equal hashes -/

theorem bkts_two (T : TabOK h t) {x : Nat} : (t.all.filter fun e => h e.key == x).length ≤ 16 := by
  -- all of them stand in two buckets
  have key : ∀ (L : List (List Ent)) (s : Nat), (∀ i, ∀ e ∈ L.getD i [], h e.key = x → s + i = x &&& t.mask ∨ s + i = bswap32 x &&& t.mask) →
      (∀ i, (L.getD i []).length ≤ 8) → (L.flatten.filter fun e => h e.key == x).length ≤
        (if s ≤ x &&& t.mask then 8 else 0) + (if s ≤ bswap32 x &&& t.mask then 8 else 0) := by
    intro L
    induction L with
    | nil => intro s _ _; simp
    | cons l L ih =>
      intro s hl hc
      rw [List.flatten_cons, List.filter_append, List.length_append]
      have h1 := ih (s + 1) (fun i e he hx => by
        have := hl (i + 1) e (by rw [List.getD_cons_succ]; exact he) hx
        omega) (fun i => by have := hc (i + 1); rwa [List.getD_cons_succ] at this)
      have h2 : (l.filter fun e => h e.key == x).length ≤ 8 := Nat.le_trans (List.length_filter_le _ _) (hc 0)
      by_cases hs : s = x &&& t.mask ∨ s = bswap32 x &&& t.mask
      · split_ifs at h1 ⊢ <;> omega
      · have h3 : (l.filter fun e => h e.key == x).length = 0 := by
          rw [List.length_eq_zero_iff, List.filter_eq_nil_iff]
          intro e he hc
          exact hs (hl 0 e he (by simpa using hc))
        split_ifs at h1 ⊢ <;> omega
  have := key t.bkts 0 (fun i e he hx => by
    rw [Nat.zero_add]
    obtain ⟨-, h1⟩ := T.loc i e he
    unfold HTab.first HTab.second at h1
    rw [hx] at h1
    exact h1) T.cap
  rw [if_pos (Nat.zero_le _), if_pos (Nat.zero_le _)] at this
  exact this

theorem HashHist.room {S : List Key} (H : HashHist h t S) (x : Nat) : (S.filter fun k => h k == x).length ≤ 16 := by
  obtain ⟨T, hp, -⟩ := H.ok
  have := (hp.filter fun k => h k == x).length_eq
  rw [← this, List.filter_map, List.length_map]
  exact bkts_two T

/-! ## Tables in which the recursion ends -/

/-- Bucket `u` has an entry whose first bucket is another one, `v`. -/
def Away (h : Key → Nat) (t : HTab) (u v : Nat) : Prop := v ≠ u ∧ ∃ e ∈ t.bkt u, t.first h e.key = v

/-- No circles. -/
def Calm (h : Key → Nat) (t : HTab) : Prop := ∀ v, ¬ Relation.TransGen (Away h t) v v

/-- The recursion returns without success. -/
def Fails (h : Key → Nat) (t : HTab) (mid d : Nat) : Prop := ∃ n e, t.cuckoo h n mid e d = .ok (false, t)

theorem loop_returns {e0 : Ent} : ∀ {is : List Nat}, (∀ i ∈ is, ∃ f, (t.bkt mid)[i]? = some f ∧
      (t.other h mid f ≠ mid → ∃ n r, t.cuckoo h n (t.other h mid f) f (t.left h mid f d) = .ok r)) →
    ∃ n r, HTab.cuckooLoop h (HTab.cuckoo h n) mid e0 d is t = .ok r
  | [], _ => ⟨0, _, rfl⟩
  | i :: is, hi => by
    obtain ⟨n2, r2, e2⟩ := loop_returns (e0 := e0) (is := is) fun j hj => hi j (by simp [hj])
    obtain ⟨f, hf, hr⟩ := hi i (by simp)
    by_cases ho : t.other h mid f ≠ mid
    · obtain ⟨n1, r1, e1⟩ := hr ho
      have a1 := cuckoo_mono (Nat.le_max_left n1 n2) e1
      have a2 := loop_mono (rec' := HTab.cuckoo h (max n1 n2)) (fun _ _ _ _ _ e => cuckoo_mono (Nat.le_max_right n1 n2) e) e2
      refine ⟨max n1 n2, ?_⟩
      rw [HTab.cuckooLoop, hf]
      change ∃ r, (if t.other h mid f ≠ mid then
        (t.cuckoo h (max n1 n2) (t.other h mid f) f (t.left h mid f d)).bind fun q => if q.1 = true then .ok (true, q.2.write mid i e0) else
          HTab.cuckooLoop h (HTab.cuckoo h (max n1 n2)) mid e0 d is q.2 else _) = _
      rw [if_pos ho, a1, Res.bind_ok]
      obtain ⟨b, t1⟩ := r1
      cases b with
      | true => exact ⟨_, if_pos rfl⟩
      | false =>
        have := cuckoo_false e1
        subst this
        exact ⟨r2, (if_neg (by simp)).trans a2⟩
    · refine ⟨n2, r2, ?_⟩
      rw [HTab.cuckooLoop, hf]
      change (if t.other h mid f ≠ mid then _ else HTab.cuckooLoop h (HTab.cuckoo h n2) mid e0 d is t) = _
      rw [if_neg ho]
      exact e2

theorem cuckoo_returns_step (T : TabOK h t) (hsub : ∀ f ∈ t.bkt mid, t.other h mid f ≠ mid →
    ∃ n r, t.cuckoo h n (t.other h mid f) f (t.left h mid f d) = .ok r) : ∃ n r, t.cuckoo h n mid e d = .ok r := by
  by_cases h1 : (t.bkt mid).length < 8
  · exact ⟨1, _, by rw [HTab.cuckoo, if_pos h1]⟩
  · by_cases h0 : d = 0
    · exact ⟨1, _, by rw [HTab.cuckoo, if_neg h1, if_pos h0]⟩
    · have hfull : (t.bkt mid).length = 8 := by have := T.cap mid; omega
      obtain ⟨n, r, he⟩ := loop_returns (e0 := e) (d := d) (is := List.range 8) fun i hi => by
        have hlt : i < (t.bkt mid).length := by rw [hfull]; exact List.mem_range.1 hi
        exact ⟨_, List.getElem?_eq_getElem hlt, hsub _ (List.getElem_mem hlt)⟩
      exact ⟨n + 1, r, by rw [HTab.cuckoo, if_neg h1, if_neg h0]; exact he⟩

theorem away_lt (T : TabOK h t) {u v : Nat} (ha : Away h t u v) : u < t.bkts.length ∧ v < t.bkts.length := by
  obtain ⟨-, e, he, rfl⟩ := ha
  refine ⟨?_, T.first_lt _⟩
  by_contra hc
  rw [HTab.bkt_out hc] at he
  cases he

theorem calm_wf (T : TabOK h t) (C : Calm h t) : WellFounded fun v u => Away h t u v := by
  have hfin : WellFounded fun (v u : Fin t.bkts.length) => Relation.TransGen (Away h t) u.1 v.1 := by
    have : Finite (Fin t.bkts.length) := ⟨Equiv.refl _⟩
    have : IsTrans (Fin t.bkts.length) fun v u => Relation.TransGen (Away h t) u.1 v.1 := ⟨fun _ _ _ a b => b.trans a⟩
    have : Std.Irrefl fun (v u : Fin t.bkts.length) => Relation.TransGen (Away h t) u.1 v.1 := ⟨fun v => C v.1⟩
    exact Finite.wellFounded_of_trans_of_irrefl _
  refine ⟨fun u => ?_⟩
  have hacc : ∀ u : Fin t.bkts.length, Acc (fun v u => Away h t u v) u.1 := by
    intro u
    induction u using hfin.induction with
    | _ u ih => exact ⟨_, fun v hv => ih ⟨v, (away_lt T hv).2⟩ (.single hv)⟩
  exact ⟨_, fun v hv => hacc ⟨v, (away_lt T hv).2⟩⟩

theorem cuckoo_returns (T : TabOK h t) (C : Calm h t) (d : Nat) : ∀ mid e, ∃ n r, t.cuckoo h n mid e d = .ok r := by
  induction d with
  | zero =>
    intro mid e
    by_cases h1 : (t.bkt mid).length < 8
    · exact ⟨1, _, by rw [HTab.cuckoo, if_pos h1]⟩
    · exact ⟨1, _, by rw [HTab.cuckoo, if_neg h1, if_pos rfl]⟩
  | succ d ihd =>
    intro mid
    induction mid using (calm_wf T C).induction with
    | _ mid ih =>
    intro e
    refine cuckoo_returns_step T fun f hf ho => ?_
    by_cases hh : t.other h mid f = t.first h f.key
    · rw [HTab.left, if_pos hh]
      exact ih _ ⟨ho, f, hf, hh.symm⟩ f
    · rw [HTab.left, if_neg hh]
      exact ihd _ f

/-! ## Insertions keep them so -/

theorem fails_full (T : TabOK h t) (F : Fails h t mid d) : (t.bkt mid).length = 8 := by
  obtain ⟨n, e, he⟩ := F
  cases n with
  | zero => cases he
  | succ n =>
    rw [HTab.cuckoo] at he
    by_cases h1 : (t.bkt mid).length < 8
    · rw [if_pos h1] at he; cases he
    · have := T.cap mid; omega

theorem fails_away (T : TabOK h t) {u v : Nat} (F : Fails h t u 1) (ha : Away h t u v) : Fails h t v 1 := by
  have hfull := fails_full T F
  obtain ⟨n, e, he⟩ := F
  obtain ⟨hne, f, hf, rfl⟩ := ha
  cases n with
  | zero => cases he
  | succ n =>
    rw [HTab.cuckoo, if_neg (by omega), if_neg (by omega)] at he
    obtain ⟨-, hall⟩ := loop_false (fun _ _ _ _ e => cuckoo_false e) he
    obtain ⟨i, hi, rfl⟩ := List.getElem_of_mem hf
    obtain ⟨f', hf', hr⟩ := hall i (List.mem_range.2 (by omega))
    rw [List.getElem?_eq_getElem hi] at hf'
    cases hf'
    have ho : t.other h u (t.bkt u)[i] = t.first h (t.bkt u)[i].key := if_pos hne
    have := hr (by rw [ho]; exact hne)
    rw [HTab.left, if_pos ho, ho] at this
    exact ⟨n, _, this⟩

/-- Where entries stand away from their first bucket after a successful call. -/
structure Moved (h : Key → Nat) (t t' : HTab) (mid : Nat) (e : Ent) (z : Nat) : Prop where
  free : (t.bkt z).length < 8
  here : (t.bkt mid).length < 8 → z = mid
  full : ∀ v, (t.bkt v).length = 8 → (t'.bkt v).length = 8
  away : ∀ u v, Away h t' u v → Away h t u v ∨ (u = mid ∧ v = t.first h e.key ∧ v ≠ u) ∨ (u = z ∧ (t.bkt v).length = 8) ∨
    ((∃ n, Wins h t n u 1) ∧ Fails h t v 1)

theorem cuckoo_moved (T : TabOK h t) : ∀ {n mid d : Nat} {e : Ent} {t' : HTab}, mid < t.bkts.length →
    t.cuckoo h n mid e d = .ok (true, t') → (d = 2 → Fails h t mid 1) → d ≤ 2 → EntOK h t mid e →
    ∃ z, Moved h t t' mid e z := by
  intro n
  induction n with
  | zero => intro mid d e t' _ hw; cases hw
  | succ n ih =>
    intro mid d e t' hmid hw h2 hd he
    have hw0 := hw
    rw [HTab.cuckoo] at hw
    by_cases h1 : (t.bkt mid).length < 8
    · rw [if_pos h1] at hw
      cases hw
      have hb : ∀ v, (t.push mid e).bkt v = if v = mid then t.bkt mid ++ [e] else t.bkt v := HTab.upd_bkt hmid _
      refine ⟨mid, h1, fun _ => rfl, fun v hv => ?_, fun u v ha => ?_⟩
      · rw [hb, if_neg (by rintro rfl; omega)]; exact hv
      · obtain ⟨hne, f, hf, hfv⟩ := ha
        rw [hb] at hf
        by_cases hu : u = mid
        · rw [if_pos hu] at hf
          rcases List.mem_append.1 hf with hf | hf
          · exact Or.inl ⟨hne, f, by rw [hu]; exact hf, hfv⟩
          · rw [List.mem_singleton.1 hf] at hfv
            exact Or.inr (Or.inl ⟨hu, hfv.symm, hne⟩)
        · rw [if_neg hu] at hf
          exact Or.inl ⟨hne, f, hf, hfv⟩
    · rw [if_neg h1] at hw
      by_cases h0 : d = 0
      · rw [if_pos h0] at hw; cases hw
      · rw [if_neg h0] at hw
        have hfull : (t.bkt mid).length = 8 := by have := T.cap mid; omega
        obtain ⟨i, _, f, t1, hf, hother, hsub, rfl⟩ := loop_true (fun _ _ _ _ e => cuckoo_false e) hw
        have hfm : f ∈ t.bkt mid := List.mem_of_getElem? hf
        have hfe := T.loc mid f hfm
        have hf' : EntOK h t (t.other h mid f) f := by
          refine ⟨hfe.1, ?_⟩
          unfold HTab.other
          by_cases hc : t.first h f.key ≠ mid
          · rw [if_pos hc]; exact Or.inl rfl
          · rw [if_neg hc]; exact Or.inr rfl
        have hlt : t.other h mid f < t.bkts.length := by
          unfold HTab.other
          by_cases hc : t.first h f.key ≠ mid
          · rw [if_pos hc]; exact T.first_lt _
          · rw [if_neg hc]; exact T.second_lt _
        have hfirst : t.other h mid f ≠ t.first h f.key → t.first h f.key = mid := by
          intro hc
          by_contra hm
          exact hc (if_pos hm)
        have h2' : t.left h mid f d = 2 → Fails h t (t.other h mid f) 1 := by
          intro hd2
          have hhome : t.other h mid f = t.first h f.key := by
            by_contra hc
            rw [HTab.left, if_neg hc] at hd2
            omega
          rw [HTab.left, if_pos hhome] at hd2
          exact fails_away T (h2 hd2) ⟨hother, f, hfm, hhome.symm⟩
        have hd' : t.left h mid f d ≤ 2 := by
          unfold HTab.left
          by_cases hc : t.other h mid f = t.first h f.key
          · rw [if_pos hc]; exact hd
          · rw [if_neg hc]; omega
        obtain ⟨z, M⟩ := ih hlt hsub h2' hd' hf'
        have P := cuckoo_done T hlt hsub (fun hd2 => h2' hd2) hd' hf'
        have hlen : mid < t1.bkts.length := by rw [P.ok.len, P.mask, ← T.len]; exact hmid
        have hb : ∀ v, (t1.write mid i e).bkt v = if v = mid then (t1.bkt mid).set i e else t1.bkt v := HTab.upd_bkt hlen _
        refine ⟨z, M.free, fun hc => absurd hc h1, fun v hv => ?_, fun u v ha => ?_⟩
        · rw [hb]
          by_cases hvm : v = mid
          · rw [if_pos hvm, List.length_set]; exact M.full mid hfull
          · rw [if_neg hvm]; exact M.full v hv
        · have ha' : Away h t1 u v ∨ (u = mid ∧ v = t.first h e.key ∧ v ≠ u) := by
            obtain ⟨hne, g, hg, hgv⟩ := ha
            rw [hb] at hg
            have hfst : ∀ k, (t1.write mid i e).first h k = t1.first h k := fun _ => rfl
            rw [hfst] at hgv
            by_cases hu : u = mid
            · rw [if_pos hu] at hg
              rcases List.mem_or_eq_of_mem_set hg with hg | rfl
              · exact Or.inl ⟨hne, g, by rw [hu]; exact hg, hgv⟩
              · refine Or.inr ⟨hu, ?_, hne⟩
                rw [← hgv]
                unfold HTab.first
                rw [P.mask]
            · rw [if_neg hu] at hg
              exact Or.inl ⟨hne, g, hg, hgv⟩
          rcases ha' with ha' | ha'
          · rcases M.away u v ha' with a | ⟨rfl, rfl, hne⟩ | a | a
            · exact Or.inl a
            · -- the entry moved out of `mid`
              have hm := hfirst fun hc => hne hc.symm
              rw [hm]
              by_cases hfr : (t.bkt (t.other h mid f)).length < 8
              · exact Or.inr (Or.inr (Or.inl ⟨(M.here hfr).symm, hfull⟩))
              · have hfull' : (t.bkt (t.other h mid f)).length = 8 := by have := T.cap (t.other h mid f); omega
                have hleft : t.left h mid f d = d - 1 := if_neg fun hc => hne hc.symm
                have hd1 : t.left h mid f d ≠ 0 := by
                  intro hc
                  rw [hc] at hsub
                  exact not_wins_zero hfull' ⟨f, t1, hsub⟩
                have hd2 : d = 2 := by omega
                rw [hleft, hd2] at hsub
                exact Or.inr (Or.inr (Or.inr ⟨⟨n, f, t1, hsub⟩, h2 hd2⟩))
            · exact Or.inr (Or.inr (Or.inl a))
            · exact Or.inr (Or.inr (Or.inr a))
          · exact Or.inr (Or.inl ha')

/-- What insertions keep: no circles, and entries away from their first bucket only if that is full. -/
structure Tidy (h : Key → Nat) (t : HTab) : Prop where
  calm : Calm h t
  full : ∀ u v, Away h t u v → (t.bkt v).length = 8

theorem tidy_step (T : TabOK h t) (D : Tidy h t) {z : Nat} (hz : (t.bkt z).length < 8)
    (hfull : ∀ v, (t.bkt v).length = 8 → (t'.bkt v).length = 8)
    (ha : ∀ u v, Away h t' u v → Away h t u v ∨ (u = z ∧ (t.bkt v).length = 8) ∨ ((∃ n, Wins h t n u 1) ∧ Fails h t v 1)) :
    Tidy h t' := by
  have hv : ∀ u v, Away h t' u v → (t.bkt v).length = 8 := by
    intro u v a
    rcases ha u v a with a | a | a
    · exact D.full u v a
    · exact a.2
    · exact fails_full T a.2
  have hfz : ¬ Fails h t z 1 := fun F => by have := fails_full T F; omega
  -- from a bucket where the recursion fails only old steps lead on
  have hP : ∀ u v, Fails h t u 1 → Away h t' u v → Away h t u v ∧ Fails h t v 1 := by
    intro u v F a
    rcases ha u v a with a | ⟨rfl, _⟩ | ⟨⟨n, a⟩, _⟩
    · exact ⟨a, fails_away T F a⟩
    · exact absurd F hfz
    · obtain ⟨_, _, hf⟩ := F
      exact absurd a (not_both hf)
  have hD : ∀ {a b}, Fails h t a 1 → Relation.TransGen (Away h t') a b → Relation.TransGen (Away h t) a b ∧ Fails h t b 1 := by
    intro a b F hab
    induction hab with
    | single s => exact ⟨.single (hP _ _ F s).1, (hP _ _ F s).2⟩
    | tail _ s ih => exact ⟨.tail ih.1 (hP _ _ ih.2 s).1, (hP _ _ ih.2 s).2⟩
  have hC : ∀ {a b}, a ≠ z → Relation.TransGen (Away h t') a b → Relation.TransGen (Away h t) a b ∨ Fails h t b 1 := by
    intro a b hne hab
    induction hab with
    | single s =>
      rcases ha _ _ s with r | r | r
      · exact Or.inl (.single r)
      · exact absurd r.1 hne
      · exact Or.inr r.2
    | @tail b c hab s ih =>
      rcases ih with ih | ih
      · rcases ha _ _ s with r | r | r
        · exact Or.inl (.tail ih r)
        · exfalso
          rw [r.1] at hab
          rcases hab with hab | ⟨_, hab⟩
          · have := hv _ _ hab; omega
          · have := hv _ _ hab; omega
        · exact Or.inr r.2
      · exact Or.inr (hP _ _ ih s).2
  refine ⟨fun v hvv => ?_, fun u v a => hfull v (hv u v a)⟩
  have hne : v ≠ z := by
    rintro rfl
    rcases hvv with s | ⟨_, s⟩
    · have := hv _ _ s; omega
    · have := hv _ _ s; omega
  rcases hC hne hvv with r | r
  · exact D.calm v r
  · exact D.calm v (hD r hvv).1

theorem tidy_init : Tidy h HTab.init := by
  obtain ⟨-, hb, -⟩ := tab_fresh (h := h) (m := 4095) (a := 12) rfl
  have hno : ∀ u v, ¬ Away h HTab.init u v := by
    rintro u v ⟨-, e, he, -⟩
    rw [show HTab.init.bkt u = [] from hb u] at he
    cases he
  refine ⟨fun v hv => ?_, fun u v a => absurd a (hno u v)⟩
  rcases hv with s | ⟨_, s⟩
  · exact hno _ _ s
  · exact hno _ _ s

variable {k : Key}

/-- Insertion into such a table does not recurse forever; if it does not expand the table, the table stays so. -/
theorem set_tidy (T : TabOK h t) (D : Tidy h t) : ∃ n, (∃ t', HTab.set h (n + 1) t k = .ok t' ∧ t'.mask = t.mask ∧ Tidy h t') ∨
    ∀ m, n ≤ m → HTab.set h (m + 1) t k = (t.expand h).bind fun t => HTab.set h m t k := by
  obtain ⟨n1, ⟨b1, t1⟩, e1⟩ := cuckoo_returns T D.calm 1 (t.first h k) ⟨pkey16 (h k), k⟩
  obtain ⟨n2, ⟨b2, t2⟩, e2⟩ := cuckoo_returns T D.calm 1 (t.second h k) ⟨pkey16 (h k), k⟩
  obtain ⟨n3, ⟨b3, t3⟩, e3⟩ := cuckoo_returns T D.calm 2 (t.first h k) ⟨pkey16 (h k), k⟩
  have ok1 : EntOK h t (t.first h k) ⟨pkey16 (h k), k⟩ := ⟨rfl, Or.inl rfl⟩
  have ok2 : EntOK h t (t.second h k) ⟨pkey16 (h k), k⟩ := ⟨rfl, Or.inr rfl⟩
  refine ⟨max n1 (max n2 n3), ?_⟩
  have f1 := fun m (hm : max n1 (max n2 n3) ≤ m) => cuckoo_mono (m := m) (by omega) e1
  have f2 := fun m (hm : max n1 (max n2 n3) ≤ m) => cuckoo_mono (m := m) (by omega) e2
  have f3 := fun m (hm : max n1 (max n2 n3) ≤ m) => cuckoo_mono (m := m) (by omega) e3
  cases b1 with
  | true =>
    refine Or.inl ⟨t1, ?_, (cuckoo_done T (T.first_lt k) e1 (by omega) (by omega) ok1).mask, ?_⟩
    · rw [HTab.set, f1 _ (Nat.le_refl _), Res.bind_ok, if_pos rfl]
    · obtain ⟨z, M⟩ := cuckoo_moved T (T.first_lt k) e1 (by omega) (by omega) ok1
      refine tidy_step T D M.free M.full fun u v a => ?_
      rcases M.away u v a with r | ⟨rfl, rfl, r⟩ | r | r
      · exact Or.inl r
      · exact absurd rfl r
      · exact Or.inr (Or.inl r)
      · exact Or.inr (Or.inr r)
  | false =>
    have := cuckoo_false e1
    subst this
    have F1 : Fails h t1 (t1.first h k) 1 := ⟨n1, _, e1⟩
    cases b2 with
    | true =>
      refine Or.inl ⟨t2, ?_, (cuckoo_done T (T.second_lt k) e2 (by omega) (by omega) ok2).mask, ?_⟩
      · rw [HTab.set, f1 _ (Nat.le_refl _), Res.bind_ok, if_neg (by simp), f2 _ (Nat.le_refl _), Res.bind_ok, if_pos rfl]
      · obtain ⟨z, M⟩ := cuckoo_moved T (T.second_lt k) e2 (by omega) (by omega) ok2
        refine tidy_step T D M.free M.full fun u v a => ?_
        rcases M.away u v a with r | ⟨rfl, rfl, r⟩ | r | r
        · exact Or.inl r
        · exact Or.inr (Or.inr ⟨⟨n2, _, _, e2⟩, F1⟩)
        · exact Or.inr (Or.inl r)
        · exact Or.inr (Or.inr r)
    | false =>
      have := cuckoo_false e2
      subst this
      cases b3 with
      | true =>
        refine Or.inl ⟨t3, ?_, (cuckoo_done T (T.first_lt k) e3 (fun _ => ⟨n1, _, e1⟩) (by omega) ok1).mask, ?_⟩
        · rw [HTab.set, f1 _ (Nat.le_refl _), Res.bind_ok, if_neg (by simp), f2 _ (Nat.le_refl _), Res.bind_ok, if_neg (by simp),
            f3 _ (Nat.le_refl _), Res.bind_ok, if_pos rfl]
        · obtain ⟨z, M⟩ := cuckoo_moved T (T.first_lt k) e3 (fun _ => F1) (by omega) ok1
          refine tidy_step T D M.free M.full fun u v a => ?_
          rcases M.away u v a with r | ⟨rfl, rfl, r⟩ | r | r
          · exact Or.inl r
          · exact absurd rfl r
          · exact Or.inr (Or.inl r)
          · exact Or.inr (Or.inr r)
      | false =>
        have := cuckoo_false e3
        subst this
        refine Or.inr fun m hm => ?_
        rw [HTab.set, f1 m hm, Res.bind_ok, if_neg (by simp), f2 m hm, Res.bind_ok, if_neg (by simp), f3 m hm, Res.bind_ok,
          if_neg (by simp)]

theorem set_succ : ∀ {n : Nat} {t t' : HTab}, HTab.set h n t k = .ok t' → HTab.set h (n + 1) t k = .ok t'
  | 0, _, _, e => by cases e
  | n + 1, t, t', e => by
    rw [HTab.set] at e ⊢
    obtain ⟨q1, e1, e⟩ := Res.bind_eq_ok e
    rw [cuckoo_succ e1, Res.bind_ok]
    by_cases h1 : q1.1 = true
    · rw [if_pos h1] at e ⊢; exact e
    · rw [if_neg h1] at e ⊢
      obtain ⟨q2, e2, e⟩ := Res.bind_eq_ok e
      rw [cuckoo_succ e2, Res.bind_ok]
      by_cases h2 : q2.1 = true
      · rw [if_pos h2] at e ⊢; exact e
      · rw [if_neg h2] at e ⊢
        obtain ⟨q3, e3, e⟩ := Res.bind_eq_ok e
        rw [cuckoo_succ e3, Res.bind_ok]
        by_cases h3 : q3.1 = true
        · rw [if_pos h3] at e ⊢; exact e
        · rw [if_neg h3] at e ⊢
          obtain ⟨q4, e4, e⟩ := Res.bind_eq_ok e
          rw [e4, Res.bind_ok]
          exact set_succ e

theorem set_mono {m : Nat} (hnm : n ≤ m) (e : HTab.set h n t k = .ok t') : HTab.set h m t k = .ok t' := by
  induction m with
  | zero => rw [Nat.le_zero.1 hnm] at e; exact e
  | succ m ih =>
    by_cases hc : n ≤ m
    · exact set_succ (ih hc)
    · rw [show m + 1 = n by omega]; exact e

theorem HashGrow.hist {S : List Key} (H : HashGrow h t S) : HashHist h t S := by
  induction H with
  | init => exact .init
  | set _ hk he _ ih => exact .set ih hk he

theorem HashGrow.tidy {S : List Key} (H : HashGrow h t S) : Tidy h t := by
  induction H with
  | init => exact tidy_init
  | @set t t' S k fuel H hk he hm ih =>
    have T := H.hist.ok.1
    obtain ⟨n, ⟨t2, e2, -, D⟩ | hx⟩ := set_tidy (k := k) T ih
    · have a := set_mono (Nat.le_max_left fuel (n + 1)) he
      rw [set_mono (Nat.le_max_right fuel (n + 1)) e2] at a
      cases a
      exact D
    · exfalso
      have a := set_mono (m := max fuel n + 1) (by omega) he
      rw [hx _ (Nat.le_max_right _ _)] at a
      obtain ⟨t3, e3, e4⟩ := Res.bind_eq_ok a
      by_cases hmax : t.mask = 4294967295
      · rw [HTab.expand, if_pos hmax] at e3; cases e3
      · obtain ⟨t4, e5, T4, hm4, -⟩ := expand_ok T hmax
        rw [e5] at e3
        cases e3
        have := ((set_ok T4).2 t' e4).2.2
        omega

end Verif
