import Verif.Proof.WhStrFilter
import Verif.Spec.StrTree

/-!
# The tree of `Diva<false>` is a map
-/

namespace Verif.Str

/-! ## The pairs in the slots -/

theorem filterMap_slots (hs : List (Option Slot)) :
    (hs.filterMap id).map Slot.kv = ((List.range hs.length).filter fun i => (slotAt hs i).isSome).map (pairAt hs) := by
  have key : ∀ (hs : List (Option Slot)) (f : Nat → Entry), (∀ i s, slotAt hs i = some s → f i = s.kv) →
      (hs.filterMap id).map Slot.kv = ((List.range hs.length).filter fun i => (slotAt hs i).isSome).map f := by
    intro hs
    induction hs with
    | nil => intro f _; rfl
    | cons o hs ih =>
      intro f hf
      have h1 := ih (fun i => f (i + 1)) (fun i s h => hf (i + 1) s h)
      rw [List.length_cons, List.range_succ_eq_map, List.filter_cons, List.filter_map, List.filterMap_cons]
      have h2 : ((fun i => (slotAt (o :: hs) i).isSome) ∘ Nat.succ) = fun i => (slotAt hs i).isSome := rfl
      rw [h2]
      cases o with
      | none =>
        rw [if_neg (by simp [slotAt]), List.map_map]
        exact h1
      | some s =>
        rw [if_pos (by simp [slotAt]), List.map_cons, List.map_map]
        show s.kv :: (hs.filterMap id).map Slot.kv = _
        rw [h1, hf 0 s rfl]
        rfl
  exact key hs _ fun i s h => pairAt_of h

theorem pairs_perm {l : SLeaf} (h : RawOK l) : l.pairs.Perm l.entries := by
  unfold SLeaf.pairs SLeaf.entries
  rw [filterMap_slots]
  refine List.Perm.map _ ?_
  refine (List.perm_ext_iff_of_nodup (List.Nodup.filter _ List.nodup_range) h.dist).2 fun i => ?_
  rw [List.mem_filter, List.mem_range]
  constructor
  · rintro ⟨_, h2⟩
    exact h.all i (Option.isSome_iff_ne_none.1 h2)
  · intro hi
    exact ⟨by rw [h.hs.len]; exact h.lt i hi, Option.isSome_iff_ne_none.2 (h.used i hi)⟩

theorem SRep.pairs {t : STree} {m : Tree} (h : SRep t m) : t.pairs.Perm m := by
  rw [h.eq]
  unfold STree.pairs
  exact List.Perm.flatMap_left _ fun l hl => (pairs_perm (h.leaf l hl).raw).trans l.list_perm.symm

/-! ## Maps -/

/-- The pairs of the list are those of the map. -/
def Is (m : Tree) (live : Key → Option Store) : Prop := ∀ k st, (k, st) ∈ m ↔ live k = some st

theorem Is.put {m : Tree} {live : Key → Option Store} (h : Is m live) (hi : Inc m) (k : Key) (st : Store) :
    Is (treePut m k st) ((TreeCall.put k st).effect live) := by
  intro k' st'
  rw [(treePut_perm_filter hi).mem_iff, List.mem_cons, List.mem_filter, h k' st']
  show _ ↔ (if k' = k then some st else live k') = some st'
  by_cases hk : k' = k
  · subst hk
    simp [eq_comm]
  · simp [hk]

theorem Is.del {m : Tree} {live : Key → Option Store} (h : Is m live) (k : Key) :
    Is (treeDel m k) ((TreeCall.del k).effect live) := by
  intro k' st'
  unfold treeDel
  rw [List.mem_filter, h k' st']
  show _ ↔ (if k' = k then none else live k') = some st'
  by_cases hk : k' = k
  · simp [hk]
  · simp [hk]

theorem Inc.key_inj {m : Tree} (hi : Inc m) {a b : Entry} (ha : a ∈ m) (hb : b ∈ m) (h : a.1 = b.1) : a = b :=
  List.inj_on_of_nodup_map hi.nodup ha hb h

theorem Is.set {m : Tree} {live : Key → Option Store} (h : Is m live) (hi : Inc m) {n : Nat} {e : Entry} (he : m[n]? = some e)
    (st : Store) : Is (m.set n (e.1, st)) ((TreeCall.write e.1 st).effect live) := by
  intro k' st'
  obtain ⟨hn, rfl⟩ := List.getElem?_eq_some_iff.1 he
  have hs : m.set n (m[n].1, st) = m.take n ++ (m[n].1, st) :: m.drop (n + 1) := List.set_eq_take_append_cons_drop .. |>.trans
    (by rw [if_pos hn])
  have hm : m = m.take n ++ m[n] :: m.drop (n + 1) := by rw [← List.drop_eq_getElem_cons hn, List.take_append_drop]
  have hne : ∀ x ∈ m.take n ++ m.drop (n + 1), x.1 ≠ m[n].1 := by
    have := hi.nodup
    rw [hm, keysOf, List.map_append, List.map_cons, List.nodup_append, List.nodup_cons] at this
    intro x hx hxe
    rcases List.mem_append.1 hx with hx | hx
    · exact this.2.2 x.1 (List.mem_map_of_mem hx) m[n].1 (by simp) hxe
    · exact this.2.1.1 (hxe ▸ List.mem_map_of_mem hx)
  show _ ↔ (if k' = m[n].1 then (live k').map (fun _ => st) else live k') = some st'
  have hmem : (k', st') ∈ m ↔ (k', st') = m[n] ∨ (k', st') ∈ m.take n ++ m.drop (n + 1) := by
    conv => lhs; rw [hm]
    simp only [List.mem_append, List.mem_cons]
    tauto
  have hlive : live m[n].1 = some m[n].2 := (h _ _).1 (List.getElem_mem hn)
  rw [hs]
  by_cases hk : k' = m[n].1
  · rw [if_pos hk, hk, hlive]
    simp only [List.mem_append, List.mem_cons, Option.map_some, Option.some.injEq]
    constructor
    · rintro (hx | hx | hx)
      · exact absurd rfl (hne (m[n].1, st') (List.mem_append.2 (Or.inl hx)))
      · exact (Prod.mk.inj hx).2.symm
      · exact absurd rfl (hne (m[n].1, st') (List.mem_append.2 (Or.inr hx)))
    · rintro rfl; exact Or.inr (Or.inl rfl)
  · rw [if_neg hk, ← h k' st', hmem]
    simp only [List.mem_append, List.mem_cons]
    constructor
    · rintro (hx | hx | hx)
      · exact Or.inr (Or.inl hx)
      · exact absurd (Prod.mk.inj hx).1 hk
      · exact Or.inr (Or.inr hx)
    · rintro (hx | hx | hx)
      · exact absurd (congrArg Prod.fst hx) hk
      · exact Or.inl hx
      · exact Or.inr (Or.inr hx)

/-! ## Steps of the iterator -/

variable {t : STree} {m : Tree}

theorem step_spec (h : SRep t m) {cur : Cursor} {n : Nat} (hc : CurAt t m cur n) (b : Bool) :
    ∃ t' cur' n', (if b then t.skip1 cur else t.skip1Rev cur) = .ok (t', cur') ∧ SRep t' m ∧ CurAt t' m cur' n' := by
  cases cur with
  | none => cases b <;> exact ⟨t, none, m.length, rfl, h, rfl⟩
  | some c =>
    obtain ⟨i, is⟩ := c
    cases b with
    | true =>
      obtain ⟨t', cur, e, h', _, c'⟩ := skip1_spec h hc
      exact ⟨t', cur, _, e, h', c'⟩
    | false =>
      obtain ⟨t', cur, e, h', _, c1, c2⟩ := skip1Rev_spec h hc
      by_cases hn : n = 0
      · exact ⟨t', cur, m.length, e, h', by rw [c1 hn]; rfl⟩
      · exact ⟨t', cur, n - 1, e, h', c2 (by omega)⟩

theorem steps_spec : ∀ (bs : List Bool) {t : STree} {cur : Cursor} {n : Nat}, SRep t m → CurAt t m cur n →
    ∃ t' cur' n', t.steps cur bs = .ok (t', cur') ∧ SRep t' m ∧ CurAt t' m cur' n'
  | [], t, cur, n, h, hc => ⟨t, cur, n, rfl, h, hc⟩
  | b :: bs, t, cur, n, h, hc => by
    obtain ⟨t1, c1, n1, e1, h1, hc1⟩ := step_spec h hc b
    obtain ⟨t2, c2, n2, e2, h2, hc2⟩ := steps_spec bs h1 hc1
    exact ⟨t2, c2, n2, by rw [STree.steps, e1, Res.bind_ok, e2], h2, hc2⟩

theorem walk_spec (h : SRep t m) (k : Key) (bs : List Bool) :
    ∃ t' cur' n', t.walk k bs = .ok (t', cur') ∧ SRep t' m ∧ CurAt t' m cur' n' := by
  obtain ⟨t1, c1, e1, h1, _, hc1⟩ := seek_spec h k
  obtain ⟨t2, c2, n2, e2, h2, hc2⟩ := steps_spec bs h1 hc1
  exact ⟨t2, c2, n2, by rw [STree.walk, e1, Res.bind_ok, e2], h2, hc2⟩

/-! ## Calls -/

theorem call_spec (h : SRep t m) (hb : Bounded m) {live : Key → Option Store} (hl : Is m live) {call : TreeCall}
    (hk : ∀ k st, call = .put k st → k.length ≤ 65535) :
    ∃ t' m', call.run t = .ok (t', true) ∧ SRep t' m' ∧ Bounded m' ∧ Is m' (call.effect live) := by
  cases call with
  | put k st =>
    have hk := hk k st rfl
    rcases put_spec h k st with ⟨_, t', e, r⟩ | ⟨hc, _⟩
    · exact ⟨t', _, e, r, hb.put hk st, hl.put h.inc k st⟩
    · exact absurd hc (not_crowded h hk fun e he => hb _ (List.mem_map_of_mem he))
  | del k =>
    obtain ⟨t', e, r⟩ := del_spec h k
    exact ⟨t', _, by unfold TreeCall.run; dsimp only; rw [e]; rfl, r, hb.del k, hl.del k⟩
  | walk k bs =>
    obtain ⟨t', cur', n', e, r, _⟩ := walk_spec h k bs
    exact ⟨t', m, by unfold TreeCall.run; dsimp only; rw [e]; rfl, r, hb, hl⟩
  | write k st =>
    obtain ⟨t1, cur, e1, h1, _, c1⟩ := seek_spec h k
    unfold TreeCall.run
    dsimp only
    rw [e1, Res.bind_ok]
    have hmiss : (∀ e, m[treeSeek m k]? = some e → e.1 ≠ k) → Is m ((TreeCall.write k st).effect live) := by
      intro hne k' st'
      show _ ↔ (if k' = k then (live k').map (fun _ => st) else live k') = some st'
      by_cases hk' : k' = k
      · subst hk'
        have hno : ∀ st'', (k', st'') ∉ m := by
          intro st'' hin
          have hlt : treeSeek m k' < m.length :=
            List.findIdx_lt_length.2 ⟨_, hin, keyLe_refl _⟩
          have hge : keyLe k' m[treeSeek m k'].1 = true :=
            List.findIdx_getElem (p := fun e : Entry => keyLe k' e.1) (xs := m) (w := hlt)
          refine hne _ (List.getElem?_eq_getElem hlt) (keyLe_antisymm ?_ hge)
          obtain ⟨j, hj, e⟩ := List.mem_iff_getElem.1 hin
          rcases Nat.lt_trichotomy j (treeSeek m k') with hlt' | rfl | hgt
          · have := seek_lt_key hlt' (List.getElem?_eq_getElem hj)
            rw [e, keyLt_irrefl] at this; cases this
          · rw [e]; exact keyLe_refl _
          · have := List.pairwise_iff_getElem.1 h.inc (treeSeek m k') j hlt hj hgt
            rw [e] at this
            exact keyLt_keyLe this
        rw [if_pos rfl]
        have hn : live k' = none := by
          cases hlv : live k' with
          | none => rfl
          | some s => exact absurd ((hl k' s).2 hlv) (hno s)
        rw [hn]
        exact ⟨fun hh => absurd hh (hno _), fun hh => by cases hh⟩
      · rw [if_neg hk']; exact hl k' st'
    cases hg : m[treeSeek m k]? with
    | none =>
      have : cur = none := by
        cases cur with
        | none => rfl
        | some c =>
          obtain ⟨i, is⟩ := c
          obtain ⟨_, _, _, _, _, _, _, _, _, hm, _⟩ := c1.entry h1
          rw [hg] at hm; cases hm
      subst this
      exact ⟨t1, m, rfl, h1, hb, hmiss fun e he => by rw [hg] at he; cases he⟩
    | some e =>
      obtain ⟨j, js, rfl⟩ := c1.lt hg
      dsimp only
      rw [peek_spec h1 c1, peek_get hg, Res.bind_ok]
      by_cases hc : (e.1 == k) = true
      · rw [if_pos hc]
        have hek : e.1 = k := by simpa using hc
        refine ⟨_, _, rfl, write_spec h1 c1 hg st, hb.set hg st, ?_⟩
        rw [← hek]
        rw [← hek] at hg
        exact hl.set h.inc hg st
      · rw [if_neg hc]
        refine ⟨_, _, rfl, h1, hb, hmiss fun e' he' => ?_⟩
        rw [hg] at he'
        obtain rfl := Option.some.inj he'
        simpa using hc

theorem calls_spec {calls : List TreeCall} : ∀ {t : STree} {m : Tree} {live : Key → Option Store}, SRep t m → Bounded m →
    Is m live → PutsLe 65535 calls →
    ∃ t' m', calls.foldl (fun (r : Res (STree × Bool)) call => r.bind fun q => (call.run q.1).bind fun p => .ok (p.1, q.2 && p.2))
      (.ok (t, true)) = .ok (t', true) ∧ SRep t' m' ∧ Bounded m' ∧ Is m' (calls.foldl TreeCall.effect live) := by
  induction calls with
  | nil => intro t m live h hb hl _; exact ⟨t, m, rfl, h, hb, hl⟩
  | cons call calls ih =>
    intro t m live h hb hl hk
    obtain ⟨t1, m1, e1, h1, hb1, hl1⟩ := call_spec h hb hl (call := call) (fun k st e => hk k st (by simp [e]))
    rw [List.foldl_cons, List.foldl_cons, Res.bind_ok, e1, Res.bind_ok]
    exact ih h1 hb1 hl1 fun k st hin => hk k st (by simp [hin])

theorem treeRun_spec {calls : List TreeCall} (hk : PutsLe 65535 calls) :
    ∃ t m, treeRun calls = .ok (t, true) ∧ SRep t m ∧ Is m (mapAfter calls) := by
  obtain ⟨t, m, e, h, _, hl⟩ := calls_spec (calls := calls) SRep.empty (fun k hk => by simp [keysOf] at hk)
    (live := fun _ => none) (fun k st => by simp) hk
  exact ⟨t, m, e, h, hl⟩

/-! ## Neighbours -/

section
variable {live : Key → Option Store}

theorem Inc.lt {m : Tree} (hi : Inc m) {i j : Nat} {a b : Entry} (ha : m[i]? = some a) (hb : m[j]? = some b) (hij : i < j) :
    keyLt a.1 b.1 = true := by
  obtain ⟨h1, rfl⟩ := List.getElem?_eq_some_iff.1 ha
  obtain ⟨h2, rfl⟩ := List.getElem?_eq_some_iff.1 hb
  exact List.pairwise_iff_getElem.1 hi i j h1 h2 hij

theorem firstFrom_spec (h : SRep t m) (hl : Is m live) (k : Key) :
    ∃ t' cur o, t.seek k = .ok (t', cur) ∧ t'.at cur o ∧ FirstFrom live k o := by
  obtain ⟨t1, cur, e1, h1, _, c1⟩ := seek_spec h k
  cases hg : m[treeSeek m k]? with
  | none =>
    have hlen : m.length ≤ treeSeek m k := by simpa using hg
    have : cur = none := by
      cases cur with
      | none => rfl
      | some c =>
        obtain ⟨i, is⟩ := c
        obtain ⟨_, _, _, _, _, _, _, _, _, hm, _⟩ := c1.entry h1
        rw [hg] at hm; cases hm
    refine ⟨t1, cur, none, e1, this, fun k' st hk' => ?_⟩
    obtain ⟨j, hj, e⟩ := List.mem_iff_getElem.1 ((hl k' st).2 hk')
    have := seek_lt_key (key := k) (show j < treeSeek m k by omega) (List.getElem?_eq_getElem hj)
    rw [e] at this; exact this
  | some e =>
    refine ⟨t1, cur, some e, e1, ?_, (hl e.1 e.2).1 (List.mem_of_getElem? hg), ?_, fun k' st hk' hle => ?_⟩
    · show t1.peek cur = .ok e
      rw [peek_spec h1 c1, peek_get hg]
    · obtain ⟨h2, rfl⟩ := List.getElem?_eq_some_iff.1 hg
      exact List.findIdx_getElem (p := fun e : Entry => keyLe k e.1) (xs := m) (w := h2)
    · obtain ⟨j, hj, e'⟩ := List.mem_iff_getElem.1 ((hl k' st).2 hk')
      rcases Nat.lt_trichotomy j (treeSeek m k) with hlt | hjj | hgt
      · have := seek_lt_key hlt (List.getElem?_eq_getElem hj)
        rw [e', keyLt_iff] at this
        exact absurd (keyLe_antisymm this.1 hle) this.2
      · rw [← hjj, List.getElem?_eq_getElem hj, e'] at hg
        rw [← Option.some.inj hg]
        exact keyLe_refl _
      · have := Inc.lt h.inc hg (List.getElem?_eq_getElem hj) hgt
        rw [e'] at this
        exact keyLt_keyLe this

theorem firstAbove_spec (h : SRep t m) (hl : Is m live) {i is n : Nat} (hc : CurAt t m (some (i, is)) n) {e : Entry}
    (he : m[n]? = some e) : ∃ t' cur o, t.skip1 (some (i, is)) = .ok (t', cur) ∧ t'.at cur o ∧ FirstAbove live e.1 o := by
  obtain ⟨t1, cur, e1, h1, _, c1⟩ := skip1_spec h hc
  have hn : n < m.length := (List.getElem?_eq_some_iff.1 he).1
  cases hg : m[n + 1]? with
  | none =>
    have hlen : m.length ≤ n + 1 := by simpa using hg
    have : cur = none := by
      cases cur with
      | none => rfl
      | some c =>
        obtain ⟨i, is⟩ := c
        obtain ⟨_, _, _, _, _, _, _, _, _, hm, _⟩ := c1.entry h1
        rw [hg] at hm; cases hm
    refine ⟨t1, cur, none, e1, this, fun k' st hk' => ?_⟩
    obtain ⟨j, hj, e'⟩ := List.mem_iff_getElem.1 ((hl k' st).2 hk')
    rcases Nat.lt_trichotomy j n with hlt | hjj | hgt
    · have := Inc.lt h.inc (List.getElem?_eq_getElem hj) he hlt
      rw [e'] at this
      exact keyLt_keyLe this
    · rw [← hjj, List.getElem?_eq_getElem hj, e'] at he
      rw [← Option.some.inj he]
      exact keyLe_refl _
    · omega
  | some x =>
    refine ⟨t1, cur, some x, e1, ?_, (hl x.1 x.2).1 (List.mem_of_getElem? hg), Inc.lt h.inc he hg (by omega), fun k' st hk' hlt => ?_⟩
    · show t1.peek cur = .ok x
      rw [peek_spec h1 c1, peek_get hg]
    · obtain ⟨j, hj, e'⟩ := List.mem_iff_getElem.1 ((hl k' st).2 hk')
      have hj' := List.getElem?_eq_getElem hj
      rw [e'] at hj'
      rcases Nat.lt_or_ge n j with h2 | h2
      · rcases Nat.eq_or_lt_of_le (show n + 1 ≤ j from h2) with h3 | h3
        · rw [← h3, hg] at hj'
          rw [Option.some.inj hj']
          exact keyLe_refl _
        · exact keyLt_keyLe (Inc.lt h.inc hg hj' h3)
      · exfalso
        rcases Nat.eq_or_lt_of_le h2 with h3 | h3
        · rw [h3, he] at hj'
          rw [Option.some.inj hj', keyLt_irrefl] at hlt
          cases hlt
        · have := keyLt_trans' hlt (Inc.lt h.inc hj' he h3)
          rw [keyLt_irrefl] at this; cases this

theorem lastBelow_spec (h : SRep t m) (hl : Is m live) {i is n : Nat} (hc : CurAt t m (some (i, is)) n) {e : Entry}
    (he : m[n]? = some e) : ∃ t' cur o, t.skip1Rev (some (i, is)) = .ok (t', cur) ∧ t'.at cur o ∧ LastBelow live e.1 o := by
  obtain ⟨t1, cur, e1, h1, _, c1, c2⟩ := skip1Rev_spec h hc
  have hn : n < m.length := (List.getElem?_eq_some_iff.1 he).1
  by_cases hz : n = 0
  · refine ⟨t1, cur, none, e1, c1 hz, fun k' st hk' => ?_⟩
    obtain ⟨j, hj, e'⟩ := List.mem_iff_getElem.1 ((hl k' st).2 hk')
    have hj' := List.getElem?_eq_getElem hj
    rw [e'] at hj'
    rcases Nat.eq_zero_or_pos j with h3 | h3
    · rw [h3, ← hz, he] at hj'
      rw [Option.some.inj hj']
      exact keyLe_refl _
    · exact keyLt_keyLe (Inc.lt h.inc he hj' (by omega))
  · have c2 := c2 (by omega)
    have hg : m[n - 1]? = some m[n - 1] := List.getElem?_eq_getElem (by omega)
    refine ⟨t1, cur, some m[n - 1], e1, ?_, (hl _ _).1 (List.mem_of_getElem? hg), Inc.lt h.inc hg he (by omega), fun k' st hk' hlt => ?_⟩
    · show t1.peek cur = .ok m[n - 1]
      rw [peek_spec h1 c2, peek_get hg]
    · obtain ⟨j, hj, e'⟩ := List.mem_iff_getElem.1 ((hl k' st).2 hk')
      have hj' := List.getElem?_eq_getElem hj
      rw [e'] at hj'
      rcases Nat.lt_or_ge j n with h2 | h2
      · rcases Nat.eq_or_lt_of_le (show j ≤ n - 1 by omega) with h3 | h3
        · rw [h3, hg] at hj'
          rw [Option.some.inj hj']
          exact keyLe_refl _
        · exact keyLt_keyLe (Inc.lt h.inc hj' hg h3)
      · exfalso
        rcases Nat.eq_or_lt_of_le h2 with h3 | h3
        · rw [← h3, he] at hj'
          rw [Option.some.inj hj', keyLt_irrefl] at hlt
          cases hlt
        · have := keyLt_trans' hlt (Inc.lt h.inc he hj' h3)
          rw [keyLt_irrefl] at this; cases this

end

end Verif.Str
