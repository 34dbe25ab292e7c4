import Verif.Proof.StrShort
import Verif.Proof.StrCrowd

/-!
# A long anchor does not fit into the buffer of the index
-/

namespace Verif.Str

variable {tags : Tags} {s : StrMap} {t : STree} {p : Key}

theorem onIndex_put (k : Key) (st : Store) (calls : List TreeCall) (b : Bool) (s : StrMap) :
    (treeClient (.put k st :: calls) b).onIndex tags s =
      (s.put tags k st).bind fun q => (treeClient calls (b && q.2)).onIndex tags q.1 := rfl

theorem onIndex_del (k : Key) (calls : List TreeCall) (b : Bool) (s : StrMap) :
    (treeClient (.del k :: calls) b).onIndex tags s =
      (s.del tags k).bind fun s => (treeClient calls (b && true)).onIndex tags s := rfl

/-- Two leaves, the second one with a long anchor. -/
def Steep (t : STree) : Prop := ∃ a b : SLeaf, t = [a, b] ∧ a.nr ≠ 0 ∧ pbufRoom < b.anchor.length

/-- Keys `p ++ [x]` with `x` from the list. -/
def Tails (p : Key) (D : List UInt8) (m : Tree) : Prop := ∀ e ∈ m, ∃ x ∈ D, e.1 = p ++ [x]

/-- Deleting everything from such leaves merges them, for which the anchor is copied. -/
theorem steep_dels {n : Nat} (ht : tags.Sound) : ∀ {D : List UInt8} {s : StrMap} {t : STree} {m : Tree} {b : Bool}, Ix (Upto n) s t → SRep t m →
    Steep t → Tails p D m → (treeClient (D.map fun x => .del (p ++ [x])) b).onIndex tags s = .ub
  | [], s, t, m, b, _, hm, ⟨l1, l2, et, hn, _⟩, hd => by
    exfalso
    have ok := hm.leaf l1 (by rw [et]; simp)
    have hlen := ok.entries_length
    obtain ⟨e, he⟩ := List.exists_mem_of_length_pos (l := l1.entries) (by omega)
    have : e ∈ m := by
      rw [hm.eq, et]
      exact List.mem_flatMap.2 ⟨l1, by simp, l1.list_perm.mem_iff.2 he⟩
    obtain ⟨x, hx, _⟩ := hd e this
    cases hx
  | x :: D, s, t, m, b, h, hm, ⟨l1, l2, et, hn, hl⟩, hd => by
    rw [List.map_cons, onIndex_del]
    obtain ⟨t', e, -, ⟨s', e', h', hr, hz⟩ | ⟨A, a, c, B, hB, -, e'⟩⟩ := h.del' ht (p ++ [x])
    · rw [e', Res.bind_ok]
      obtain ⟨t2, e2, hm'⟩ := del_spec hm (p ++ [x])
      rw [e] at e2
      cases e2
      rw [et] at hr hz
      obtain ⟨a, b', rfl⟩ : ∃ a b', t' = [a, b'] := by
        have := congrArg List.length hr
        rw [rungs, rungs, List.length_map, List.length_map] at this
        match t', this with
        | [a, b'], _ => exact ⟨a, b', rfl⟩
      refine steep_dels ht h' hm' ⟨a, b', rfl, hz (by simpa using hn) a (by simp), ?_⟩ ?_
      · simp only [rungs, List.map_cons, List.map_nil, List.cons.injEq, and_true] at hr
        rw [hr.2]; exact hl
      · intro y hy
        obtain ⟨hy, hne⟩ := List.mem_filter.1 hy
        obtain ⟨z, hz, ez⟩ := hd y hy
        rcases List.mem_cons.1 hz with rfl | hz
        · simp [ez] at hne
        · exact ⟨z, hz, ez⟩
    · have : c = l2.anchor := by
        rw [et] at hB
        match A, hB with
        | [], hB =>
          simp only [rungs, List.map_cons, List.map_nil, List.nil_append, List.cons.injEq] at hB
          exact hB.2.1.symm
        | [_], hB => simp [rungs] at hB
        | _ :: _ :: _, hB => simp [rungs] at hB
      rw [e', this, indexMerge.eq_def, if_pos hl]
      rfl

/-- 33 keys with a long common prefix end up in two such leaves. -/
theorem steep_puts {n : Nat} (ht : tags.Sound) (hp : p.length = pbufRoom) (hn : n = pbufRoom + 1) {rest : List TreeCall} :
    ∀ {L D : List UInt8} {s : StrMap} {t : STree} {m : Tree}, Ix (Upto n) s t → SRep t m → t.length = 1 → Tails p D m → L.Nodup →
    (∀ x ∈ L, x ∉ D) → m.length + L.length = 33 → L ≠ [] →
    ∃ s' t' m', (treeClient (L.map (fun x => .put (p ++ [x]) Store.zero) ++ rest) true).onIndex tags s =
        (treeClient rest true).onIndex tags s' ∧ Ix (Upto n) s' t' ∧ SRep t' m' ∧ Steep t' ∧ Tails p (L ++ D) m'
  | [], _, _, _, _, _, _, _, _, _, _, _, h => absurd rfl h
  | x :: L, D, s, t, m, h, hm, h1, hd, hnd, hdis, hlen, _ => by
    have hk : p ++ [x] ∉ keysOf m := by
      intro hin
      obtain ⟨e, he, ee⟩ := List.mem_map.1 hin
      obtain ⟨y, hy, ey⟩ := hd e he
      rw [ey] at ee
      have := (List.cons.inj (List.append_cancel_left ee)).1
      subst this
      exact hdis y (List.mem_cons_self ..) hy
    have hkl : (p ++ [x]).length ≤ n := by rw [List.length_append, List.length_singleton]; omega
    obtain ⟨l, et, hl, hml, ok⟩ := single hm h1 (p ++ [x])
    have hnr : l.nr = m.length := by rw [← ok.entries_length, ← l.list_perm.length_eq, ← hml]
    have hj : t.jump (p ++ [x]) = 0 := by
      have : t.jump (p ++ [x]) < t.length := (List.getElem?_eq_some_iff.1 hl).1
      omega
    obtain ⟨s', t', b, e1, e2, h'⟩ := h.put' ht upto_closed hkl (fun a ha => by
      unfold STree.anchorAt at ha
      rw [hj, et] at ha
      cases ha) Store.zero
    have hd' : Tails p (x :: D) (treePut m (p ++ [x]) Store.zero) := by
      intro e he
      rcases treePut_mem he with rfl | he
      · exact ⟨x, List.mem_cons_self .., rfl⟩
      · obtain ⟨y, hy, ey⟩ := hd e he
        exact ⟨y, List.mem_cons_of_mem _ hy, ey⟩
    have hnc : ¬ Crowded t (p ++ [x]) := by
      refine not_crowded hm (by rw [List.length_append, List.length_singleton, hp]; decide) fun e he => ?_
      obtain ⟨y, _, ey⟩ := hd e he
      rw [ey, List.length_append, List.length_singleton, hp]; decide
    rcases put_spec hm (p ++ [x]) Store.zero with ⟨-, t2, e3, hm'⟩ | ⟨hc, -⟩
    swap
    · exact absurd hc hnc
    rw [e1] at e3
    cases e3
    rw [List.map_cons, List.cons_append, onIndex_put, e2, Res.bind_ok]
    have hmem : ∀ y, y ∈ L ++ x :: D ↔ y ∈ (x :: L) ++ D := fun y => by
      simp only [List.mem_append, List.mem_cons]; tauto
    by_cases hL : L = []
    · subst hL
      refine ⟨s', t', _, rfl, h', hm', ?_, fun e he => ?_⟩
      · unfold STree.put at e1
        dsimp only at e1
        have hin : p ++ [x] ∉ keysOf l.entries := fun hh => hk (by rw [hml]; exact (l.list_perm.map _).mem_iff.2 hh)
        have hnm : l.matchHs (p ++ [x]) = none := by
          cases hmk : l.matchHs (p ++ [x]) with
          | none => rfl
          | some ih =>
            obtain ⟨x', hs, hx⟩ := match_some hmk
            refine absurd ?_ hin
            have hi := ok.raw.all _ (by rw [hs]; exact Option.some_ne_none _)
            refine List.mem_map.2 ⟨x'.kv, ?_, hx⟩
            rw [SLeaf.entries, ← pairAt_of hs]
            exact List.mem_map_of_mem hi
        have h32 : l.nr = 32 := by rw [List.length_singleton] at hlen; omega
        rw [hl] at e1
        dsimp only at e1
        rw [hnm] at e1
        dsimp only at e1
        rw [if_neg (by omega)] at e1
        rcases ssplit_spec ok h32 (e := (p ++ [x], Store.zero)) hin (decide (t.jump (p ++ [x]) + 1 < t.length)) with
          ⟨-, e4⟩ | ⟨-, a, b, e4, oka, -, -, -, -, hen, ha0, -, -, -, u, hu, v, hv, hb⟩
        · rw [e4, Res.bind_ok] at e1
          dsimp only at e1
          obtain ⟨_, _, e1⟩ := Res.bind_eq_ok e1
          cases e1
        · rw [e4, Res.bind_ok] at e1
          have et' := (Prod.mk.inj (Res.ok.inj e1)).1
          rw [hj, et] at et'
          refine ⟨a, b, et'.symm, ?_, ?_⟩
          · rw [← oka.entries_length]
            exact fun hz => ha0 (List.length_eq_zero_iff.1 hz)
          · have form : ∀ e ∈ a.entries ++ b.entries, ∃ y, e.1 = p ++ [y] := by
              intro e he
              rw [hen] at he
              dsimp only at he
              rw [← hml] at he
              obtain ⟨y, _, ey⟩ := hd' e he
              exact ⟨y, ey⟩
            obtain ⟨y, ey⟩ := form u (List.mem_append_left _ hu)
            obtain ⟨z, ez⟩ := form v (List.mem_append_right _ hv)
            rw [hb, ey, ez, List.length_take, List.length_append, List.length_singleton]
            have := keyLcp_pre p [y] [z]
            omega
      · obtain ⟨y, hy, ey⟩ := hd' e he
        exact ⟨y, by simpa using hy, ey⟩
    · have hlt : l.nr < 32 := by
        have := List.length_pos_iff.2 hL
        rw [List.length_cons] at hlen
        omega
      obtain ⟨s2, t2, m2, e5, h5, h6, h7, h8⟩ := steep_puts ht hp hn (rest := rest) (L := L) (D := x :: D) h' hm'
        (by rw [put_length hl hlt e1, h1]) hd' (List.nodup_cons.1 hnd).2 (fun y hy hc => by
          rcases List.mem_cons.1 hc with rfl | hc
          · exact (List.nodup_cons.1 hnd).1 hy
          · exact hdis y (List.mem_cons_of_mem _ hy) hc) (by
          have := treePut_new (st := Store.zero) hm.inc hk
          rw [← this, List.length_append, List.length_cons]
          have : (m.take (treeSeek m (p ++ [x]))).length + (m.drop (treeSeek m (p ++ [x]))).length = m.length := by
            rw [← List.length_append, List.take_append_drop]
          rw [List.length_cons] at hlen
          omega) hL
      refine ⟨s2, t2, m2, e5, h5, h6, h7, fun e he => ?_⟩
      obtain ⟨y, hy, ey⟩ := h8 e he
      exact ⟨y, (hmem y).1 hy, ey⟩

/-- 33 keys with a long common prefix, put and deleted again. -/
def steepCalls (p : Key) (L : List UInt8) : List TreeCall :=
  L.map (fun x => .put (p ++ [x]) Store.zero) ++ L.map fun x => .del (p ++ [x])

theorem steep_ub (ht : tags.Sound) (hp : p.length = pbufRoom) {L : List UInt8} (hL : L.Nodup) (hlen : L.length = 33) :
    (treeClient (steepCalls p L) true).onIndex tags StrMap.empty = .ub := by
  obtain ⟨s', t', m', e, h, hm, hs, hd⟩ := steep_puts ht hp rfl (rest := L.map fun x => .del (p ++ [x])) (L := L) (D := [])
    (Ix.empty (Nat.zero_le _)) SRep.empty rfl (fun e he => by cases he) hL (fun _ _ h => by cases h) (by simpa using hlen)
    (fun h => by rw [h] at hlen; cases hlen)
  unfold steepCalls
  rw [e]
  exact steep_dels ht h hm hs (by simpa using hd)

end Verif.Str
