import Verif.Proof.WhStrMap

/-!
# Keys with 65535 bytes in common fill a leaf
-/

namespace Verif.Str

theorem keyLcp_pre : ∀ (p a b : Key), p.length ≤ keyLcp (p ++ a) (p ++ b)
  | [], _, _ => Nat.zero_le _
  | x :: p, a, b => by
    rw [List.cons_append, List.cons_append, keyLcp, if_pos rfl, List.length_cons]
    have := keyLcp_pre p a b
    omega

/-- A put into a leaf that is not full splits nothing. -/
theorem put_length {t t' : STree} {k : Key} {st : Store} {b : Bool} {l : SLeaf} (hl : t[t.jump k]? = some l) (hn : l.nr < 32)
    (h : t.put k st = .ok (t', b)) : t'.length = t.length := by
  unfold STree.put at h
  dsimp only at h
  rw [hl] at h
  dsimp only at h
  cases hm : l.matchHs k with
  | some ih =>
    rw [hm] at h
    obtain ⟨l', _, h⟩ := Res.bind_eq_ok h
    have := (Prod.mk.inj (Res.ok.inj h)).1
    rw [← this, List.length_set]
  | none =>
    rw [hm] at h
    dsimp only at h
    rw [if_pos hn] at h
    obtain ⟨l', _, h⟩ := Res.bind_eq_ok h
    have := (Prod.mk.inj (Res.ok.inj h)).1
    rw [← this, List.length_set]

/-- The puts of `p ++ [i]` for the first `j` values of `i`. -/
def crowd (p : Key) (j : Nat) : List TreeCall := (List.range j).map fun i => .put (p ++ [UInt8.ofNat i]) Store.zero

theorem crowd_succ (p : Key) (j : Nat) : crowd p (j + 1) = crowd p j ++ [.put (p ++ [UInt8.ofNat j]) Store.zero] := by
  simp [crowd, List.range_succ]

theorem treeRun_append (a : List TreeCall) (call : TreeCall) : treeRun (a ++ [call]) =
    (treeRun a).bind fun q => (call.run q.1).bind fun p => .ok (p.1, q.2 && p.2) := by
  simp [treeRun, List.foldl_append]

theorem single {t : STree} {m : Tree} (h : SRep t m) (h1 : t.length = 1) (k : Key) :
    ∃ l, t = [l] ∧ t[t.jump k]? = some l ∧ m = l.list ∧ SLeafOK l := by
  obtain ⟨A, l, B, z⟩ := h.zip k
  have hlen := congrArg List.length z.eq
  rw [List.length_append, List.length_cons, h1] at hlen
  have hA : A = [] := List.length_eq_zero_iff.1 (by omega)
  have hB : B = [] := List.length_eq_zero_iff.1 (by omega)
  subst hA hB
  refine ⟨l, z.eq, z.get, ?_, h.ok z⟩
  have := h.list z
  simpa using this

theorem crowd_spec {p : Key} : ∀ {j : Nat}, j ≤ 32 → ∃ t m, treeRun (crowd p j) = .ok (t, true) ∧ SRep t m ∧ t.length = 1 ∧
    m.length = j ∧ ∀ e ∈ m, ∃ i, i < j ∧ e.1 = p ++ [UInt8.ofNat i]
  | 0, _ => ⟨STree.empty, [], rfl, SRep.empty, rfl, rfl, by simp⟩
  | j + 1, hj => by
    obtain ⟨t, m, e, h, h1, h2, h3⟩ := crowd_spec (p := p) (j := j) (by omega)
    have hk : p ++ [UInt8.ofNat j] ∉ keysOf m := by
      intro hin
      obtain ⟨x, hx, ex⟩ := List.mem_map.1 hin
      obtain ⟨i, hi, ei⟩ := h3 x hx
      rw [ei] at ex
      have := List.append_cancel_left ex
      have := congrArg UInt8.toNat (List.cons.inj this).1
      rw [UInt8.toNat_ofNat', UInt8.toNat_ofNat'] at this
      omega
    obtain ⟨l, ht, hl, hm, ok⟩ := single h h1 (p ++ [UInt8.ofNat j])
    have hnr : l.nr = j := by rw [← ok.entries_length, ← l.list_perm.length_eq, ← hm, h2]
    have hnc : ¬ Crowded t (p ++ [UInt8.ofNat j]) := by
      rintro ⟨l', hl', hn', _⟩
      rw [hl] at hl'
      obtain rfl := Option.some.inj hl'
      omega
    rcases put_spec h (p ++ [UInt8.ofNat j]) Store.zero with ⟨_, t', e', h'⟩ | ⟨hc, _⟩
    · refine ⟨t', _, ?_, h', ?_, ?_, ?_⟩
      · rw [crowd_succ, treeRun_append, e, Res.bind_ok]
        show ((t.put _ _).bind _) = _
        rw [e']
        rfl
      · rw [put_length hl (by omega) e', h1]
      · have := treePut_new (st := Store.zero) h.inc hk
        rw [← this, List.length_append, List.length_cons]
        have : (m.take (treeSeek m (p ++ [UInt8.ofNat j]))).length + (m.drop (treeSeek m (p ++ [UInt8.ofNat j]))).length =
            m.length := by rw [← List.length_append, List.take_append_drop]
        omega
      · intro x hx
        rcases treePut_mem hx with rfl | hx
        · exact ⟨j, by omega, rfl⟩
        · obtain ⟨i, hi, ei⟩ := h3 x hx
          exact ⟨i, by omega, ei⟩
    · exact absurd hc hnc

theorem crowd_full {p : Key} (hp : 65535 ≤ p.length) : ∃ t, treeRun (crowd p 33) = .ok (t, false) ∧ t.pairs.length = 32 ∧
    ∀ e ∈ t.pairs, e.1 ≠ p ++ [32] := by
  obtain ⟨t, m, e, h, h1, h2, h3⟩ := crowd_spec (p := p) (j := 32) (Nat.le_refl _)
  have hk : p ++ [UInt8.ofNat 32] ∉ keysOf m := by
    intro hin
    obtain ⟨x, hx, ex⟩ := List.mem_map.1 hin
    obtain ⟨i, hi, ei⟩ := h3 x hx
    rw [ei] at ex
    have := List.append_cancel_left ex
    have := congrArg UInt8.toNat (List.cons.inj this).1
    rw [UInt8.toNat_ofNat', UInt8.toNat_ofNat'] at this
    omega
  obtain ⟨l, ht, hl, hm, ok⟩ := single h h1 (p ++ [UInt8.ofNat 32])
  have hnr : l.nr = 32 := by rw [← ok.entries_length, ← l.list_perm.length_eq, ← hm, h2]
  have hlen : (treePut m (p ++ [UInt8.ofNat 32]) Store.zero).length = 33 := by
    rw [← treePut_new h.inc hk, List.length_append, List.length_cons]
    have : (m.take (treeSeek m (p ++ [UInt8.ofNat 32]))).length + (m.drop (treeSeek m (p ++ [UInt8.ofNat 32]))).length =
        m.length := by rw [← List.length_append, List.take_append_drop]
    omega
  have hall : ∀ x ∈ treePut m (p ++ [UInt8.ofNat 32]) Store.zero, ∃ a, x.1 = p ++ a := by
    intro x hx
    rcases treePut_mem hx with rfl | hx
    · exact ⟨_, rfl⟩
    · obtain ⟨i, hi, ei⟩ := h3 x hx
      exact ⟨_, ei⟩
  have hc : Crowded t (p ++ [UInt8.ofNat 32]) := by
    refine ⟨l, hl, hnr, fun hh => hk ?_, ?_⟩
    · rw [hm]; exact (l.list_perm.map _).mem_iff.2 hh
    · unfold SLeaf.Full
      rw [← hm, List.getD_eq_getElem?_getD, List.getD_eq_getElem?_getD, List.getElem?_eq_getElem (by omega),
        List.getElem?_eq_getElem (by omega), Option.getD_some, Option.getD_some]
      obtain ⟨a, ea⟩ := hall _ (List.getElem_mem (l := treePut m (p ++ [UInt8.ofNat 32]) Store.zero) (n := 0) (by omega))
      obtain ⟨b, eb⟩ := hall _ (List.getElem_mem (l := treePut m (p ++ [UInt8.ofNat 32]) Store.zero) (n := 32) (by omega))
      rw [ea, eb]
      have := keyLcp_pre p a b
      omega
  rcases put_spec h (p ++ [UInt8.ofNat 32]) Store.zero with ⟨hnc, _⟩ | ⟨_, t', e', h'⟩
  · exact absurd hc hnc
  · refine ⟨t', ?_, ?_, ?_⟩
    · rw [show (33 : Nat) = 32 + 1 from rfl, crowd_succ, treeRun_append, e, Res.bind_ok]
      show ((t.put _ _).bind _) = _
      rw [e']
      rfl
    · rw [h'.pairs.length_eq, h2]
    · intro x hx ex
      have hx' := h'.pairs.mem_iff.1 hx
      exact hk (by rw [show UInt8.ofNat 32 = 32 from rfl, ← ex]; exact List.mem_map_of_mem hx')

end Verif.Str
