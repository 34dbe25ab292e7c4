import Verif.Proof.WhLeafOps

/-!
# Splitting a leaf of the integer tree
-/

namespace Verif

theorem keyLt_anchor : ∀ {x y : Key}, keyLt x y = true → keyLt x (y.take (keyLcp x y + 1)) = true
  | [], [], h => by simp [keyLt] at h
  | [], _ :: _, _ => by simp [keyLcp, keyLt]
  | _ :: _, [], h => by simp [keyLt] at h
  | a :: as, b :: bs, h => by
    rw [keyLt, Bool.or_eq_true, Bool.and_eq_true] at h
    rw [keyLcp]
    by_cases hab : a = b
    · rw [if_pos hab, List.take_succ_cons, keyLt, Bool.or_eq_true, Bool.and_eq_true]
      refine Or.inr ⟨by simp [hab], keyLt_anchor ?_⟩
      rcases h with h | h
      · subst hab; simp at h
      · exact h.2
    · rw [if_neg hab, List.take_succ_cons, keyLt, Bool.or_eq_true]
      rcases h with h | h
      · exact Or.inl h
      · exact absurd (by simpa using h.1) hab

theorem keyLe_take : ∀ (y : Key) (n : Nat), keyLe (y.take n) y = true
  | [], _ => by simp [keyLe]
  | _ :: _, 0 => by simp [keyLe]
  | b :: bs, n + 1 => by
    rw [List.take_succ_cons, keyLe, Bool.or_eq_true, Bool.and_eq_true]
    exact Or.inr ⟨by simp, keyLe_take bs n⟩

theorem treePut_new {k : Key} {st : Store} {m : Tree} (hm : Inc m) (hk : k ∉ keysOf m) :
    m.take (treeSeek m k) ++ (k, st) :: m.drop (treeSeek m k) = treePut m k st := by
  have hf : (m.filter fun e => e.1 != k) = m := by
    rw [List.filter_eq_self]
    intro x hx
    exact bne_iff_ne.2 fun e => hk (e ▸ List.mem_map_of_mem hx)
  refine Inc.eq_of_perm ?_ ?_ (treePut_inc hm)
  · refine List.Perm.trans ?_ (treePut_perm_filter hm).symm
    rw [hf]
    exact List.perm_middle.trans (by rw [List.take_append_drop])
  · have hlo : ∀ x ∈ m.take (treeSeek m k), keyLt x.1 k = true := by
      intro x hx
      obtain ⟨i, hi, rfl⟩ := List.mem_take_iff_getElem.1 hx
      exact seek_lt_key (i := i) (by omega) (List.getElem?_eq_getElem (by omega))
    have hhi : ∀ x ∈ m.drop (treeSeek m k), keyLt k x.1 = true := by
      intro x hx
      have hne : k ≠ x.1 := fun e => hk (e ▸ List.mem_map_of_mem (List.mem_of_mem_drop hx))
      by_cases hlt : treeSeek m k < m.length
      · have h1 : keyLe k m[treeSeek m k].1 = true :=
          List.findIdx_getElem (p := fun e : Entry => keyLe k e.1) (xs := m) (w := hlt)
        rw [List.drop_eq_getElem_cons hlt] at hx
        have h3 := List.Pairwise.sublist (List.drop_sublist (treeSeek m k) m) hm
        rw [List.drop_eq_getElem_cons hlt] at h3
        refine keyLt_iff.2 ⟨?_, hne⟩
        rcases List.mem_cons.1 hx with rfl | hx
        · exact h1
        · exact keyLe_trans h1 (keyLt_keyLe ((List.pairwise_cons.1 h3).1 x hx))
      · rw [List.drop_eq_nil_of_le (by omega)] at hx; cases hx
    refine List.pairwise_append.2 ⟨List.Pairwise.sublist (List.take_sublist _ _) hm, List.pairwise_cons.2
      ⟨hhi, List.Pairwise.sublist (List.drop_sublist _ _) hm⟩, fun x hx y hy => ?_⟩
    rcases List.mem_cons.1 hy with rfl | hy
    · exact hlo x hx
    · exact keyLt_trans' (hlo x hx) (hhi y hy)

theorem cutLoop_range (all : List Entry) (alen target : Nat) : ∀ fuel l h, l < h →
    l < cutLoop all alen target fuel l h ∧ cutLoop all alen target fuel l h ≤ h
  | 0, l, h, hlt => ⟨hlt, Nat.le_refl _⟩
  | fuel + 1, l, h, hlt => by
    rw [cutLoop]
    by_cases hc : l + 1 < h
    · rw [if_pos hc]
      dsimp only
      have h1 : l < (l + h + 1) / 2 := by omega
      have h2 : (l + h + 1) / 2 ≤ h := by omega
      have h3 := cutLoop_range all alen target fuel l ((l + h + 1) / 2) h1
      by_cases h4 : (l + h + 1) / 2 < h
      · have h5 := cutLoop_range all alen target fuel ((l + h + 1) / 2) h h4
        split_ifs <;> omega
      · omega
    · rw [if_neg hc]; exact ⟨hlt, Nat.le_refl _⟩

theorem full_ok {anchor : Key} {es : List Entry} (h1 : es.length ≤ 32) (h2 : Inc es) (h3 : Short es) :
    LeafOK (Leaf.full anchor es) ∧ (Leaf.full anchor es).entries = es := by
  refine ⟨LeafOK.make ?_ (Nat.le_refl _) h3 h2.nodup (by rwa [List.take_length]), ?_⟩
  · rw [List.length_append, List.length_replicate]; omega
  · simp [Leaf.entries, Leaf.full]

theorem split_spec {l : Leaf} (h : LeafOK l) (hn : l.nr = 32) {e : Entry} (he : e.1.length ≤ 8)
    (hne : e.1 ∉ keysOf l.entries) (hasNext : Bool) : ∃ a b, l.split hasNext e = .ok (a, b) ∧ LeafOK a ∧ LeafOK b ∧
      a.anchor = l.anchor ∧ a.sorted = a.nr ∧ b.sorted = b.nr ∧ a.entries ++ b.entries = treePut l.list e.1 e.2 ∧
      a.entries ≠ [] ∧ b.entries ≠ [] ∧ (∀ x ∈ a.entries, keyLt x.1 b.anchor = true) ∧
      (∀ x ∈ b.entries, keyLe b.anchor x.1 = true) ∧ b.anchor.length ≤ 8 ∧
      ∃ x ∈ a.entries, ∃ y ∈ b.entries, b.anchor = y.1.take (keyLcp x.1 y.1 + 1) := by
  obtain ⟨l1, e1, ok1, a1, n1, s1, en1⟩ := sync_spec h
  unfold Leaf.split
  rw [e1, Res.bind_ok, search_spec ok1 he, Res.bind_ok, s1, en1, n1]
  have hll : l.list.length = 32 := by rw [l.list_perm.length_eq, h.entries_length, hn]
  rw [List.take_of_length_le (l := l.list) (i := l.nr) (by omega)]
  have hne' : e.1 ∉ keysOf l.list := fun hh => hne ((l.list_perm.map _).mem_iff.1 hh)
  have hall := treePut_new (k := e.1) (st := e.2) h.inc hne'
  dsimp only
  rw [show l.list.take (treeSeek l.list e.1) ++ e :: l.list.drop (treeSeek l.list e.1) = treePut l.list e.1 e.2 from hall]
  generalize hA : treePut l.list e.1 e.2 = all at *
  have hinc : Inc all := by rw [← hA]; exact treePut_inc h.inc
  have hshort : Short all := by
    rw [← hA]
    intro x hx
    rcases treePut_mem hx with rfl | hx
    · exact he
    · exact h.list_short x hx
  have hlen : all.length = 33 := by
    rw [← hall, List.length_append, List.length_cons]
    have : (l.list.take (treeSeek l.list e.1)).length + (l.list.drop (treeSeek l.list e.1)).length = l.list.length := by
      rw [← List.length_append, List.take_append_drop]
    omega
  generalize hC : cutLoop all _ _ 64 0 l.nr = cut
  have hcut := cutLoop_range all (keyLcp ((all.getD 0 ([], Store.zero)).1) ((all.getD l.nr ([], Store.zero)).1) + 1)
    (if hasNext = true then 16 else 24) 64 0 l.nr (by omega)
  rw [hC] at hcut
  have g1 : all.getD (cut - 1) ([], Store.zero) = all[cut - 1] := by
    rw [List.getD_eq_getElem?_getD, List.getElem?_eq_getElem (by omega)]; rfl
  have g2 : all.getD cut ([], Store.zero) = all[cut] := by
    rw [List.getD_eq_getElem?_getD, List.getElem?_eq_getElem (by omega)]; rfl
  rw [g1, g2]
  have hlt : keyLt all[cut - 1].1 all[cut].1 = true :=
    List.pairwise_iff_getElem.1 hinc (cut - 1) cut (by omega) (by omega) (by omega)
  obtain ⟨oka, ena⟩ := full_ok (anchor := l1.anchor) (es := all.take cut) (by rw [List.length_take]; omega)
    (List.Pairwise.sublist (List.take_sublist _ _) hinc) (fun x hx => hshort x (List.mem_of_mem_take hx))
  obtain ⟨okb, enb⟩ := full_ok (anchor := all[cut].1.take (keyLcp all[cut - 1].1 all[cut].1 + 1)) (es := all.drop cut)
    (by rw [List.length_drop]; omega)
    (List.Pairwise.sublist (List.drop_sublist _ _) hinc) (fun x hx => hshort x (List.mem_of_mem_drop hx))
  refine ⟨_, _, rfl, oka, okb, a1, rfl, rfl, ?_, ?_, ?_, ?_, ?_, ?_, all[cut - 1], ?_, all[cut], ?_, rfl⟩
  · rw [ena, enb, List.take_append_drop]
  · rw [ena]; intro hh
    have := congrArg List.length hh
    rw [List.length_take, List.length_nil] at this; omega
  · rw [enb]; intro hh
    have := congrArg List.length hh
    rw [List.length_drop, List.length_nil] at this; omega
  · rw [ena]
    intro x hx
    show keyLt x.1 (all[cut].1.take (keyLcp all[cut - 1].1 all[cut].1 + 1)) = true
    obtain ⟨i, hi, rfl⟩ := List.mem_take_iff_getElem.1 hx
    rcases Nat.eq_or_lt_of_le (show i ≤ cut - 1 by omega) with rfl | hi'
    · exact keyLt_anchor hlt
    · exact keyLt_trans' (List.pairwise_iff_getElem.1 hinc i (cut - 1) (by omega) (by omega) hi') (keyLt_anchor hlt)
  · rw [enb]
    intro x hx
    show keyLe (all[cut].1.take (keyLcp all[cut - 1].1 all[cut].1 + 1)) x.1 = true
    refine keyLe_trans (keyLe_take _ _) ?_
    have h3 := List.Pairwise.sublist (List.drop_sublist cut all) hinc
    rw [List.drop_eq_getElem_cons (by omega)] at h3 hx
    rcases List.mem_cons.1 hx with rfl | hx
    · exact keyLe_refl _
    · exact keyLt_keyLe ((List.pairwise_cons.1 h3).1 x hx)
  · show (all[cut].1.take _).length ≤ 8
    rw [List.length_take]
    have := hshort all[cut] (List.getElem_mem _)
    omega
  · rw [ena, List.mem_take_iff_getElem]
    exact ⟨cut - 1, by omega, rfl⟩
  · rw [enb, List.drop_eq_getElem_cons (by omega)]
    exact List.mem_cons_self

end Verif
