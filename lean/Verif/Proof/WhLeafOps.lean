import Verif.Proof.WhLeaf

/-!
# Changing leaves of the integer tree
-/

namespace Verif

/-! ## The list operations -/

theorem treePut_mem {m : Tree} {k : Key} {st : Store} {e : Entry} (h : e ∈ treePut m k st) : e = (k, st) ∨ e ∈ m := by
  induction m with
  | nil => simpa [treePut] using h
  | cons x m ih =>
    rw [treePut] at h
    split_ifs at h
    · rcases List.mem_cons.1 h with h | h
      · exact Or.inl h
      · exact Or.inr h
    · rcases List.mem_cons.1 h with h | h
      · exact Or.inl h
      · exact Or.inr (by simp [h])
    · rcases List.mem_cons.1 h with h | h
      · exact Or.inr (by simp [h])
      · rcases ih h with h | h
        · exact Or.inl h
        · exact Or.inr (by simp [h])

theorem treePut_inc {k : Key} {st : Store} : ∀ {m : Tree}, Inc m → Inc (treePut m k st)
  | [], _ => List.pairwise_singleton _ _
  | x :: m, h => by
    have h' := List.pairwise_cons.1 h
    rw [treePut]
    by_cases h1 : keyLt k x.1 = true
    · rw [if_pos h1]
      refine List.pairwise_cons.2 ⟨fun z hz => ?_, h⟩
      rcases List.mem_cons.1 hz with rfl | hz
      · exact h1
      · exact keyLt_trans' h1 (h'.1 z hz)
    · rw [if_neg h1]
      by_cases h2 : (k == x.1) = true
      · rw [if_pos h2]
        have : k = x.1 := by simpa using h2
        exact List.pairwise_cons.2 ⟨fun z hz => by rw [this]; exact h'.1 z hz, h'.2⟩
      · rw [if_neg h2]
        refine List.pairwise_cons.2 ⟨fun z hz => ?_, treePut_inc h'.2⟩
        rcases treePut_mem hz with rfl | hz
        · rw [keyLt_eq_not_le] at h1
          rw [keyLt_iff]
          refine ⟨by simpa using h1, fun e => h2 ?_⟩
          have e : x.1 = k := e
          simp [e]
        · exact h'.1 z hz

theorem filter_ne_of_lt {k : Key} {m : Tree} (h : ∀ e ∈ m, keyLt k e.1 = true) : m.filter (fun e => e.1 != k) = m := by
  rw [List.filter_eq_self]
  intro e he
  exact bne_iff_ne.2 (keyLt_ne (h e he))

theorem filter_ne_of_gt {k : Key} {m : Tree} (h : ∀ e ∈ m, keyLt e.1 k = true) : m.filter (fun e => e.1 != k) = m := by
  rw [List.filter_eq_self]
  intro e he
  exact bne_iff_ne.2 (keyLt_ne (h e he)).symm

theorem treePut_perm_filter {k : Key} {st : Store} : ∀ {m : Tree}, Inc m →
    (treePut m k st).Perm ((k, st) :: m.filter fun e => e.1 != k)
  | [], _ => List.Perm.refl _
  | x :: m, h => by
    have h' := List.pairwise_cons.1 h
    rw [treePut]
    by_cases h1 : keyLt k x.1 = true
    · rw [if_pos h1, filter_ne_of_lt]
      intro z hz
      rcases List.mem_cons.1 hz with rfl | hz
      · exact h1
      · exact keyLt_trans' h1 (h'.1 z hz)
    · rw [if_neg h1]
      by_cases h2 : (k == x.1) = true
      · rw [if_pos h2]
        have : k = x.1 := by simpa using h2
        rw [List.filter_cons_of_neg (by simp [this]), filter_ne_of_lt (by rw [this]; exact h'.1)]
      · rw [if_neg h2, List.filter_cons_of_pos (by
          simp only [bne_iff_ne, ne_eq]; intro e; exact h2 (by simp [e]))]
        exact ((treePut_perm_filter h'.2).cons x).trans (List.Perm.swap _ _ _)

theorem Inc.filter {m : Tree} (h : Inc m) (p : Entry → Bool) : Inc (m.filter p) := List.Pairwise.filter p h

theorem list_put {l l' : Leaf} (h : LeafOK l) (h' : LeafOK l') {k : Key} {st : Store}
    (hp : l'.entries.Perm ((k, st) :: l.entries.filter fun e => e.1 != k)) : l'.list = treePut l.list k st :=
  Inc.eq_of_perm ((l'.list_perm.trans hp).trans
    ((((l.list_perm.filter _).symm).cons _).trans (treePut_perm_filter h.inc).symm)) h'.inc (treePut_inc h.inc)

theorem list_del {l l' : Leaf} (h : LeafOK l) (h' : LeafOK l') {k : Key}
    (hp : l'.entries.Perm (l.entries.filter fun e => e.1 != k)) : l'.list = treeDel l.list k :=
  Inc.eq_of_perm ((l'.list_perm.trans hp).trans (l.list_perm.filter _).symm) h'.inc (h.inc.filter _)

/-! ## Append -/

theorem take_set_succ {α : Type} {l : List α} {n : Nat} {e : α} (h : n < l.length) :
    (l.set n e).take (n + 1) = l.take n ++ [e] := by
  rw [List.take_add_one, List.take_set_of_le (Nat.le_refl n), List.getElem?_set_self h]
  rfl

theorem append_spec {l : Leaf} (h : LeafOK l) (hn : l.nr < 32) {e : Entry} (he : e.1.length ≤ 8)
    (hne : e.1 ∉ keysOf l.entries) : ∃ l', l.append e = .ok l' ∧ LeafOK l' ∧ l'.anchor = l.anchor ∧ l'.nr = l.nr + 1 ∧
      l'.entries = l.entries ++ [e] ∧ l.sorted ≤ l'.sorted ∧ (l.sorted < l.nr → l'.sorted = l.sorted) ∧
      ∀ j, j < l.nr → l'.slots[j]? = l.slots[j]? := by
  unfold Leaf.append
  rw [if_neg (by omega)]
  have hl := h.len
  have hel := h.entries_length
  have hso := h.sorted
  have hent : (l.slots.set l.nr e).take (l.nr + 1) = l.entries ++ [e] := take_set_succ (by omega)
  have hshort : Short (l.entries ++ [e]) := by
    intro x hx
    rcases List.mem_append.1 hx with hx | hx
    · exact h.short x hx
    · rw [List.mem_singleton.1 hx]; exact he
  have hnd : (keysOf (l.entries ++ [e])).Nodup := by
    rw [keysOf, List.map_append, List.nodup_append]
    refine ⟨h.nodup, by simp, fun a ha b hb hab => ?_⟩
    simp only [List.map_cons, List.map_nil, List.mem_singleton] at hb
    exact hne (by rw [← hb, ← hab]; exact ha)
  refine ⟨_, rfl, ?_, rfl, rfl, hent, ?_, ?_, ?_⟩
  · refine ⟨by simpa using hl, by show l.nr + 1 ≤ 32; omega, ?_, ?_, ?_, ?_⟩
    · show (if _ then (if _ then (if _ then l.nr + 1 else _) else _) else _) ≤ l.nr + 1
      split_ifs <;> first | omega | exact Nat.le_refl _
    · show Short ((l.slots.set l.nr e).take (l.nr + 1)); rw [hent]; exact hshort
    · show (keysOf ((l.slots.set l.nr e).take (l.nr + 1))).Nodup; rw [hent]; exact hnd
    · show Inc (((l.slots.set l.nr e).take (l.nr + 1)).take (if _ then _ else _))
      rw [hent]
      have hkeep : Inc ((l.entries ++ [e]).take l.sorted) := by
        rw [List.take_append_of_le_length (by omega)]; exact h.pref
      split_ifs with c1 c2 c3
      · have hall : Inc l.entries := by
          have := h.pref
          rwa [← c1, ← hel, List.take_length] at this
        rw [List.take_of_length_le (by simp [hel])]
        refine List.pairwise_append.2 ⟨hall, List.pairwise_singleton _ _, fun x hx y hy => ?_⟩
        rw [List.mem_singleton.1 hy]
        have hlast : l.entries[l.nr - 1]? = some (l.slots.getD (l.nr - 1) ([], Store.zero)) := by
          rw [← LeafOK.slot (by omega), List.getD_eq_getElem?_getD, List.getElem?_eq_getElem (by omega)]
          rfl
        obtain ⟨hb, hbe⟩ := List.getElem?_eq_some_iff.1 hlast
        have hmem : l.slots.getD (l.nr - 1) ([], Store.zero) ∈ l.entries := by rw [← hbe]; exact List.getElem_mem _
        have hlt : keyLt (l.slots.getD (l.nr - 1) ([], Store.zero)).1 e.1 = true := by
          rw [keyLt_iff]
          refine ⟨(compareKeys_le (h.short _ hmem) he).1 c3, fun hh => hne ?_⟩
          rw [← hh]; exact List.mem_map_of_mem hmem
        obtain ⟨i, hi, rfl⟩ := List.mem_iff_getElem.1 hx
        by_cases hil : i = l.nr - 1
        · subst hil; rw [hbe]; exact hlt
        · have := List.pairwise_iff_getElem.1 hall i (l.nr - 1) hi hb (by omega)
          rw [hbe] at this
          exact keyLt_trans' this hlt
      · exact hkeep
      · have : l.entries = [] := List.length_eq_zero_iff.1 (by omega)
        rw [this]; exact List.pairwise_singleton _ _
      · exact hkeep
  · show l.sorted ≤ (if _ then (if _ then (if _ then l.nr + 1 else _) else _) else _)
    split_ifs <;> first | omega | exact Nat.le_succ_of_le hso
  · intro hlt
    show (if _ then _ else _) = l.sorted
    rw [if_neg (by omega)]
  · intro j hj
    show (l.slots.set l.nr e)[j]? = _
    rw [List.getElem?_set_ne (by omega)]

/-! ## Update and remove -/

theorem cut_at {l : List Entry} {i : Nat} {e : Entry} (h : l[i]? = some e) :
    ∃ a b, l = a ++ e :: b ∧ a.length = i := by
  obtain ⟨hi, rfl⟩ := List.getElem?_eq_some_iff.1 h
  exact ⟨l.take i, l.drop (i + 1), by rw [← List.drop_eq_getElem_cons hi, List.take_append_drop],
    by rw [List.length_take]; omega⟩

theorem update_spec {l : Leaf} (h : LeafOK l) {pos : Nat} {k : Key} {st st' : Store} (hp : l.entries[pos]? = some (k, st)) :
    LeafOK (l.update pos (k, st')) ∧ (l.update pos (k, st')).entries = l.entries.set pos (k, st') ∧
      keysOf (l.update pos (k, st')).entries = keysOf l.entries ∧
      keysOf ((l.update pos (k, st')).entries.take l.sorted) = keysOf (l.entries.take l.sorted) ∧
      (l.update pos (k, st')).entries.Perm ((k, st') :: l.entries.filter fun e => e.1 != k) := by
  have hl := h.entries_length
  obtain ⟨hpos, _⟩ := List.getElem?_eq_some_iff.1 hp
  have he : (l.update pos (k, st')).entries = l.entries.set pos (k, st') := by
    show (l.slots.set pos (k, st')).take l.nr = (l.slots.take l.nr).set pos (k, st')
    rw [List.take_set]
  obtain ⟨a, b, hab, hal⟩ := cut_at hp
  have hset : l.entries.set pos (k, st') = a ++ (k, st') :: b := by rw [hab, ← hal]; simp
  have hk : keysOf (l.update pos (k, st')).entries = keysOf l.entries := by
    rw [he, hset, hab]; simp [keysOf]
  have hkt : keysOf ((l.update pos (k, st')).entries.take l.sorted) = keysOf (l.entries.take l.sorted) := by
    rw [keysOf, List.map_take, keysOf, List.map_take]
    exact congrArg _ hk
  have hnd := h.nodup
  rw [hab, keysOf, List.map_append, List.map_cons, List.nodup_append, List.nodup_cons] at hnd
  refine ⟨⟨?_, h.nr, h.sorted, ?_, by rw [hk]; exact h.nodup, ?_⟩, he, hk, hkt, ?_⟩
  · show (l.slots.set pos (k, st')).length = 32
    rw [List.length_set]; exact h.len
  · intro x hx
    have : x.1 ∈ keysOf l.entries := by rw [← hk]; exact List.mem_map_of_mem hx
    obtain ⟨y, hy, e⟩ := List.mem_map.1 this
    rw [← e]; exact h.short y hy
  · have h1 := h.pref
    have h2 : (keysOf (l.entries.take l.sorted)).Pairwise fun a b => keyLt a b = true := by
      rw [keysOf, List.pairwise_map]; exact h1
    rw [← hkt, keysOf, List.pairwise_map] at h2
    exact h2
  · rw [he, hset, hab, List.filter_append, List.filter_cons_of_neg (by simp)]
    have ha : a.filter (fun e => e.1 != k) = a := by
      rw [List.filter_eq_self]
      intro x hx
      have := hnd.2.2 x.1 (List.mem_map_of_mem hx) k (by simp)
      simpa [bne_iff_ne] using this
    have hb : b.filter (fun e => e.1 != k) = b := by
      rw [List.filter_eq_self]
      intro x hx
      have : x.1 ≠ k := fun e => hnd.2.1.1 (List.mem_map.2 ⟨x, hx, e⟩)
      simpa [bne_iff_ne] using this
    rw [ha, hb]
    exact List.perm_middle

theorem remove_spec {l : Leaf} (h : LeafOK l) {a b : List Entry} {k : Key} {st : Store}
    (hab : l.entries = a ++ (k, st) :: b) (hs : a.length < l.sorted) :
    LeafOK (l.remove a.length) ∧ (l.remove a.length).nr = l.nr - 1 ∧ (l.remove a.length).sorted = a.length ∧
      (l.remove a.length).entries.Perm (a ++ b) ∧
      (a ++ b).Perm (l.entries.filter fun e => e.1 != k) ∧
      (l.remove a.length).entries.take a.length = a ∧
      ∀ j, j ≠ a.length → (l.remove a.length).slots[j]? = l.slots[j]? := by
  have hl := h.entries_length
  have hlen := h.len
  have hnr := h.nr
  have hso := h.sorted
  have hab' : a.length + (b.length + 1) = l.nr := by rw [← hl, hab]; simp
  have hslots : l.slots = a ++ (k, st) :: b ++ l.slots.drop l.nr := by
    rw [← hab]; exact (List.take_append_drop _ _).symm
  have hent : ∃ c, (l.remove a.length).entries = a ++ c ∧ c.Perm b := by
    show ∃ c, (l.slots.set a.length (l.slots.getD (l.nr - 1) ([], Store.zero))).take (l.nr - 1) = a ++ c ∧ c.Perm b
    rcases List.eq_nil_or_concat b with rfl | ⟨b', z, rfl⟩
    · refine ⟨[], ?_, List.Perm.refl _⟩
      rw [List.take_set_of_le (by simp at hab'; omega), hslots]
      simp only [List.length_nil] at hab'
      rw [List.append_assoc, List.take_left' (by omega), List.append_nil]
    · rw [List.concat_eq_append] at hab hab' hslots
      refine ⟨z :: b', ?_, by rw [List.concat_eq_append]; exact (List.perm_append_singleton z b').symm⟩
      have hz : l.slots.getD (l.nr - 1) ([], Store.zero) = z := by
        rw [List.getD_eq_getElem?_getD, LeafOK.slot (by omega), hab, List.getElem?_append_right (by omega)]
        simp only [List.length_append, List.length_cons, List.length_nil] at hab'
        have : l.nr - 1 - a.length = b'.length + 1 := by omega
        rw [this]; simp
      have hs' : l.slots.set a.length z = (a ++ z :: b') ++ ([z] ++ l.slots.drop l.nr) := by
        conv_lhs => rw [hslots]
        simp
      rw [hz, hs', List.take_left']
      simp at hab' ⊢; omega
  obtain ⟨c, hc, hcb⟩ := hent
  have hperm : (l.remove a.length).entries.Perm (a ++ b) := by rw [hc]; exact hcb.append_left a
  have htake : (l.remove a.length).entries.take a.length = a := by rw [hc]; simp
  have hnd := h.nodup
  rw [hab, keysOf, List.map_append, List.map_cons, List.nodup_append, List.nodup_cons] at hnd
  have hfilt : (a ++ b) = (l.entries.filter fun e => e.1 != k) := by
    rw [hab, List.filter_append, List.filter_cons_of_neg (by simp)]
    have ha : a.filter (fun e => e.1 != k) = a := by
      rw [List.filter_eq_self]
      intro x hx
      have := hnd.2.2 x.1 (List.mem_map_of_mem hx) k (by simp)
      simpa [bne_iff_ne] using this
    have hb : b.filter (fun e => e.1 != k) = b := by
      rw [List.filter_eq_self]
      intro x hx
      have : x.1 ≠ k := fun e => hnd.2.1.1 (List.mem_map.2 ⟨x, hx, e⟩)
      simpa [bne_iff_ne] using this
    rw [ha, hb]
  have hsorted : (l.remove a.length).sorted = a.length := by
    show (if l.sorted > a.length then a.length else l.sorted) = a.length
    rw [if_pos hs]
  have hsub : ∀ x ∈ (l.remove a.length).entries, x ∈ l.entries := by
    intro x hx
    rw [hab]
    rcases List.mem_append.1 (hperm.mem_iff.1 hx) with hx | hx <;> simp [hx]
  refine ⟨⟨?_, ?_, ?_, fun x hx => h.short x (hsub x hx), ?_, ?_⟩, rfl, hsorted, hperm, by rw [hfilt], htake, ?_⟩
  · show (l.slots.set _ _).length = 32
    rw [List.length_set]; exact hlen
  · show l.nr - 1 ≤ 32
    omega
  · rw [hsorted]; show a.length ≤ l.nr - 1; omega
  · rw [(hperm.map Prod.fst).nodup_iff]
    show ((a ++ b).map Prod.fst).Nodup
    rw [List.map_append, List.nodup_append]
    exact ⟨hnd.1, hnd.2.1.2, fun x hx y hy => hnd.2.2 x hx y (by simp [hy])⟩
  · rw [hsorted, htake]
    have := h.pref
    rw [hab] at this
    refine (List.Pairwise.sublist ?_ this)
    rw [List.take_append]
    rw [List.take_of_length_le (l := a) (by omega)]
    exact (List.prefix_append _ _).sublist
  · intro j hj
    show (l.slots.set a.length _)[j]? = _
    rw [List.getElem?_set_ne (by omega)]

/-! ## Merge -/

theorem appends_spec : ∀ (es : List Entry) {l : Leaf}, LeafOK l → l.nr + es.length ≤ 32 → Short es →
    (keysOf (l.entries ++ es)).Nodup →
    ∃ l', es.foldl (fun r e => Res.bind r fun l => l.append e) (Res.ok l) = .ok l' ∧ LeafOK l' ∧ l'.anchor = l.anchor ∧
      l'.nr = l.nr + es.length ∧ l'.entries = l.entries ++ es ∧ l.sorted ≤ l'.sorted ∧
      (l.sorted < l.nr → l'.sorted = l.sorted) ∧ ∀ j, j < l.nr ∨ es = [] → l'.slots[j]? = l.slots[j]?
  | [], l, h, _, _, _ => ⟨l, rfl, h, rfl, rfl, by simp, Nat.le_refl _, fun _ => rfl, fun _ _ => rfl⟩
  | e :: es, l, h, hn, hs, hnd => by
    simp only [List.length_cons] at hn
    have hne : e.1 ∉ keysOf l.entries := by
      intro hh
      rw [keysOf, List.map_append, List.nodup_append] at hnd
      exact hnd.2.2 e.1 hh e.1 (by simp) rfl
    obtain ⟨l1, e1, ok1, a1, n1, en1, s1, t1, sl1⟩ := append_spec h (by omega) (hs e (by simp)) hne
    obtain ⟨l2, e2, ok2, a2, n2, en2, s2, t2, sl2⟩ := appends_spec es ok1 (by omega) (fun x hx => hs x (by simp [hx]))
      (by rw [en1, List.append_assoc]; exact hnd)
    refine ⟨l2, by rw [List.foldl_cons, Res.bind_ok, e1]; exact e2, ok2, by rw [a2, a1], by
      rw [n2, n1, List.length_cons]; omega, by rw [en2, en1]; simp, by omega, fun hh => ?_, fun j hj => ?_⟩
    · rw [t2 (by rw [t1 hh, n1]; omega), t1 hh]
    · rcases hj with hj | hj
      · rw [sl2 j (Or.inl (by omega)), sl1 j hj]
      · cases hj

theorem merge_spec {l n : Leaf} (h : LeafOK l) (hn : LeafOK n) (hsum : l.nr + n.nr ≤ 32)
    (hnd : (keysOf (l.entries ++ n.entries)).Nodup) (hb : l.sorted < l.nr ∨ n.nr = 0) :
    ∃ l', l.merge n = .ok l' ∧ LeafOK l' ∧ l'.anchor = l.anchor ∧ l'.nr = l.nr + n.nr ∧
      l'.entries = l.entries ++ n.entries ∧ l.sorted ≤ l'.sorted ∧
      ∀ j, j < l.nr ∨ n.nr = 0 → l'.slots[j]? = l.slots[j]? := by
  have hnl := hn.entries_length
  obtain ⟨l', e, ok, a, n', en, s, t, sl⟩ := appends_spec n.entries h (by omega) hn.short hnd
  replace sl : ∀ j, j < l.nr ∨ n.nr = 0 → l'.slots[j]? = l.slots[j]? := fun j hj => sl j
    (hj.imp_right fun hz => List.length_eq_zero_iff.1 (by omega))
  unfold Leaf.merge
  rw [e, Res.bind_ok]
  rcases hb with hb | hb
  · rw [if_neg (by omega)]
    exact ⟨l', rfl, ok, a, by omega, en, s, sl⟩
  · have hz : n.sorted = 0 := by have := hn.sorted; omega
    rw [hz]
    refine ⟨l', ?_, ok, a, by omega, en, s, sl⟩
    simp only [Nat.add_zero, ite_self]

end Verif
