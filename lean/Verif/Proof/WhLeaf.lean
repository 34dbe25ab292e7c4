import Verif.Model.WhTree
import Verif.Proof.WhInt
import Verif.Proof.Tree
import Verif.Proof.Own

/-!
# Leaves of the integer tree
-/

namespace Verif

abbrev Entry := Key × Store

/-- Strictly increasing keys. -/
abbrev Inc (l : List Entry) : Prop := l.Pairwise fun a b => keyLt a.1 b.1 = true

/-- Keys fit into the slots. -/
abbrev Short (l : List Entry) : Prop := ∀ e ∈ l, e.1.length ≤ 8

abbrev keysOf (l : List Entry) : List Key := l.map Prod.fst

theorem Inc.nodup {l : List Entry} (h : Inc l) : (keysOf l).Nodup := by
  unfold keysOf List.Nodup
  rw [List.pairwise_map]
  exact h.imp fun hab => (keyLt_ne hab).symm

theorem Inc.eq_of_perm {a b : List Entry} (h : a.Perm b) (ha : Inc a) (hb : Inc b) : a = b := by
  refine h.eq_of_pairwise (le := fun x y => keyLt x.1 y.1 = true) ?_ ha hb
  intro x y _ _ h1 h2
  exact absurd h2 (by rw [keyLt_asymm h1]; simp)

theorem compareKeys_neg {a b : Key} (ha : a.length ≤ 8) (hb : b.length ≤ 8) : compareKeys a b < 0 ↔ keyLt a b = true := by
  rw [keyLt_iff, ← compareKeys_le ha hb, Ne, ← compareKeys_zero ha hb]
  omega

theorem compareKeys_pos {a b : Key} (ha : a.length ≤ 8) (hb : b.length ≤ 8) : compareKeys a b > 0 ↔ keyLt b a = true := by
  rw [keyLt_eq_not_le]
  have := compareKeys_le ha hb
  cases h : keyLe a b
  · rw [h] at this; simp at this ⊢; omega
  · rw [h] at this; simp at this ⊢; omega

/-! ## Sorting -/

theorem slotInsert_perm (x : Entry) : ∀ l, (slotInsert x l).Perm (x :: l)
  | [] => List.Perm.refl _
  | y :: l => by
    rw [slotInsert]
    split
    · exact List.Perm.refl _
    · exact ((slotInsert_perm x l).cons y).trans (List.Perm.swap x y l)

theorem slotSort_perm : ∀ l, (slotSort l).Perm l
  | [] => List.Perm.refl _
  | x :: l => (slotInsert_perm x _).trans ((slotSort_perm l).cons x)

theorem slotInsert_inc {x : Entry} (hx : x.1.length ≤ 8) : ∀ {l : List Entry}, Inc l → Short l → x.1 ∉ keysOf l →
    Inc (slotInsert x l)
  | [], _, _, _ => List.pairwise_singleton _ _
  | y :: l, h, hs, hn => by
    rw [slotInsert]
    have hy := hs y (by simp)
    replace h := List.pairwise_cons.1 h
    have hne : x.1 ≠ y.1 := fun e => hn (by simp [keysOf, e])
    by_cases hc : compareKeys x.1 y.1 ≤ 0
    · rw [if_pos hc]
      have hxy : keyLt x.1 y.1 = true := keyLt_iff.2 ⟨(compareKeys_le hx hy).1 hc, hne⟩
      refine List.pairwise_cons.2 ⟨fun z hz => ?_, List.pairwise_cons.2 h⟩
      rcases List.mem_cons.1 hz with rfl | hz
      · exact hxy
      · exact keyLt_trans' hxy (h.1 z hz)
    · rw [if_neg hc]
      have hyx : keyLt y.1 x.1 = true := by rw [← compareKeys_pos hx hy]; omega
      refine List.pairwise_cons.2 ⟨fun z hz => ?_, slotInsert_inc hx h.2 (fun e he => hs e (by simp [he]))
        (fun hh => hn (by simp only [keysOf, List.map_cons, List.mem_cons]; exact Or.inr hh))⟩
      rcases List.mem_cons.1 ((slotInsert_perm x l).mem_iff.1 hz) with rfl | hz
      · exact hyx
      · exact h.1 z hz

theorem slotSort_inc : ∀ {l : List Entry}, Short l → (keysOf l).Nodup → Inc (slotSort l)
  | [], _, _ => List.Pairwise.nil
  | x :: l, hs, hn => by
    have hp := slotSort_perm l
    rw [keysOf, List.map_cons, List.nodup_cons] at hn
    refine slotInsert_inc (hs x (by simp)) (slotSort_inc (fun e he => hs e (by simp [he])) hn.2)
      (fun e he => hs e (by simp [hp.mem_iff.1 he])) (fun hh => hn.1 ?_)
    exact (hp.map Prod.fst).mem_iff.1 hh

theorem slotSort_eq {l : List Entry} (hs : Short l) (h : Inc l) : slotSort l = l :=
  (slotSort_perm l).eq_of_pairwise (le := fun x y => keyLt x.1 y.1 = true)
    (fun x y _ _ h1 h2 => absurd h2 (by rw [keyLt_asymm h1]; simp)) (slotSort_inc hs h.nodup) h

theorem mergeSlots_spec : ∀ (fuel : Nat) (a b : List Entry), a.length + b.length ≤ fuel → Inc a → Inc b → Short a →
    Short b → (∀ x ∈ a, ∀ y ∈ b, x.1 ≠ y.1) → ∃ r, mergeSlots fuel a b = .ok r ∧ r.Perm (a ++ b) ∧ Inc r := by
  intro fuel
  induction fuel with
  | zero =>
    intro a b h ha hb _ _ _
    obtain rfl : a = [] := List.length_eq_zero_iff.1 (by omega)
    obtain rfl : b = [] := List.length_eq_zero_iff.1 (by omega)
    exact ⟨[], rfl, List.Perm.refl _, hb⟩
  | succ fuel ih =>
    intro a b h ha hb sa sb hd
    cases a with
    | nil => exact ⟨b, rfl, List.Perm.refl _, hb⟩
    | cons x a =>
      cases b with
      | nil => exact ⟨x :: a, rfl, by simp, ha⟩
      | cons y b =>
        have hx := sa x (by simp)
        have hy := sb y (by simp)
        have hne := hd x (by simp) y (by simp)
        rw [mergeSlots]
        have ha' := List.pairwise_cons.1 ha
        have hb' := List.pairwise_cons.1 hb
        by_cases h1 : compareKeys x.1 y.1 < 0
        · rw [if_pos h1]
          have hlt := (compareKeys_neg hx hy).1 h1
          obtain ⟨r, e, p, i⟩ := ih a (y :: b) (by simp at h ⊢; omega) ha'.2 hb (fun e he => sa e (by simp [he])) sb
            (fun z hz w hw => hd z (by simp [hz]) w hw)
          refine ⟨x :: r, by rw [e]; rfl, p.cons x, List.pairwise_cons.2 ⟨fun z hz => ?_, i⟩⟩
          rcases List.mem_append.1 (p.mem_iff.1 hz) with hz | hz
          · exact ha'.1 z hz
          · rcases List.mem_cons.1 hz with rfl | hz
            · exact hlt
            · exact keyLt_trans' hlt (hb'.1 z hz)
        · rw [if_neg h1]
          have hz : compareKeys x.1 y.1 ≠ 0 := fun e => hne ((compareKeys_zero hx hy).1 e)
          have h2 : compareKeys x.1 y.1 > 0 := by omega
          rw [if_pos h2]
          have hlt := (compareKeys_pos hx hy).1 h2
          obtain ⟨r, e, p, i⟩ := ih (x :: a) b (by simp at h ⊢; omega) ha hb'.2 sa (fun e he => sb e (by simp [he]))
            (fun z hz w hw => hd z hz w (by simp [hw]))
          refine ⟨y :: r, by rw [e]; rfl, (p.cons y).trans List.perm_middle.symm, List.pairwise_cons.2 ⟨fun z hz => ?_, i⟩⟩
          rcases List.mem_append.1 (p.mem_iff.1 hz) with hz | hz
          · rcases List.mem_cons.1 hz with rfl | hz
            · exact hlt
            · exact keyLt_trans' hlt (ha'.1 z hz)
          · exact hb'.1 z hz

/-! ## The state of a leaf -/

/-- What every leaf satisfies. -/
structure LeafOK (l : Leaf) : Prop where
  len : l.slots.length = 32
  nr : l.nr ≤ 32
  sorted : l.sorted ≤ l.nr
  short : Short l.entries
  nodup : (keysOf l.entries).Nodup
  pref : Inc (l.entries.take l.sorted)

/-- The entries in order. -/
def Leaf.list (l : Leaf) : List Entry := slotSort l.entries

theorem Leaf.list_perm (l : Leaf) : l.list.Perm l.entries := slotSort_perm _

theorem LeafOK.entries_length {l : Leaf} (h : LeafOK l) : l.entries.length = l.nr := by
  rw [Leaf.entries, List.length_take, h.len]
  exact Nat.min_eq_left h.nr

theorem LeafOK.inc {l : Leaf} (h : LeafOK l) : Inc l.list := slotSort_inc h.short h.nodup

theorem LeafOK.list_short {l : Leaf} (h : LeafOK l) : Short l.list := fun e he => h.short e (l.list_perm.mem_iff.1 he)

theorem LeafOK.list_of_sorted {l : Leaf} (h : LeafOK l) (hs : l.sorted = l.nr) : l.list = l.entries := by
  refine slotSort_eq h.short ?_
  have := h.pref
  rwa [hs, ← h.entries_length, List.take_length] at this

theorem LeafOK.slot {l : Leaf} {i : Nat} (hi : i < l.nr) : l.slots[i]? = l.entries[i]? := by
  rw [Leaf.entries, List.getElem?_take, if_pos hi]

/-- A leaf whose used slots are given by a list. -/
theorem LeafOK.make {anchor : Key} {es rest : List Entry} {s : Nat} (h1 : (es ++ rest).length = 32) (h2 : s ≤ es.length)
    (h3 : Short es) (h4 : (keysOf es).Nodup) (h5 : Inc (es.take s)) :
    LeafOK ⟨anchor, es ++ rest, es.length, s⟩ := by
  have he : Leaf.entries ⟨anchor, es ++ rest, es.length, s⟩ = es := by simp [Leaf.entries]
  refine ⟨h1, ?_, h2, by rwa [he], by rwa [he], by rwa [he]⟩
  rw [List.length_append] at h1
  show es.length ≤ 32
  omega

theorem sync_spec {l : Leaf} (h : LeafOK l) : ∃ l', l.sync = .ok l' ∧ LeafOK l' ∧ l'.anchor = l.anchor ∧ l'.nr = l.nr ∧
    l'.sorted = l.nr ∧ l'.entries = l.list := by
  unfold Leaf.sync
  by_cases hs : l.sorted = l.nr
  · rw [if_pos hs]
    exact ⟨l, rfl, h, rfl, rfl, hs, (h.list_of_sorted hs).symm⟩
  · rw [if_neg hs, if_neg (by have := h.sorted; omega)]
    have hl := h.entries_length
    have hn := h.nr
    have hso := h.sorted
    have hsplit : l.entries.take l.sorted ++ l.entries.drop l.sorted = l.entries := List.take_append_drop _ _
    have hnd := h.nodup
    rw [← hsplit, keysOf, List.map_append, List.nodup_append] at hnd
    have hsd : Short (l.entries.drop l.sorted) := fun e he => h.short e (List.mem_of_mem_drop he)
    have hp := slotSort_perm (l.entries.drop l.sorted)
    obtain ⟨r, e, p, i⟩ := mergeSlots_spec 64 (l.entries.take l.sorted) (slotSort (l.entries.drop l.sorted))
      (by rw [hp.length_eq, List.length_take, List.length_drop]; omega) h.pref (slotSort_inc hsd hnd.2.1)
      (fun e he => h.short e (List.mem_of_mem_take he)) (fun e he => hsd e (hp.mem_iff.1 he))
      (fun x hx y hy he => hnd.2.2 x.1 (List.mem_map_of_mem hx) y.1 (List.mem_map_of_mem (hp.mem_iff.1 hy)) he)
    rw [e, Res.bind_ok]
    have hpe : r.Perm l.entries := (p.trans (hp.append_left _)).trans (by rw [hsplit])
    have hr : r.length = l.nr := by rw [hpe.length_eq, hl]
    have hre : r = l.list := Inc.eq_of_perm (hpe.trans l.list_perm.symm) i h.inc
    have hok : LeafOK ⟨l.anchor, r ++ l.slots.drop l.nr, r.length, r.length⟩ := by
      refine LeafOK.make ?_ (Nat.le_refl _) (fun e he => h.short e (hpe.mem_iff.1 he)) i.nodup (by rwa [List.take_length])
      rw [List.length_append, List.length_drop, h.len]; omega
    rw [hr] at hok
    refine ⟨_, rfl, hok, rfl, rfl, rfl, ?_⟩
    rw [← hre]
    simp [Leaf.entries, ← hr]

/-! ## Search -/

theorem leafLoop_spec {slots : List Entry} {key : Key} {s : Nat} (hk : key.length ≤ 8) (hl : s ≤ slots.length)
    (hsh : Short (slots.take s)) (hs : Inc (slots.take s)) : ∀ (fuel : Nat) (lo hi : Int), -1 ≤ lo → lo < hi → hi ≤ s →
    hi - lo ≤ fuel → (∀ i : Nat, (i : Int) ≤ lo → ∀ e, slots[i]? = some e → keyLt e.1 key = true) →
    (∀ i : Nat, hi ≤ i → i < s → ∀ e, slots[i]? = some e → keyLe key e.1 = true) →
    leafLoop slots key fuel lo hi = .ok (treeSeek (slots.take s) key) := by
  have mono : ∀ i j : Nat, i < j → j < s → ∀ e e', slots[i]? = some e → slots[j]? = some e' → keyLt e.1 e'.1 = true := by
    intro i j hij hj e e' he he'
    obtain ⟨hi', rfl⟩ := List.getElem?_eq_some_iff.1 he
    obtain ⟨hj', rfl⟩ := List.getElem?_eq_some_iff.1 he'
    have := List.pairwise_iff_getElem.1 hs i j (by rw [List.length_take]; omega) (by rw [List.length_take]; omega) hij
    rwa [List.getElem_take, List.getElem_take] at this
  intro fuel
  induction fuel with
  | zero => intro lo hi h1 h2 h3 h4; omega
  | succ fuel ih =>
    intro lo hi h1 h2 h3 h4 h5 h6
    rw [leafLoop]
    by_cases hgt : hi - lo > 1
    · rw [if_pos hgt]
      dsimp only
      obtain ⟨m, hm⟩ : ∃ m : Nat, (lo + hi) / 2 = m := ⟨((lo + hi) / 2).toNat, by omega⟩
      rw [hm, Int.toNat_natCast]
      have hml : m < slots.length := by omega
      rw [List.getElem?_eq_getElem hml]
      dsimp only
      have hmem : slots[m] ∈ slots.take s := by
        rw [List.mem_take_iff_getElem]
        exact ⟨m, by omega, rfl⟩
      have hm8 := hsh _ hmem
      by_cases hc : compareKeys key slots[m].1 ≤ 0
      · rw [if_pos hc]
        rw [compareKeys_le hk hm8] at hc
        refine ih lo m h1 (by omega) (by omega) (by omega) h5 fun i hi1 hi2 e he => ?_
        rcases Nat.eq_or_lt_of_le (show m ≤ i by omega) with rfl | hlt
        · obtain ⟨_, rfl⟩ := List.getElem?_eq_some_iff.1 he
          exact hc
        · exact keyLe_trans hc (keyLt_keyLe (mono m i hlt hi2 _ e (List.getElem?_eq_getElem hml) he))
      · rw [if_neg hc]
        have hc' : keyLt slots[m].1 key = true := by rw [← compareKeys_pos hk hm8]; omega
        refine ih m hi (by omega) (by omega) h3 (by omega) (fun i hi1 e he => ?_) h6
        rcases Nat.eq_or_lt_of_le (show i ≤ m by omega) with rfl | hlt
        · obtain ⟨_, rfl⟩ := List.getElem?_eq_some_iff.1 he
          exact hc'
        · exact keyLt_trans' (mono i m hlt (by omega) e _ he (List.getElem?_eq_getElem hml)) hc'
    · rw [if_neg hgt]
      congr 1
      symm
      unfold treeSeek
      by_cases hs' : hi.toNat = s
      · rw [hs']
        have : (slots.take s).length = s := by rw [List.length_take]; omega
        conv_rhs => rw [← this]
        rw [List.findIdx_eq_length]
        intro e he
        obtain ⟨i, hi', rfl⟩ := List.mem_take_iff_getElem.1 he
        rw [keyLe_iff_not_lt, h5 i (by omega) _ (List.getElem?_eq_getElem (by omega))]
        rfl
      · have hlt : hi.toNat < (slots.take s).length := by rw [List.length_take]; omega
        rw [List.findIdx_eq hlt]
        constructor
        · rw [List.getElem_take]
          exact h6 _ (by omega) (by omega) _ (List.getElem?_eq_getElem (by omega))
        · intro j hj
          rw [List.getElem_take, keyLe_iff_not_lt, h5 j (by omega) _ (List.getElem?_eq_getElem (by omega))]
          rfl

theorem search_spec {l : Leaf} (h : LeafOK l) {key : Key} (hk : key.length ≤ 8) :
    l.search key = .ok (treeSeek (l.entries.take l.sorted) key) := by
  have h1 := h.sorted
  have h2 := h.nr
  have h3 := h.len
  have e : l.slots.take l.sorted = l.entries.take l.sorted := by
    rw [Leaf.entries, List.take_take, Nat.min_eq_left h1]
  unfold Leaf.search
  rw [← e]
  refine leafLoop_spec hk (by omega) ?_ (by rw [e]; exact h.pref) _ _ _ (by omega) (by omega) (by omega) (by omega) ?_ ?_
  · rw [e]; exact fun e he => h.short e (List.mem_of_mem_take he)
  · intro i hi; omega
  · intro i hi hi'; omega

theorem seek_le (t : Tree) (key : Key) : treeSeek t key ≤ t.length := List.findIdx_le_length

theorem seek_lt_key {t : Tree} {key : Key} {i : Nat} (h : i < treeSeek t key) {e : Entry} (he : t[i]? = some e) :
    keyLt e.1 key = true := by
  obtain ⟨hi, rfl⟩ := List.getElem?_eq_some_iff.1 he
  have := List.not_of_lt_findIdx (p := fun e : Entry => keyLe key e.1) (xs := t) (i := i) h
  rw [keyLe_iff_not_lt] at this
  cases hh : keyLt t[i].1 key
  · rw [hh] at this; simp at this
  · rfl

theorem seek_at {t : Tree} (ht : Inc t) {i : Nat} {e : Entry} (he : t[i]? = some e) : treeSeek t e.1 = i := by
  obtain ⟨hi, rfl⟩ := List.getElem?_eq_some_iff.1 he
  unfold treeSeek
  rw [List.findIdx_eq hi]
  refine ⟨keyLe_refl _, fun j hj => ?_⟩
  rw [keyLe_iff_not_lt, List.pairwise_iff_getElem.1 ht j i (by omega) hi hj]
  rfl

/-- The key is not hidden behind the sorted part of the leaf. -/
def Leaf.Sees (l : Leaf) (k : Key) : Prop := k ∈ keysOf l.entries → k ∈ keysOf (l.entries.take l.sorted)

theorem searchEq_none {l : Leaf} (h : LeafOK l) {key : Key} (hk : key.length ≤ 8) (hn : key ∉ keysOf l.entries) :
    l.searchEq key = .ok none := by
  unfold Leaf.searchEq
  rw [search_spec h hk, Res.bind_ok]
  split
  · rename_i hlt
    rw [LeafOK.slot hlt]
    have hl := h.entries_length
    rw [List.getElem?_eq_getElem (by omega)]
    dsimp only
    rw [if_neg]
    intro e
    have hm := List.getElem_mem (l := l.entries) (n := treeSeek (l.entries.take l.sorted) key) (by omega)
    rw [compareKeys_zero hk (h.short _ hm)] at e
    exact hn (e ▸ List.mem_map_of_mem hm)
  · rfl

theorem searchEq_some {l : Leaf} (h : LeafOK l) {key : Key} (hk : key.length ≤ 8) (hin : key ∈ keysOf l.entries)
    (hs : l.Sees key) : ∃ pos st, l.searchEq key = .ok (some pos) ∧ pos < l.sorted ∧ l.entries[pos]? = some (key, st) ∧
      ∀ i, i < pos → ∀ e, l.entries[i]? = some e → keyLt e.1 key = true := by
  obtain ⟨⟨k', st⟩, hm, rfl⟩ := List.mem_map.1 (hs hin)
  obtain ⟨pos, hp, he⟩ := List.mem_iff_getElem.1 hm
  have hl := h.entries_length
  have h1 := h.sorted
  have he' : (l.entries.take l.sorted)[pos]? = some (k', st) := by rw [List.getElem?_eq_getElem hp, he]
  have hpos : pos < l.sorted := by rw [List.length_take] at hp; omega
  have hsk := seek_at h.pref he'
  rw [List.getElem?_take, if_pos hpos] at he'
  refine ⟨pos, st, ?_, hpos, he', fun i hi e hie => ?_⟩
  · unfold Leaf.searchEq
    rw [search_spec h hk, Res.bind_ok, hsk, if_pos (by omega), LeafOK.slot (by omega), he']
    dsimp only
    rw [if_pos]
    exact (compareKeys_zero hk hk).2 rfl
  · refine seek_lt_key (t := l.entries.take l.sorted) (i := i) (by rw [hsk]; exact hi) ?_
    rw [List.getElem?_take, if_pos (by omega)]
    exact hie

end Verif
