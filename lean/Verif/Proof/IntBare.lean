import Verif.Model.WhTree
import Verif.Proof.WhFilter

/-!
# Puts into the integer tree do not depend on the stores

So the leaves after a load of many keys can be found from its boundary keys alone.
-/

namespace Verif

/-- A slot without its store. -/
def bareSlot (e : Key × Store) : Key × Store := (e.1, Store.zero)

def Leaf.bare (l : Leaf) : Leaf := { l with slots := l.slots.map bareSlot }

def Wh.bare (t : Wh) : Wh := t.map Leaf.bare

theorem bare_getElem? (L : List (Key × Store)) (i : Nat) : (L.map bareSlot)[i]? = (L[i]?).map bareSlot := List.getElem?_map ..

theorem bare_getD (L : List (Key × Store)) (i : Nat) : (L.map bareSlot).getD i ([], Store.zero) = bareSlot (L.getD i ([], Store.zero)) := by
  rw [List.getD_eq_getElem?_getD, List.getD_eq_getElem?_getD, bare_getElem?]
  cases L[i]? <;> rfl

theorem leafLoop_bare (L : List (Key × Store)) (k : Key) (n : Nat) (lo hi : Int) : leafLoop (L.map bareSlot) k n lo hi = leafLoop L k n lo hi := by
  induction n generalizing lo hi with
  | zero => rfl
  | succ n ih =>
    unfold leafLoop
    split
    · dsimp only
      rw [bare_getElem?]
      cases L[((lo + hi) / 2).toNat]? with
      | none => rfl
      | some e =>
        show (if compareKeys k e.1 ≤ 0 then _ else _) = (if compareKeys k e.1 ≤ 0 then _ else _)
        rw [ih, ih]
    · rfl

theorem Leaf.bare_search (l : Leaf) (k : Key) : l.bare.search k = l.search k := leafLoop_bare ..

theorem Leaf.bare_searchEq (l : Leaf) (k : Key) : l.bare.searchEq k = l.searchEq k := by
  unfold Leaf.searchEq
  rw [l.bare_search]
  congr 1
  funext hi
  show (if hi < l.nr then _ else _) = _
  rw [show l.bare.slots[hi]? = (l.slots[hi]?).map bareSlot from bare_getElem? ..]
  cases l.slots[hi]? <;> rfl

theorem slotInsert_bare (x : Key × Store) (L : List (Key × Store)) :
    slotInsert (bareSlot x) (L.map bareSlot) = (slotInsert x L).map bareSlot := by
  induction L with
  | nil => rfl
  | cons y L ih =>
    show (if compareKeys x.1 y.1 ≤ 0 then _ else _) = (if compareKeys x.1 y.1 ≤ 0 then _ else _ : List _).map bareSlot
    split
    · rfl
    · rw [ih]; rfl

theorem slotSort_bare (L : List (Key × Store)) : slotSort (L.map bareSlot) = (slotSort L).map bareSlot := by
  induction L with
  | nil => rfl
  | cons x L ih => rw [List.map_cons, slotSort, ih, slotInsert_bare, slotSort]

theorem mergeSlots_bare (n : Nat) (a b : List (Key × Store)) :
    mergeSlots n (a.map bareSlot) (b.map bareSlot) = (mergeSlots n a b).bind fun r => .ok (r.map bareSlot) := by
  induction n generalizing a b with
  | zero => cases a <;> cases b <;> rfl
  | succ n ih =>
    cases a with
    | nil => cases b <;> rfl
    | cons x a =>
      cases b with
      | nil => rfl
      | cons y b =>
        rw [List.map_cons, List.map_cons]
        unfold mergeSlots
        show (if compareKeys x.1 y.1 < 0 then _ else if compareKeys x.1 y.1 > 0 then _ else _) = _
        split
        · rw [← List.map_cons (f := bareSlot), ih]; cases mergeSlots n a (y :: b) <;> rfl
        · split
          · rw [← List.map_cons (f := bareSlot), ih]; cases mergeSlots n (x :: a) b <;> rfl
          · rfl

theorem Leaf.bare_entries (l : Leaf) : l.bare.entries = l.entries.map bareSlot := (List.map_take ..).symm

theorem Leaf.bare_sync (l : Leaf) : l.bare.sync = l.sync.bind fun l => .ok l.bare := by
  unfold Leaf.sync
  rw [l.bare_entries]
  show (if l.sorted = l.nr then _ else if l.nr < l.sorted then _ else _) = _
  split
  · rfl
  · split
    · rfl
    · show (mergeSlots 64 ((l.entries.map bareSlot).take l.sorted) (slotSort ((l.entries.map bareSlot).drop l.sorted))).bind _ = _
      rw [← List.map_take, ← List.map_drop, slotSort_bare, mergeSlots_bare]
      cases mergeSlots 64 (l.entries.take l.sorted) (slotSort (l.entries.drop l.sorted)) with
      | ok r =>
        simp only [Res.bind_ok]
        unfold Leaf.bare
        simp [List.map_append, List.map_drop]
      | ub => rfl
      | hang => rfl

theorem Leaf.bare_append (l : Leaf) (e : Key × Store) : l.bare.append (bareSlot e) = (l.append e).bind fun l => .ok l.bare := by
  unfold Leaf.append
  show (if l.nr ≥ 32 then _ else _) = _
  split
  · rfl
  · simp only [Res.bind_ok, Leaf.bare, bare_getD, List.map_set]
    rfl

theorem Leaf.bare_update (l : Leaf) (i : Nat) (e : Key × Store) : l.bare.update i (bareSlot e) = (l.update i e).bare := by
  simp [Leaf.bare, Leaf.update, List.map_set]

theorem cutLoop_bare (all : List (Key × Store)) (alen target n lo hi : Nat) :
    cutLoop (all.map bareSlot) alen target n lo hi = cutLoop all alen target n lo hi := by
  induction n generalizing lo hi with
  | zero => rfl
  | succ n ih =>
    unfold cutLoop
    simp only [bare_getD, ih]
    rfl

theorem Leaf.bare_full (a : Key) (es : List (Key × Store)) : Leaf.full a (es.map bareSlot) = (Leaf.full a es).bare := by
  simp [Leaf.full, Leaf.bare, bareSlot]

theorem Leaf.bare_split (l : Leaf) (nx : Bool) (e : Key × Store) :
    l.bare.split nx (bareSlot e) = (l.split nx e).bind fun q => .ok (q.1.bare, q.2.bare) := by
  unfold Leaf.split
  rw [l.bare_sync]
  cases l.sync with
  | ub => rfl
  | hang => rfl
  | ok l =>
    simp only [Res.bind_ok]
    rw [show (bareSlot e).1 = e.1 from rfl, l.bare_search]
    cases l.search e.1 with
    | ub => rfl
    | hang => rfl
    | ok is1 =>
      simp only [Res.bind_ok]
      have hall : l.bare.entries.take is1 ++ bareSlot e :: l.bare.entries.drop is1 =
          (l.entries.take is1 ++ e :: l.entries.drop is1).map bareSlot := by
        rw [l.bare_entries, List.map_append, List.map_cons, List.map_take, List.map_drop]
      rw [hall]
      simp only [bare_getD, cutLoop_bare, show ∀ e, (bareSlot e).1 = e.1 from fun _ => rfl, ← List.map_take, ← List.map_drop, Leaf.bare_full]
      rfl

theorem Wh.bare_jump (t : Wh) (k : Key) : t.bare.jump k = t.jump k := by
  unfold Wh.jump Wh.bare
  rw [List.findIdx_map]
  rfl

theorem Wh.bare_put (t : Wh) (k : Key) (st : Store) : t.bare.put k Store.zero = (t.put k st).bind fun t => .ok t.bare := by
  unfold Wh.put
  dsimp only
  rw [t.bare_jump, show t.bare[t.jump k]? = (t[t.jump k]?).map Leaf.bare from List.getElem?_map ..]
  cases t[t.jump k]? with
  | none => rfl
  | some l =>
    show (l.bare.searchEq k).bind _ = ((l.searchEq k).bind _).bind _
    rw [l.bare_searchEq]
    cases l.searchEq k with
    | ub => rfl
    | hang => rfl
    | ok pos =>
      cases pos with
      | some pos =>
        show Res.ok _ = Res.ok _
        rw [show (k, Store.zero) = bareSlot (k, st) from rfl, l.bare_update]
        simp [Wh.bare, List.map_set]
      | none =>
        show (if l.nr < 32 then _ else _) = (if l.nr < 32 then _ else _ : Res Wh).bind _
        rw [show (k, Store.zero) = bareSlot (k, st) from rfl, l.bare_append, l.bare_split, show t.bare.length = t.length from List.length_map ..]
        split
        · cases l.append (k, st) with
          | ok l => simp [Wh.bare, Res.bind_ok, List.map_set]
          | ub => rfl
          | hang => rfl
        · cases l.split (decide (t.jump k + 1 < t.length)) (k, st) with
          | ok q => simp [Wh.bare, Res.bind_ok, List.map_append, List.map_take, List.map_drop]
          | ub => rfl
          | hang => rfl

/-- Puts of keys without stores. -/
def Wh.puts : List Key → Wh → Res Wh
  | [], t => .ok t
  | k :: ks, t => (t.put k Store.zero).bind (Wh.puts ks)

theorem Wh.puts_append (a b : List Key) (t : Wh) : Wh.puts (a ++ b) t = (Wh.puts a t).bind (Wh.puts b) := by
  induction a generalizing t with
  | nil => rfl
  | cons k a ih =>
    show (t.put k Store.zero).bind (Wh.puts (a ++ b)) = ((t.put k Store.zero).bind (Wh.puts a)).bind _
    cases t.put k Store.zero with
    | ok t => exact ih t
    | ub => rfl
    | hang => rfl

theorem Wh.puts_one {t t' : Wh} {k : Key} {st : Store} (e : t.put k st = .ok t') : Wh.puts [k] t.bare = .ok t'.bare := by
  show (t.bare.put k Store.zero).bind _ = _
  rw [t.bare_put k st, e]
  rfl

/-! ## The boundary keys of a load -/

theorem loop_skip (c : Cfg) (keys : List Key) (d n j last : Nat) (t : Wh) (h : ∀ i < d, (j + i) % 1024 ≠ 0) :
    whBulkLoop c keys (n + d) j last t = whBulkLoop c keys n (j + d) last t := by
  induction d generalizing j with
  | zero => rfl
  | succ d ih =>
    rw [← Nat.add_assoc, whBulkLoop, if_neg (Nat.add_zero j ▸ h 0 (by omega)), ih (j + 1) fun i hi => by
      have := h (i + 1) (by omega)
      rwa [show j + 1 + i = j + (i + 1) by omega], show j + 1 + d = j + (d + 1) by omega]

theorem loop_puts (c : Cfg) (keys : List Key) (m q : Nat) {t t' : Wh} {last : Nat}
    (e : whBulkLoop c keys (1024 * m + 1023) (1024 * q + 1) (1024 * q) t = .ok (t', last)) :
    last = 1024 * (q + m) ∧ Wh.puts ((List.range m).map fun i => keys.getD (1024 * (q + i)) []) t.bare = .ok t'.bare := by
  induction m generalizing q t with
  | zero =>
    rw [show 1024 * 0 + 1023 = 0 + 1023 from rfl, loop_skip c keys 1023 0 _ _ _ fun i hi => by omega] at e
    cases e
    exact ⟨rfl, rfl⟩
  | succ m ih =>
    rw [show 1024 * (m + 1) + 1023 = (1024 * m + 1023) + 1 + 1023 by omega, loop_skip c keys 1023 _ _ _ _ fun i hi => by omega,
      whBulkLoop, if_pos (by omega)] at e
    obtain ⟨t1, e1, e⟩ := Res.bind_eq_ok e
    obtain ⟨fr, -, e1⟩ := Res.bind_eq_ok e1
    rw [show 1024 * q + 1 + 1023 + 1 = 1024 * (q + 1) + 1 by omega, show 1024 * q + 1024 = 1024 * (q + 1) by omega] at e
    obtain ⟨h1, h2⟩ := ih (q + 1) e
    refine ⟨by omega, ?_⟩
    rw [List.range_succ_eq_map, List.map_cons, List.map_map, Nat.add_zero]
    show Wh.puts ([keys.getD (1024 * q) []] ++ _) _ = _
    rw [Wh.puts_append, Wh.puts_one e1, Res.bind_ok, ← h2]
    have hf : ((fun i => keys.getD (1024 * (q + i)) []) ∘ Nat.succ) = fun i => keys.getD (1024 * (q + 1 + i)) [] :=
      funext fun i => by rw [Function.comp_apply, show q + 1 + i = q + i.succ by omega]
    rw [hf]

/-- The leaves after a load of a multiple of 1024 keys. -/
theorem bulk_puts {c : Cfg} {n m : Nat} {keys : List Key} (hm : keys.length = 1024 * (m + 1)) {w : WhFilter} (e : whBulkFixed c n keys = .ok w) :
    Wh.puts ([List.replicate n 0, List.replicate n 255] ++ (List.range (m + 1)).map (fun i => keys.getD (1024 * i) []) ++
      [keys.getD (1024 * m + 1023) []]) Wh.empty = .ok w.tree.bare := by
  obtain ⟨t1, e1, e⟩ := Res.bind_eq_ok e
  obtain ⟨t2, e2, e⟩ := Res.bind_eq_ok e
  obtain ⟨t5, e5, e⟩ := Res.bind_eq_ok e
  cases e
  unfold whBulkCore at e5
  rw [if_neg (by omega)] at e5
  obtain ⟨⟨t3, last⟩, e3, e5⟩ := Res.bind_eq_ok e5
  dsimp only at e5
  rw [show keys.length - 1 = 1024 * m + 1023 by omega] at e3 e5
  obtain ⟨h1, h2⟩ := loop_puts c keys m 0 e3
  subst h1
  obtain ⟨t4, e4, e5⟩ := Res.bind_eq_ok e5
  obtain ⟨fr, -, e4⟩ := Res.bind_eq_ok e4
  rw [if_pos (by omega)] at e5
  have h3 : Wh.puts [List.replicate n 0] Wh.empty = .ok t1.bare := Wh.puts_one (t := Wh.empty) e1
  rw [List.range_succ, List.map_append, List.append_assoc, List.append_assoc, Wh.puts_append,
    show [List.replicate n (0 : UInt8), List.replicate n 255] = [List.replicate n 0] ++ [List.replicate n 255] from rfl,
    Wh.puts_append, h3, Res.bind_ok, Wh.puts_one e2, Res.bind_ok, Wh.puts_append]
  rw [Nat.zero_add] at e4
  simp only [Nat.zero_add] at h2
  rw [h2, Res.bind_ok, Wh.puts_append, List.map_singleton, Wh.puts_one e4, Res.bind_ok, Wh.puts_one e5]

end Verif
