import Verif.Proof.WhStrIns
import Verif.Proof.WhSplit

/-!
# Leaves of the string tree: slots and order
-/

namespace Verif

/-- What the two arrays of every leaf satisfy. -/
structure RawOK (l : SLeaf) : Prop where
  hs : HsOK l.hs
  len : l.ss.length = 32
  nr : l.nr ≤ 32
  used : ∀ i ∈ l.idx, slotAt l.hs i ≠ none
  all : ∀ i, slotAt l.hs i ≠ none → i ∈ l.idx
  dist : l.idx.Nodup

/-- The pairs in the order of `ss`. -/
def SLeaf.entries (l : SLeaf) : List Entry := l.idx.map (pairAt l.hs)

section
variable {l : SLeaf}

theorem RawOK.lt (h : RawOK l) : ∀ i ∈ l.idx, i < 32 := by
  intro i hi
  obtain ⟨s, hs⟩ := Option.ne_none_iff_exists'.1 (h.used i hi)
  rw [← h.hs.len]
  exact slotAt_lt hs

theorem RawOK.idx_length (h : RawOK l) : l.idx.length = l.nr := by
  rw [SLeaf.idx, List.length_take, h.len]
  exact Nat.min_eq_left h.nr

theorem RawOK.entries_length (h : RawOK l) : l.entries.length = l.nr := by
  rw [SLeaf.entries, List.length_map, h.idx_length]

theorem pairAt_of {hs : List (Option Slot)} {i : Nat} {s : Slot} (h : slotAt hs i = some s) : pairAt hs i = s.kv := by
  unfold pairAt; rw [h]; rfl

theorem RawOK.free (h : RawOK l) (hn : l.nr < 32) : ∃ g, g < 32 ∧ slotAt l.hs g = none := by
  by_contra hc
  have hsub : List.range 32 ⊆ l.idx := by
    intro g hg
    rw [List.mem_range] at hg
    exact h.all g fun e => hc ⟨g, hg, e⟩
  have := (List.nodup_range (n := 32)).subperm hsub
  have := this.length_le
  rw [List.length_range, h.idx_length] at this
  omega

theorem RawOK.slots_eq (h : RawOK l) : l.slots.map Slot.kv = l.entries ∧ l.slots.length = l.nr := by
  have key : ∀ is : List Nat, (∀ i ∈ is, slotAt l.hs i ≠ none) →
      (is.filterMap (slotAt l.hs)).map Slot.kv = is.map (pairAt l.hs) ∧ (is.filterMap (slotAt l.hs)).length = is.length := by
    intro is
    induction is with
    | nil => intro _; exact ⟨rfl, rfl⟩
    | cons i is ih =>
      intro hu
      obtain ⟨s, hs⟩ := Option.ne_none_iff_exists'.1 (hu i (by simp))
      have := ih fun j hj => hu j (by simp [hj])
      rw [List.filterMap_cons_some hs, List.map_cons, List.map_cons, this.1, pairAt_of hs, List.length_cons, List.length_cons,
        this.2]
      exact ⟨rfl, rfl⟩
  have := key l.idx h.used
  exact ⟨this.1, by rw [← h.idx_length]; exact this.2⟩

theorem RawOK.slots_tag (h : RawOK l) : ∀ s ∈ l.slots, s.tag = kvTag s.kv.1 := by
  intro s hs
  obtain ⟨i, _, hi⟩ := List.mem_filterMap.1 hs
  exact h.hs.tag i s hi

theorem filterMap_shift {f f' : Nat → Option Slot} {σ : Nat → Nat} (hsh : Shifts f f' σ) {is : List Nat}
    (hu : ∀ i ∈ is, f i ≠ none) : (is.map σ).filterMap f' = is.filterMap f := by
  rw [List.filterMap_map]
  apply List.filterMap_congr
  intro i hi
  obtain ⟨s, hs⟩ := Option.ne_none_iff_exists'.1 (hu i hi)
  rw [hs]
  exact hsh.keep i s hs

theorem map_shift {hs hs' : List (Option Slot)} {σ : Nat → Nat} (hsh : Shifts (slotAt hs) (slotAt hs') σ) {is : List Nat}
    (hu : ∀ i ∈ is, slotAt hs i ≠ none) : (is.map σ).map (pairAt hs') = is.map (pairAt hs) := by
  rw [List.map_map]
  apply List.map_congr_left
  intro i hi
  obtain ⟨s, hs⟩ := Option.ne_none_iff_exists'.1 (hu i hi)
  rw [Function.comp, pairAt_of hs, pairAt_of (hsh.keep i s hs)]

theorem nodup_shift {f f' : Nat → Option Slot} {σ : Nat → Nat} (hsh : Shifts f f' σ) {is : List Nat}
    (hu : ∀ i ∈ is, f i ≠ none) (hd : is.Nodup) : (is.map σ).Nodup := by
  rw [List.nodup_map_iff_inj_on hd]
  intro x hx y hy
  exact hsh.inj x y (hu x hx) (hu y hy)

theorem insertE13_spec (h : RawOK l) (hn : l.nr < 32) {e : Slot} (he : e.tag = kvTag e.kv.1) :
    ∃ l', l.insertE13 e = .ok l' ∧ RawOK l' ∧ l'.anchor = l.anchor ∧ l'.nr = l.nr + 1 ∧ l'.sorted = l.sorted ∧
      l'.slots = l.slots ++ [e] ∧ l'.entries = l.entries ++ [e.kv] := by
  obtain ⟨l1, pos, σ, e1, I⟩ := insertHs_spec h.hs he h.lt (h.free hn)
  unfold SLeaf.insertE13
  rw [e1, Res.bind_ok]
  dsimp only
  rw [if_neg (by rw [I.nr]; omega)]
  have hidx : (l1.ss.set l1.nr pos).take (l1.nr + 1) = l.idx.map σ ++ [pos] := by
    rw [take_set_succ (by rw [I.len, h.len, I.nr]; omega), ← I.idx]; rfl
  have hidx' : SLeaf.idx { l1 with ss := l1.ss.set l1.nr pos, nr := l1.nr + 1 } = l.idx.map σ ++ [pos] := hidx
  refine ⟨_, rfl, ⟨I.ok, ?_, ?_, ?_, ?_, ?_⟩, I.anchor, ?_, I.sorted, ?_, ?_⟩
  · show (l1.ss.set _ _).length = 32
    rw [List.length_set, I.len, h.len]
  · show l1.nr + 1 ≤ 32
    rw [I.nr]; omega
  · rw [hidx']
    intro i hi
    rcases List.mem_append.1 hi with hi | hi
    · obtain ⟨j, hj, rfl⟩ := List.mem_map.1 hi
      obtain ⟨s, hs⟩ := Option.ne_none_iff_exists'.1 (h.used j hj)
      show slotAt l1.hs (σ j) ≠ none
      rw [I.shifts.keep j s hs]; simp
    · rw [List.mem_singleton.1 hi]
      show slotAt l1.hs pos ≠ none
      rw [I.at']; simp
  · rw [hidx']
    intro i hi
    obtain ⟨s, hs⟩ := Option.ne_none_iff_exists'.1 hi
    rcases I.all i s hs with rfl | ⟨j, hj, rfl⟩
    · simp
    · exact List.mem_append.2 (Or.inl (List.mem_map_of_mem (h.all j (by rw [hj]; simp))))
  · rw [hidx', List.nodup_append]
    refine ⟨nodup_shift I.shifts h.used h.dist, by simp, fun a ha b hb => ?_⟩
    obtain ⟨j, hj, rfl⟩ := List.mem_map.1 ha
    rw [List.mem_singleton.1 hb]
    exact I.fresh j (h.used j hj)
  · show l1.nr + 1 = _
    rw [I.nr]
  · show (SLeaf.idx _).filterMap (slotAt l1.hs) = _
    rw [hidx', List.filterMap_append, filterMap_shift I.shifts h.used, List.filterMap_cons_some I.at', List.filterMap_nil]
    rfl
  · show (SLeaf.idx _).map (pairAt l1.hs) = _
    rw [hidx', List.map_append, map_shift I.shifts h.used, List.map_singleton, pairAt_of I.at']
    rfl

theorem fill_spec : ∀ (es : List Slot) {l : SLeaf}, RawOK l → l.nr + es.length ≤ 32 → (∀ e ∈ es, e.tag = kvTag e.kv.1) →
    ∃ l', l.fill es = .ok l' ∧ RawOK l' ∧ l'.anchor = l.anchor ∧ l'.nr = l.nr + es.length ∧ l'.sorted = l.sorted ∧
      l'.entries = l.entries ++ es.map Slot.kv
  | [], l, h, _, _ => ⟨l, rfl, h, rfl, rfl, rfl, by simp⟩
  | e :: es, l, h, hn, ht => by
    simp only [List.length_cons] at hn
    obtain ⟨l1, e1, ok1, a1, n1, s1, _, en1⟩ := insertE13_spec h (by omega) (ht e (by simp))
    obtain ⟨l2, e2, ok2, a2, n2, s2, en2⟩ := fill_spec es ok1 (by omega) (fun x hx => ht x (by simp [hx]))
    refine ⟨l2, ?_, ok2, by rw [a2, a1], by rw [n2, n1, List.length_cons]; omega, by rw [s2, s1], by rw [en2, en1]; simp⟩
    unfold SLeaf.fill
    rw [List.foldl_cons, Res.bind_ok, e1]
    exact e2

theorem hs_empty (hs : List (Option Slot)) (h : hs = List.replicate 32 none) : HsOK hs ∧ ∀ i, slotAt hs i = none := by
  have key : ∀ i, slotAt hs i = none := by
    intro i
    rw [h, slotAt, List.getD_eq_getElem?_getD, List.getElem?_replicate]
    split_ifs <;> rfl
  refine ⟨⟨by rw [h]; simp, ?_, ?_, ?_⟩, key⟩
  · intro i s hs'; rw [key] at hs'; simp at hs'
  · intro i j a b _ ha; rw [key] at ha; simp at ha
  · intro i s hs'; rw [key] at hs'; simp at hs'

/-- A leaf without keys. -/
theorem RawOK.blank (hs : l.hs = List.replicate 32 none) (hn : l.nr = 0) (hl : l.ss.length = 32) : RawOK l ∧ l.entries = [] := by
  obtain ⟨h1, h2⟩ := hs_empty _ hs
  have hi : l.idx = [] := by simp [SLeaf.idx, hn]
  refine ⟨⟨h1, hl, by omega, by rw [hi]; simp, fun i hi' => absurd (h2 i) hi', by rw [hi]; simp⟩, by simp [SLeaf.entries, hi]⟩

/-! ## Removal -/

theorem swap_remove {α : Type} (d : α) {xs : List α} {n : Nat} (hn : n ≤ xs.length) {a b : List α} {x : α}
    (hab : xs.take n = a ++ x :: b) :
    ∃ c, (xs.set a.length (xs.getD (n - 1) d)).take (n - 1) = a ++ c ∧ c.Perm b := by
  have hl : a.length + (b.length + 1) = n := by
    have := congrArg List.length hab
    rw [List.length_take] at this
    simp at this; omega
  have hxs : xs = a ++ x :: b ++ xs.drop n := by rw [← hab]; exact (List.take_append_drop _ _).symm
  rcases List.eq_nil_or_concat b with rfl | ⟨b', z, rfl⟩
  · refine ⟨[], ?_, List.Perm.refl _⟩
    rw [List.take_set_of_le (by simp at hl; omega), hxs]
    simp only [List.length_nil] at hl
    rw [List.append_assoc, List.take_left' (by omega), List.append_nil]
  · rw [List.concat_eq_append] at hab hl hxs
    refine ⟨z :: b', ?_, by rw [List.concat_eq_append]; exact (List.perm_append_singleton z b').symm⟩
    have hz : xs.getD (n - 1) d = z := by
      rw [List.getD_eq_getElem?_getD, ← List.getElem?_take_of_lt (show n - 1 < n by omega), hab,
        List.getElem?_append_right (by omega)]
      simp only [List.length_append, List.length_cons, List.length_nil] at hl
      have : n - 1 - a.length = b'.length + 1 := by omega
      rw [this]; simp
    have hs' : xs.set a.length z = (a ++ z :: b') ++ ([z] ++ xs.drop n) := by
      conv_lhs => rw [hxs]
      simp
    rw [hz, hs', List.take_left']
    simp at hl ⊢; omega

/-- The slots after a removal, with the way the others moved. -/
theorem RawOK.pulled {l l' : SLeaf} {f : Nat → Option Slot} {σ : Nat → Nat} {js : List Nat} (len : l'.hs.length = 32)
    (hf : slotAt l'.hs = f) (tag : ∀ i s, f i = some s → s.tag = kvTag s.kv.1) (mag : Magnet f) (inc : TagInc f)
    (sl : l'.ss.length = 32) (n : l'.nr ≤ 32) (hidx : l'.idx = js.map σ) (sh : Shifts (fun j => if j ∈ js then slotAt l.hs j else none) f σ)
    (hu : ∀ j ∈ js, slotAt l.hs j ≠ none) (hd : js.Nodup) (hall : ∀ j s, f j = some s → ∃ i ∈ js, σ i = j) :
    RawOK l' ∧ l'.entries = js.map (pairAt l.hs) := by
  have hu' : ∀ j ∈ js, (fun j => if j ∈ js then slotAt l.hs j else none) j ≠ none := by
    intro j hj
    dsimp only
    rw [if_pos hj]; exact hu j hj
  refine ⟨⟨⟨len, by rw [hf]; exact tag, by rw [hf]; exact inc, by rw [hf]; exact mag⟩, sl, n, ?_, ?_, ?_⟩, ?_⟩
  · rw [hidx, hf]
    intro i hi
    obtain ⟨j, hj, rfl⟩ := List.mem_map.1 hi
    obtain ⟨s, hs⟩ := Option.ne_none_iff_exists'.1 (hu' j hj)
    rw [sh.keep j s hs]; simp
  · rw [hidx, hf]
    intro i hi
    obtain ⟨s, hs⟩ := Option.ne_none_iff_exists'.1 hi
    obtain ⟨j, hj, e⟩ := hall i s hs
    exact List.mem_map.2 ⟨j, hj, e⟩
  · rw [hidx]; exact nodup_shift sh hu' hd
  · rw [SLeaf.entries, hidx, List.map_map]
    apply List.map_congr_left
    intro i hi
    obtain ⟨s, hs⟩ := Option.ne_none_iff_exists'.1 (hu i hi)
    rw [Function.comp, pairAt_of hs]
    refine pairAt_of ?_
    rw [hf]
    exact sh.keep i s (by rw [if_pos hi]; exact hs)

theorem remove_raw (h : RawOK l) {a b : List Nat} {ih : Nat} (hab : l.idx = a ++ ih :: b) :
    ∃ l', l.remove ih a.length = .ok l' ∧ RawOK l' ∧ l'.anchor = l.anchor ∧ l'.nr = l.nr - 1 ∧
      l'.sorted = (if l.sorted > a.length then a.length else l.sorted) ∧
      ∃ c, c.Perm b ∧ l'.entries = (a ++ c).map (pairAt l.hs) := by
  have hlen := h.hs.len
  have h32 : ih < 32 := h.lt ih (by rw [hab]; simp)
  obtain ⟨e, he⟩ := Option.ne_none_iff_exists'.1 (h.used ih (by rw [hab]; simp))
  obtain ⟨c, hc, hp⟩ := swap_remove 0 (xs := l.ss) (n := l.nr) (by rw [h.len]; exact h.nr) hab
  have hd := h.dist
  have hpm : (ih :: (a ++ c)).Perm l.idx := by
    rw [hab]
    exact (List.perm_middle.symm).trans ((hp.cons ih).append_left a)
  have hd' := hpm.nodup_iff.2 hd
  rw [List.nodup_cons] at hd'
  have hjs : ∀ j, j ∈ a ++ c ↔ j ≠ ih ∧ slotAt l.hs j ≠ none := by
    intro j
    constructor
    · intro hj
      exact ⟨fun e => hd'.1 (e ▸ hj), h.used j (hpm.mem_iff.1 (by simp only [List.mem_cons]; exact Or.inr hj))⟩
    · rintro ⟨h1, h2⟩
      rcases List.mem_cons.1 (hpm.mem_iff.2 (h.all j h2)) with h3 | h3
      · exact absurd h3 h1
      · exact h3
  unfold SLeaf.remove
  generalize hl0 : SLeaf.mk l.anchor (l.hs.set ih none) (l.ss.set a.length (l.ss.getD (l.nr - 1) 0)) (l.nr - 1)
    (if l.sorted > a.length then a.length else l.sorted) = l0
  have g1 : l0.anchor = l.anchor := by rw [← hl0]
  have g2 : l0.nr = l.nr - 1 := by rw [← hl0]
  have g3 : l0.sorted = (if l.sorted > a.length then a.length else l.sorted) := by rw [← hl0]
  have g4 : l0.hs.length = 32 := by rw [← hl0]; show (l.hs.set ih none).length = 32; rw [List.length_set, hlen]
  have g5 : l0.idx = a ++ c := by rw [← hl0]; exact hc
  have g6 : ∀ j, slotAt l0.hs j = if j = ih then none else slotAt l.hs j := by
    intro j; rw [← hl0]; exact slotAt_set (by omega) none
  have g7 : l0.ss.length = 32 := by rw [← hl0]; show (l.ss.set _ _).length = 32; rw [List.length_set, h.len]
  have hnr := h.nr
  have hu : ∀ j ∈ a ++ c, slotAt l.hs j ≠ none := fun j hj => ((hjs j).1 hj).2
  have h32' : ∀ j ∈ l0.idx, j < 32 := by
    intro j hj
    rw [g5] at hj
    obtain ⟨s, hs⟩ := Option.ne_none_iff_exists'.1 (hu j hj)
    rw [← hlen]; exact slotAt_lt hs
  unfold SLeaf.pull
  dsimp only
  have D := scanDown_spec (hs := l0.hs) (fun i s => decide (home s.tag > i)) ih
  generalize scanDown l0.hs (fun i s => decide (home s.tag > i)) ih = i at D
  obtain ⟨D1, D2, D3⟩ := D
  simp only [decide_eq_true_eq, decide_eq_false_iff_not] at D2 D3
  have D2' : ∀ j, i ≤ j → j < ih → ∃ s, slotAt l.hs j = some s ∧ home s.tag > j := by
    intro j h1 h2
    have := D2 j h1 h2
    rwa [g6, if_neg (by omega)] at this
  have D3' : ∀ j s, i = j + 1 → slotAt l.hs j = some s → home s.tag ≤ j := by
    intro j s h1 h2
    have := D3 j h1 s (by rw [g6, if_neg (by omega)]; exact h2)
    omega
  have htag : ∀ j s, slotAt l.hs j = some s → s.tag = kvTag s.kv.1 := h.hs.tag
  by_cases hi : i < ih
  · rw [if_pos hi]
    obtain ⟨l1, e1, a1, a2, a3, a4, a5, a6, a7⟩ := shiftInc_spec g4 (src := i) (nr := ih - i) (by omega) h32'
    rw [e1, Res.bind_ok]
    obtain ⟨m, t⟩ := pullL_ok h.hs.mag h.hs.inc he D1 D2' D3' (Or.inl hi)
    have hf : slotAt (l1.hs.set i none) = pullL (slotAt l.hs) i ih := by
      funext j
      rw [slotAt_set (by omega), a7, g6, g6]
      unfold pullL
      split_ifs <;> first | rfl | omega
    obtain ⟨r1, r2⟩ := RawOK.pulled (l := l) (l' := { l1 with hs := l1.hs.set i none }) (js := a ++ c)
      (σ := fun v => if i ≤ v ∧ v < i + (ih - i) then v + 1 else v)
      (by show (l1.hs.set i none).length = 32; rw [List.length_set, a4]) hf
      (by
        intro j s hs
        rcases pullL_from hs with ⟨_, _, h⟩ | ⟨_, _, h⟩ <;> exact htag _ _ h)
      m t (by show l1.ss.length = 32; rw [a5, g7]) (by show l1.nr ≤ 32; rw [a2, g2]; omega)
      (by show l1.idx = _; rw [a6, g5])
      ⟨by
        intro j s hs
        split_ifs at hs with hj
        have := (hjs j).1 hj
        unfold pullL
        by_cases hc' : i ≤ j ∧ j < i + (ih - i)
        · rw [if_pos hc', if_neg (by omega), if_pos (by omega), show j + 1 - 1 = j by omega]; exact hs
        · rw [if_neg hc', if_neg (by omega), if_neg (by omega)]; exact hs, by
        intro x y hx hy
        
        split_ifs at hx hy with hx' hy'
        · have := (hjs x).1 hx'
          have := (hjs y).1 hy'
          split_ifs <;> omega
        · simp at hy
        · simp at hx
        · simp at hx⟩ hu hd'.2
      (by
        intro j s hs
        rcases pullL_from hs with ⟨h1, h2, h3⟩ | ⟨h1, h2, h3⟩
        · exact ⟨j - 1, (hjs _).2 ⟨by omega, by rw [h3]; simp⟩, by rw [if_pos (by omega)]; omega⟩
        · exact ⟨j, (hjs _).2 ⟨by omega, by rw [h3]; simp⟩, by rw [if_neg (by omega)]⟩)
    exact ⟨_, rfl, r1, by rw [← g1, ← a1], by rw [← g2, ← a2], by rw [← g3, ← a3], c, hp, r2⟩
  · rw [if_neg hi]
    obtain rfl : i = ih := by omega
    have U := scanUp_spec (hs := l0.hs) (fun i s => decide (home s.tag < i)) 32 (i + 1) (by omega)
    generalize scanUp l0.hs (fun i s => decide (home s.tag < i)) 32 (i + 1) = u at U
    obtain ⟨U1, U2, U3⟩ := U
    simp only [decide_eq_true_eq, decide_eq_false_iff_not] at U2 U3
    have U3' : ∀ s, slotAt l.hs u = some s → u ≤ home s.tag := by
      intro s hs
      have := U3 s (by rw [g6, if_neg (by omega)]; exact hs)
      omega
    have U2' : ∀ j, i < j → j ≤ u - 1 → ∃ s, slotAt l.hs j = some s ∧ home s.tag < j := by
      intro j h1 h2
      have := U2 j (by omega) (by omega)
      rwa [g6, if_neg (by omega)] at this
    by_cases hj : u - 1 > i
    · rw [if_pos hj]
      have hu32 : u ≤ 32 := by
        obtain ⟨s, hs, _⟩ := U2' (u - 1) (by omega) (Nat.le_refl _)
        have := slotAt_lt hs
        omega
      obtain ⟨l1, e1, a1, a2, a3, a4, a5, a6, a7⟩ := shiftDec_spec g4 (dst := i) (nr := u - 1 - i) (by omega) h32'
      rw [e1, Res.bind_ok]
      obtain ⟨m, t⟩ := pullR_ok h.hs.mag h.hs.inc hj U2' (by rw [show u - 1 + 1 = u by omega]; exact U3')
      have hf : slotAt (l1.hs.set (u - 1) none) = pullR (slotAt l.hs) (u - 1) i := by
        funext j
        rw [slotAt_set (by omega), a7, g6, g6]
        unfold pullR
        split_ifs <;> first | rfl | omega
      obtain ⟨r1, r2⟩ := RawOK.pulled (l := l) (l' := { l1 with hs := l1.hs.set (u - 1) none }) (js := a ++ c)
        (σ := fun v => if i + 1 ≤ v ∧ v < i + 1 + (u - 1 - i) then v - 1 else v)
        (by show (l1.hs.set _ none).length = 32; rw [List.length_set, a4]) hf
        (by
          intro j s hs
          rcases pullR_from hs with ⟨_, _, h⟩ | ⟨_, _, h⟩ <;> exact htag _ _ h)
        m t (by show l1.ss.length = 32; rw [a5, g7]) (by show l1.nr ≤ 32; rw [a2, g2]; omega)
        (by show l1.idx = _; rw [a6, g5])
        ⟨by
          intro j s hs
          split_ifs at hs with hj'
          have := (hjs j).1 hj'
          unfold pullR
          by_cases hc' : i + 1 ≤ j ∧ j < i + 1 + (u - 1 - i)
          · rw [if_pos hc', if_neg (by omega), if_pos (by omega), show j - 1 + 1 = j by omega]; exact hs
          · rw [if_neg hc', if_neg (by omega), if_neg (by omega)]; exact hs, by
          intro x y hx hy
          
          split_ifs at hx hy with hx' hy'
          · have := (hjs x).1 hx'
            have := (hjs y).1 hy'
            split_ifs <;> omega
          · simp at hy
          · simp at hx
          · simp at hx⟩ hu hd'.2
        (by
          intro j s hs
          rcases pullR_from hs with ⟨h1, h2, h3⟩ | ⟨h1, h2, h3⟩
          · exact ⟨j + 1, (hjs _).2 ⟨by omega, by rw [h3]; simp⟩, by rw [if_pos (by omega)]; omega⟩
          · exact ⟨j, (hjs _).2 ⟨by omega, by rw [h3]; simp⟩, by rw [if_neg (by omega)]⟩)
      exact ⟨_, rfl, r1, by rw [← g1, ← a1], by rw [← g2, ← a2], by rw [← g3, ← a3], c, hp, r2⟩
    · rw [if_neg hj]
      have hu' : u = i + 1 := by omega
      subst hu'
      obtain ⟨m, t⟩ := pullL_ok h.hs.mag h.hs.inc he (Nat.le_refl _) D2' D3' (Or.inr U3')
      have hf : slotAt l0.hs = pullL (slotAt l.hs) i i := by
        funext j
        rw [g6]
        unfold pullL
        split_ifs <;> first | rfl | omega
      obtain ⟨r1, r2⟩ := RawOK.pulled (l := l) (l' := l0) (js := a ++ c) (σ := fun v => v) g4 hf
        (by
          intro j s hs
          rcases pullL_from hs with ⟨_, _, h⟩ | ⟨_, _, h⟩ <;> exact htag _ _ h)
        m t g7 (by rw [g2]; omega) (by rw [g5]; simp)
        ⟨by
          intro j s hs
          split_ifs at hs with hj'
          have := (hjs j).1 hj'
          unfold pullL
          rw [if_neg (by omega), if_neg (by omega)]; exact hs, by
          intro x y _ _ hxy; exact hxy⟩ hu hd'.2
        (by
          intro j s hs
          rcases pullL_from hs with ⟨h1, h2, h3⟩ | ⟨h1, h2, h3⟩
          · omega
          · exact ⟨j, (hjs _).2 ⟨by omega, by rw [h3]; simp⟩, rfl⟩)
      exact ⟨_, rfl, r1, g1, g2, g3, c, hp, r2⟩

/-! ## Lookup -/

theorem matchLeft_spec {hs : List (Option Slot)} {p : Nat} {key : Key} : ∀ {i r : Nat}, matchLeft hs p key i = some r →
    ∃ s, slotAt hs r = some s ∧ s.kv.1 = key
  | 0, r, h => by simp [matchLeft] at h
  | i + 1, r, h => by
    rw [matchLeft] at h
    cases hs' : slotAt hs i with
    | none => rw [hs'] at h; simp at h
    | some s =>
      rw [hs'] at h
      dsimp only at h
      split_ifs at h with h1 h2 h3
      · obtain rfl := Option.some.inj h
        exact ⟨s, hs', by simpa using h2⟩
      · exact matchLeft_spec h
      · exact matchLeft_spec h

theorem matchRight_spec {hs : List (Option Slot)} {p : Nat} {key : Key} : ∀ {fuel i r : Nat},
    matchRight hs p key fuel i = some r → ∃ s, slotAt hs r = some s ∧ s.kv.1 = key
  | 0, i, r, h => by simp [matchRight] at h
  | fuel + 1, i, r, h => by
    rw [matchRight] at h
    cases hs' : slotAt hs i with
    | none => rw [hs'] at h; simp at h
    | some s =>
      rw [hs'] at h
      dsimp only at h
      split_ifs at h with h1 h2 h3
      · obtain rfl := Option.some.inj h
        exact ⟨s, hs', by simpa using h2⟩
      · exact matchRight_spec h
      · exact matchRight_spec h

theorem matchLeft_finds {hs : List (Option Slot)} (ok : HsOK hs) {key : Key} {r : Nat} {s : Slot}
    (h : slotAt hs r = some s) (hk : s.kv.1 = key) : ∀ {i : Nat}, r < i → (∀ j, r ≤ j → j < i → slotAt hs j ≠ none) →
    ∃ r', matchLeft hs (kvTag key) key i = some r'
  | 0, hr, _ => by omega
  | i + 1, hr, hu => by
    rw [matchLeft]
    obtain ⟨s', hs'⟩ := Option.ne_none_iff_exists'.1 (hu i (by omega) (by omega))
    rw [hs']
    dsimp only
    have ht := ok.tag r s h
    rw [hk] at ht
    rcases Nat.eq_or_lt_of_le (show r ≤ i by omega) with e | hlt
    · subst e
      rw [h] at hs'
      obtain rfl := Option.some.inj hs'
      rw [if_pos ht, if_pos (by simp [hk])]
      exact ⟨r, rfl⟩
    · have := ok.inc r i s s' hlt h hs'
      obtain ⟨r', hr'⟩ := matchLeft_finds ok h hk hlt fun j h1 h2 => hu j h1 (by omega)
      split_ifs with h1 h2 h3
      · exact ⟨i, rfl⟩
      · exact ⟨r', hr'⟩
      · omega
      · exact ⟨r', hr'⟩

theorem matchRight_finds {hs : List (Option Slot)} (ok : HsOK hs) {key : Key} {r : Nat} {s : Slot}
    (h : slotAt hs r = some s) (hk : s.kv.1 = key) : ∀ {fuel i : Nat}, i ≤ r → r < i + fuel →
    (∀ j, i ≤ j → j ≤ r → slotAt hs j ≠ none) → ∃ r', matchRight hs (kvTag key) key fuel i = some r'
  | 0, i, h1, h2, _ => by omega
  | fuel + 1, i, hr, hf, hu => by
    rw [matchRight]
    obtain ⟨s', hs'⟩ := Option.ne_none_iff_exists'.1 (hu i (by omega) (by omega))
    rw [hs']
    dsimp only
    have ht := ok.tag r s h
    rw [hk] at ht
    rcases Nat.eq_or_lt_of_le hr with e | hlt
    · subst e
      rw [h] at hs'
      obtain rfl := Option.some.inj hs'
      rw [if_pos ht, if_pos (by simp [hk])]
      exact ⟨i, rfl⟩
    · have := ok.inc i r s' s hlt hs' h
      obtain ⟨r', hr'⟩ := matchRight_finds ok h hk (fuel := fuel) (i := i + 1) hlt (by omega) fun j h1 h2 => hu j (by omega) h2
      split_ifs with h1 h2 h3
      · exact ⟨i, rfl⟩
      · exact ⟨r', hr'⟩
      · omega
      · exact ⟨r', hr'⟩

/-- The point lookup finds the slot of a key. -/
theorem match_some {key : Key} {ih : Nat} (hm : l.matchHs key = some ih) :
    ∃ s, slotAt l.hs ih = some s ∧ s.kv.1 = key := by
  unfold SLeaf.matchHs at hm
  dsimp only at hm
  cases h0 : slotAt l.hs (home (kvTag key)) with
  | none => rw [h0] at hm; simp at hm
  | some s =>
    rw [h0] at hm
    dsimp only at hm
    split_ifs at hm with h1
    · obtain rfl := Option.some.inj hm
      exact ⟨s, h0, h1.2⟩
    · cases hL : matchLeft l.hs (kvTag key) key (home (kvTag key)) with
      | none => rw [hL, Option.none_or] at hm; exact matchRight_spec hm
      | some r =>
        rw [hL, Option.some_or] at hm
        obtain rfl := Option.some.inj hm
        exact matchLeft_spec hL

theorem match_none (h : RawOK l) {key : Key} (hm : l.matchHs key = none) : key ∉ keysOf l.entries := by
  intro hin
  obtain ⟨e, he, hk⟩ := List.mem_map.1 hin
  obtain ⟨r, hr, hre⟩ := List.mem_map.1 he
  obtain ⟨s, hs⟩ := Option.ne_none_iff_exists'.1 (h.used r hr)
  rw [pairAt_of hs] at hre
  have hk : s.kv.1 = key := by rw [hre]; exact hk
  have ht := h.hs.tag r s hs
  rw [hk] at ht
  have hmag := h.hs.mag r s hs
  rw [ht] at hmag
  have h32 := h.lt r hr
  unfold SLeaf.matchHs at hm
  dsimp only at hm
  obtain ⟨s0, h0⟩ := Option.ne_none_iff_exists'.1 (hmag (home (kvTag key)) (by
    rcases Nat.lt_or_ge (home (kvTag key)) r with h | h
    · exact Or.inl ⟨Nat.le_refl _, by omega⟩
    · exact Or.inr ⟨h, Nat.le_refl _⟩))
  rw [h0] at hm
  dsimp only at hm
  split_ifs at hm with h1
  rw [Option.or_eq_none_iff] at hm
  rcases Nat.lt_trichotomy r (home (kvTag key)) with hlt | heq | hgt
  · obtain ⟨r', hr'⟩ := matchLeft_finds h.hs hs hk hlt fun j h1 h2 => hmag j (Or.inr ⟨h1, by omega⟩)
    rw [hr'] at hm; simp at hm
  · rw [← heq, hs] at h0
    obtain rfl := Option.some.inj h0
    exact h1 ⟨ht, hk⟩
  · obtain ⟨r', hr'⟩ := matchRight_finds h.hs hs hk (fuel := 32 - (home (kvTag key) + 1)) (i := home (kvTag key) + 1) hgt
      (by omega) fun j h1 h2 => hmag j (Or.inl ⟨by omega, h2⟩)
    rw [hr'] at hm; simp at hm

theorem searchIs_spec (h : RawOK l) {a b : List Nat} {ih : Nat} (hab : l.idx = a ++ ih :: b) :
    l.searchIs ih = .ok a.length := by
  have hn : l.nr ≠ 0 := by
    rw [← h.idx_length, hab]; simp
  unfold SLeaf.searchIs
  rw [if_neg hn]
  have hss : l.ss = a ++ ih :: (b ++ l.ss.drop l.nr) := by
    have := (List.take_append_drop l.nr l.ss).symm
    rw [show l.ss.take l.nr = a ++ ih :: b from hab] at this
    simpa only [List.append_assoc, List.cons_append] using this
  have hd := h.dist
  rw [hab, List.nodup_append] at hd
  have hf : l.ss.findIdx? (· == ih) = some a.length := by
    rw [List.findIdx?_eq_some_iff_getElem]
    refine ⟨by rw [hss]; simp, ?_, ?_⟩
    · have : l.ss[a.length]? = some ih := by rw [hss]; simp
      have := (List.getElem?_eq_some_iff.1 this).2
      rw [this]; simp
    · intro j hj
      have : l.ss[j]? = a[j]? := by rw [hss, List.getElem?_append_left hj]
      rw [List.getElem?_eq_getElem hj] at this
      have := (List.getElem?_eq_some_iff.1 this).2
      rw [this]
      have := hd.2.2 a[j] (List.getElem_mem hj) ih (by simp)
      simpa using this
  rw [hf]

end

end Verif
