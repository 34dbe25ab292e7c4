import Verif.Proof.WhStrHs
import Verif.Proof.Plan

/-!
# Insertion into the slots of a leaf of the string tree
-/

namespace Verif

section
variable {hs : List (Option Slot)}

/-- What `insertPoints` finds. -/
structure Points (hs : List (Option Slot)) (p q el ir er : Nat) : Prop where
  below : ∀ j s, j < q → slotAt hs j = some s → s.tag < p
  above : ∀ j s, q ≤ j → slotAt hs j = some s → p ≤ s.tag
  back : ∀ j, q ≤ j → j ≤ home p → slotAt hs j ≠ none
  front : ∀ j, home p ≤ j → j < q → slotAt hs j ≠ none
  q32 : q ≤ 32
  elq : el ≤ q
  elUsed : ∀ j, el ≤ j → j ≤ home p → slotAt hs j ≠ none
  elFree : ∀ g, el = g + 1 → slotAt hs g = none
  qir : q ≤ ir
  same : ∀ j s, q ≤ j → j < ir → slotAt hs j = some s → s.tag = p
  irUsed : ∀ j, q ≤ j → j < ir → slotAt hs j ≠ none
  irer : ir ≤ er
  her : home p < er
  erUsed : ∀ j, home p ≤ j → j < er → slotAt hs j ≠ none
  erFree : slotAt hs er = none

theorem insertPoints_spec (ok : HsOK hs) {p : Nat} (hp : p < 65536) {s0 : Slot} (h0 : slotAt hs (home p) = some s0) :
    ∃ q el ir er, insertPoints hs p = (q, el, ir, er) ∧ Points hs p q el ir er := by
  have hi0 := home_lt hp
  have hlen := ok.len
  unfold insertPoints
  dsimp only
  generalize hi0' : home p = i0 at *
  have D := scanDown_spec (hs := hs) (fun _ s => decide (s.tag ≥ p)) i0
  generalize scanDown hs (fun _ s => decide (s.tag ≥ p)) i0 = d at D
  have Q := scanUp_spec (hs := hs) (fun _ s => decide (s.tag < p)) 32 d (by omega)
  generalize scanUp hs (fun _ s => decide (s.tag < p)) 32 d = q at Q
  obtain ⟨D1, D2, D3⟩ := D
  obtain ⟨Q1, Q2, Q3⟩ := Q
  simp only [decide_eq_true_eq, decide_eq_false_iff_not] at D2 D3 Q2 Q3
  have hqd : d < i0 → q = d := by
    intro h
    by_contra hn
    obtain ⟨s, e1, e2⟩ := D2 d (Nat.le_refl _) h
    obtain ⟨s', e3, e4⟩ := Q2 d (Nat.le_refl _) (by omega)
    rw [e1] at e3; obtain rfl := Option.some.inj e3; omega
  have lowHome : ∀ s : Slot, home s.tag < i0 → s.tag < p := by
    intro s h
    by_contra hn
    have := home_mono (show p ≤ s.tag by omega)
    omega
  have highHome : ∀ s : Slot, i0 < home s.tag → p ≤ s.tag := by
    intro s h
    by_contra hn
    have := home_mono (show s.tag ≤ p by omega)
    omega
  have back : ∀ j, q ≤ j → j ≤ i0 → slotAt hs j ≠ none := by
    intro j h1 h2
    rcases Nat.lt_or_ge j i0 with h | h
    · obtain ⟨s, e, _⟩ := D2 j (by omega) h
      rw [e]; simp
    · obtain rfl : j = i0 := by omega
      rw [h0]; simp
  have front : ∀ j, i0 ≤ j → j < q → slotAt hs j ≠ none := by
    intro j h1 h2
    obtain ⟨s, e, _⟩ := Q2 j (by omega) h2
    rw [e]; simp
  have below : ∀ j s, j < q → slotAt hs j = some s → s.tag < p := by
    intro j s hj hs'
    -- the slot before `q`
    obtain ⟨r, rfl⟩ : ∃ r, q = r + 1 := ⟨q - 1, by omega⟩
    have hr : ∀ s', slotAt hs r = some s' → s'.tag < p := by
      intro s' hs''
      rcases Nat.lt_or_ge r d with h | h
      · have := D3 r (by omega) s' hs''; omega
      · obtain ⟨s2, e2, h2⟩ := Q2 r h (by omega)
        rw [hs''] at e2; obtain rfl := Option.some.inj e2; exact h2
    cases hrr : slotAt hs r with
    | none =>
      have hri : r < i0 := by
        by_contra hn
        exact front r (by omega) (by omega) hrr
      have hjr : j < r := by
        rcases Nat.lt_or_ge j r with h | h
        · exact h
        · obtain rfl : j = r := by omega
          rw [hrr] at hs'; simp at hs'
      have := ok.mag.left hrr hs' hjr
      exact lowHome s (by omega)
    | some s' =>
      have h1 := hr s' hrr
      rcases Nat.lt_or_ge j r with h | h
      · have := ok.inc j r s s' h hs' hrr; omega
      · obtain rfl : j = r := by omega
        exact hr s hs'
  have above : ∀ j s, q ≤ j → slotAt hs j = some s → p ≤ s.tag := by
    intro j s hj hs'
    cases hq : slotAt hs q with
    | none =>
      have hqi : i0 < q := by
        by_contra hn
        exact back q (Nat.le_refl _) (by omega) hq
      have hjq : q < j := by
        rcases Nat.lt_or_ge q j with h | h
        · exact h
        · obtain rfl : j = q := by omega
          rw [hq] at hs'; simp at hs'
      have := ok.mag.right hq hs' hjq
      exact highHome s (by omega)
    | some s' =>
      have h1 := Q3 s' hq
      rcases Nat.lt_or_ge q j with h | h
      · have := ok.inc q j s' s h hq hs'; omega
      · obtain rfl : j = q := by omega
        rw [hs'] at hq; obtain rfl := Option.some.inj hq; omega
  have q32 : q ≤ 32 := by
    by_contra hn
    have := front (q - 1) (by omega) (by omega)
    obtain ⟨s, e⟩ := Option.ne_none_iff_exists'.1 this
    have := slotAt_lt e
    omega
  -- the empty slot on the left
  generalize hst : (if i0 = 0 then q else if q = 0 then i0 else min q i0) = start
  have E := scanDown_spec (hs := hs) (fun _ _ => true) start
  generalize scanDown hs (fun _ _ => true) start = el at E
  obtain ⟨E1, E2, E3⟩ := E
  have elFree : ∀ g, el = g + 1 → slotAt hs g = none := by
    intro g hg
    cases h : slotAt hs g with
    | none => rfl
    | some s => have := E3 g hg s h; simp at this
  have elUsed : ∀ j, el ≤ j → j ≤ i0 → slotAt hs j ≠ none := by
    intro j h1 h2
    rcases Nat.lt_or_ge j start with h | h
    · obtain ⟨s, e, _⟩ := E2 j h1 h
      rw [e]; simp
    · by_cases hz : i0 = 0
      · rw [if_pos hz] at hst
        obtain rfl : j = i0 := by omega
        rw [h0]; simp
      · rw [if_neg hz] at hst
        by_cases hq0 : q = 0
        · exact back j (by omega) h2
        · rw [if_neg hq0] at hst
          rcases Nat.lt_or_ge j i0 with h3 | h3
          · exact back j (by omega) h2
          · obtain rfl : j = i0 := by omega
            rw [h0]; simp
  have elq : el ≤ q := by
    by_cases hz : i0 = 0
    · rw [if_pos hz] at hst; omega
    · rw [if_neg hz] at hst
      by_cases hq0 : q = 0
      · rw [if_pos hq0] at hst
        by_contra hn
        have h1 := elFree (el - 1) (by omega)
        exact back (el - 1) (by omega) (by omega) h1
      · rw [if_neg hq0] at hst; omega
  -- the right end of equal tags
  have R := scanUp_spec (hs := hs) (fun _ s => s.tag == p) 32 q (by omega)
  generalize scanUp hs (fun _ s => s.tag == p) 32 q = ir at R
  obtain ⟨R1, R2, R3⟩ := R
  simp only [beq_iff_eq] at R2
  have S := scanUp_spec (hs := hs) (fun _ _ => true) 32 (max ir (i0 + 1)) (by omega)
  generalize scanUp hs (fun _ _ => true) 32 (max ir (i0 + 1)) = er at S
  obtain ⟨S1, S2, S3⟩ := S
  refine ⟨q, el, ir, er, rfl, below, above, by rw [hi0']; exact back, by rw [hi0']; exact front, q32, elq,
    by rw [hi0']; exact elUsed, elFree, R1, ?_, ?_, by omega, by rw [hi0']; omega, ?_, ?_⟩
  · intro j s h1 h2 hs'
    obtain ⟨s', e, h⟩ := R2 j h1 h2
    rw [hs'] at e; obtain rfl := Option.some.inj e; exact h
  · intro j h1 h2
    obtain ⟨s', e, h⟩ := R2 j h1 h2
    rw [e]; simp
  · rw [hi0']
    intro j h1 h2
    rcases Nat.lt_or_ge j (max ir (i0 + 1)) with h | h
    · rcases Nat.lt_or_ge j (i0 + 1) with h3 | h3
      · obtain rfl : j = i0 := by omega
        rw [h0]; simp
      · rcases Nat.lt_or_ge j q with h4 | h4
        · exact front j h1 h4
        · obtain ⟨s', e, _⟩ := R2 j h4 (by omega)
          rw [e]; simp
    · obtain ⟨s', e, _⟩ := S2 j h h2
      rw [e]; simp
  · cases h : slotAt hs er with
    | none => rfl
    | some s => have := S3 s h; simp at this

end

/-! ## Moved slots -/

/-- Every used slot moves as `σ` says. -/
structure Shifts (f f' : Nat → Option Slot) (σ : Nat → Nat) : Prop where
  keep : ∀ i s, f i = some s → f' (σ i) = some s
  inj : ∀ i j, f i ≠ none → f j ≠ none → σ i = σ j → i = j

theorem shiftDec_spec {l : SLeaf} (hl : l.hs.length = 32) {dst nr : Nat} (h : dst + 1 + nr ≤ 32)
    (h32 : ∀ i ∈ l.idx, i < 32) :
    ∃ l', l.shiftDec dst nr = .ok l' ∧ l'.anchor = l.anchor ∧ l'.nr = l.nr ∧ l'.sorted = l.sorted ∧
      l'.hs.length = 32 ∧ l'.ss.length = l.ss.length ∧
      l'.idx = l.idx.map (fun v => if dst + 1 ≤ v ∧ v < dst + 1 + nr then v - 1 else v) ∧
      ∀ j, slotAt l'.hs j = if dst ≤ j ∧ j < dst + nr then slotAt l.hs (j + 1) else slotAt l.hs j := by
  unfold SLeaf.shiftDec
  rw [if_neg (by omega)]
  refine ⟨_, rfl, rfl, rfl, rfl, by rw [moveSlots_length, hl], ?_, ?_, ?_⟩
  · dsimp only; split_ifs <;> simp
  · unfold SLeaf.idx
    dsimp only
    by_cases hn : l.nr = 0
    · rw [if_pos hn, hn]; simp
    · rw [if_neg hn, ← List.map_take]
      apply List.map_congr_left
      intro v hv
      have hv32 := h32 v hv
      have := inShift_iff (src := dst + 1) (nr := nr) (v := v) (by omega) hv32
      by_cases hc : dst + 1 ≤ v ∧ v < dst + 1 + nr
      · rw [if_pos (this.2 hc), if_pos hc]; omega
      · rw [if_neg (fun hh => hc (this.1 hh)), if_neg hc]
  · intro j
    dsimp only
    rw [slotAt_move (by omega)]
    split_ifs with h1
    · congr 1; omega
    · rfl

theorem shiftInc_spec {l : SLeaf} (hl : l.hs.length = 32) {src nr : Nat} (h : src + 1 + nr ≤ 32)
    (h32 : ∀ i ∈ l.idx, i < 32) :
    ∃ l', l.shiftInc src nr = .ok l' ∧ l'.anchor = l.anchor ∧ l'.nr = l.nr ∧ l'.sorted = l.sorted ∧
      l'.hs.length = 32 ∧ l'.ss.length = l.ss.length ∧
      l'.idx = l.idx.map (fun v => if src ≤ v ∧ v < src + nr then v + 1 else v) ∧
      ∀ j, slotAt l'.hs j = if src + 1 ≤ j ∧ j < src + 1 + nr then slotAt l.hs (j - 1) else slotAt l.hs j := by
  unfold SLeaf.shiftInc
  rw [if_neg (by omega)]
  refine ⟨_, rfl, rfl, rfl, rfl, by rw [moveSlots_length, hl], ?_, ?_, ?_⟩
  · dsimp only; split_ifs <;> simp
  · unfold SLeaf.idx
    dsimp only
    by_cases hn : l.nr = 0
    · rw [if_pos hn, hn]; simp
    · rw [if_neg hn, ← List.map_take]
      apply List.map_congr_left
      intro v hv
      have hv32 := h32 v hv
      have := inShift_iff (src := src) (nr := nr) (v := v) (by omega) hv32
      by_cases hc : src ≤ v ∧ v < src + nr
      · rw [if_pos (this.2 hc), if_pos hc]; omega
      · rw [if_neg (fun hh => hc (this.1 hh)), if_neg hc]
  · intro j
    dsimp only
    rw [slotAt_move (by omega)]
    split_ifs with h1
    · congr 1; omega
    · rfl

/-- Outcome of an insertion into the slots. -/
structure SlotIn (l l' : SLeaf) (e : Slot) (pos : Nat) (σ : Nat → Nat) : Prop where
  ok : HsOK l'.hs
  anchor : l'.anchor = l.anchor
  nr : l'.nr = l.nr
  sorted : l'.sorted = l.sorted
  len : l'.ss.length = l.ss.length
  idx : l'.idx = l.idx.map σ
  at' : slotAt l'.hs pos = some e
  shifts : Shifts (slotAt l.hs) (slotAt l'.hs) σ
  fresh : ∀ i, slotAt l.hs i ≠ none → σ i ≠ pos
  all : ∀ j s, slotAt l'.hs j = some s → j = pos ∨ ∃ i, slotAt l.hs i = some s ∧ σ i = j

section
variable {l l' : SLeaf} {e : Slot}

theorem SlotIn.left (ok : HsOK l.hs) (he : e.tag = kvTag e.kv.1) {g pos : Nat} {σ : Nat → Nat} (hg : slotAt l.hs g = none)
    (hle : g ≤ pos) (hu : ∀ j, g < j → j ≤ pos → slotAt l.hs j ≠ none)
    (lo : ∀ j s, j ≤ pos → slotAt l.hs j = some s → s.tag ≤ e.tag)
    (hi' : ∀ j s, pos < j → slotAt l.hs j = some s → e.tag ≤ s.tag)
    (path : ∀ j, (home e.tag ≤ j ∧ j ≤ pos) ∨ (pos ≤ j ∧ j ≤ home e.tag) → slotAt l.hs j ≠ none ∨ j = g)
    (hσ : ∀ v, σ v = if g < v ∧ v ≤ pos then v - 1 else v) (hl : l'.hs.length = 32)
    (hf : ∀ j, slotAt l'.hs j = pushL (slotAt l.hs) g pos e j)
    (h1 : l'.anchor = l.anchor) (h2 : l'.nr = l.nr) (h3 : l'.sorted = l.sorted) (h4 : l'.ss.length = l.ss.length)
    (h5 : l'.idx = l.idx.map σ) : SlotIn l l' e pos σ := by
  have hfun : slotAt l'.hs = pushL (slotAt l.hs) g pos e := funext hf
  have hne : ∀ i, slotAt l.hs i ≠ none → i ≠ g := fun i h e => h (e ▸ hg)
  obtain ⟨m, t⟩ := pushL_ok (e := e) ok.mag ok.inc hle hu lo hi' path
  refine ⟨⟨hl, ?_, by rw [hfun]; exact t, by rw [hfun]; exact m⟩, h1, h2, h3, h4, h5, ?_, ⟨?_, ?_⟩, ?_, ?_⟩
  · intro i s h
    rw [hf] at h
    rcases pushL_from h with ⟨_, rfl⟩ | ⟨_, _, h⟩ | ⟨_, h⟩
    · exact he
    · exact ok.tag _ _ h
    · exact ok.tag _ _ h
  · rw [hf]; simp [pushL]
  · intro i s h
    have := hne i (by rw [h]; simp)
    rw [hf, hσ]
    unfold pushL
    by_cases hc : g < i ∧ i ≤ pos
    · rw [if_pos hc, if_neg (by omega), if_pos (by omega), show i - 1 + 1 = i by omega]; exact h
    · rw [if_neg hc, if_neg (by omega), if_neg (by omega)]; exact h
  · intro i j h1 h2
    have := hne i h1
    have := hne j h2
    rw [hσ, hσ]
    split_ifs <;> omega
  · intro i h
    have := hne i h
    rw [hσ]
    split_ifs <;> omega
  · intro j s h
    rw [hf] at h
    rcases pushL_from h with ⟨h, _⟩ | ⟨h6, h7, h⟩ | ⟨h6, h⟩
    · exact Or.inl h
    · exact Or.inr ⟨j + 1, h, by rw [hσ, if_pos (by omega)]; omega⟩
    · exact Or.inr ⟨j, h, by rw [hσ, if_neg (by omega)]⟩

theorem SlotIn.right (ok : HsOK l.hs) (he : e.tag = kvTag e.kv.1) {g pos : Nat} {σ : Nat → Nat} (hg : slotAt l.hs g = none)
    (hle : pos ≤ g) (hu : ∀ j, pos ≤ j → j < g → slotAt l.hs j ≠ none)
    (lo : ∀ j s, j < pos → slotAt l.hs j = some s → s.tag ≤ e.tag)
    (hi' : ∀ j s, pos ≤ j → slotAt l.hs j = some s → e.tag ≤ s.tag)
    (path : ∀ j, (home e.tag ≤ j ∧ j ≤ pos) ∨ (pos ≤ j ∧ j ≤ home e.tag) → slotAt l.hs j ≠ none ∨ j = g)
    (hσ : ∀ v, σ v = if pos ≤ v ∧ v < g then v + 1 else v) (hl : l'.hs.length = 32)
    (hf : ∀ j, slotAt l'.hs j = pushR (slotAt l.hs) g pos e j)
    (h1 : l'.anchor = l.anchor) (h2 : l'.nr = l.nr) (h3 : l'.sorted = l.sorted) (h4 : l'.ss.length = l.ss.length)
    (h5 : l'.idx = l.idx.map σ) : SlotIn l l' e pos σ := by
  have hfun : slotAt l'.hs = pushR (slotAt l.hs) g pos e := funext hf
  have hne : ∀ i, slotAt l.hs i ≠ none → i ≠ g := fun i h e => h (e ▸ hg)
  obtain ⟨m, t⟩ := pushR_ok (e := e) ok.mag ok.inc hle hu lo hi' path
  refine ⟨⟨hl, ?_, by rw [hfun]; exact t, by rw [hfun]; exact m⟩, h1, h2, h3, h4, h5, ?_, ⟨?_, ?_⟩, ?_, ?_⟩
  · intro i s h
    rw [hf] at h
    rcases pushR_from h with ⟨_, rfl⟩ | ⟨_, _, h⟩ | ⟨_, h⟩
    · exact he
    · exact ok.tag _ _ h
    · exact ok.tag _ _ h
  · rw [hf]; simp [pushR]
  · intro i s h
    have := hne i (by rw [h]; simp)
    rw [hf, hσ]
    unfold pushR
    by_cases hc : pos ≤ i ∧ i < g
    · rw [if_pos hc, if_neg (by omega), if_pos (by omega), show i + 1 - 1 = i by omega]; exact h
    · rw [if_neg hc, if_neg (by omega), if_neg (by omega)]; exact h
  · intro i j h1 h2
    have := hne i h1
    have := hne j h2
    rw [hσ, hσ]
    split_ifs <;> omega
  · intro i h
    have := hne i h
    rw [hσ]
    split_ifs <;> omega
  · intro j s h
    rw [hf] at h
    rcases pushR_from h with ⟨h, _⟩ | ⟨h6, h7, h⟩ | ⟨h6, h⟩
    · exact Or.inl h
    · exact Or.inr ⟨j - 1, h, by rw [hσ, if_pos (by omega)]; omega⟩
    · exact Or.inr ⟨j, h, by rw [hσ, if_neg (by omega)]⟩

theorem insertHs_spec (ok : HsOK l.hs) (he : e.tag = kvTag e.kv.1) (h32 : ∀ i ∈ l.idx, i < 32)
    (free : ∃ g, g < 32 ∧ slotAt l.hs g = none) : ∃ l' pos σ, l.insertHs e = .ok (l', pos) ∧ SlotIn l l' e pos σ := by
  have hp : e.tag < 65536 := by rw [he]; exact (kvTag_range _).2
  have hi0 := home_lt hp
  have hlen := ok.len
  unfold SLeaf.insertHs
  dsimp only
  cases h0 : slotAt l.hs (home e.tag) with
  | none =>
    refine ⟨_, _, fun v => v, rfl, SlotIn.left ok he (g := home e.tag) h0 (Nat.le_refl _) (fun j h1 h2 => by omega) ?_ ?_ ?_
      ?_ ?_ ?_ rfl rfl rfl rfl (by simp [SLeaf.idx])⟩
    · intro j s h1 h2
      have hj : j < home e.tag := by
        rcases Nat.lt_or_ge j (home e.tag) with h | h
        · exact h
        · obtain rfl : j = home e.tag := by omega
          rw [h0] at h2; simp at h2
      have := ok.mag.left h0 h2 hj
      by_contra hn
      have := home_mono (show e.tag ≤ s.tag by omega)
      omega
    · intro j s h1 h2
      have := ok.mag.right h0 h2 h1
      by_contra hn
      have := home_mono (show s.tag ≤ e.tag by omega)
      omega
    · intro j hj; exact Or.inr (by omega)
    · intro v; rw [if_neg (by omega)]
    · rw [List.length_set, hlen]
    · intro j
      dsimp only
      rw [slotAt_set (by omega)]
      unfold pushL
      split_ifs <;> first | rfl | omega
  | some s0 =>
    obtain ⟨q, el, ir, er, e1, P⟩ := insertPoints_spec ok hp h0
    dsimp only
    rw [e1]
    dsimp only
    have ⟨g, hg32, hg⟩ := free
    have hq := P.q32
    have hel := P.elq
    have hir := P.qir
    have hie := P.irer
    have hhe := P.her
    have hside : el ≠ 0 ∨ er < 32 := by
      by_contra hn
      rcases Nat.lt_or_ge (home e.tag) g with h | h
      · exact P.erUsed g (by omega) (by omega) hg
      · exact P.elUsed g (by omega) h hg
    have hir32 : ir ≤ 32 := by
      by_contra hn
      obtain ⟨s, hs⟩ := Option.ne_none_iff_exists'.1 (P.irUsed (ir - 1) (by omega) (by omega))
      have := slotAt_lt hs
      omega
    have tag_ge : ∀ j s, q ≤ j → slotAt l.hs j = some s → e.tag ≤ s.tag := P.above
    by_cases hd : (if el ≠ 0 then (q + 2 ^ 32 - el) % 2 ^ 32 else 32) ≤ (if er < 32 then (er + 2 ^ 32 - ir) % 2 ^ 32 else 32)
    · rw [if_pos hd]
      have hel0 : el ≠ 0 := by
        intro hz
        rw [if_neg (by omega)] at hd
        rcases hside with h | h
        · exact h hz
        · rw [if_pos h] at hd; omega
      rw [if_pos hel0, show (q + 2 ^ 32 - el) % 2 ^ 32 = q - el by omega]
      have hfree := P.elFree (el - 1) (by omega)
      have lo : ∀ j s, j ≤ q - 1 → slotAt l.hs j = some s → s.tag ≤ e.tag := fun j s h1 h2 =>
        Nat.le_of_lt (P.below j s (by omega) h2)
      have hi' : ∀ j s, q - 1 < j → slotAt l.hs j = some s → e.tag ≤ s.tag := fun j s h1 h2 => P.above j s (by omega) h2
      have hu : ∀ j, el - 1 < j → j ≤ q - 1 → slotAt l.hs j ≠ none := by
        intro j h1 h2
        rcases Nat.lt_or_ge (home e.tag) j with h | h
        · exact P.front j (by omega) (by omega)
        · exact P.elUsed j (by omega) h
      have path : ∀ j, (home e.tag ≤ j ∧ j ≤ q - 1) ∨ (q - 1 ≤ j ∧ j ≤ home e.tag) →
          slotAt l.hs j ≠ none ∨ j = el - 1 := by
        intro j hj
        by_cases hc : j = el - 1
        · exact Or.inr hc
        · left
          rcases hj with hj | hj
          · exact P.front j (by omega) (by omega)
          · rcases Nat.lt_or_ge j q with h | h
            · exact hu j (by omega) (by omega)
            · exact P.back j h hj.2
      by_cases hz : q - el = 0
      · rw [if_neg (by omega), Res.bind_ok, if_neg (by omega)]
        refine ⟨_, _, fun v => v, rfl, SlotIn.left ok he hfree (by omega) hu lo hi' path ?_ ?_ ?_ rfl rfl rfl rfl
          (by simp [SLeaf.idx])⟩
        · intro v; rw [if_neg (by omega)]
        · rw [List.length_set, hlen]
        · intro j
          dsimp only
          rw [slotAt_set (by omega)]
          unfold pushL
          split_ifs <;> first | rfl | omega
      · rw [if_pos hz]
        obtain ⟨l1, e2, a1, a2, a3, a4, a5, a6, a7⟩ := shiftDec_spec (l := l) hlen (dst := el - 1) (nr := q - el) (by omega) h32
        rw [e2, Res.bind_ok, if_neg (by omega)]
        refine ⟨_, _, fun v => if el - 1 < v ∧ v ≤ q - 1 then v - 1 else v, rfl, SlotIn.left ok he hfree (by omega) hu lo hi'
          path (fun v => rfl) (by rw [List.length_set, a4]) ?_ a1 a2 a3 a5 ?_⟩
        · intro j
          dsimp only
          rw [slotAt_set (by omega), a7]
          unfold pushL
          split_ifs <;> first | rfl | omega
        · show l1.idx = _
          rw [a6]
          apply List.map_congr_left
          intro v _
          by_cases hc : el - 1 < v ∧ v ≤ q - 1
          · rw [if_pos hc, if_pos (by omega)]
          · rw [if_neg hc, if_neg (by omega)]
    · rw [if_neg hd]
      have her : er < 32 := by
        by_contra hz
        rw [if_neg hz] at hd
        by_cases h : el ≠ 0
        · rw [if_pos h] at hd; omega
        · rw [if_neg h] at hd; omega
      rw [if_pos her, show (er + 2 ^ 32 - ir) % 2 ^ 32 = er - ir by omega]
      have lo : ∀ j s, j < ir → slotAt l.hs j = some s → s.tag ≤ e.tag := by
        intro j s h1 h2
        rcases Nat.lt_or_ge j q with h | h
        · exact Nat.le_of_lt (P.below j s h h2)
        · exact Nat.le_of_eq (P.same j s h h1 h2)
      have hi' : ∀ j s, ir ≤ j → slotAt l.hs j = some s → e.tag ≤ s.tag := fun j s h1 h2 => P.above j s (by omega) h2
      have hu : ∀ j, ir ≤ j → j < er → slotAt l.hs j ≠ none := by
        intro j h1 h2
        rcases Nat.lt_or_ge j (home e.tag) with h | h
        · exact P.back j (by omega) (by omega)
        · exact P.erUsed j h h2
      have path : ∀ j, (home e.tag ≤ j ∧ j ≤ ir) ∨ (ir ≤ j ∧ j ≤ home e.tag) → slotAt l.hs j ≠ none ∨ j = er := by
        intro j hj
        by_cases hc : j = er
        · exact Or.inr hc
        · left
          rcases hj with hj | hj
          · exact P.erUsed j hj.1 (by omega)
          · exact P.back j (by omega) hj.2
      by_cases hz : er - ir = 0
      · rw [if_neg (by omega), Res.bind_ok, if_neg (by omega)]
        refine ⟨_, _, fun v => v, rfl, SlotIn.right ok he P.erFree hie hu lo hi' path ?_ ?_ ?_ rfl rfl rfl rfl
          (by simp [SLeaf.idx])⟩
        · intro v; rw [if_neg (by omega)]
        · rw [List.length_set, hlen]
        · intro j
          dsimp only
          rw [slotAt_set (by omega)]
          unfold pushR
          split_ifs <;> first | rfl | omega
      · rw [if_pos hz]
        obtain ⟨l1, e2, a1, a2, a3, a4, a5, a6, a7⟩ := shiftInc_spec (l := l) hlen (src := ir) (nr := er - ir) (by omega) h32
        rw [e2, Res.bind_ok, if_neg (by omega)]
        refine ⟨_, _, fun v => if ir ≤ v ∧ v < er then v + 1 else v, rfl, SlotIn.right ok he P.erFree hie hu lo hi'
          path (fun v => rfl) (by rw [List.length_set, a4]) ?_ a1 a2 a3 a5 ?_⟩
        · intro j
          dsimp only
          rw [slotAt_set (by omega), a7]
          unfold pushR
          split_ifs <;> first | rfl | omega
        · show l1.idx = _
          rw [a6]
          apply List.map_congr_left
          intro v _
          by_cases hc : ir ≤ v ∧ v < er
          · rw [if_pos hc, if_pos (by omega)]
          · rw [if_neg hc, if_neg (by omega)]

end

end Verif
