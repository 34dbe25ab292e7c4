import Verif.Model.WhMem
import Verif.Proof.WhStrFull

/-!
# The index keys of two tables

While one table changes, `L` holds the nodes of the other one with their keys.
-/

namespace Verif.Mem

/-- Number of nodes with the key in block `id`. -/
def uses (K : List (Key × Nat)) (id : Nat) : Nat := K.countP fun e => e.2 == id

/-- The nodes `K` have their keys on the heap, and the keys count them. Only the key `z` may have no user. -/
structure Counted (K : List (Key × Nat)) (z : Option (Nat × Key)) (hp : TreeHeap) : Prop where
  live : ∀ e ∈ K, ∃ b n, hp.block e.2 = some (.mkey b n) ∧ e.1 <+: b
  count : ∀ id b n, hp.block id = some (.mkey b n) → n = uses K id ∧ (n = 0 → ∃ a, z = some (id, a))
  new : ∀ id a, z = some (id, a) → ∃ n, hp.block id = some (.mkey a n)

/-- `x` lists a key for every node, and no other. -/
structure Dom (x : RefIndex) : Prop where
  mem : ∀ p, x.index.get p ≠ none ↔ p ∈ x.keys.map Prod.fst
  nodup : (x.keys.map Prod.fst).Nodup

/-- Only index keys differ. -/
structure Same (hp hp' : TreeHeap) : Prop where
  next : hp'.next = hp.next
  block : ∀ i b, (∀ s n, b ≠ .mkey s n) → (hp'.block i = some b ↔ hp.block i = some b)
  fresh : ∀ i, hp.block i = none → hp'.block i = none

theorem Same.refl (hp : TreeHeap) : Same hp hp := ⟨rfl, fun _ _ _ => Iff.rfl, fun _ h => h⟩

theorem Same.trans {a b c : TreeHeap} (h : Same a b) (h' : Same b c) : Same a c :=
  ⟨h'.next.trans h.next, fun i x hx => (h'.block i x hx).trans (h.block i x hx), fun i hi => h'.fresh i (h.fresh i hi)⟩

variable {K K' L : List (Key × Nat)} {z : Option (Nat × Key)} {hp hp' : TreeHeap} {x : RefIndex} {p a : Key} {id : Nat}

theorem uses_cons (e : Key × Nat) (id : Nat) : uses (e :: K) id = uses K id + if e.2 = id then 1 else 0 := by
  simp [uses, List.countP_cons]

theorem uses_pos (h : (p, id) ∈ K) : 0 < uses K id := List.countP_pos_iff.2 ⟨_, h, by simp⟩

theorem Counted.perm (h : Counted K z hp) (hK : K.Perm K') : Counted K' z hp :=
  ⟨fun e he => h.live e (hK.mem_iff.2 he), fun id b n hb => by
    obtain ⟨h1, h2⟩ := h.count id b n hb
    exact ⟨by rw [h1]; exact hK.countP_eq _, h2⟩, h.new⟩

theorem put_same {b : Key} {n : Nat} {o : Option Block} (hb : hp.block id = some (.mkey b n)) (ho : ∀ x, o = some x → ∃ s m, x = .mkey s m) :
    Same hp (hp.put id o) := by
  refine ⟨rfl, fun i c hc => ?_, fun i hi => ?_⟩
  · unfold TreeHeap.put
    dsimp only
    by_cases hi : i = id
    · rw [if_pos hi, hi, hb]
      constructor
      · intro e
        obtain ⟨s, m, rfl⟩ := ho c e
        exact absurd rfl (hc s m)
      · intro e
        cases e
        exact absurd rfl (hc _ _)
    · rw [if_neg hi]
  · unfold TreeHeap.put
    dsimp only
    rw [if_neg (fun e => by rw [e, hb] at hi; cases hi), hi]

theorem Counted.retain (h : Counted K z hp) (hz : z = some (id, a)) (hp' : p <+: a) :
    ∃ hp', hp.retain id = .ok hp' ∧ Counted ((p, id) :: K) z hp' ∧ Same hp hp' := by
  obtain ⟨n, hb⟩ := h.new id a hz
  refine ⟨hp.put id (some (.mkey a (n + 1))), by unfold TreeHeap.retain; rw [hb], ⟨fun e he => ?_, fun i b m hi => ?_, fun i b hi => ?_⟩,
    put_same hb fun x hx => ⟨_, _, (Option.some.inj hx).symm⟩⟩
  · unfold TreeHeap.put
    dsimp only
    rcases List.mem_cons.1 he with rfl | he
    · rw [if_pos rfl]; exact ⟨_, _, rfl, hp'⟩
    · obtain ⟨b, m, h1, h2⟩ := h.live e he
      by_cases hi : e.2 = id
      · rw [if_pos hi]
        rw [hi, hb] at h1
        cases h1
        exact ⟨_, _, rfl, h2⟩
      · rw [if_neg hi]; exact ⟨b, m, h1, h2⟩
  · unfold TreeHeap.put at hi
    dsimp only at hi
    rw [uses_cons]
    by_cases hc : i = id
    · rw [if_pos hc] at hi
      cases hi
      obtain ⟨h1, -⟩ := h.count id _ _ hb
      subst hc
      exact ⟨by rw [if_pos rfl, ← h1], fun e => by omega⟩
    · rw [if_neg hc] at hi
      obtain ⟨h1, h2⟩ := h.count i _ _ hi
      exact ⟨by rw [if_neg (fun e => hc e.symm)]; exact h1, h2⟩
  · rw [hz] at hi
    cases hi
    exact ⟨n + 1, by simp [TreeHeap.put]⟩

theorem Counted.release (h : Counted ((p, id) :: K) none hp) :
    ∃ hp', hp.release id = .ok hp' ∧ Counted K none hp' ∧ Same hp hp' := by
  obtain ⟨b, n, hb, hpre⟩ := h.live _ List.mem_cons_self
  dsimp only at hb hpre
  obtain ⟨hn, h0⟩ := h.count id b n hb
  rw [uses_cons, if_pos rfl] at hn
  have others : ∀ i, i ≠ id → ∀ b' m, hp.block i = some (.mkey b' m) → m = uses K i ∧ (m = 0 → ∃ a, (none : Option (Nat × Key)) = some (i, a)) := by
    intro i hi b' m hb'
    obtain ⟨h1, h2⟩ := h.count i b' m hb'
    rw [uses_cons, if_neg (fun e => hi e.symm)] at h1
    exact ⟨h1, h2⟩
  match n, hn with
  | 0, hn => omega
  | 1, hn =>
    have hu : uses K id = 0 := by omega
    refine ⟨hp.put id none, by unfold TreeHeap.release; rw [hb], ⟨fun e he => ?_, fun i b' m hi => ?_, fun i b' hi => (by cases hi)⟩,
      put_same hb fun x hx => by cases hx⟩
    · obtain ⟨b', m, h1, h2⟩ := h.live e (List.mem_cons_of_mem _ he)
      have : e.2 ≠ id := fun hc => by
        have := uses_pos (K := K) (p := e.1) (id := id) (by rw [← hc]; exact he)
        omega
      exact ⟨b', m, by simp [TreeHeap.put, this, h1], h2⟩
    · unfold TreeHeap.put at hi
      dsimp only at hi
      by_cases hc : i = id
      · rw [if_pos hc] at hi; cases hi
      · rw [if_neg hc] at hi
        exact others i hc b' m hi
  | n + 2, hn =>
    refine ⟨hp.put id (some (.mkey b (n + 1))), by unfold TreeHeap.release; rw [hb], ⟨fun e he => ?_, fun i b' m hi => ?_, fun i b' hi => (by cases hi)⟩,
      put_same hb fun x hx => ⟨_, _, (Option.some.inj hx).symm⟩⟩
    · obtain ⟨b', m, h1, h2⟩ := h.live e (List.mem_cons_of_mem _ he)
      unfold TreeHeap.put
      dsimp only
      by_cases hi : e.2 = id
      · rw [if_pos hi]
        rw [hi, hb] at h1
        cases h1
        exact ⟨_, _, rfl, h2⟩
      · rw [if_neg hi]; exact ⟨b', m, h1, h2⟩
    · unfold TreeHeap.put at hi
      dsimp only at hi
      by_cases hc : i = id
      · rw [if_pos hc] at hi
        cases hi
        subst hc
        exact ⟨by omega, fun e => by omega⟩
      · rw [if_neg hc] at hi
        exact others i hc b' m hi

/-- The state while one table changes. -/
structure Half (L : List (Key × Nat)) (z : Option (Nat × Key)) (x : RefIndex) (hp : TreeHeap) : Prop where
  dom : Dom x
  keys : Counted (x.keys ++ L) z hp

theorem Counted.readable (h : Counted (x.keys ++ L) z hp) : x.readable hp = true := by
  unfold RefIndex.readable
  rw [List.all_eq_true]
  intro e he
  obtain ⟨b, n, h1, h2⟩ := h.live e (List.mem_append_left _ he)
  unfold TreeHeap.spells
  rw [h1]
  exact List.isPrefixOf_iff_prefix.2 h2

theorem Half.get (H : Half L z x hp) (p : Key) : x.get hp p = .ok (x.index.get p) := by
  unfold RefIndex.get
  rw [if_pos H.keys.readable]

theorem Half.store (H : Half L z x hp) (hx : x.index.get p ≠ none) (m : Meta) : Half L z (x.store p m) hp := by
  refine ⟨⟨fun q => ?_, H.dom.nodup⟩, H.keys⟩
  show (if q = p then some m else x.index.get q) ≠ none ↔ q ∈ x.keys.map Prod.fst
  rw [← H.dom.mem q]
  by_cases hq : q = p
  · rw [if_pos hq, hq]
    exact ⟨fun _ => hx, fun _ => Option.some_ne_none _⟩
  · rw [if_neg hq]

theorem Half.add (H : Half L z x hp) (hx : x.index.get p = none) (hz : z = some (id, a)) (hpre : p <+: a) (m : Meta) :
    ∃ hp', x.add p m id hp = .ok (⟨x.index.put p (some m), (p, id) :: x.keys⟩, hp') ∧
      Half L z ⟨x.index.put p (some m), (p, id) :: x.keys⟩ hp' ∧ Same hp hp' := by
  obtain ⟨hp', e, h1, h2⟩ := H.keys.retain hz hpre
  have hn : p ∉ x.keys.map Prod.fst := fun hc => (H.dom.mem p).2 hc hx
  refine ⟨hp', by unfold RefIndex.add; rw [e]; rfl, ⟨⟨fun q => ?_, ?_⟩, h1⟩, h2⟩
  · show (if q = p then some m else x.index.get q) ≠ none ↔ q ∈ p :: x.keys.map Prod.fst
    rw [List.mem_cons, ← H.dom.mem q]
    by_cases hq : q = p
    · rw [if_pos hq]; exact ⟨fun _ => .inl hq, fun _ => Option.some_ne_none _⟩
    · rw [if_neg hq]; exact ⟨.inr, fun h => h.resolve_left hq⟩
  · exact List.nodup_cons.2 ⟨hn, H.dom.nodup⟩

/-- One entry of a list without repetitions, found and taken out. -/
theorem find_split : ∀ {K : List (Key × Nat)}, (K.map Prod.fst).Nodup → p ∈ K.map Prod.fst →
    ∃ id, K.find? (·.1 == p) = some (p, id) ∧ K.Perm ((p, id) :: K.filter (·.1 != p))
  | [], _, h => by cases h
  | (q, i) :: K, hn, h => by
    rw [List.map_cons, List.nodup_cons] at hn
    by_cases hq : q = p
    · subst hq
      have : K.filter (·.1 != q) = K := List.filter_eq_self.2 fun e he => by
        rw [bne_iff_ne]
        exact fun hc => hn.1 (List.mem_map.2 ⟨e, he, hc⟩)
      refine ⟨i, by simp, ?_⟩
      rw [List.filter_cons_of_neg (by simp), this]
    · have h' : p ∈ K.map Prod.fst := by
        rcases List.mem_cons.1 h with e | e
        · exact absurd e.symm hq
        · exact e
      obtain ⟨id, h1, h2⟩ := find_split hn.2 h'
      refine ⟨id, ?_, ?_⟩
      · rw [List.find?_cons_of_neg (by simpa using hq), h1]
      · rw [List.filter_cons_of_pos (by simpa using hq)]
        exact (h2.cons _).trans (List.Perm.swap _ _ _)

theorem Half.remove (H : Half L none x hp) (hx : x.index.get p ≠ none) :
    ∃ hp', x.remove p hp = .ok (⟨x.index.put p none, x.keys.filter (·.1 != p)⟩, hp') ∧
      Half L none ⟨x.index.put p none, x.keys.filter (·.1 != p)⟩ hp' ∧ Same hp hp' := by
  obtain ⟨id, h1, h2⟩ := find_split H.dom.nodup ((H.dom.mem p).1 hx)
  obtain ⟨hp', e, h3, h4⟩ := Counted.release (H.keys.perm (h2.append_right L))
  refine ⟨hp', by unfold RefIndex.remove; rw [h1]; dsimp only; rw [e]; rfl, ⟨⟨fun q => ?_, ?_⟩, h3⟩, h4⟩
  · show (if q = p then none else x.index.get q) ≠ none ↔ q ∈ (x.keys.filter (·.1 != p)).map Prod.fst
    by_cases hq : q = p
    · rw [if_pos hq]
      refine ⟨fun h => absurd rfl h, fun h => ?_⟩
      obtain ⟨e, he, rfl⟩ := List.mem_map.1 h
      have := (List.mem_filter.1 he).2
      rw [bne_iff_ne] at this
      exact absurd hq this
    · rw [if_neg hq, H.dom.mem q]
      simp only [List.mem_map, List.mem_filter, bne_iff_ne]
      constructor
      · rintro ⟨e, he, rfl⟩; exact ⟨e, ⟨he, hq⟩, rfl⟩
      · rintro ⟨e, ⟨he, -⟩, rfl⟩; exact ⟨e, he, rfl⟩
  · exact H.dom.nodup.sublist (List.filter_sublist.map _)

/-! ## Splits -/

theorem Half.touchLoop (a prev : Key) (next : Option Key) (hz : z = some (id, a)) : ∀ (n i : Nat) {x : RefIndex} {hp : TreeHeap} {y : Index}, Half L z x hp →
    Verif.touchLoop a prev next n i x.index = .ok y → ∃ x' hp', refTouchLoop a prev next id n i x hp = .ok (x', hp') ∧
      Half L z x' hp' ∧ Same hp hp' ∧ x'.index = y
  | 0, _, _, _, _, _, e => by rw [Verif.touchLoop] at e; cases e
  | n + 1, i, x, hp, y, H, e => by
    rw [Verif.touchLoop] at e
    rw [refTouchLoop, H.get, Res.bind_ok]
    obtain ⟨m, em, e⟩ := Res.bind_eq_ok e
    rw [em, Res.bind_ok]
    have step : ∃ x1 hp1, x.touch (a.take i) m id (x.index.get (a.take i)) hp = .ok (x1, hp1) ∧ Half L z x1 hp1 ∧ Same hp hp1 ∧
        x1.index = x.index.put (a.take i) (some m) := by
      unfold RefIndex.touch
      cases ho : x.index.get (a.take i) with
      | some m0 => exact ⟨_, _, rfl, H.store (by rw [ho]; exact Option.some_ne_none _) m, Same.refl _, rfl⟩
      | none =>
        obtain ⟨hp1, e1, h1, h2⟩ := H.add ho hz (List.take_prefix i a) m
        exact ⟨_, _, e1, h1, h2, rfl⟩
    obtain ⟨x1, hp1, e1, H1, S1, hx1⟩ := step
    rw [e1, Res.bind_ok]
    dsimp only at e ⊢
    rw [← hx1] at e
    by_cases hi : i ≥ a.length
    · rw [if_pos hi] at e ⊢
      cases e
      exact ⟨_, _, rfl, ⟨⟨H1.dom.mem, H1.dom.nodup⟩, H1.keys⟩, S1, rfl⟩
    · rw [if_neg hi] at e ⊢
      obtain ⟨x2, hp2, e2, H2, S2, h2⟩ := Half.touchLoop a prev next hz n (i + 1) H1 e
      exact ⟨x2, hp2, e2, H2, S1.trans S2, h2⟩

theorem Half.pathLoop (a2 lpath : Key) : ∀ (n i : Nat) {x : RefIndex} {y : Index}, Half L z x hp →
    lpathLoop a2 lpath n i x.index = .ok y → ∃ x', refPathLoop a2 lpath n i x hp = .ok x' ∧ Half L z x' hp ∧ x'.index = y
  | 0, _, _, _, _, e => by rw [lpathLoop] at e; cases e
  | n + 1, i, x, y, H, e => by
    rw [lpathLoop] at e
    rw [refPathLoop, H.get]
    by_cases hi : i < a2.length
    · rw [if_pos hi] at e ⊢
      rw [Res.bind_ok]
      cases hg : x.index.get (a2.take i) with
      | none => rw [hg] at e; cases e
      | some m =>
        rw [hg] at e
        exact Half.pathLoop a2 lpath n (i + 1) (H.store (by rw [hg]; exact Option.some_ne_none _) _) e
    · rw [if_neg hi] at e ⊢
      cases e
      exact ⟨x, rfl, H, rfl⟩

theorem Half.path {y : Index} (H : Half L z x hp) {a1 a2 lpath : Key} (e : lpathUpdate x.index a1 a2 lpath = .ok y) :
    ∃ x', refPath x hp a1 a2 lpath = .ok x' ∧ Half L z x' hp ∧ x'.index = y := by
  unfold lpathUpdate at e
  unfold refPath
  by_cases hc : a2.length > pbufRoom
  · rw [if_pos hc] at e; cases e
  · rw [if_neg hc] at e ⊢; exact Half.pathLoop _ _ _ _ H e

theorem Half.split {y : Index} (H : Half L (some (id, a)) x hp) {prev : Key} {next : Option Key} (e : indexSplit x.index prev a next = .ok y) :
    ∃ x' hp', refSplit x hp id prev a next = .ok (x', hp') ∧ Half L (some (id, a)) x' hp' ∧ Same hp hp' ∧ x'.index = y := by
  unfold indexSplit at e
  unfold refSplit
  cases next with
  | none => exact Half.touchLoop _ _ _ rfl _ _ H e
  | some n =>
    dsimp only at e ⊢
    by_cases hc : a.length < keyLcp prev n
    · rw [if_pos hc] at e; cases e
    · rw [if_neg hc] at e ⊢
      obtain ⟨y1, e1, e⟩ := Res.bind_eq_ok e
      obtain ⟨x1, hp1, f1, H1, S1, rfl⟩ := Half.touchLoop _ _ _ rfl _ _ H e1
      obtain ⟨x2, f2, H2, h2⟩ := H1.path e
      exact ⟨x2, hp1, by rw [f1, Res.bind_ok]; dsimp only; rw [f2]; rfl, H2, S1, h2⟩

/-! ## Merges -/

theorem Half.dropChild {y : Index} (H : Half L z x hp) {i : Nat} (e : Verif.dropChild a i x.index = .ok y) :
    ∃ x', refDropChild a i x = .ok x' ∧ Half L z x' hp ∧ x'.index = y := by
  unfold Verif.dropChild at e
  unfold refDropChild
  cases hg : x.index.get (a.take (i - 1)) with
  | none => rw [hg] at e; cases e
  | some m =>
    rw [hg] at e
    cases hb : a[i - 1]? with
    | none => rw [hb] at e; cases e
    | some b =>
      rw [hb] at e
      dsimp only at e ⊢
      obtain ⟨m', em, e⟩ := Res.bind_eq_ok e
      cases e
      rw [em]
      exact ⟨_, rfl, H.store (by rw [hg]; exact Option.some_ne_none _) m', rfl⟩

theorem Half.mergeLoop (a prev : Key) (next : Option Key) : ∀ (n i : Nat) (par : Bool) {x : RefIndex} {hp : TreeHeap} {y : Index}, Half L none x hp →
    Verif.mergeLoop a prev next n i par x.index = .ok y → ∃ x' hp', refMergeLoop a prev next n i par x hp = .ok (x', hp') ∧
      Half L none x' hp' ∧ Same hp hp' ∧ x'.index = y
  | 0, _, _, _, _, _, _, e => by rw [Verif.mergeLoop] at e; cases e
  | n + 1, i, par, x, hp, y, H, e => by
    rw [Verif.mergeLoop] at e
    rw [refMergeLoop, H.get, Res.bind_ok]
    cases hg : x.index.get (a.take i) with
    | none => rw [hg] at e; cases e
    | some m =>
      rw [hg] at e
      have hx : x.index.get (a.take i) ≠ none := by rw [hg]; exact Option.some_ne_none _
      dsimp only at e ⊢
      by_cases hl : m.lmost = m.rmost
      · rw [if_pos hl] at e ⊢
        by_cases hbm : m.bitmap.isSome = true
        · rw [if_pos hbm] at e; cases e
        rw [if_neg hbm] at e ⊢
        obtain ⟨hp1, e1, H1, S1⟩ := H.remove hx
        rw [e1, Res.bind_ok]
        dsimp only
        obtain ⟨y1, f1, e⟩ := Res.bind_eq_ok e
        have step : ∃ x2, (if par = true then refDropChild a i ⟨x.index.put (a.take i) none, x.keys.filter (·.1 != a.take i)⟩
              else .ok ⟨x.index.put (a.take i) none, x.keys.filter (·.1 != a.take i)⟩) = .ok x2 ∧ Half L none x2 hp1 ∧ x2.index = y1 := by
          by_cases hpar : par = true
          · rw [if_pos hpar] at f1 ⊢
            exact H1.dropChild f1
          · rw [if_neg hpar] at f1 ⊢
            cases f1
            exact ⟨_, rfl, H1, rfl⟩
        obtain ⟨x2, f2, H2, rfl⟩ := step
        rw [f2, Res.bind_ok]
        by_cases hm : m.bitmin = 256
        · rw [if_pos hm] at e ⊢
          cases e
          exact ⟨_, _, rfl, H2, S1, rfl⟩
        · rw [if_neg hm] at e ⊢
          by_cases hi : i ≥ a.length
          · rw [if_pos hi] at e ⊢
            cases e
            exact ⟨_, _, rfl, H2, S1, rfl⟩
          · rw [if_neg hi] at e ⊢
            obtain ⟨x3, hp3, f3, H3, S3, h3⟩ := Half.mergeLoop a prev next n (i + 1) false H2 e
            exact ⟨x3, hp3, f3, H3, S1.trans S3, h3⟩
      · rw [if_neg hl] at e ⊢
        obtain ⟨m', em, e⟩ := Res.bind_eq_ok e
        rw [em, Res.bind_ok]
        by_cases hi : i ≥ a.length
        · rw [if_pos hi] at e ⊢
          cases e
          exact ⟨_, _, rfl, H.store hx m', Same.refl _, rfl⟩
        · rw [if_neg hi] at e ⊢
          exact Half.mergeLoop a prev next n (i + 1) true (H.store hx m') e

theorem Half.merge {y : Index} (H : Half L none x hp) {prev : Key} {next : Option Key} (e : indexMerge x.index prev a next = .ok y) :
    ∃ x' hp', refMerge x hp prev a next = .ok (x', hp') ∧ Half L none x' hp' ∧ Same hp hp' ∧ x'.index = y := by
  unfold indexMerge at e
  unfold refMerge
  by_cases hr : a.length > pbufRoom
  · rw [if_pos hr] at e; cases e
  rw [if_neg hr] at e ⊢
  cases next with
  | none => exact Half.mergeLoop _ _ _ _ _ _ H e
  | some n =>
    dsimp only at e ⊢
    by_cases hc : a.length < keyLcp prev n
    · rw [if_pos hc] at e; cases e
    · rw [if_neg hc] at e ⊢
      obtain ⟨y1, e1, e⟩ := Res.bind_eq_ok e
      obtain ⟨x1, hp1, f1, H1, S1, rfl⟩ := Half.mergeLoop _ _ _ _ _ _ H e1
      obtain ⟨x2, f2, H2, h2⟩ := H1.path e
      exact ⟨x2, hp1, by rw [f1, Res.bind_ok]; dsimp only; rw [f2]; rfl, H2, S1, h2⟩

/-! ## Both tables -/

/-- The state between two calls. -/
structure Both (s : Tables) : Prop where
  cur : Dom s.cur
  other : Dom s.other
  same : s.cur.index = s.other.index
  keys : Counted (s.cur.keys ++ s.other.keys) none s.heap
  fresh : ∀ i, s.heap.next ≤ i → s.heap.block i = none

theorem alloc_same {b : Block} (hf : ∀ i, hp.next ≤ i → hp.block i = none) {i : Nat} {c : Block} (hc : hp.block i = some c) : (hp.alloc b).block i = some c := by
  unfold TreeHeap.alloc TreeHeap.put
  dsimp only
  rw [if_neg (fun e => by rw [e, hf _ (Nat.le_refl _)] at hc; cases hc), hc]

theorem alloc_at (b : Block) : (hp.alloc b).block hp.next = some b := by simp [TreeHeap.alloc, TreeHeap.put]

theorem alloc_old {b : Block} {i : Nat} (hi : i ≠ hp.next) : (hp.alloc b).block i = hp.block i := by simp [TreeHeap.alloc, TreeHeap.put, hi]

theorem alloc_fresh {b : Block} (hf : ∀ i, hp.next ≤ i → hp.block i = none) : ∀ i, (hp.alloc b).next ≤ i → (hp.alloc b).block i = none := by
  intro i hi
  have : hp.next + 1 ≤ i := hi
  rw [alloc_old (by omega), hf i (by omega)]

theorem Counted.lt (h : Counted K z hp) (hf : ∀ i, hp.next ≤ i → hp.block i = none) {e : Key × Nat} (he : e ∈ K) : e.2 < hp.next := by
  obtain ⟨b, n, h1, -⟩ := h.live e he
  by_contra hc
  rw [hf _ (by omega)] at h1
  cases h1

theorem uses_fresh (h : Counted K z hp) (hf : ∀ i, hp.next ≤ i → hp.block i = none) : uses K hp.next = 0 := by
  unfold uses
  rw [List.countP_eq_zero]
  intro e he
  have := h.lt hf he
  simp only [beq_iff_eq]
  omega

/-- Another block for something else. -/
theorem Counted.alloc (h : Counted K none hp) (hf : ∀ i, hp.next ≤ i → hp.block i = none) {b : Block} (hb : ∀ s n, b ≠ .mkey s n) :
    Counted K none (hp.alloc b) := by
  refine ⟨fun e he => ?_, fun id c n hc => ?_, fun id a e => by cases e⟩
  · obtain ⟨c, n, h1, h2⟩ := h.live e he
    exact ⟨c, n, alloc_same hf h1, h2⟩
  · by_cases hi : id = hp.next
    · rw [hi, alloc_at] at hc
      exact absurd (Option.some.inj hc) (hb _ _)
    · rw [alloc_old hi] at hc
      exact h.count id c n hc

/-- A new index key. -/
theorem Counted.allocKey (h : Counted K none hp) (hf : ∀ i, hp.next ≤ i → hp.block i = none) (a : Key) :
    Counted K (some (hp.next, a)) (hp.alloc (.mkey a 0)) := by
  refine ⟨fun e he => ?_, fun id c n hc => ?_, fun id b e => ?_⟩
  · obtain ⟨c, n, h1, h2⟩ := h.live e he
    exact ⟨c, n, alloc_same hf h1, h2⟩
  · by_cases hi : id = hp.next
    · subst hi
      rw [alloc_at] at hc
      cases hc
      exact ⟨(uses_fresh h hf).symm, fun _ => ⟨_, rfl⟩⟩
    · rw [alloc_old hi] at hc
      obtain ⟨h1, h2⟩ := h.count id c n hc
      exact ⟨h1, fun e => by obtain ⟨_, hc⟩ := h2 e; cases hc⟩
  · cases e
    exact ⟨0, alloc_at _⟩

/-- A block of something else is freed. -/
theorem Counted.free (h : Counted K none hp) {b : Block} (hb : ∀ s n, b ≠ .mkey s n) (hi : hp.block id = some b) : Counted K none (hp.put id none) := by
  refine ⟨fun e he => ?_, fun i c n hc => ?_, fun id a e => by cases e⟩
  · obtain ⟨c, n, h1, h2⟩ := h.live e he
    refine ⟨c, n, ?_, h2⟩
    unfold TreeHeap.put
    dsimp only
    rw [if_neg (fun e' => by rw [e', hi] at h1; exact hb _ _ (Option.some.inj h1)), h1]
  · unfold TreeHeap.put at hc
    dsimp only at hc
    by_cases hid : i = id
    · rw [if_pos hid] at hc; cases hc
    · rw [if_neg hid] at hc; exact h.count i c n hc

theorem Counted.dropUnused (h : Counted K (some (id, a)) hp) : ∃ hp', hp.dropUnused id = .ok hp' ∧ Counted K none hp' ∧ Same hp hp' := by
  obtain ⟨n, hb⟩ := h.new id a rfl
  obtain ⟨hn, -⟩ := h.count id a n hb
  have others : ∀ i b m, i ≠ id → hp.block i = some (.mkey b m) → m = uses K i ∧ (m = 0 → ∃ a, (none : Option (Nat × Key)) = some (i, a)) := by
    intro i b m hi hb'
    obtain ⟨h1, h2⟩ := h.count i b m hb'
    exact ⟨h1, fun e => by obtain ⟨_, hc⟩ := h2 e; cases hc; exact absurd rfl hi⟩
  cases n with
  | zero =>
    refine ⟨hp.put id none, by unfold TreeHeap.dropUnused; rw [hb]; rfl, ⟨fun e he => ?_, fun i b m hi => ?_, fun i b hi => by cases hi⟩,
      put_same hb fun x hx => by cases hx⟩
    · obtain ⟨b', m, h1, h2⟩ := h.live e he
      have : e.2 ≠ id := fun hc => by
        have := uses_pos (K := K) (p := e.1) (id := id) (by rw [← hc]; exact he)
        omega
      exact ⟨b', m, by simp [TreeHeap.put, this, h1], h2⟩
    · unfold TreeHeap.put at hi
      dsimp only at hi
      by_cases hc : i = id
      · rw [if_pos hc] at hi; cases hi
      · rw [if_neg hc] at hi; exact others i b m hc hi
  | succ n =>
    refine ⟨hp, by unfold TreeHeap.dropUnused; rw [hb]; rfl, ⟨h.live, fun i b m hi => ?_, fun i b hi => by cases hi⟩, Same.refl _⟩
    by_cases hc : i = id
    · subst hc
      rw [hb] at hi
      cases hi
      exact ⟨hn, fun e => by omega⟩
    · exact others i b m hc hi

variable {s : Tables} {prev : Key} {next : Option Key} {y : Index}

/-- Fresh numbers stay fresh. -/
theorem Same.above (h : Same hp hp') (hf : ∀ i, hp.next ≤ i → hp.block i = none) : ∀ i, hp'.next ≤ i → hp'.block i = none := by
  intro i hi
  rw [h.next] at hi
  exact h.fresh i (hf i hi)

/-- Between two heaps only index keys differ, and `hp'` may have given out further numbers. -/
structure Grown (hp hp' : TreeHeap) : Prop where
  next : hp.next ≤ hp'.next
  block : ∀ i b, (∀ s n, b ≠ .mkey s n) → (hp'.block i = some b ↔ hp.block i = some b)

theorem Both.split (H : Both s) (e : indexSplit s.cur.index prev a next = .ok y) :
    ∃ s', s.split prev a next = .ok s' ∧ Both s' ∧ s'.cur.index = y ∧ Grown s.heap s'.heap := by
  unfold Tables.split
  have h0 := H.keys.allocKey H.fresh a
  obtain ⟨x1, hp1, f1, H1, S1, hx1⟩ := Half.split (L := s.cur.keys) ⟨H.other, h0.perm List.perm_append_comm⟩ (H.same ▸ e)
  obtain ⟨y1, hp2, f2, H2, S2, hy1⟩ := Half.split (L := x1.keys) ⟨H.cur, H1.keys.perm List.perm_append_comm⟩ e
  obtain ⟨hp3, f3, h3, S3⟩ := H2.keys.dropUnused
  have S := (S1.trans S2).trans S3
  refine ⟨⟨x1, y1, hp3⟩, ?_, ⟨H1.dom, H2.dom, hx1.trans hy1.symm, h3.perm List.perm_append_comm, S.above (alloc_fresh H.fresh)⟩, hx1, ?_, fun i b hb => ?_⟩
  · dsimp only
    rw [f1, Res.bind_ok]
    dsimp only
    rw [f2, Res.bind_ok]
    dsimp only
    rw [f3]
    rfl
  · show s.heap.next ≤ hp3.next
    rw [S.next]
    exact Nat.le_succ _
  · refine (S.block i b hb).trans ?_
    by_cases hi : i = s.heap.next
    · rw [hi, alloc_at, H.fresh _ (Nat.le_refl _)]
      exact ⟨fun e => absurd (Option.some.inj e).symm (hb _ _), fun e => by cases e⟩
    · rw [alloc_old hi]

theorem Both.merge (H : Both s) (e : indexMerge s.cur.index prev a next = .ok y) :
    ∃ s', s.merge prev a next = .ok s' ∧ Both s' ∧ s'.cur.index = y ∧ Grown s.heap s'.heap := by
  unfold Tables.merge
  obtain ⟨x1, hp1, f1, H1, S1, hx1⟩ := Half.merge (L := s.cur.keys) ⟨H.other, H.keys.perm List.perm_append_comm⟩ (H.same ▸ e)
  obtain ⟨y1, hp2, f2, H2, S2, hy1⟩ := Half.merge (L := x1.keys) ⟨H.cur, H1.keys.perm List.perm_append_comm⟩ e
  have S := S1.trans S2
  refine ⟨⟨x1, y1, hp2⟩, ?_, ⟨H1.dom, H2.dom, hx1.trans hy1.symm, H2.keys.perm List.perm_append_comm, S.above H.fresh⟩, hx1, Nat.le_of_eq S.next.symm, S.block⟩
  rw [f1, Res.bind_ok]
  dsimp only
  rw [f2]
  rfl

theorem Counted.releaseAll : ∀ {K : List (Key × Nat)} {hp : TreeHeap}, Counted (K ++ L) none hp →
    ∃ hp', Verif.releaseAll K hp = .ok hp' ∧ Counted L none hp' ∧ Same hp hp'
  | [], hp, h => ⟨hp, rfl, h, Same.refl _⟩
  | e :: K, hp, h => by
    obtain ⟨hp1, f1, h1, S1⟩ := Counted.release (p := e.1) (id := e.2) h
    obtain ⟨hp2, f2, h2, S2⟩ := Counted.releaseAll h1
    exact ⟨hp2, by rw [Verif.releaseAll, f1, Res.bind_ok, f2], h2, S1.trans S2⟩

theorem Both.create {hp : TreeHeap} (hf : ∀ i, hp.next ≤ i → hp.block i = none) (hk : ∀ i b n, hp.block i ≠ some (.mkey b n)) :
    ∃ s, Tables.create hp = .ok s ∧ Both s ∧ s.cur.index = Index.empty ∧ Grown hp s.heap := by
  unfold Tables.create
  have h0 : Counted [] (some (hp.next, [])) (hp.alloc (.mkey [] 0)) :=
    Counted.allocKey ⟨fun e he => (by cases he), fun i b n hi => absurd hi (hk i b n), fun _ _ e => (by cases e)⟩ hf []
  obtain ⟨hp1, f1, h1, S1⟩ := h0.retain (p := []) rfl List.prefix_rfl
  obtain ⟨hp2, f2, h2, S2⟩ := h1.retain (p := []) rfl List.prefix_rfl
  have S := S1.trans S2
  have D : Dom ⟨Index.empty, [([], hp.next)]⟩ := by
    refine ⟨fun p => ?_, by simp⟩
    show (if p = [] then _ else none) ≠ none ↔ p ∈ [[]]
    by_cases hp : p = [] <;> simp [hp]
  have h3 : Counted [([], hp.next), ([], hp.next)] none hp2 := by
    refine ⟨h2.live, fun id b n hb => ?_, fun _ _ e => by cases e⟩
    obtain ⟨q1, q2⟩ := h2.count id b n hb
    refine ⟨q1, fun e => ?_⟩
    obtain ⟨a, e2⟩ := q2 e
    cases e2
    rw [e, uses_cons, if_pos rfl] at q1
    omega
  refine ⟨⟨⟨Index.empty, [([], hp.next)]⟩, ⟨Index.empty, [([], hp.next)]⟩, hp2⟩, ?_, ⟨D, D, rfl, h3, S.above (alloc_fresh hf)⟩, rfl, ?_, fun i b hb => ?_⟩
  · dsimp only
    rw [f1, Res.bind_ok, f2]
    rfl
  · show hp.next ≤ hp2.next
    rw [S.next]
    exact Nat.le_succ _
  · refine (S.block i b hb).trans ?_
    by_cases hi : i = hp.next
    · rw [hi, alloc_at, hf _ (Nat.le_refl _)]
      exact ⟨fun e => absurd (Option.some.inj e).symm (hb _ _), fun e => by cases e⟩
    · rw [alloc_old hi]

end Verif.Mem
