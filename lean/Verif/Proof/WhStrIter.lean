import Verif.Proof.WhStrTree

/-!
# The iterator of the string tree
-/

namespace Verif.Str

/-- The leaf, possibly sorted. -/
def SortsLeaf (l l' : SLeaf) : Prop :=
  l' = l ∨ (SLeafOK l' ∧ l'.sorted = l'.nr ∧ l'.anchor = l.anchor ∧ l'.nr = l.nr ∧ l'.list = l.list)

/-- Some leaves were sorted. -/
def Sorts (t t' : STree) : Prop := List.Forall₂ SortsLeaf t t'

theorem SortsLeaf.list {l l' : SLeaf} (h : SortsLeaf l l') : l'.list = l.list := by
  rcases h with rfl | h
  · rfl
  · exact h.2.2.2.2

theorem SortsLeaf.nr {l l' : SLeaf} (h : SortsLeaf l l') : l'.nr = l.nr := by
  rcases h with rfl | h
  · rfl
  · exact h.2.2.2.1

theorem SortsLeaf.perm {l l' : SLeaf} (h : SortsLeaf l l') : l'.entries.Perm l.entries :=
  (l'.list_perm.symm.trans (by rw [h.list])).trans l.list_perm

theorem Sorts.refl (t : STree) : Sorts t t := List.forall₂_same.2 fun _ _ => Or.inl rfl

theorem Sorts.trans {a b c : STree} (h1 : Sorts a b) (h2 : Sorts b c) : Sorts a c := by
  induction h1 generalizing c with
  | nil => exact h2
  | cons h _ ih =>
    cases h2 with
    | cons h' t' =>
      refine List.Forall₂.cons ?_ (ih t')
      rcases h' with rfl | h'
      · exact h
      · rcases h with rfl | h
        · exact Or.inr h'
        · exact Or.inr ⟨h'.1, h'.2.1, by rw [h'.2.2.1, h.2.2.1], by rw [h'.2.2.2.1, h.2.2.2.1],
            by rw [h'.2.2.2.2, h.2.2.2.2]⟩

theorem Sorts.set {A B : STree} {l l' : SLeaf} (h : SortsLeaf l l') : Sorts (A ++ l :: B) (A ++ l' :: B) := by
  induction A with
  | nil => exact List.Forall₂.cons h (Sorts.refl B)
  | cons a A ih => exact List.Forall₂.cons (Or.inl rfl) ih

theorem Sorts.length {t t' : STree} (h : Sorts t t') : t'.length = t.length := (List.Forall₂.length_eq h).symm

theorem Sorts.get {t t' : STree} (h : Sorts t t') {i : Nat} {l : SLeaf} (hl : t[i]? = some l) :
    ∃ l', t'[i]? = some l' ∧ SortsLeaf l l' := by
  induction h generalizing i with
  | nil => simp at hl
  | cons hh _ ih =>
    cases i with
    | zero => simp at hl; subst hl; exact ⟨_, rfl, hh⟩
    | succ i => simp at hl; simpa using ih hl

/-- Number of keys before leaf `i`. -/
def off (t : STree) (i : Nat) : Nat := ((t.take i).flatMap SLeaf.list).length

theorem Sorts.take {t t' : STree} (h : Sorts t t') (i : Nat) : (t'.take i).flatMap SLeaf.list = (t.take i).flatMap SLeaf.list := by
  induction h generalizing i with
  | nil => rfl
  | cons hh _ ih =>
    cases i with
    | zero => rfl
    | succ i => rw [List.take_succ_cons, List.take_succ_cons, List.flatMap_cons, List.flatMap_cons, ih, hh.list]

theorem Sorts.off {t t' : STree} (h : Sorts t t') (i : Nat) : off t' i = off t i := by
  unfold Str.off; rw [h.take]

/-- The cursor is at place `n` of the list, in a sorted leaf; the null cursor is at the end. -/
def CurAt (t : STree) (m : Tree) : Cursor → Nat → Prop
  | none, n => n = m.length
  | some (i, is), n => ∃ l, t[i]? = some l ∧ l.sorted = l.nr ∧ is < l.nr ∧ n = off t i + is

theorem at_split {t : STree} {i : Nat} {l : SLeaf} (h : t[i]? = some l) : ∃ A B, t = A ++ l :: B ∧ A.length = i ∧ A = t.take i := by
  obtain ⟨hi, rfl⟩ := List.getElem?_eq_some_iff.1 h
  exact ⟨t.take i, t.drop (i + 1), by rw [← List.drop_eq_getElem_cons hi, List.take_append_drop],
    by rw [List.length_take]; omega, rfl⟩

theorem off_succ {t : STree} {i : Nat} {l : SLeaf} (h : t[i]? = some l) (ok : SLeafOK l) : off t (i + 1) = off t i + l.nr := by
  unfold off
  rw [List.take_add_one, h]
  simp [ok.list_length]

section
variable {t : STree} {m : Tree}

theorem SRep.at (h : SRep t m) {A B : STree} {l : SLeaf} (e : t = A ++ l :: B) :
    m = A.flatMap SLeaf.list ++ l.list ++ B.flatMap SLeaf.list := by rw [h.eq, e]; simp

theorem CurAt.entry (h : SRep t m) {i is n : Nat} (hc : CurAt t m (some (i, is)) n) :
    ∃ A l B e, t = A ++ l :: B ∧ A.length = i ∧ l.sorted = l.nr ∧ is < l.nr ∧ l.entries[is]? = some e ∧
      m[n]? = some e ∧ n = (A.flatMap SLeaf.list).length + is := by
  obtain ⟨l, hl, hs, hi, hn⟩ := hc
  obtain ⟨A, B, e, hA, hAt⟩ := at_split hl
  have ok : SLeafOK l := h.leaf l (by rw [e]; simp)
  have hll := ok.list_length
  have he : l.list[is]? = l.entries[is]? := by rw [ok.list_of_sorted hs]
  obtain ⟨x, hx⟩ : ∃ x, l.entries[is]? = some x := ⟨l.entries[is]'(by rw [ok.entries_length]; omega), by simp⟩
  have hn' : n = (A.flatMap SLeaf.list).length + is := by rw [hn, hAt]; rfl
  refine ⟨A, l, B, x, e, hA, hs, hi, hx, ?_, hn'⟩
  rw [h.at e, hn', get_mid (by omega), he, hx]

theorem peek_spec (h : SRep t m) {cur : Cursor} {n : Nat} (hc : CurAt t m cur n) : t.peek cur = treePeek m n := by
  cases cur with
  | none =>
    have : m[n]? = none := by rw [List.getElem?_eq_none_iff]; exact Nat.le_of_eq hc.symm
    unfold STree.peek treePeek
    rw [this]
  | some c =>
    obtain ⟨i, is⟩ := c
    obtain ⟨A, l, B, x, e, hA, _, _, hx, hm, _⟩ := hc.entry h
    have hl : t[i]? = some l := by rw [e, ← hA]; simp
    unfold STree.peek treePeek
    simp only [hl, hm]
    exact kvAt_spec (h.leaf l (by rw [e]; simp)).raw hx

theorem CurAt.sorts {i is n : Nat} (hc : CurAt t m (some (i, is)) n) {t' : STree} (hs : Sorts t t') :
    CurAt t' m (some (i, is)) n := by
  obtain ⟨l, hl, h1, h2, h3⟩ := hc
  obtain ⟨l', hl', hh⟩ := hs.get hl
  refine ⟨l', hl', ?_, by rw [hh.nr]; exact h2, by rw [hs.off]; exact h3⟩
  rcases hh with rfl | hh
  · exact h1
  · exact hh.2.1

theorem CurAt.lt {cur : Cursor} {n : Nat} {e : Entry} (hc : CurAt t m cur n) (he : m[n]? = some e) :
    ∃ i is, cur = some (i, is) := by
  cases cur with
  | none =>
    have : n = m.length := hc
    rw [this] at he
    simp at he
  | some c => exact ⟨c.1, c.2, rfl⟩

/-- The leaf that holds a key is its leaf. -/
theorem SRep.zip_of_mem (h : SRep t m) {A B : STree} {l : SLeaf} (e : t = A ++ l :: B) {x : Entry} (hx : x ∈ l.entries) :
    Zip t x.1 A l B := by
  have h' := h
  rw [e] at h'
  have hb := h'.bounds
  have han := h'.anchors
  rw [List.pairwise_append, List.pairwise_cons] at han
  refine ⟨e, ?_, hb.1 x hx, fun b hbm => hb.2 x hx b hbm⟩
  have hA : (A ++ [l]).findIdx (fun l => keyLt x.1 l.anchor) = (A ++ [l]).length := by
    rw [List.findIdx_eq_length]
    intro y hy
    rcases List.mem_append.1 hy with hy | hy
    · exact keyLt_asymm (keyLt_of_lt_of_le (han.2.2 y hy l (by simp)) (hb.1 x hx))
    · rw [List.mem_singleton.1 hy, keyLt_eq_not_le, hb.1 x hx]; rfl
  unfold STree.jump
  have e' : t = (A ++ [l]) ++ B := by rw [e]; simp
  rw [e', List.findIdx_append, hA, if_neg (by omega)]
  have hB : B.findIdx (fun l => keyLt x.1 l.anchor) = 0 := by
    cases B with
    | nil => rfl
    | cons b B => rw [List.findIdx_cons, hb.2 x hx b (by simp)]; rfl
  rw [hB]; simp

theorem write_spec (h : SRep t m) {i is n : Nat} (hc : CurAt t m (some (i, is)) n) {e : Entry} (he : m[n]? = some e)
    (st : Store) : SRep (t.write (some (i, is)) st) (m.set n (e.1, st)) := by
  obtain ⟨A, l, B, x, et, hA, hs, hi, hx, hm, _⟩ := hc.entry h
  rw [he] at hm
  obtain rfl := Option.some.inj hm
  have hl : t[i]? = some l := by rw [et, ← hA]; simp
  have z := h.zip_of_mem et (List.mem_of_getElem? hx)
  have ok := h.ok z
  rw [SLeaf.entries, List.getElem?_map, Option.map_eq_some_iff] at hx
  obtain ⟨ih, hj, hje⟩ := hx
  obtain ⟨a, b, hab, hal⟩ : ∃ a b, l.idx = a ++ ih :: b ∧ a.length = is := by
    obtain ⟨hi', rfl⟩ := List.getElem?_eq_some_iff.1 hj
    exact ⟨l.idx.take is, l.idx.drop (is + 1), by rw [← List.drop_eq_getElem_cons hi', List.take_append_drop],
      by rw [List.length_take]; omega⟩
  obtain ⟨s, hs'⟩ := Option.ne_none_iff_exists'.1 (ok.raw.used ih (List.mem_of_getElem? hj))
  rw [pairAt_of hs'] at hje
  obtain ⟨ok', _, hp⟩ := same_spec ok hs' hab st
  have hss : l.ss.getD is 0 = ih := by
    rw [SLeaf.idx, List.getElem?_take, if_pos hi] at hj
    rw [List.getD_eq_getElem?_getD, hj]; rfl
  have : t.write (some (i, is)) st = A ++ { l with hs := l.hs.set ih (some ⟨s.tag, s.kv.1, st⟩) } :: B := by
    unfold STree.write
    simp only [hl]
    rw [hss, hs', et, ← hA]
    simp
  rw [this, ← set_eq_put h.inc he, ← hje]
  rw [← hje] at z
  exact h.putLeaf z ok' rfl hp

theorem sync_rep (h : SRep t m) {i : Nat} {l : SLeaf} (hl : t[i]? = some l) :
    ∃ l', l.sync = .ok l' ∧ SRep (t.set i l') m ∧ Sorts t (t.set i l') ∧ SLeafOK l' ∧ l'.sorted = l'.nr ∧
      l'.anchor = l.anchor ∧ l'.nr = l.nr ∧ l'.list = l.list := by
  obtain ⟨A, B, e, hA, _⟩ := at_split hl
  have ok : SLeafOK l := h.leaf l (by rw [e]; simp)
  obtain ⟨l', e1, ok', a', n', s', li⟩ := ssync_spec ok
  rw [← n'] at s'
  have hlist : l'.list = l.list := by
    rw [ok'.list_of_sorted s']; exact li
  have hset : t.set i l' = A ++ l' :: B := by rw [e, ← hA]; simp
  have hsl : SortsLeaf l l' := Or.inr ⟨ok', s', a', n', hlist⟩
  have h' := h
  rw [e] at h'
  refine ⟨l', e1, ?_, ?_, ok', s', a', n', hlist⟩
  · rw [hset, h.at e, ← hlist]
    exact h'.set ok' a' (fun x hx => h'.bounds.1 x (hsl.perm.mem_iff.1 hx))
      (fun x hx => h'.bounds.2 x (hsl.perm.mem_iff.1 hx))
  · rw [hset, e]; exact Sorts.set hsl

end

theorem siterFix_spec : ∀ (fuel : Nat) {t : STree} {m : Tree} {i is : Nat} {l : SLeaf}, SRep t m → t[i]? = some l →
    l.sorted = l.nr → is ≤ l.nr → t.length < fuel + i →
    ∃ t' cur, siterFix fuel t i is = .ok (t', cur) ∧ SRep t' m ∧ Sorts t t' ∧ CurAt t' m cur (off t i + is) := by
  intro fuel
  induction fuel with
  | zero =>
    intro t m i is l _ hl _ _ hf
    obtain ⟨hi, _⟩ := List.getElem?_eq_some_iff.1 hl
    omega
  | succ fuel ih =>
    intro t m i is l h hl hs his hf
    have ok : SLeafOK l := h.leaf l (List.mem_of_getElem? hl)
    have ho := off_succ hl ok
    rw [siterFix, hl]
    dsimp only
    by_cases hc : is ≥ l.sorted
    · rw [if_pos hc]
      have hie : is = l.nr := by omega
      cases hn : t[i + 1]? with
      | none =>
        refine ⟨t, none, rfl, h, Sorts.refl t, ?_⟩
        show off t i + is = m.length
        rw [hie, ← ho, h.eq, off, List.take_of_length_le (List.getElem?_eq_none_iff.1 hn)]
      | some n =>
        dsimp only
        obtain ⟨n', e1, h', s', ok', hs', _, _, _⟩ := sync_rep h hn
        rw [e1, Res.bind_ok]
        have hg : (t.set (i + 1) n')[i + 1]? = some n' := by
          obtain ⟨hi, _⟩ := List.getElem?_eq_some_iff.1 hn
          rw [List.getElem?_set_self hi]
        obtain ⟨t', cur, e2, h2, s2, c2⟩ := ih (is := 0) h' hg hs' (Nat.zero_le _) (by rw [List.length_set]; omega)
        refine ⟨t', cur, e2, h2, s'.trans s2, ?_⟩
        rw [s'.off, ho] at c2
        rw [hie]
        exact c2
    · rw [if_neg hc]
      exact ⟨t, some (i, is), rfl, h, Sorts.refl t, l, hl, hs, by omega, rfl⟩

theorem siterFixRev_spec : ∀ (i : Nat) {t : STree} {m : Tree}, SRep t m → i ≤ t.length →
    ∃ t' cur, siterFixRev t i = .ok (t', cur) ∧ SRep t' m ∧ Sorts t t' ∧ (off t i = 0 → cur = none) ∧
      (0 < off t i → CurAt t' m cur (off t i - 1)) := by
  intro i
  induction i with
  | zero =>
    intro t m h _
    exact ⟨t, none, rfl, h, Sorts.refl t, fun _ => rfl, fun hh => by simp [off] at hh⟩
  | succ i ih =>
    intro t m h hi
    obtain ⟨p, hp⟩ : ∃ p, t[i]? = some p := ⟨t[i]'(by omega), by simp⟩
    have ho := off_succ hp (h.leaf p (List.mem_of_getElem? hp))
    rw [siterFixRev, hp]
    dsimp only
    obtain ⟨p', e1, h', s', ok', hs', _, hn, _⟩ := sync_rep h hp
    rw [e1, Res.bind_ok]
    by_cases hz : p'.nr = 0
    · rw [if_pos hz]
      obtain ⟨t', cur, e2, h2, s2, c2, c3⟩ := ih h' (by rw [List.length_set]; omega)
      have : off t (i + 1) = off t i := by omega
      rw [s'.off] at c2 c3
      rw [this]
      exact ⟨t', cur, e2, h2, s'.trans s2, c2, c3⟩
    · rw [if_neg hz]
      refine ⟨_, _, rfl, h', s', fun hh => by omega, fun _ => ⟨p', ?_, hs', by omega, ?_⟩⟩
      · rw [List.getElem?_set_self (by omega)]
      · rw [s'.off]; omega

section
variable {t : STree} {m : Tree}

theorem seek_spec (h : SRep t m) (k : Key) :
    ∃ t' cur, t.seek k = .ok (t', cur) ∧ SRep t' m ∧ Sorts t t' ∧ CurAt t' m cur (treeSeek m k) := by
  obtain ⟨A, l, B, z⟩ := h.zip k
  unfold STree.seek
  dsimp only
  rw [z.get]
  dsimp only
  obtain ⟨l', e1, h', s', ok', hs', _, hn, hli⟩ := sync_rep h z.get
  rw [e1, Res.bind_ok, sleaf_seek ok' hs', Res.bind_ok, ← ok'.list_of_sorted hs', hli]
  have hlt : t.jump k < t.length := by
    obtain ⟨hi, _⟩ := List.getElem?_eq_some_iff.1 z.get
    exact hi
  have hle := seek_le l.list k
  rw [(h.ok z).list_length] at hle
  obtain ⟨t', cur, e2, h2, s2, c2⟩ := siterFix_spec (t.length + 1) h' (i := t.jump k) (l := l') (is := treeSeek l.list k)
    (by rw [List.getElem?_set_self hlt]) hs' (by rw [hn]; exact hle) (by rw [List.length_set]; omega)
  refine ⟨t', cur, e2, h2, s'.trans s2, ?_⟩
  rw [h.list z, seek_mid (h.before z) (h.after z), ← h.list z]
  rw [s'.off] at c2
  have : off t (t.jump k) = (A.flatMap SLeaf.list).length := by
    unfold off
    rw [z.jump, z.eq, List.take_left]
  rw [← this]
  exact c2

theorem skip1_spec (h : SRep t m) {i is n : Nat} (hc : CurAt t m (some (i, is)) n) :
    ∃ t' cur, t.skip1 (some (i, is)) = .ok (t', cur) ∧ SRep t' m ∧ Sorts t t' ∧ CurAt t' m cur (n + 1) := by
  obtain ⟨l, hl, hs, hi, hn⟩ := hc
  obtain ⟨t', cur, e, h', s', c'⟩ := siterFix_spec (t.length + 1) h hl hs (is := is + 1) (by omega) (by omega)
  refine ⟨t', cur, e, h', s', ?_⟩
  rw [hn]; exact c'

theorem skip1Rev_spec (h : SRep t m) {i is n : Nat} (hc : CurAt t m (some (i, is)) n) :
    ∃ t' cur, t.skip1Rev (some (i, is)) = .ok (t', cur) ∧ SRep t' m ∧ Sorts t t' ∧ (n = 0 → cur = none) ∧
      (0 < n → CurAt t' m cur (n - 1)) := by
  obtain ⟨l, hl, hs, hi, hn⟩ := hc
  unfold STree.skip1Rev
  dsimp only
  by_cases hz : is = 0
  · rw [if_pos hz]
    obtain ⟨hlt, _⟩ := List.getElem?_eq_some_iff.1 hl
    obtain ⟨t', cur, e, h', s', c1, c2⟩ := siterFixRev_spec i h (by omega)
    subst hz
    rw [Nat.add_zero] at hn
    exact ⟨t', cur, e, h', s', by rw [hn]; exact c1, by rw [hn]; exact c2⟩
  · rw [if_neg hz]
    exact ⟨t, _, rfl, h, Sorts.refl t, fun hh => by omega, fun _ => ⟨l, hl, hs, by omega, by omega⟩⟩

end

end Verif.Str
