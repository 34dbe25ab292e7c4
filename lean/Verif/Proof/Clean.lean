import Verif.Proof.Region

/-!
# Nothing is stored behind the last slot of a region
-/

namespace Verif

/-- The status word has 32 bits and the bits behind the last slot are zero. -/
structure CleanStore (c : Cfg) (st : Store) : Prop where
  status : st.status < 2 ^ 32
  out : Outside (c.size st.sizeGrade) c.infixSize 0 st.mem

def CleanTree (c : Cfg) (t : Tree) : Prop := ∀ e ∈ t, CleanStore c e.2

theorem of_mem_treePut {k : Key} {st : Store} {e : Key × Store} : ∀ {t : Tree}, e ∈ treePut t k st → e = (k, st) ∨ e ∈ t
  | [], h => by simp [treePut] at h; exact Or.inl h
  | a :: t, h => by
    rw [treePut] at h
    split_ifs at h
    · rcases List.mem_cons.1 h with h | h
      · exact Or.inl h
      · exact Or.inr h
    · rcases List.mem_cons.1 h with h | h
      · exact Or.inl h
      · exact Or.inr (List.mem_cons_of_mem _ h)
    · rcases List.mem_cons.1 h with h | h
      · exact Or.inr (by rw [h]; simp)
      · rcases of_mem_treePut h with h | h
        · exact Or.inl h
        · exact Or.inr (List.mem_cons_of_mem _ h)

section
variable {c : Cfg} {st : Store} {T : Nat} {L : List Nat}

theorem CleanTree.put {t : Tree} (h : CleanTree c t) {k : Key} (hs : CleanStore c st) : CleanTree c (treePut t k st) := by
  intro e he
  rcases of_mem_treePut he with rfl | he
  · exact hs
  · exact h e he

theorem clean_new {g : Nat} (hg : g < 256) : CleanStore c (Store.new g) := by
  obtain ⟨_, _, h, _⟩ := new_fields hg
  exact ⟨h, outside_refl _ _ _⟩

theorem CleanTree.add {t : Tree} (h : CleanTree c t) {k : Key} : CleanTree c (addTreeKey t k) :=
  h.put (clean_new (by decide))

theorem clean_load (hc : c.WF) {z : Bool} {list : List Nat} (hT : T ≤ 1024) (hst : st.status < 2 ^ 32)
    (hfine : c.Fine st.sizeGrade) (hm : z = true ∨ st.mem = 0)
    (hl : Loadable c.infixSize T list) (hlen : list.length ≤ c.size st.sizeGrade) (hcnt : list.length < 2 ^ 20) :
    CleanStore c (loadList c st list T z) := by
  have hb : z = true ∨ Blank st.mem (c.size st.sizeGrade) c.infixSize := by
    rcases hm with h | h
    · exact Or.inl h
    · right; rw [h]; exact blank_zero _ _
  obtain ⟨h1, _, _, lay, I, _⟩ := loadList_has hc hT hst hfine hb hl hlen hcnt
  refine ⟨I.status, ?_⟩
  rw [h1]
  have := loadList_out hc hT hfine hb hl hlen
  rcases hm with h | h
  · rwa [if_pos h] at this
  · rw [h] at this; simpa using this

theorem clean_resize (hc : c.WF) (h : StoreHasW c T st L) (hT : T ≤ 1024) {e : Bool}
    (hg : c.Fine (if e then st.sizeGrade + 1 else st.sizeGrade - 1))
    (hlen : L.length ≤ c.size (if e then st.sizeGrade + 1 else st.sizeGrade - 1)) (hcnt : L.length < 2 ^ 20) :
    CleanStore c (resizeStore c st e T) := by
  unfold resizeStore
  dsimp only
  rw [h.list hc hT]
  have hst : st.status < 2 ^ 32 := by obtain ⟨_, I, _⟩ := h; exact I.status
  obtain ⟨_, f2, f3, _, _⟩ := setSizeGrade_fields hst hg.1
  exact clean_load hc hT f3 (by rw [f2]; exact hg) (Or.inl rfl) (h.loadable) (by rw [f2]; exact hlen) hcnt

theorem clean_alloc (hc : c.WF) {list : List Nat} (hT : T ≤ 1024)
    (hl : Loadable c.infixSize T list) (hcnt : list.length < c.cap) : CleanStore c (allocWithList c list T) := by
  unfold allocWithList
  dsimp only
  have h1 := hc.sep1
  have h2 := hc.sep2
  have e1 : 2 ^ 15 * list.length ≤ c.sizeScalar growSep * list.length := Nat.mul_le_mul h1 (Nat.le_refl _)
  have e2 : c.sizeScalar growSep * list.length ≤ 2 ^ 16 * list.length := Nat.mul_le_mul h2 (Nat.le_refl _)
  rw [Nat.shiftRight_eq_div_pow]
  generalize hsl : (c.sizeScalar growSep * list.length % 2 ^ 64 / 2 ^ 15) % 2 ^ 32 = sl
  have hcap : c.cap ≤ c.size 254 / 2 ∧ c.cap ≤ 2 ^ 20 := ⟨Nat.min_le_right _ _, c.cap_le⟩
  have hsl1 : list.length ≤ sl ∧ sl ≤ 2 ^ 21 ∧ sl ≤ c.size 254 := by
    rw [← hsl]
    generalize c.sizeScalar growSep * list.length = y at *
    omega
  obtain ⟨g1, g2⟩ := findGrade_lt hsl1.2.1 hsl1.2.2
  obtain ⟨_, f2, f3, _, _⟩ := new_fields g2.1
  exact clean_load hc hT f3 (by rw [f2]; exact g2) (Or.inr rfl) hl (by rw [f2]; omega) (by omega)

theorem clean_insertRaw (hc : c.WF) (h : StoreHas c T st L) (hT : T ≤ 1024) {x : Nat} (hcl : CleanStore c st)
    (hq : x / 2 ^ c.infixSize < T) (ho : x % 2 = 1) (hcnt : L.length + 1 < c.cap) : CleanStore c (insertRaw c st x T) := by
  obtain ⟨st1, h0, e, h1, hroom, _, hi, hp⟩ := insertRaw_room hc h hT x hcnt
  have hcnt1 : st1.elemCount + 1 < 2 ^ 20 := by rw [h1.count]; have := c.cap_le; omega
  have hcl1 : CleanStore c st1 := by
    rcases h0 with rfl | h0
    · exact hcl
    · obtain ⟨rfl, h2, h3⟩ := h0
      exact clean_resize hc h.weak hT (e := true) h2 (by simpa using h3) (by have := c.cap_le; omega)
  rw [e]
  obtain ⟨lay, I, hL⟩ := h1
  obtain ⟨g1, _, _, g4, lay', I', _⟩ := insertPlace_spec hc I hT hq ho hroom hcnt1
  refine ⟨I'.status, ?_⟩
  rw [g1]
  exact fun j hj => (g4 j hj).trans (hcl1.out j hj)

theorem CleanStore.flags (h : CleanStore c st) {v : Nat} {b : Bool} (hv : v < 8) :
    CleanStore c ((st.setInvalidBits v).setPartial b) := by
  have h0 := h.status
  have e1 := setInvalidBits_status (v := v) h0 hv
  have h1 : (st.setInvalidBits v).status < 2 ^ 32 := by rw [e1]; omega
  have e2 := setPartial_status (v := b) h1
  have hb : b.toNat ≤ 1 := Bool.toNat_le b
  have em : ((st.setInvalidBits v).setPartial b).mem = st.mem := by rw [setPartial_mem, setInvalidBits_mem]
  have eg : ((st.setInvalidBits v).setPartial b).sizeGrade = st.sizeGrade := by
    rw [sizeGrade_eq, sizeGrade_eq, e2, e1]; omega
  exact ⟨by rw [e2]; omega, by rw [eg, em]; exact h.out⟩

theorem CleanStore.flags' (h : CleanStore c st) {v : Nat} {b : Bool} (hv : v < 8) :
    CleanStore c ((st.setPartial b).setInvalidBits v) := by
  have h0 := h.status
  have e1 := setPartial_status (v := b) h0
  have hb : b.toNat ≤ 1 := Bool.toNat_le b
  have h1 : (st.setPartial b).status < 2 ^ 32 := by rw [e1]; omega
  have e2 := setInvalidBits_status (v := v) h1 hv
  have em : ((st.setPartial b).setInvalidBits v).mem = st.mem := by rw [setInvalidBits_mem, setPartial_mem]
  have eg : ((st.setPartial b).setInvalidBits v).sizeGrade = st.sizeGrade := by
    rw [sizeGrade_eq, sizeGrade_eq, e2, e1]; omega
  exact ⟨by rw [e2]; omega, by rw [eg, em]; exact h.out⟩

theorem CleanTree.replace {A B D : Tree} {p : Key × Store} (h : CleanTree c (A ++ p :: (D ++ B))) {k : Key}
    (hs : CleanStore c st) : CleanTree c (A ++ (k, st) :: B) := by
  intro e he
  rcases List.mem_append.1 he with he | he
  · exact h e (List.mem_append_left _ he)
  · rcases List.mem_cons.1 he with rfl | he
    · exact hs
    · exact h e (by simp [he])

end

end Verif
