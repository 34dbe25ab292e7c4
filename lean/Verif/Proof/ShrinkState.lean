import Verif.Spec.Shrunk
import Verif.Proof.Shrink
import Verif.Proof.Reach2

/-!
# Filters after `ShrinkInfixSize`
-/

namespace Verif

theorem size55 (s : Nat) : (cfg95 s).size growSep % 8 ≠ 0 := by
  have : (cfg95 s).size growSep = (cfg95 0).size growSep := rfl
  rw [this]; decide +kernel

theorem shrinkLoop_out {old n s s' : Nat} (hs : s' ≤ s) (hs1 : 1 ≤ s') (hs46 : s ≤ 46) : ∀ (k i m : Nat), i + k ≤ n →
    Outside n s' 0 m → Outside n s' 0 (shrinkLoop old n n s s' k i m)
  | 0, _, _, _, h => h
  | k + 1, i, m, hi, h => by
    have hlt : slotv old n s i < 2 ^ 64 := Nat.lt_of_lt_of_le (slotv_lt _ _ _ _) (Nat.pow_le_pow_right (by decide) (by omega))
    unfold shrinkLoop
    simp only [getSlot_eq _ _ _ _ (show s ≤ 57 by omega)]
    by_cases h0 : slotv old n s i = 0
    · rw [if_neg (by simpa using h0)]
      exact shrinkLoop_out hs hs1 hs46 k (i + 1) m (by omega) h
    · rw [if_pos (by simpa using h0), new_slot hs (by omega) hlt]
      have hmod : slotv old n s i % 2 ^ s ≠ 0 := by rw [Nat.mod_eq_of_lt (slotv_lt _ _ _ _)]; exact h0
      have hv : shItem (s - s') (slotv old n s i) < 2 ^ s' := by
        have := shItem_quot hs hs1 hmod hlt
        rw [Nat.div_eq_of_lt (slotv_lt old n s i)] at this
        exact (Nat.div_eq_zero_iff.1 this).resolve_left (by have := Nat.two_pow_pos s'; omega)
      exact shrinkLoop_out hs hs1 hs46 k (i + 1) _ (by omega) (out_setSlot h (by omega) (by omega) hv (by omega))

theorem CleanStore.shrink {c : Cfg} {st : Store} {s' : Nat} (h : CleanStore c st) (hc : c.WF) (hg : st.sizeGrade = growSep)
    (h8 : c.size growSep % 8 ≠ 0) (hs : s' ≤ c.infixSize) (hs1 : 1 ≤ s') :
    CleanStore { c with infixSize := s' } (shrinkStore c st s') := by
  have hn : c.size (Store.new growSep).sizeGrade = c.size st.sizeGrade := by
    rw [(new_fields (g := growSep) (by decide)).2.1, hg]
  have h8' : (64 + 1024 + c.size st.sizeGrade) % 8 ≠ 0 := by rw [hg]; omega
  have hmem : (shrinkStore c st s').mem = shrinkLoop st.mem (c.size st.sizeGrade) (c.size st.sizeGrade) c.infixSize s'
      (c.size st.sizeGrade) 0 (copyBits st.mem (64 + 1024 + c.size st.sizeGrade)) := by
    unfold shrinkStore
    dsimp only
    rw [hn]
    rfl
  refine ⟨h.status, ?_⟩
  rw [hmem]
  change Outside (c.size st.sizeGrade) s' 0 _
  refine shrinkLoop_out hs hs1 hc.s2 _ _ _ (by omega) ?_
  intro j hj
  rw [copy_bitmaps _ _ _ h8']
  have : ¬ j < 64 + 1024 + c.size st.sizeGrade := by
    have : 1088 + c.size st.sizeGrade ≤ j := Nat.le_trans (Nat.le_add_right _ _) hj
    omega
  simp [this]

structure ShrunkInv (c : Cfg) (n : Nat) (f : Filter) : Prop where
  ok : FilterOK f
  cfg : f.cfg = c
  len : LenLe n f
  clean : CleanTree f.cfg f.tree

theorem FilterOK.shrunk {f f' : Filter} {s s' : Nat} (hok : FilterOK f) (hcfg : f.cfg = cfg95 s) (h1 : 1 ≤ s') (h2 : s' ≤ s)
    (hg : Shrinkable f) (hf : shrinkInfixSize f s' = .ok f') : FilterOK f' := by
  have hw := hok.wf
  have hs : s' ≤ f.cfg.infixSize := by rw [hcfg]; exact h2
  have h8 : f.cfg.size growSep % 8 ≠ 0 := by rw [hcfg]; exact size55 s
  rw [shrink_eq hf]
  refine ⟨hw.shrink hs h1, ?_⟩
  dsimp only
  rw [List.isChain_map]
  have hch := hok.chain
  rw [List.isChain_iff_getElem] at hch ⊢
  intro i hi
  obtain ⟨sh, ig, imp, L, R⟩ := hch i hi
  have g1 := hg.1 _ (List.getElem_mem (show i < f.tree.length by omega))
  exact ⟨sh, ig, imp, _, .make R.lt R.sii (R.shrinkStrong hw g1 h8 hs h1) (R.inside_shrink hw hs h1) R.part⟩

theorem ShrunkInv.shrink {s s' n : Nat} {f f' : Filter} (h : ShrunkInv (cfg95 s) n f) (h1 : 1 ≤ s') (h2 : s' ≤ s)
    (hg : Shrinkable f) (hf : shrinkInfixSize f s' = .ok f') : ShrunkInv (cfg95 s') n f' := by
  have hs : s' ≤ f.cfg.infixSize := by rw [h.cfg]; exact h2
  have h8 : f.cfg.size growSep % 8 ≠ 0 := by rw [h.cfg]; exact size55 s
  have hw := h.ok.wf
  refine ⟨h.ok.shrunk h.cfg h1 h2 hg hf, ?_, ?_, ?_⟩
  · rw [shrink_eq hf, h.cfg]; rfl
  · intro e he
    rw [shrink_eq hf] at he
    obtain ⟨e0, he0, rfl⟩ := List.mem_map.1 he
    exact h.len e0 he0
  · intro e he
    rw [shrink_eq hf] at he ⊢
    obtain ⟨e0, he0, rfl⟩ := List.mem_map.1 he
    rcases hg.1 e0 he0 with h55 | h0
    · exact (h.clean e0 he0).shrink hw h55 h8 hs h1
    · obtain ⟨i, hi, rfl⟩ := List.mem_iff_getElem.1 he0
      by_cases hl : i + 1 < f.tree.length
      · have hch := h.ok.chain
        rw [List.isChain_iff_getElem] at hch
        obtain ⟨sh, ig, imp, L, R⟩ := hch i hl
        have H := R.strong
        obtain rfl : L = [] := by rw [H.count] at h0; exact List.length_eq_zero_iff.1 h0
        refine ⟨(h.clean _ he0).status, fun j hj => ?_⟩
        rw [H.shrink_bits hw]
        have : ¬ j < 64 := by omega
        simp [this]
      · refine (h.clean _ he0).shrink hw (hg.2 _ ?_) h8 hs h1
        rw [List.getLast?_eq_getElem?, List.getElem?_eq_getElem (by omega)]
        congr 2; omega

theorem Shrunk.inv {n : Nat} (hn : n < 2 ^ 28) {s : Nat} {f : Filter} (h : Shrunk n s f) : ShrunkInv (cfg95 s) n f := by
  induction h with
  | first h h1 h2 h46 hg hf =>
    have i := h.inv (cfg95_wf _ (by omega) h46) hn
    exact ShrunkInv.shrink ⟨i.ok, i.cfg, i.len, i.clean⟩ h1 h2 hg hf
  | again _ h1 h2 hg hf ih => exact ih.shrink h1 h2 hg hf
  | insert _ hk hfit hi ih =>
    obtain ⟨a1, a2, a3, _⟩ := insert_spec ih.ok hfit hn hk ih.len hi
    exact ⟨a1, by rw [a2, ih.cfg], a3, insert_clean ih.ok hfit hn hk ih.len hi ih.clean⟩

end Verif
