import Verif.Proof.Merge
import Verif.Proof.SplitTotal

/-!
# Merging of two regions returns
-/

namespace Verif

theorem mapRes_total {g : Nat → Res Nat} (hg : ∀ x, ∃ y, g x = .ok y) : ∀ l, ∃ l', mapRes g l = .ok l'
  | [] => ⟨[], rfl⟩
  | x :: l => by
    obtain ⟨y, hy⟩ := hg x
    obtain ⟨l', hl⟩ := mapRes_total hg l
    exact ⟨y :: l', by unfold mapRes; rw [hy, Res.bind_ok, hl, Res.bind_ok]⟩

theorem updateDelete_total {K1 K2 l r : Key} {s sh ig imp : Nat} (L : Lengths K1 K2 sh ig imp) (holt : PadLt l r)
    (hl : Between K1 l K2) (hr : Between K1 r K2) (hs : s ≤ 21) (list : List Nat) :
    ∃ out, updateInfixListDelete s sh ig imp l r list = .ok out := by
  have hsame : pre (8 * (sh / 64 * 8)) l = pre (8 * (sh / 64 * 8)) r := by
    have h1 : pre sh K1 = pre sh K2 := pre_eq_iff.2 L.same
    have h2 := hl sh
    have h3 := hr sh
    exact pre_eq_len (show 8 * (sh / 64 * 8) ≤ sh by omega) (by omega)
  unfold updateInfixListDelete
  cases e : siiFrom (sh / 64 * 8) l r with
  | ub => exact absurd e siiFrom_not_ub
  | hang =>
    have := siiFrom_hang e hsame
    obtain ⟨q, hq⟩ := holt
    have := this q
    omega
  | ok v =>
    obtain ⟨a, b, g⟩ := v
    rw [Res.bind_ok]
    dsimp only
    split_ifs
    · exact ⟨_, rfl⟩
    · refine mapRes_total (fun x => ?_) list
      have himp := L.imp_cases
      unfold recoverBelow
      dsimp only
      rw [if_neg (by omega)]
      split_ifs <;> exact ⟨_, rfl⟩

theorem deleteMerge_total {f : Filter} (h : FilterW f) {A B : Tree} {a p e : Key × Store} (ht : f.tree = A ++ a :: p :: e :: B)
    (hs : f.cfg.infixSize ≤ 21) : ∃ f', deleteMerge f (A.length + 1) = .ok f' := by
  have hwf := h.wf
  obtain ⟨sh1, ig1, imp1, La, Ra⟩ := h.region ht
  obtain ⟨sh2, ig2, imp2, Lp, Rp⟩ := h.region (A := A ++ [a]) (p := p) (e := e) (B := B) (by rw [ht]; simp)
  have hlt : PadLt a.1 e.1 := Ra.lt.trans Rp.lt
  obtain ⟨sh, ig, imp, hsii⟩ : ∃ sh ig imp, sharedIgnoreImplicit a.1 e.1 = some (sh, ig, imp) := by
    cases hs : sharedIgnoreImplicit a.1 e.1 with
    | none =>
      rw [sii_none] at hs
      obtain ⟨q, hq⟩ := hlt
      have := hs q; omega
    | some v => obtain ⟨x, y, z⟩ := v; exact ⟨x, y, z, rfl⟩
  have hL : Lengths a.1 e.1 sh ig imp := sii_spec hsii
  obtain ⟨fr, hf, e1, e2, e3⟩ : ∃ fr, getFrame f.cfg.infixSize a.1 e.1 = .ok fr ∧ fr.shared = sh ∧ fr.ignore = ig ∧
      fr.implicitSize = imp := by
    unfold getFrame
    rw [hsii]
    exact ⟨_, rfl, rfl, rfl, rfl⟩
  have pk1 : treePeek f.tree (A.length + 1) = .ok p := by rw [ht, peek_append_succ]
  have pk2 : treePeek f.tree (A.length + 1 + 1) = .ok e := by
    have : f.tree = (A ++ [a]) ++ p :: e :: B := by rw [ht]; simp
    rw [this]
    have := peek_append_succ (A := A ++ [a]) (p := p) (e := e) (B := B)
    simpa using this
  have pk0 : treePeek f.tree (A.length + 1 - 1) = .ok a := by
    rw [Nat.add_sub_cancel, ht, peek_append]
  have l1 := Ra.list hwf
  have l2 := Rp.list hwf
  have c1 := Ra.has.count
  have c2 := Rp.has.count
  have b1 : Between a.1 a.1 e.1 := between_left hlt
  have b2 : Between a.1 p.1 e.1 := fun q => ⟨Ra.lt.le q, Rp.lt.le q⟩
  have b3 : Between a.1 e.1 e.1 := fun q => ⟨hlt.le q, Nat.le_refl _⟩
  obtain ⟨n1, h1⟩ := updateDelete_total hL Ra.lt b1 b2 hs La
  obtain ⟨n2, h2⟩ := updateDelete_total hL Rp.lt b2 b3 hs Lp
  unfold deleteMerge
  dsimp only
  simp only [pk0, pk1, pk2, Res.bind_ok, Nat.succ_ne_zero, if_false, l1, l2, hf, c1, c2, ne_eq, not_true_eq_false,
    or_self]
  rw [e1, e2, e3, h1, Res.bind_ok, h2, Res.bind_ok]
  exact ⟨_, rfl⟩

end Verif
