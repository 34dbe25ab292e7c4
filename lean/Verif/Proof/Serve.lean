import Mathlib.Data.List.Basic
import Mathlib.Data.List.Forall2
import Verif.Model.Filter

/-!
# Keys served by distinct holders

A holder is a set of keys. A list of keys is served if every key, counted with multiplicity, can be given a
holder of its own.
-/

namespace Verif

abbrev Hold := Key → Prop

inductive Serve : List Hold → List Key → Prop
  | nil {H : List Hold} : Serve H []
  | cons {H H1 : List Hold} {h : Hold} {k : Key} {S : List Key} : H.Perm (h :: H1) → h k → Serve H1 S → Serve H (k :: S)

theorem perm_cons_append {α : Type} {A B R : List α} {h : α} (p : (A ++ B).Perm (h :: R)) :
    (∃ A', A.Perm (h :: A') ∧ R.Perm (A' ++ B)) ∨ ∃ B', B.Perm (h :: B') ∧ R.Perm (A ++ B') := by
  have hm : h ∈ A ++ B := p.mem_iff.2 (by simp)
  rcases List.mem_append.1 hm with hm | hm
  · obtain ⟨s, t, rfl⟩ := List.append_of_mem hm
    refine .inl ⟨s ++ t, List.perm_middle, ?_⟩
    have : (h :: (s ++ t ++ B)).Perm (h :: R) := by
      refine List.Perm.trans ?_ p
      rw [List.append_assoc, List.append_assoc]
      exact List.perm_middle.symm
    exact this.cons_inv.symm
  · obtain ⟨s, t, rfl⟩ := List.append_of_mem hm
    refine .inr ⟨s ++ t, List.perm_middle, ?_⟩
    have : (h :: (A ++ (s ++ t))).Perm (h :: R) := by
      refine List.Perm.trans ?_ p
      rw [← List.append_assoc, ← List.append_assoc]
      exact List.perm_middle.symm
    exact this.cons_inv.symm

namespace Serve

theorem perm {H H' : List Hold} {S : List Key} (h : Serve H S) (p : H.Perm H') : Serve H' S := by
  cases h with
  | nil => exact .nil
  | cons q hk hs => exact .cons (p.symm.trans q) hk hs

theorem mono {H : List Hold} {S : List Key} (g : Hold) (h : Serve H S) : Serve (g :: H) S := by
  induction h with
  | nil => exact .nil
  | cons q hk _ ih => exact .cons ((q.cons g).trans (List.Perm.swap _ _ _)) hk ih

theorem permS {H : List Hold} {S S' : List Key} (h : Serve H S) (p : S.Perm S') : Serve H S' := by
  induction p generalizing H with
  | nil => exact h
  | cons x _ ih =>
    cases h with
    | cons q hk hs => exact .cons q hk (ih hs)
  | swap x y l =>
    cases h with
    | cons q hk hs =>
      cases hs with
      | cons q' hk' hs' => exact .cons ((q.trans (q'.cons _)).trans (List.Perm.swap _ _ _)) hk' (.cons (.refl _) hk hs')
  | trans _ _ ih1 ih2 => exact ih2 (ih1 h)

theorem append {H G : List Hold} {S T : List Key} (h : Serve H S) (g : Serve G T) : Serve (H ++ G) (S ++ T) := by
  induction h with
  | nil =>
    rename_i H
    induction H with
    | nil => exact g
    | cons x H ih => exact ih.mono x
  | cons q hk _ ih => exact .cons (q.append_right G) hk ih

theorem split {H G : List Hold} {S : List Key} (h : Serve (H ++ G) S) :
    ∃ S1 S2, S.Perm (S1 ++ S2) ∧ Serve H S1 ∧ Serve G S2 := by
  induction S generalizing H G with
  | nil => exact ⟨[], [], .refl _, .nil, .nil⟩
  | cons k S ih =>
    cases h with
    | cons q hk hs =>
      rcases perm_cons_append q with ⟨A', p1, p2⟩ | ⟨B', p1, p2⟩
      · obtain ⟨S1, S2, e, a, b⟩ := ih (hs.perm p2)
        exact ⟨k :: S1, S2, e.cons k, .cons p1 hk a, b⟩
      · obtain ⟨S1, S2, e, a, b⟩ := ih (hs.perm p2)
        exact ⟨S1, k :: S2, (e.cons k).trans List.perm_middle.symm, a, .cons p1 hk b⟩

theorem single {h : Hold} {S : List Key} (hs : Serve [h] S) : S = [] ∨ ∃ k, S = [k] ∧ h k := by
  cases hs with
  | nil => exact .inl rfl
  | cons q hk hs =>
    obtain ⟨rfl, rfl⟩ : h = _ ∧ [] = _ := by
      have := List.singleton_perm.1 q
      injection this with a b
      exact ⟨a, b⟩
    cases hs with
    | nil => exact .inr ⟨_, rfl, hk⟩
    | cons q _ _ => exact absurd q.length_eq (by simp)

theorem cons_split {h : Hold} {H : List Hold} {S : List Key} (hs : Serve (h :: H) S) :
    Serve H S ∨ ∃ k S', S.Perm (k :: S') ∧ h k ∧ Serve H S' := by
  obtain ⟨S1, S2, p, a, b⟩ := split (H := [h]) hs
  rcases a.single with rfl | ⟨k, rfl, hk⟩
  · exact .inl (b.permS p.symm)
  · exact .inr ⟨k, S2, p, hk, b⟩

/-- Every holder may be replaced by a list of holders that covers it. -/
theorem transfer {H : List Hold} {G : List (List Hold)} {S : List Key}
    (hf : List.Forall₂ (fun h g => ∀ k ∈ S, h k → ∃ h' ∈ g, h' k) H G) (hs : Serve H S) : Serve G.flatten S := by
  induction H generalizing S G with
  | nil => cases hf; simpa using hs
  | cons h H ih =>
    cases hf with
    | @cons _ g _ G hh hf =>
    rw [List.flatten_cons]
    rcases hs.cons_split with hs | ⟨k, S', p, hk, hs⟩
    · simpa using append (H := g) Serve.nil (ih hf hs)
    · have hsub : ∀ x ∈ S', x ∈ S := fun x hx => p.mem_iff.2 (List.mem_cons_of_mem _ hx)
      obtain ⟨h', hm, hk'⟩ := hh k (p.mem_iff.2 (by simp)) hk
      have h1 : Serve g [k] := by
        obtain ⟨s, t, rfl⟩ := List.append_of_mem hm
        exact .cons List.perm_middle hk' .nil
      have h2 := ih (hf.imp fun a b hab x hx => hab x (hsub x hx)) hs
      exact (h1.append h2).permS p.symm

/-- Every holder may be replaced by a larger one. -/
theorem weaken {H G : List Hold} {S : List Key} (hf : List.Forall₂ (fun h g => ∀ k ∈ S, h k → g k) H G)
    (hs : Serve H S) : Serve G S := by
  have : (G.map fun g => [g]).flatten = G := by
    clear hf
    induction G with
    | nil => rfl
    | cons g G ih => simp [ih]
  rw [← this]
  refine hs.transfer ?_
  rw [List.forall₂_map_right_iff]
  exact hf.imp fun h g hh k hk hkk => ⟨g, by simp, hh k hk hkk⟩

theorem mem {H : List Hold} {S : List Key} (hs : Serve H S) {k : Key} (hk : k ∈ S) : ∃ h ∈ H, h k := by
  induction hs with
  | nil => exact absurd hk (by simp)
  | cons q hh _ ih =>
    rcases List.mem_cons.1 hk with rfl | hk
    · exact ⟨_, q.mem_iff.2 (by simp), hh⟩
    · obtain ⟨h, hm, hh⟩ := ih hk
      exact ⟨h, q.mem_iff.2 (List.mem_cons_of_mem _ hm), hh⟩

/-- A holder may be taken away with one key if every other holder of this key covers it. -/
theorem remove {y : Hold} {H : List Hold} {S : List Key} (hs : Serve (y :: H) S) {k : Key} (hk : k ∈ S)
    (hc : ∀ h ∈ H, h k → ∀ k' ∈ S, y k' → h k') : Serve H (S.erase k) := by
  have hs' := hs.permS (List.perm_cons_erase hk)
  have sub : ∀ x ∈ S.erase k, x ∈ S := fun x hx => List.mem_of_mem_erase hx
  cases hs' with
  | @cons _ R h _ _ q hh hr =>
    rcases perm_cons_append (A := [y]) (B := H) (R := R) (h := h) q with ⟨A', p1, p2⟩ | ⟨B', p1, p2⟩
    · have : A' = [] := by
        have := p1.length_eq
        simpa using this.symm
      subst this
      exact hr.perm p2
    · have h1 : Serve (y :: B') (S.erase k) := hr.perm p2
      have h2 : Serve (h :: B') (S.erase k) := by
        refine h1.weaken (.cons ?_ ?_)
        · exact fun x hx => hc h (p1.mem_iff.2 (by simp)) hh x (sub x hx)
        · exact List.forall₂_same.2 fun _ _ _ _ h => h
      exact h2.perm p1.symm

end Serve

end Verif
