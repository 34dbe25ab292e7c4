import Verif.Proof.LoadVar
import Verif.Proof.Cell

/-!
# Streaming bulk load whose first key is all zeros

With more than 1024 keys the final `AddTreeKey` of the all-zero key replaces the first region.
-/

namespace Verif

variable {c : Cfg}

theorem stream_collect (f : Filter) (left : Key) : ∀ (L keys : List Key) (mx : Nat), keys.length + L.length ≤ 1023 →
    L.foldl (fun r k => Res.bind r fun (f, b) => streamKey f b k) (Res.ok (f, ⟨some left, keys, mx⟩)) =
      .ok (f, ⟨some left, keys ++ L, L.foldl (fun m k => max m k.length) mx⟩) := by
  intro L
  induction L with
  | nil => intro keys mx _; simp
  | cons k L ih =>
    intro keys mx h
    simp only [List.length_cons] at h
    simp only [List.foldl_cons, Res.bind_ok]
    have : streamKey f ⟨some left, keys, mx⟩ k = .ok (f, ⟨some left, keys ++ [k], max mx k.length⟩) := by
      unfold streamKey
      dsimp only
      rw [if_pos (by omega)]
    rw [this, ih _ _ (by simp; omega)]
    simp

theorem foldl_max_const {n : Nat} : ∀ {L : List Key}, (∀ k ∈ L, k.length = n) →
    L.foldl (fun m k => max m k.length) n = n := by
  intro L
  induction L with
  | nil => intro _; rfl
  | cons k L ih =>
    intro h
    rw [List.foldl_cons, h k (by simp), Nat.max_self]
    exact ih fun k hk => h k (by simp [hk])

/-- Streaming 1025 to 2048 keys of which the first is all zeros gives the filter of the keys from the
1025th on. -/
theorem stream_forgets {n : Nat} {A B : List Key} {x : Key} (hc : c.WF) (hA : A.length = 1023) (hB : B.length ≤ 1023)
    (hlen : ∀ k ∈ A ++ x :: B, k.length = n) (hs : (List.replicate n 0 :: (A ++ x :: B)).Pairwise PadLt) :
    streamAll c (List.replicate n 0 :: (A ++ x :: B)) = streamAll c (x :: B) := by
  have hx : x.length = n := hlen x (by simp)
  have hBn : ∀ k ∈ B, k.length = n := fun k hk => hlen k (by simp [hk])
  have hAn : ∀ k ∈ A, k.length = n := fun k hk => hlen k (by simp [hk])
  have hlt : PadLt (List.replicate n 0) x := by
    rw [List.pairwise_cons] at hs
    exact hs.1 x (by simp)
  have hs' := hs
  rw [List.pairwise_cons, List.pairwise_append, List.pairwise_cons] at hs'
  obtain ⟨p1, p2, p3, p4⟩ := hs'
  have hreg : ∃ st, bulkRegion c [] (List.replicate n 0) x A growSep = .ok [(List.replicate n 0, st)] := by
    obtain ⟨st, _, _, _, h, _⟩ := bulkRegion_spec (t := []) (g := growSep) hc hc.fine_sep hlt (mid := A)
      (fun k hk q => ⟨(p1 k (by simp [hk])).le q, (p4 k hk x (by simp)).le q⟩) (p2.imp fun hab => hab.le)
      (by have := size_growSep hc; omega) (by omega)
    exact ⟨st, h⟩
  obtain ⟨st, hst⟩ := hreg
  have e1 : streamKey ⟨c, []⟩ ⟨none, [], 0⟩ (List.replicate n 0) = .ok (⟨c, []⟩, ⟨some (List.replicate n 0), [], n⟩) := by
    unfold streamKey; simp
  have e2 : streamKey ⟨c, []⟩ ⟨none, [], 0⟩ x = .ok (⟨c, []⟩, ⟨some x, [], n⟩) := by
    unfold streamKey; simp [hx]
  have e3 : streamKey ⟨c, []⟩ ⟨some (List.replicate n 0), A, n⟩ x =
      .ok (⟨c, [(List.replicate n 0, st)]⟩, ⟨some x, [], n⟩) := by
    unfold streamKey
    dsimp only
    rw [if_neg (by omega), hst, Res.bind_ok, hx, Nat.max_self]
  have e4 : streamFinish ⟨c, [(List.replicate n 0, st)]⟩ ⟨some x, B, n⟩ = streamFinish ⟨c, []⟩ ⟨some x, B, n⟩ := by
    unfold streamFinish
    have : addTreeKey [(List.replicate n 0, st)] (List.replicate n 0) = addTreeKey [] (List.replicate n 0) := by
      unfold addTreeKey treePut
      rw [keyLt_irrefl]; simp
    dsimp only
    rw [this]
  unfold streamAll
  rw [List.foldl_cons, List.foldl_append, List.foldl_cons, List.foldl_cons, Res.bind_ok, Res.bind_ok]
  dsimp only
  rw [e1, e2, stream_collect _ _ _ _ _ (by simp; omega), foldl_max_const hAn, List.nil_append, Res.bind_ok]
  dsimp only
  rw [e3, stream_collect _ _ _ _ _ (by simp; omega), stream_collect _ _ _ _ _ (by simp; omega), foldl_max_const hBn,
    Res.bind_ok, Res.bind_ok, List.nil_append]
  dsimp only
  rw [e4]

/-- Of these keys the second to the 1024th are no longer found. -/
theorem stream_lost {n : Nat} {A B : List Key} {x : Key} (hc : c.WF) (hA : A.length = 1023) (hB : B.length ≤ 1023)
    (hB1 : B ≠ []) (hlen : ∀ k ∈ A ++ x :: B, k.length = n)
    (hs : (List.replicate n 0 :: (A ++ x :: B)).Pairwise PadLt) :
    ∃ f, streamAll c (List.replicate n 0 :: (A ++ x :: B)) = .ok f ∧ ∀ k ∈ A, pointQuery f k = .ok false := by
  rw [stream_forgets hc hA hB hlen hs]
  have hs' := hs
  rw [List.pairwise_cons, List.pairwise_append] at hs'
  obtain ⟨p1, p2, p3, p4⟩ := hs'
  have hx : x.length = n := hlen x (by simp)
  have hB0 : B.length ≠ 0 := fun e => hB1 (List.length_eq_zero_iff.1 e)
  obtain ⟨f, hf, L, sp, _, hmem, hx0⟩ := stream_spec (m := n) hc p3 (by simp) (by
      rw [List.foldl_cons, Nat.zero_max, hx]
      exact (foldl_max_const fun k hk => hlen k (by simp [hk])).symm)
    (fun k hk => Or.inr (p1 k (by rw [List.mem_append]; exact Or.inr hk))) (by simp only [List.length_cons]; omega)
    (by left; simp only [List.length_cons]; omega)
  refine ⟨f, hf, fun k hk => ?_⟩
  have hkn : k.length = n := hlen k (by simp [hk])
  have h0k := keyLt_of_padLt (p1 k (by simp [hk]))
  have hkx : ∀ y ∈ x :: B, keyLt k y = true := fun y hy => keyLt_of_padLt (p4 k hk y hy)
  rcases (L.ok hc).spans_cases sp hkn with ⟨T, e, R, ht, he⟩ | ⟨T, p, e, R, ht, h1, h2⟩
  · exfalso
    rcases hmem e (by rw [ht]; simp) with h | h | h
    · have := hkx _ h
      rw [he, keyLt_irrefl] at this; cases this
    · rw [← h, he, keyLt_irrefl] at h0k; cases h0k
    · have h3 := hkx x (by simp)
      have h4 := le_ones x
      rw [hx, ← h, he, keyLe_iff_not_lt, h3] at h4; cases h4
  · obtain ⟨b, q, hb, _, hiff⟩ := L.gap hc ht h1 h2
    rw [hb]
    cases b with
    | false => rfl
    | true =>
      exfalso
      obtain ⟨k0, hk0, g1, g2, _⟩ := hiff.1 rfl
      have hk0x : keyLe x k0 = true := by
        rcases List.mem_cons.1 hk0 with rfl | h
        · exact keyLe_refl _
        · exact keyLt_keyLe (keyLt_of_padLt ((List.pairwise_cons.1 p3).1 k0 h))
      obtain ⟨y, hy, hyx⟩ := List.mem_map.1 (show x ∈ f.tree.map Prod.fst from hx0)
      rw [ht] at hy
      have ht2 : f.tree = (T ++ [p]) ++ e :: R := by rw [ht]; simp
      have hxk := hkx x (by simp)
      rcases List.mem_append.1 hy with hy | hy
      · have := keyLt_of_padLt ((L.ok hc).before ht hy)
        rw [hyx] at this
        have := keyLt_of_le_of_lt (keyLt_keyLe this) (keyLt_of_le_of_lt (keyLt_keyLe h1) hxk)
        rw [keyLt_irrefl] at this; cases this
      · rcases List.mem_cons.1 hy with rfl | hy
        · rw [hyx, keyLt_asymm hxk] at h1; cases h1
        · have : keyLt x e.1 = true := by
            rcases keyLe_or_lt e.1 x with h | h
            · have := keyLt_of_le_of_lt h (keyLt_of_le_of_lt hk0x g2)
              rw [keyLt_irrefl] at this; cases this
            · exact h
          rcases List.mem_cons.1 hy with rfl | hy
          · rw [hyx, keyLt_irrefl] at this; cases this
          · have h5 := keyLt_of_padLt ((L.ok hc).after ht2 hy)
            rw [hyx, keyLt_asymm this] at h5; cases h5

end Verif
