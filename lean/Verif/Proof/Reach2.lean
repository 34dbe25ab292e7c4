import Verif.Proof.LoadVar
import Verif.Proof.Answers
import Verif.Proof.IntPath

/-!
# All reachable filters
-/

namespace Verif

theorem foldl_max_le {K : List Key} {n : Nat} (h : ∀ k ∈ K, k.length ≤ n) :
    ∀ a, a ≤ n → K.foldl (fun m k => max m k.length) a ≤ n := by
  induction K with
  | nil => intro a ha; exact ha
  | cons k K ih =>
    intro a ha
    rw [List.foldl_cons]
    apply ih (fun x hx => h x (List.mem_cons_of_mem _ hx))
    have := h k (by simp)
    omega

structure ReachInv (c : Cfg) (n : Nat) (f : Filter) : Prop where
  ok : FilterOK f
  cfg : f.cfg = c
  len : LenLe n f
  bits : BitsOK f
  clean : CleanTree f.cfg f.tree

theorem Reach.inv {c : Cfg} (hc : c.WF) {n : Nat} (hn : n < 2 ^ 28) {f : Filter} (h : Reach c n f) : ReachInv c n f := by
  induction h with
  | @fixed m K f hm h1 h2 h3 =>
    by_cases hne : K = []
    · subst hne
      unfold bulkFixed bulkCore at h3
      simp at h3
    · obtain ⟨r1, r2⟩ := bulkFixed_dup hc h1 h2 hne
      by_cases hmod : Sampled K
      swap
      · rw [r1 hmod] at h3; cases h3
      · obtain ⟨f', e, hl, hs, hlen, _⟩ := r2 hmod
        rw [e] at h3
        obtain rfl : f' = f := by injection h3
        exact ⟨hl.ok hc, hl.cfg, fun e he => by rw [hlen e he]; exact hm, hl.bits, hl.cleaned⟩
  | @var K f hm h1 h2 hz h3 =>
    by_cases hne : K = []
    · subst hne
      unfold bulkVar bulkCore at h3
      simp at h3
    · obtain ⟨r1, r2⟩ := bulkVar_dup hc h2 hne hz
      by_cases hmod : Sampled K
      swap
      · rw [r1 hmod] at h3; cases h3
      · obtain ⟨f', m, e, hl, hlen, hs1, hs2, hmem, hmn⟩ := r2 hmod
        rw [e] at h3
        obtain rfl : f' = f := by injection h3
        refine ⟨hl.ok hc, hl.cfg, ?_, hl.bits, hl.cleaned⟩
        intro e he
        rcases hmem e he with h | h | h
        · exact h1 _ h
        · rw [h, List.length_replicate]; exact hm
        · rw [h, List.length_replicate, hmn]
          exact foldl_max_le h1 0 (by omega)
  | @stream m K f hm hmx h2 hz hmod hcond h3 =>
    by_cases hne : K = []
    · subst hne
      simp [streamAll, streamFinish] at h3
    · obtain ⟨f', e, hl, hs, hlen, hmem, _⟩ := stream_dup hc h2 hne hmx hz hmod hcond
      rw [e] at h3
      obtain rfl : f' = f := by injection h3
      refine ⟨hl.ok hc, hl.cfg, ?_, hl.bits, hl.cleaned⟩
      intro e he
      rcases hmem e he with h | h | h
      · exact Nat.le_trans (hlen _ h) hm
      · rw [h, List.length_replicate]; exact hm
      · rw [h, List.length_replicate]; exact hm
  | @insert f f' key split hb hk hfit hi ih =>
    obtain ⟨a1, a2, a3, a4, a5⟩ := insert_spec ih.ok hfit hn hk ih.len hi
    exact ⟨a1, by rw [a2, ih.cfg], a3, insert_bits ih.ok hfit hn hk ih.len hi ih.bits, insert_clean ih.ok hfit hn hk ih.len hi ih.clean⟩

theorem BuiltFit.toReach {c : Cfg} {n : Nat} {f : Filter} {S : List Key} (h : BuiltFit c n f S) : Reach c n f := by
  induction h with
  | load h1 h2 h3 => exact .fixed (Nat.le_refl _) h1 h2 h3
  | insert _ hk hfit hi ih => exact .insert ih (Nat.le_of_eq hk) hfit hi

theorem BuiltFit.toVar {c : Cfg} {n : Nat} {f : Filter} {S : List Key} (h : BuiltFit c n f S) :
    BuiltVar c n f S ∧ ∀ k ∈ S, k.length = n := by
  induction h with
  | load h1 h2 h3 => exact ⟨.fixed (Nat.le_refl _) h1 h2 h3, h1⟩
  | insert _ hk hfit hi ih =>
    refine ⟨.insert ih.1 (Nat.le_of_eq hk) hfit (fun _ k hk' hp => hp.eq_of_length ((ih.2 k hk').trans hk.symm)) hi, ?_⟩
    intro k hk'
    rcases List.mem_cons.1 hk' with rfl | hk'
    · exact hk
    · exact ih.2 k hk'

theorem BuiltVar.toReach {c : Cfg} {n : Nat} {f : Filter} {S : List Key} (h : BuiltVar c n f S) : Reach c n f := by
  induction h with
  | fixed h1 h2 h3 h4 => exact .fixed h1 h2 h3 h4
  | var h1 h2 h3 h4 h5 => exact .var h1 h2 h3 h4 h5
  | stream h1 h2 h3 h4 h5 h6 h7 => exact .stream h1 h2 h3 h4 h5 h6 h7
  | insert _ h1 h2 _ h3 ih => exact .insert ih h1 h2 h3

theorem BuiltVar.pos {c : Cfg} (hc : c.WF) {n : Nat} (hn : n < 2 ^ 28) {f : Filter} {S : List Key}
    (h : BuiltVar c n f S) : ∀ k ∈ S, pointQuery f k = .ok true := by
  induction h with
  | @fixed m K f hm h1 h2 h3 =>
    intro k hk
    obtain ⟨r1, r2⟩ := bulkFixed_dup hc h1 h2 (List.ne_nil_of_mem hk)
    by_cases hmod : Sampled K
    swap
    · rw [r1 hmod] at h3; cases h3
    · obtain ⟨f', e, hl, hs, _⟩ := r2 hmod
      rw [e] at h3
      obtain rfl : f' = f := by injection h3
      exact hl.all hc hs hk (h1 k hk)
  | @var K f hm h1 h2 hz h3 =>
    intro k hk
    obtain ⟨r1, r2⟩ := bulkVar_dup hc h2 (List.ne_nil_of_mem hk) hz
    by_cases hmod : Sampled K
    swap
    · rw [r1 hmod] at h3; cases h3
    · obtain ⟨f', m, e, hl, hlen, hs1, hs2, _⟩ := r2 hmod
      rw [e] at h3
      obtain rfl : f' = f := by injection h3
      refine hl.all_of hc hs1 hs2 ?_ (le_ones_len k (hlen k hk)) hk
      rcases hz k hk with h | h
      · rw [h]; exact keyLe_refl _
      · exact keyLt_keyLe (keyLt_of_padLt h)
  | @stream m K f hm hmx h2 hz hmod hcond h3 =>
    intro k hk
    obtain ⟨f', e, hl, hs, hlen, _⟩ := stream_dup hc h2 (List.ne_nil_of_mem hk) hmx hz hmod hcond
    rw [e] at h3
    obtain rfl : f' = f := by injection h3
    refine hl.all_of hc hs.1 hs.2 ?_ (le_ones_len k (hlen k hk)) hk
    rcases hz k hk with h | h
    · rw [h]; exact keyLe_refl _
    · exact keyLt_keyLe (keyLt_of_padLt h)
  | @insert f f' S key split hb hk hfit hpre hi ih =>
    have r := hb.toReach.inv hc hn
    obtain ⟨a1, a2, a3, a4, a5⟩ := insert_spec r.ok hfit hn hk r.len hi
    intro k hk
    rcases List.mem_cons.1 hk with rfl | hk
    · exact a4
    · exact a5 k (fun e => hpre e k hk) (ih k hk)

/-- The integer-optimised range query. -/
theorem ReachInv.io {c : Cfg} {n : Nat} {f : Filter} (h : ReachInv c n f) {io : Bool} {l r : Key}
    (hio : io = true → n ≤ 8 ∧ l.length ≤ 8 ∧ r.length ≤ 8) :
    rangeQuery io f l r = rangeQuery false f l r := by
  cases io with
  | false => rfl
  | true =>
    obtain ⟨h1, h2, h3⟩ := hio rfl
    exact rangeQuery_int h.ok.wf (fun e he => Nat.le_trans (h.len e he) h1) h2 h3

end Verif
