import Verif.Proof.StrOverflow
import Verif.Props.StrTree

/-!
# C50: the index of the string tree
-/

namespace Verif.Props

open Str

variable {tags : Tags} {α : Type}

/-! ## Any program that calls the tree -/

/-- C50: no program with keys of at most 65520 bytes can tell from what the tree returns that leaves are found through the
index: it ends with the same leaves and the same result, and is undefined or endless exactly if it is so when every anchor is
compared. -/
theorem C50_client (ht : tags.Sound) {p : Client α} (hk : p.KeysLe 65520) :
    (p.onIndex tags StrMap.empty).bind (fun q => .ok (q.1.leaves, q.2)) = p.onLeaves STree.empty := by
  have h := Str.Ix.client ht upto_closed (fun _ hk => hk) p hk (Str.Ix.empty (Nat.zero_le _))
  cases h1 : p.onIndex tags StrMap.empty with
  | ok q =>
    obtain ⟨q', e, hi, h2⟩ := (h1 ▸ h).okL rfl
    rw [e, Res.bind_ok, hi.eq, h2]
  | ub => rw [h1] at h; cases h2 : p.onLeaves STree.empty <;> rw [h2] at h <;> first | rfl | exact h.elim
  | hang => rw [h1] at h; cases h2 : p.onLeaves STree.empty <;> rw [h2] at h <;> first | rfl | exact h.elim

/-- C50: whatever was called before, the index holds exactly the prefixes of the anchors of the leaves, and leads every key
to the leaf with the greatest anchor not above it, which is the leaf that holds the key if any does. -/
theorem C50_leaf (ht : tags.Sound) {p : Client α} (hk : p.KeysLe 65520) {s : StrMap} {a : α} (h : p.onIndex tags StrMap.empty = .ok (s, a)) :
    (∀ q, s.index.get q ≠ none ↔ ∃ l ∈ s.leaves, q <+: l.anchor) ∧
    ∀ key, ∃ i l, s.jump tags key = .ok i ∧ s.leaves[i]? = some l ∧ Owns (· ∈ s.leaves.map SLeaf.anchor) key l.anchor ∧
      ∀ e ∈ s.leaves.pairs, e.1 = key → e ∈ l.pairs := by
  obtain ⟨⟨t, a'⟩, _, hi, -⟩ := (Str.Ix.client ht upto_closed (fun _ hk => hk) p hk (Str.Ix.empty (Nat.zero_le _))).okL h
  dsimp only at hi
  obtain ⟨m, hm, -⟩ := hi.rep
  have he := hi.eq
  refine ⟨fun q => ?_, fun key => ?_⟩
  · rw [ne_eq, hi.idx.none_iff, not_not, he]
    constructor
    · rintro ⟨a, ha, hq⟩
      obtain ⟨l, hl, rfl⟩ := List.mem_map.1 ha
      exact ⟨l, hl, hq⟩
    · rintro ⟨l, hl, hq⟩
      exact ⟨_, List.mem_map_of_mem hl, hq⟩
  · obtain ⟨A, l, B, z⟩ := hm.zip key
    refine ⟨_, l, hi.jump ht key, by rw [he]; exact z.get, by rw [he]; exact z.owns hi.up, fun e hp hkey => ?_⟩
    rw [he] at hp
    subst hkey
    have hmem : e ∈ m := hm.pairs.mem_iff.1 hp
    rw [hm.list z, List.mem_append, List.mem_append] at hmem
    rcases hmem with (hmem | hmem) | hmem
    · have := hm.before z e hmem; rw [keyLt_irrefl] at this; cases this
    · exact (pairs_perm (hm.ok z).raw).mem_iff.2 (l.list_perm.mem_iff.1 hmem)
    · have := hm.after z e hmem; rw [keyLt_irrefl] at this; cases this

/-- C50: the tree with its index is a map, for keys of at most 65520 bytes. -/
theorem C50_map (ht : tags.Sound) {calls : List TreeCall} (hk : PutsLe 65520 calls) :
    ∃ s, (treeClient calls true).onIndex tags StrMap.empty = .ok (s, true) ∧ (s.leaves.pairs.map Prod.fst).Nodup ∧
      (∀ k st, (k, st) ∈ s.leaves.pairs ↔ mapAfter calls k = some st) ∧
      ∀ k st, mapAfter calls k = some st → ∃ i l, s.jump tags k = .ok i ∧ s.leaves[i]? = some l ∧ (k, st) ∈ l.pairs := by
  have hs : (treeClient calls true).KeysLe 65520 := (short_tree hk true).keysIn
  obtain ⟨t, e, h1, _, h2⟩ := C49_map fun k st h => Nat.le_trans (hk k st h) (by decide)
  have hl : (treeClient calls true).onLeaves STree.empty = .ok (t, true) := by rw [tree_client]; exact e
  obtain ⟨⟨s, b⟩, hr, hi, rfl⟩ := (Str.Ix.client ht upto_closed (fun _ hk => hk) _ hs (Str.Ix.empty (Nat.zero_le _))).okR hl
  have he := hi.eq
  dsimp only at he hr
  refine ⟨s, hr, he ▸ h1, he ▸ h2, fun k st hm => ?_⟩
  obtain ⟨i, l, f1, f2, _, f3⟩ := (C50_leaf ht hs hr).2 k
  exact ⟨i, l, f1, f2, f3 _ (he ▸ (h2 k st).2 hm) rfl⟩

/-! ## The filter -/

/-- C50: `Diva<false>` on leaves and index has the outcome it has on the leaves alone, for keys of at most 65520
bytes. -/
theorem C50_tree (ht : tags.Sound) (c : Cfg) {ld : Load} {calls : List FilterCall} (h1 : ld.KeysLe 65520)
    (h2 : InsertsLe 65520 calls) :
    (runIndex tags c ld calls).bind (fun q => .ok (⟨q.2.1, q.1.leaves⟩, q.2.2)) = runTree c ld calls := by
  rw [run_client, ← C50_client ht (short_run (by decide) c h1 h2).keysIn, runIndex]
  generalize (runClient c ld calls).onIndex tags StrMap.empty = X
  cases X <;> rfl

/-- C50: and the outcome it has on the ordered list. -/
theorem C50_same (ht : tags.Sound) (c : Cfg) {ld : Load} {calls : List FilterCall} (h1 : ld.KeysLe 65520)
    (h2 : InsertsLe 65520 calls) :
    (runIndex tags c ld calls).bind (fun q => .ok (StrFilter.flat ⟨q.2.1, q.1.leaves⟩, q.2.2)) = runList c ld calls := by
  rw [← C49_same c (h1.mono (by decide)) fun k b h => Nat.le_trans (h2 k b h) (by decide), ← C50_tree ht c h1 h2]
  generalize runIndex tags c ld calls = X
  cases X <;> rfl

/-- C50: no false negatives with the index: after a history whose keys are `S`, a point query for one of them returns true,
and so does a range query around it. -/
theorem C50_answers (ht : tags.Sound) {c : Cfg} (hc : c.WF) {ld : Load} {calls : List FilterCall} (h1 : ld.KeysLe 65520)
    (h2 : InsertsLe 65520 calls) {f : Filter} {as : List Answer} (hr : runList c ld calls = .ok (f, as)) {n : Nat} (hn : n < 2 ^ 28)
    {S : List Key} (hS : Present c n f S) {k : Key} (hk : k ∈ S) :
    (∃ s, runIndex tags c ld (calls ++ [.point k]) = .ok (s, f.cfg, as ++ [.flag true])) ∧
    ∀ l r, keyLe l k = true → keyLe k r = true →
      ∃ s, runIndex tags c ld (calls ++ [.range l r]) = .ok (s, f.cfg, as ++ [.flag true]) := by
  have hpos := present_point hc hn hS hk
  have hq : ∀ call : FilterCall, (∀ k b, call ≠ .insert k b) → call.onList f = .ok (f, [.flag true]) →
      ∃ s, runIndex tags c ld (calls ++ [call]) = .ok (s, f.cfg, as ++ [.flag true]) := by
    intro call hcall hon
    have hle : InsertsLe 65520 (calls ++ [call]) := by
      intro k b hin
      rcases List.mem_append.1 hin with hin | hin
      · exact h2 k b hin
      · exact absurd (List.mem_singleton.1 hin).symm (hcall k b)
    have hrun : runList c ld (calls ++ [call]) = .ok (f, as ++ [.flag true]) := by
      unfold runList at hr ⊢
      rw [List.foldl_append, hr]
      show (call.onList f).bind _ = _
      rw [hon]; rfl
    have hs := C50_same ht c h1 hle
    rw [hrun] at hs
    obtain ⟨⟨s, c', as'⟩, e, hs⟩ := Res.bind_eq_ok hs
    obtain ⟨e1, e2⟩ := Prod.mk.inj (Res.ok.inj hs)
    dsimp only at e1 e2
    subst e1 e2
    exact ⟨s, e⟩
  refine ⟨hq _ (fun _ _ h => by cases h) ?_, fun l r hl hr => hq _ (fun _ _ h => by cases h) ?_⟩
  · show (pointQuery f k).bind _ = _
    rw [hpos]; rfl
  · show (rangeQuery false f l r).bind _ = _
    rw [present_range hc hn hS hk (io := false) (fun h => by cases h) hl hr]; rfl

/-! ## Longer keys -/

/-- With longer keys C50 is violated: 33 keys that agree in their first 65520 bytes are put and deleted again. On the leaves
alone this works, but the index copies an anchor of 65521 bytes and 16 more to a buffer of 65536 bytes. -/
theorem C50_false : ∃ p : Key, p.length = 65520 ∧ ∃ calls,
    calls = ((List.range 33).map fun i => TreeCall.put (p ++ [UInt8.ofNat i]) Store.zero) ++
      (List.range 33).map (fun i => TreeCall.del (p ++ [UInt8.ofNat i])) ∧
    (∃ t, (treeClient calls true).onLeaves STree.empty = .ok (t, true)) ∧
    ∀ tags : Tags, tags.Sound → (treeClient calls true).onIndex tags StrMap.empty = .ub := by
  have hp : (List.replicate 65520 (0 : UInt8)).length = 65520 := List.length_replicate
  generalize List.replicate 65520 (0 : UInt8) = p at hp
  refine ⟨p, hp, _, rfl, ?_, fun tags ht => ?_⟩
  · obtain ⟨t, e, -⟩ := C49_map (calls := ((List.range 33).map fun i => TreeCall.put (p ++ [UInt8.ofNat i]) Store.zero) ++
      (List.range 33).map (fun i => TreeCall.del (p ++ [UInt8.ofNat i]))) (by
        intro k st h
        rcases List.mem_append.1 h with h | h
        · obtain ⟨i, _, e⟩ := List.mem_map.1 h
          cases e
          rw [List.length_append, List.length_singleton]; omega
        · obtain ⟨i, _, e⟩ := List.mem_map.1 h
          cases e)
    exact ⟨t, by rw [tree_client]; exact e⟩
  · have := steep_ub ht hp (L := (List.range 33).map UInt8.ofNat) (by decide) (by decide)
    rw [steepCalls, List.map_map, List.map_map] at this
    exact this

/-! ## Cases -/

/-- Tags that answer yes for some absent prefixes. -/
def looseTags : Tags := fun n x p => (x.get p).isSome || (n + p.length) % 3 == 0

theorem looseTags_sound : looseTags.Sound := by
  intro n x p h
  unfold looseTags
  cases hx : x.get p with
  | none => exact absurd hx h
  | some m => rfl

/-- Three leaves, one merge, and the answers of C49. -/
example : ∃ s c, runIndex looseTags (cfg95 5) (.var varKeys) strCalls = .ok (s, c, strAnswers) ∧ s.leaves.length = 3 ∧
    s.index.get [0x62] ≠ none ∧ s.index.get [0x63] = none := by
  have h : (runIndex looseTags (cfg95 5) (.var varKeys) strCalls).bind (fun q => .ok (q.1.leaves.length,
    (q.1.index.get [0x62]).isSome, (q.1.index.get [0x63]).isSome, q.2.2)) = .ok (3, true, false, strAnswers) := by decide +kernel
  obtain ⟨⟨s, c, as⟩, e, h⟩ := Res.bind_eq_ok h
  have h := Res.ok.inj h
  simp only [Prod.mk.injEq] at h
  obtain ⟨h1, h2, h3, rfl⟩ := h
  refine ⟨s, c, e, h1, fun hn => ?_, ?_⟩
  · rw [hn] at h2; cases h2
  · cases hx : s.index.get [0x63] with
    | none => rfl
    | some m => rw [hx] at h3; cases h3

example : ∃ s, (treeClient treeCalls true).onIndex looseTags StrMap.empty = .ok (s, true) ∧
    ∃ i l, s.jump looseTags [0x61, 88] = .ok i ∧ s.leaves[i]? = some l ∧ ([0x61, 88], ⟨0, 99⟩) ∈ l.pairs := by
  obtain ⟨s, e, _, _, h⟩ := C50_map looseTags_sound (treeCalls_le (by decide))
  exact ⟨s, e, h _ _ (by decide +kernel)⟩

theorem ab_list : ∃ f, runList (cfg95 5) (.var varKeys) [.insert [0x61, 0x62] false] = .ok (f, []) ∧
    BuiltVar (cfg95 5) 8 f ([0x61, 0x62] :: varKeys) := by
  obtain ⟨f, h, hb⟩ := var_built
  refine ⟨f, ?_, hb⟩
  have : runList (cfg95 5) (.var varKeys) [.insert [0x61, 0x62] false] =
      (runOps (bulkVar (cfg95 5) varKeys) [([0x61, 0x62], false)]).bind fun f => .ok (f, []) := by
    unfold runList
    simp only [List.foldl_cons, List.foldl_nil, runOps, FilterCall.onList, Load.onList]
    generalize bulkVar (cfg95 5) varKeys = X
    cases X with
    | ok f0 =>
      show ((Verif.insert f0 _ _).bind _).bind _ = (Verif.insert f0 _ _).bind _
      generalize Verif.insert f0 _ _ = Y
      cases Y <;> rfl
    | ub => rfl
    | hang => rfl
  rw [this, h]; rfl

/-- `C50_answers` for "a", "c" and "ab". -/
example : ∃ s c, runIndex looseTags (cfg95 5) (.var varKeys) [.insert [0x61, 0x62] false, .range [0x61, 0x61, 0x61] [0x61, 0x63]] =
    .ok (s, c, [.flag true]) := by
  have hle : InsertsLe 65520 [.insert [0x61, 0x62] false] := by
    intro k split h
    simp only [List.mem_singleton, FilterCall.insert.injEq] at h
    rw [h.1]; exact Nat.le_of_ble_eq_true rfl
  obtain ⟨f, hl, hb⟩ := ab_list
  obtain ⟨s, e⟩ := (C50_answers looseTags_sound cfg95_5 (varLoad_le (by decide)) hle hl (by decide) (.built hb) (k := [0x61, 0x62]) (by simp)).2
    [0x61, 0x61, 0x61] [0x61, 0x63] (by decide) (by decide)
  exact ⟨s, _, e⟩

end Verif.Props
