import Verif.Proof.WhTabStr
import Verif.Props.Hash
import Verif.Props.StrIndex
import Verif.Spec.StrTab

/-!
# C52: leaves, index and hash table together
-/

namespace Verif.Props

open Str

variable {h : Key → Nat} {depth : Nat} {α : Type}

/-! ## The index in its table, for any anchors

This is the same code in both trees. -/

theorem tabHist_ok {x : TabIndex} {as : List Key} (H : TabHist h x as) : Good h none x ∧ IndexHist (x.view h) as := by
  induction H with
  | create e =>
    rcases tab_create (h := h) (W := none) (fun _ hP => by cases hP) with ⟨-, e'⟩ | ⟨y, e', hy, hv⟩
    · rw [e'] at e; cases e
    · rw [e'] at e; cases e
      exact ⟨hy, by rw [hv]; exact .empty⟩
  | @split x y A B prev a depth _ hl e ih =>
    rcases ih.1.split (depth := depth) prev a B.head? (fun _ _ hP => by cases hP) with ⟨-, e'⟩ | e'
    · rw [e'] at e; cases e
    · rw [e] at e'
      obtain ⟨i, ei, hy, rfl⟩ := e'.okL rfl
      exact ⟨hy, .split ih.2 hl ei⟩
  | @merge x y A B prev a _ e ih =>
    have e' := ih.1.merge prev a B.head?
    rw [e] at e'
    obtain ⟨i, ei, hy, rfl⟩ := RelRes.okL e' rfl
    exact ⟨hy, .merge ih.2 ei⟩

/-- C52: the search with the tags and nodes of the table ends at the leaf where the key belongs. -/
theorem C52_find {x : TabIndex} {as : List Key} (H : TabHist h x as) (key : Key) : ∃ r, x.jump h key = .ok r ∧ Owns (· ∈ as) key r := by
  obtain ⟨hg, hi⟩ := tabHist_ok H
  exact C47_find hi (fun q hq => hg.peek hq) key

/-- C52: the table has a node for exactly the prefixes of anchors. -/
theorem C52_nodes {x : TabIndex} {as : List Key} (H : TabHist h x as) (q : Key) : x.find h q ≠ none ↔ ∃ a ∈ as, q <+: a :=
  C47_nodes (tabHist_ok H).2 q

/-- C52: a merge of leaves always completes. -/
theorem C52_merge {x : TabIndex} {A B : List Key} {prev a : Key} (H : TabHist h x (A ++ prev :: a :: B)) :
    ∃ y, x.merge h prev a B.head? = .ok y ∧ TabHist h y (A ++ prev :: B) := by
  obtain ⟨hg, hi⟩ := tabHist_ok H
  obtain ⟨i, ei, -⟩ := C47_merge hi
  obtain ⟨y, ey, -⟩ := RelRes.okR (hg.merge prev a B.head?) ei
  exact ⟨y, ey, .merge H ey⟩

/-- C52: a split completes, or an insertion of a node does not return. -/
theorem C52_split {x : TabIndex} {A B : List Key} {prev a : Key} (H : TabHist h x (A ++ prev :: B)) (hl : Ladder (A ++ prev :: a :: B))
    (depth : Nat) : x.split h depth prev a B.head? = .hang ∨
      ∃ y, x.split h depth prev a B.head? = .ok y ∧ TabHist h y (A ++ prev :: a :: B) := by
  obtain ⟨hg, hi⟩ := tabHist_ok H
  rcases hg.split (depth := depth) prev a B.head? (fun _ _ hP => by cases hP) with ⟨-, e⟩ | e
  · exact .inl e
  · obtain ⟨i, ei, -⟩ := C47_split hi hl
    obtain ⟨y, ey, -⟩ := e.okR ei
    exact .inr ⟨y, ey, .split H hl ey⟩

/-! ## Any program that calls the tree -/

theorem onNew_sim {W : Option (Key → Prop)} {P : Key → Prop} (K : Kind h depth W P) {p : Client α} (hk : p.KeysIn P) :
    SimR h W P (p.onNew h depth) (p.onLeaves STree.empty) := by
  unfold Client.onNew
  rcases Tx.create K with ⟨hw, e⟩ | ⟨s, e, H⟩
  · rw [e]; exact .inl ⟨hw, rfl⟩
  · rw [e]; exact H.client K p hk

theorem short_kind : Kind h depth none (Upto 65520) :=
  ⟨Nat.zero_le _, upto_closed, fun _ hk => hk, fun _ hQ => by cases hQ⟩

theorem sim_same {W : Option (Key → Prop)} {P : Key → Prop} {r : Res (TabMap × α)} {s : Res (STree × α)}
    (H : RelRes (fun a b => Tx h W P a.1 b.1 ∧ a.2 = b.2) r s) : r.bind (fun q => .ok (q.1.leaves, q.2)) = s := by
  cases h1 : r with
  | ok q =>
    obtain ⟨q', e, hi, h2⟩ := (h1 ▸ H).okL rfl
    rw [e, Res.bind_ok, h2, show q.1.leaves = q'.1 from hi.ix.eq]
  | ub => rw [h1] at H; cases h2 : s <;> rw [h2] at H <;> first | rfl | exact H.elim
  | hang => rw [h1] at H; cases h2 : s <;> rw [h2] at H <;> first | rfl | exact H.elim

/-- C52: a program with keys of at most 65520 bytes ends with the leaves and the result that it has when every anchor is
compared, and is undefined exactly if it is so then, unless some insertion into the hash table does not return. -/
theorem C52_client {p : Client α} (hk : p.KeysLe 65520) (depth : Nat) :
    p.onNew h depth = .hang ∨ (p.onNew h depth).bind (fun q => .ok (q.1.leaves, q.2)) = p.onLeaves STree.empty := by
  rcases onNew_sim (short_kind (h := h) (depth := depth)) hk with ⟨-, e⟩ | H
  · exact .inl e
  · exact .inr (sim_same H)

theorem onNew_ok {p : Client α} (hk : p.KeysLe 65520) {s : TabMap} {a : α} (e : p.onNew h depth = .ok (s, a)) : ∃ t, Tx h none (Upto 65520) s t := by
  rcases onNew_sim (short_kind (h := h) (depth := depth)) hk with ⟨-, e'⟩ | H
  · rw [e'] at e; cases e
  · obtain ⟨⟨t, _⟩, -, hi, -⟩ := H.okL e
    exact ⟨t, hi⟩

/-- C52: after any program that ended, the table has a node for exactly the prefixes of anchors, at most sixteen of them with
the same hash; deletions and seeks return, and lead to the leaf with the greatest anchor not above the key; only an insertion
may not return. -/
theorem C52_calls {p : Client α} (hk : p.KeysLe 65520) {s : TabMap} {a : α} (e : p.onNew h depth = .ok (s, a)) :
    (∀ q, s.index.find h q ≠ none ↔ ∃ l ∈ s.leaves, q <+: l.anchor) ∧
    (∀ (x : Nat) (L : List Key), L.Nodup → (∀ q ∈ L, h q = x ∧ ∃ l ∈ s.leaves, q <+: l.anchor) → L.length ≤ 16) ∧
    ∀ key, (∃ i l, s.jump h key = .ok i ∧ s.leaves[i]? = some l ∧ Owns (· ∈ s.leaves.map SLeaf.anchor) key l.anchor) ∧
      (∃ s', s.del h key = .ok s') ∧ (∃ s' cur, s.seek h key = .ok (s', cur)) ∧
      (key.length ≤ 65520 → ∀ st d, s.put h d key st ≠ .ub) := by
  obtain ⟨t, H⟩ := onNew_ok hk e
  obtain ⟨m, hm, -⟩ := H.ix.rep
  have he : s.leaves = t := H.ix.eq
  have hnodes : ∀ q, s.index.find h q ≠ none ↔ ∃ l ∈ s.leaves, q <+: l.anchor := fun q => by
    have := H.ix.idx.none_iff (p := q)
    show (s.index.view h).get q ≠ none ↔ _
    rw [ne_eq, this, not_not, he]
    constructor
    · rintro ⟨a, ha, hq⟩
      obtain ⟨l, hl, rfl⟩ := List.mem_map.1 ha
      exact ⟨l, hl, hq⟩
    · rintro ⟨l, hl, hq⟩
      exact ⟨_, List.mem_map_of_mem hl, hq⟩
  refine ⟨hnodes, ?_, ?_⟩
  · intro x L hL hx
    obtain ⟨S, HS, -⟩ := H.good
    refine Nat.le_trans ?_ (C48_room HS x)
    refine (hL.subperm fun q hq => ?_).length_le
    obtain ⟨h1, h2⟩ := hx q hq
    have := (hnodes q).2 h2
    rw [hist_find HS] at this
    refine List.mem_filter.2 ⟨?_, by simp [h1]⟩
    by_contra hc
    exact this (if_neg hc)
  · intro key
    refine ⟨?_, ?_, ?_, ?_⟩
    · obtain ⟨A, l, B, z⟩ := hm.zip key
      exact ⟨_, l, H.jump key, by rw [he]; exact z.get, by rw [he]; exact z.owns H.ix.up⟩
    · obtain ⟨s', _, e', -⟩ := H.del (fun _ hk => hk) key; exact ⟨s', e'⟩
    · obtain ⟨s', _, cur, e', -⟩ := H.seek key; exact ⟨s', cur, e'⟩
    · intro hl st d hu
      rcases H.put (short_kind (depth := d)) hl st with ⟨-, e'⟩ | e'
      · rw [e'] at hu; cases hu
      · rw [hu] at e'
        rcases Str.put_spec hm key st with ⟨-, t', e2, -⟩ | ⟨-, t', e2, -⟩ <;> rw [e2] at e' <;> exact e'.elim

theorem stem_kind {K : List Key} (hK : ∀ k ∈ K, k.length ≤ 65520) (ht : Thin h (Stem K)) (hd : 2 ≤ depth) :
    Kind h depth (some (Stem K)) (Stem K) := by
  refine ⟨⟨[], List.mem_cons_self .., List.nil_prefix⟩, ?_, ?_, fun Q hQ => ?_⟩
  · rintro k i ⟨a, ha, hk⟩
    exact ⟨a, ha, (List.take_prefix i k).trans hk⟩
  · rintro k ⟨a, ha, hk⟩
    refine Nat.le_trans hk.length_le ?_
    rcases List.mem_cons.1 ha with rfl | ha
    · exact Nat.zero_le _
    · exact hK a ha
  · cases hQ; exact ⟨rfl, ht, hd⟩

/-- C52: a program whose keys are prefixes of the keys `K` returns whenever it does so without the table, if not more than
eight prefixes of these keys have the same first bucket. Missing: fuller tables; then it may not return, see `C52_false_put`. -/
theorem C52_returns_partial {K : List Key} (hK : ∀ k ∈ K, k.length ≤ 65520) (ht : Thin h (Stem K)) {p : Client α} (hp : p.KeysIn (Stem K))
    (hd : 2 ≤ depth) : (p.onNew h depth).bind (fun q => .ok (q.1.leaves, q.2)) = p.onLeaves STree.empty := by
  rcases onNew_sim (stem_kind hK ht hd) hp with ⟨hw, -⟩ | H
  · cases hw
  · exact sim_same H

/-! ## The filter -/

/-- C52: `Diva<false>` on leaves, index and hash table has the outcome that it has on the ordered list, for keys of at most
65520 bytes, unless an insertion into the table does not return. -/
theorem C52_same (c : Cfg) {ld : Load} {calls : List FilterCall} (h1 : ld.KeysLe 65520) (h2 : InsertsLe 65520 calls) (depth : Nat) :
    runTable h depth c ld calls = .hang ∨
      (runTable h depth c ld calls).bind (fun q => .ok (StrFilter.flat ⟨q.2.1, q.1.leaves⟩, q.2.2)) = runList c ld calls := by
  unfold runTable
  rcases C52_client (h := h) (short_run (by decide) c h1 h2).keysIn depth with e | e
  · exact .inl e
  · refine .inr ?_
    rw [← C49_same c (h1.mono (by decide)) fun k b h => Nat.le_trans (h2 k b h) (by decide), run_client, ← e]
    generalize (runClient c ld calls).onNew h depth = X
    cases X <;> rfl

/-- C52: no false negatives: after a history whose keys are `S` that returned, a point query for one of them returns true,
and so does a range query around it. -/
theorem C52_answers {c : Cfg} (hc : c.WF) {ld : Load} {calls : List FilterCall} (h1 : ld.KeysLe 65520)
    (h2 : InsertsLe 65520 calls) {f : Filter} {as : List Answer} (hr : runList c ld calls = .ok (f, as)) {n : Nat} (hn : n < 2 ^ 28)
    {S : List Key} (hS : Present c n f S) {k : Key} (hk : k ∈ S) {call : FilterCall}
    (hcall : call = .point k ∨ ∃ l r, call = .range l r ∧ keyLe l k = true ∧ keyLe k r = true)
    (hret : runTable h depth c ld (calls ++ [call]) ≠ .hang) :
    ∃ s, runTable h depth c ld (calls ++ [call]) = .ok (s, f.cfg, as ++ [.flag true]) := by
  obtain ⟨a1, a2⟩ := C50_answers (tags := fun _ _ _ => true) (fun _ _ _ _ => rfl) hc h1 h2 hr hn hS hk
  have hle : InsertsLe 65520 (calls ++ [call]) := by
    intro k b hin
    rcases List.mem_append.1 hin with hin | hin
    · exact h2 k b hin
    · have := List.mem_singleton.1 hin
      rcases hcall with rfl | ⟨l, r, rfl, -⟩ <;> cases this
  have hix : ∃ s, runIndex (fun _ _ _ => true) c ld (calls ++ [call]) = .ok (s, f.cfg, as ++ [.flag true]) := by
    rcases hcall with rfl | ⟨l, r, rfl, hl, hr⟩
    · exact a1
    · exact a2 l r hl hr
  obtain ⟨s, e⟩ := hix
  have e1 := C50_tree (tags := fun _ _ _ => true) (fun _ _ _ _ => rfl) c h1 hle
  rw [e, Res.bind_ok] at e1
  rcases C52_client (h := h) (short_run (by decide) c h1 hle).keysIn depth with e2 | e2
  · exact absurd e2 hret
  · unfold runTable at hret ⊢
    have e3 := run_client c ld (calls ++ [call])
    rw [← e1] at e3
    cases hx : (runClient c ld (calls ++ [call])).onNew h depth with
    | hang => exact absurd hx hret
    | ub =>
      rw [hx] at e2
      rw [← e2] at e3
      cases e3
    | ok q =>
      rw [hx, Res.bind_ok] at e2
      rw [← e2] at e3
      have := Res.ok.inj e3
      simp only [Prod.mk.injEq, StrFilter.mk.injEq] at this
      obtain ⟨⟨hc', -⟩, ha⟩ := this
      exact ⟨q.1, by rw [hc', ha]⟩

/-! ## An insertion that does not return -/

/-- Four bytes that take the hash back to where it was. -/
def echo : Key := [0x3C, 0x00, 0x04, 0x4A]

/-- All but the last byte of `echo` sixteen times. -/
def echoes : Key := (List.replicate 16 echo).flatten.dropLast

/-- 33 keys that share their first 63 bytes. -/
def echoKeys : List Key := (List.range 17).map (fun i => echoes ++ [0x4A, UInt8.ofNat i]) ++
  (List.range 16).map (fun i => echoes ++ [0x49, UInt8.ofNat i])

/-- The prefixes of an anchor with one and the same hash. -/
def echoNodes : List Key := (List.range 17).map fun i => (echoes ++ [0x4A]).take (4 * i)

theorem echo_hang {p : Client α} (hk : p.KeysLe 65520) {t : STree} {a : α} (e : p.onLeaves STree.empty = .ok (t, a))
    (ht : (t.any fun l => l.anchor == echoes ++ [0x4A]) = true) : p.onNew crc32c depth = .hang := by
  rcases C52_client (h := crc32c) hk depth with e1 | e1
  · exact e1
  · rw [e] at e1
    obtain ⟨⟨s, a'⟩, e2, e3⟩ := Res.bind_eq_ok e1
    have hs : s.leaves = t := (Prod.mk.inj (Res.ok.inj e3)).1
    obtain ⟨l, hl, hla⟩ := List.any_eq_true.1 ht
    have := (C52_calls hk e2).2.1 0xDEADBEEF echoNodes (by decide +kernel) (fun q hq => ⟨?_, l, by rw [hs]; exact hl, ?_⟩)
    · exact absurd this (by decide +kernel)
    · revert hq; revert q; decide +kernel
    · obtain ⟨i, -, rfl⟩ := List.mem_map.1 hq
      rw [eq_of_beq hla]
      exact List.take_prefix _ _

theorem echo_tree : ((treeClient (echoKeys.map fun k => .put k Store.zero) true).onLeaves STree.empty).bind (fun q =>
    .ok (q.1.any fun l => l.anchor == echoes ++ [0x4A], q.2)) = .ok (true, true) := by
  decide +kernel

theorem echo_filter : ((runClient (cfg95 5) (.var varKeys) (echoKeys.map fun k => .insert k true)).onLeaves STree.empty).bind (fun q =>
    .ok (q.1.any fun l => l.anchor == echoes ++ [0x4A])) = .ok true := by
  decide +kernel

theorem echoKeys_le : ∀ k ∈ echoKeys, k.length ≤ 65520 := by
  have h : (echoKeys.all fun k => k.length ≤ 65) = true := by decide +kernel
  intro k hk
  have := List.all_eq_true.1 h k hk
  simp only [decide_eq_true_eq] at this
  omega

/-- With the hash function of the code, 33 keys that share their first 63 bytes cannot be put into a tree: seventeen prefixes
of the first anchor have the same hash, and the table grows until the process is ended. On the leaves alone it works. -/
theorem C52_false_put : ∃ p : Key, p.length = 63 ∧ ∃ keys : List Key, keys.length = 33 ∧ (∀ k ∈ keys, p <+: k) ∧
    (∃ t, (treeClient (keys.map fun k => .put k Store.zero) true).onLeaves STree.empty = .ok (t, true)) ∧
    ∀ depth, (treeClient (keys.map fun k => .put k Store.zero) true).onNew crc32c depth = .hang := by
  obtain ⟨⟨t, b⟩, e, h⟩ := Res.bind_eq_ok echo_tree
  have h := Res.ok.inj h
  simp only [Prod.mk.injEq] at h
  obtain ⟨h1, rfl⟩ := h
  refine ⟨echoes, by decide +kernel, echoKeys, by decide +kernel, ?_, ⟨t, e⟩, fun depth => echo_hang (short_tree ?_ true).keysIn e h1⟩
  · intro k hk
    rcases List.mem_append.1 hk with hk | hk <;> obtain ⟨i, -, rfl⟩ := List.mem_map.1 hk <;> exact List.prefix_append _ _
  · intro k st hin
    obtain ⟨k', hk', e'⟩ := List.mem_map.1 hin
    cases e'
    exact echoKeys_le k hk'

/-- So the filter violates "every call returns": loaded with two keys, it takes 33 such keys as boundaries on the ordered
list, but the history never ends. -/
theorem C52_false : ∃ c ld calls, Cfg.WF c ∧ Load.KeysLe 65520 ld ∧ InsertsLe 65520 calls ∧ (∃ q, runList c ld calls = .ok q) ∧
    ∀ depth, runTable crc32c depth c ld calls = .hang := by
  have hle : InsertsLe 65520 (echoKeys.map fun k => .insert k true) := by
    intro k b hin
    obtain ⟨k', hk', e'⟩ := List.mem_map.1 hin
    cases e'
    exact echoKeys_le k hk'
  obtain ⟨⟨t, a⟩, e, h⟩ := Res.bind_eq_ok echo_filter
  refine ⟨cfg95 5, .var varKeys, _, cfg95_5, varLoad_le (by decide), hle, ?_,
    fun depth => echo_hang (short_run (by decide) _ (varLoad_le (by decide)) hle).keysIn e (Res.ok.inj h)⟩
  rw [← C49_same _ ((varLoad_le (by decide)).mono (N := 65520) (by decide)) fun k b h => Nat.le_trans (hle k b h) (by decide), run_client, e]
  exact ⟨_, rfl⟩

/-! ## Cases -/

/-- Three leaves, one merge, and the answers of C49, with the hash function of the code. -/
example : ∃ s c, runTable crc32c 8 (cfg95 5) (.var varKeys) strCalls = .ok (s, c, strAnswers) ∧ s.leaves.length = 3 ∧
    s.index.find crc32c [0x62] ≠ none ∧ s.index.find crc32c [0x63] = none := by
  have h : (runTable crc32c 8 (cfg95 5) (.var varKeys) strCalls).bind (fun q => .ok (q.1.leaves.length,
    (q.1.index.find crc32c [0x62]).isSome, (q.1.index.find crc32c [0x63]).isSome, q.2.2)) = .ok (3, true, false, strAnswers) := by decide +kernel
  obtain ⟨⟨s, c, as⟩, e, h⟩ := Res.bind_eq_ok h
  have h := Res.ok.inj h
  simp only [Prod.mk.injEq] at h
  obtain ⟨h1, h2, h3, rfl⟩ := h
  refine ⟨s, c, e, h1, fun hn => ?_, ?_⟩
  · rw [hn] at h2; cases h2
  · cases hx : s.index.find crc32c [0x63] with
    | none => rfl
    | some m => rw [hx] at h3; cases h3

/-- `C52_answers` for "a", "c" and "ab". -/
example : ∃ s c, runTable crc32c 8 (cfg95 5) (.var varKeys) [.insert [0x61, 0x62] false, .range [0x61, 0x61, 0x61] [0x61, 0x63]] =
    .ok (s, c, [.flag true]) := by
  have hle : InsertsLe 65520 [.insert [0x61, 0x62] false] := by
    intro k split h
    simp only [List.mem_singleton, FilterCall.insert.injEq] at h
    rw [h.1]; exact Nat.le_of_ble_eq_true rfl
  obtain ⟨f, hl, hb⟩ := ab_list
  have hret : (runTable crc32c 8 (cfg95 5) (.var varKeys) ([.insert [0x61, 0x62] false] ++
      [.range [0x61, 0x61, 0x61] [0x61, 0x63]])).bind (fun _ => .ok ()) = .ok () := by decide +kernel
  obtain ⟨s, e⟩ := C52_answers cfg95_5 (varLoad_le (by decide)) hle hl (by decide) (.built hb) (k := [0x61, 0x62]) (by simp)
    (call := .range [0x61, 0x61, 0x61] [0x61, 0x63]) (.inr ⟨_, _, rfl, by decide, by decide⟩) (h := crc32c) (depth := 8)
    (fun hx => by rw [hx] at hret; cases hret)
  exact ⟨s, _, e⟩

/-- Anchors "b" and "bcd", of which "b" is merged away again. -/
example : ∃ x y, TabHist crc32c x [[], [98], [98, 99, 100]] ∧ x.merge crc32c [] [98] (some [98, 99, 100]) = .ok y ∧
    TabHist crc32c y [[], [98, 99, 100]] ∧ y.find crc32c [98] ≠ none ∧ y.jump crc32c [98, 99, 99] = .ok [] := by
  have h : ((TabIndex.create crc32c 4).bind fun x => (x.split crc32c 4 [] [98] none).bind fun x =>
      (x.split crc32c 4 [98] [98, 99, 100] none).bind fun x => .ok x.maxplen) = .ok 3 := by decide +kernel
  obtain ⟨x0, e0, h⟩ := Res.bind_eq_ok h
  obtain ⟨x1, e1, h⟩ := Res.bind_eq_ok h
  obtain ⟨x2, e2, -⟩ := Res.bind_eq_ok h
  have h1 : TabHist crc32c x1 [[], [98]] := .split (A := []) (B := []) (.create e0) (by unfold Ladder; decide) e1
  have h2 : TabHist crc32c x2 [[], [98], [98, 99, 100]] := .split (A := [[]]) (B := []) h1 (by unfold Ladder; decide) e2
  obtain ⟨y, e3, h3⟩ := C52_merge (A := []) (B := [[98, 99, 100]]) h2
  obtain ⟨r, hr, ho⟩ := C52_find h3 [98, 99, 99]
  refine ⟨x2, y, h2, e3, h3, (C52_nodes h3 _).2 ⟨[98, 99, 100], by simp, by decide⟩, ?_⟩
  rw [hr, ho.unique (r' := []) (by unfold Owns; decide)]

/-- Whether `ps` has all prefixes of the keys, at most eight with the same bucket. -/
def thin (h : Key → Nat) (K ps : List Key) : Bool := (([] :: K).all fun k => k.inits.all fun q => ps.contains q) &&
  ps.all fun q => decide ((ps.filter fun r => h r &&& 4095 == h q &&& 4095).length ≤ 8)

theorem thin_sound {K ps : List Key} (e : thin h K ps = true) : Thin h (Stem K) := by
  unfold thin at e
  simp only [Bool.and_eq_true, List.all_eq_true, List.contains_iff_mem, List.mem_inits, decide_eq_true_eq] at e
  intro b L hL hq
  cases L with
  | nil => exact Nat.zero_le _
  | cons q L =>
    have hin : ∀ r, Stem K r → r ∈ ps := fun r ⟨k, hk, hr⟩ => e.1 k hk r hr
    obtain ⟨h1, h2⟩ := hq q (List.mem_cons_self ..)
    refine Nat.le_trans (hL.subperm fun r hr => ?_).length_le (e.2 q (hin q h1))
    obtain ⟨h3, h4⟩ := hq r hr
    exact List.mem_filter.2 ⟨hin r h3, by rw [h4, h2]; simp⟩

/-- Keys of `treeCalls`. -/
def treeKeys : List Key := (List.range 40).map fun i => [0x61, UInt8.ofNat (90 - i)]

theorem treeKeys_in : (treeClient treeCalls true).KeysIn (Stem treeKeys) := by
  refine (short_tree (fun k st h => ?_) true).keysIn
  simp only [treeCalls, List.mem_append, List.mem_map, reduceCtorEq, and_false, exists_false, or_false, List.mem_singleton] at h
  obtain ⟨i, hi, h⟩ := h
  exact ⟨k, List.mem_cons_of_mem _ (List.mem_map.2 ⟨i, hi, (TreeCall.put.inj h).1⟩), List.prefix_rfl⟩

/-- The calls of the example for C49 return, with depth two. -/
example : ∃ s, (treeClient treeCalls true).onNew crc32c 2 = .ok (s, true) ∧ s.leaves.length = 2 := by
  have ht : Thin crc32c (Stem treeKeys) := thin_sound (ps := [] :: [0x61] :: treeKeys) (by decide +kernel)
  have e := C52_returns_partial (K := treeKeys) (by decide +kernel) ht treeKeys_in (Nat.le_refl 2)
  obtain ⟨t, et, _, _, h⟩ := C49_map (treeCalls_le (by decide))
  have hlen : (treeRun treeCalls).bind (fun q => .ok q.1.length) = .ok 2 := by decide +kernel
  rw [et] at hlen
  rw [show (treeClient treeCalls true).onLeaves STree.empty = .ok (t, true) by rw [tree_client]; exact et] at e
  obtain ⟨q, e1, e2⟩ := Res.bind_eq_ok e
  obtain ⟨h1, h2⟩ := Prod.mk.inj (Res.ok.inj e2)
  exact ⟨q.1, by rw [e1, ← h2], by rw [h1]; exact Res.ok.inj hlen⟩

end Verif.Props
