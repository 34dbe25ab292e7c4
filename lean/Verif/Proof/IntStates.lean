import Verif.Proof.WhBulk
import Verif.Proof.WhStream
import Verif.Proof.States
import Verif.Proof.TameOps
import Verif.Spec.IntStates

/-!
# The states of the integer tree are states of the list
-/

namespace Verif

theorem fold_treePut : ∀ {es m : List Entry}, Inc m → (keysOf (m ++ es)).Nodup →
    Inc (es.foldl (fun m e => treePut m e.1 e.2) m) ∧ (es.foldl (fun m e => treePut m e.1 e.2) m).Perm (m ++ es)
  | [], m, h, _ => ⟨h, by simp⟩
  | e :: es, m, h, hn => by
    have hk : e.1 ∉ keysOf m := by
      rw [keysOf, List.map_append, List.nodup_append] at hn
      intro hm
      exact hn.2.2 _ hm e.1 (by simp) rfl
    have hp : (treePut m e.1 e.2).Perm (e :: m) := by
      refine (treePut_perm_filter h).trans ?_
      rw [List.filter_eq_self.2]
      intro x hx
      exact bne_iff_ne.2 fun hh => hk (hh ▸ List.mem_map_of_mem hx)
    have hp2 : (treePut m e.1 e.2 ++ es).Perm (m ++ e :: es) :=
      (hp.append_right es).trans List.perm_middle.symm
    have hn2 : (keysOf (treePut m e.1 e.2 ++ es)).Nodup := (hp2.map Prod.fst).nodup_iff.2 hn
    obtain ⟨h1, h2⟩ := fold_treePut (es := es) (treePut_inc h) hn2
    exact ⟨h1, h2.trans hp2⟩

theorem flat_perm (t : Wh) : (t.flatMap Leaf.entries).Perm (t.flatMap Leaf.list) :=
  List.Perm.flatMap_left _ fun l _ => (Leaf.list_perm l).symm

theorem WhRep.contents {t : Wh} {m : Tree} (h : WhRep t m) : t.contents = m := by
  have hp : (t.flatMap Leaf.entries).Perm m := by rw [h.eq]; exact flat_perm t
  obtain ⟨h1, h2⟩ := fold_treePut (es := t.flatMap Leaf.entries) (m := []) List.Pairwise.nil
    (((hp.map Prod.fst).nodup_iff).2 h.inc.nodup)
  exact Inc.eq_of_perm (h2.trans hp) h1 h.inc

theorem Twin.flat {w : WhFilter} {f : Filter} (h : Twin w f) : w.flat = f := by
  obtain ⟨h1, h2⟩ := h
  cases f
  simp only [WhFilter.flat]
  rw [h1, h2.contents]

/-- The leaves are well formed. -/
def WhOK (w : WhFilter) : Prop := WhRep w.tree w.tree.contents

theorem Twin.ok {w : WhFilter} {f : Filter} (h : Twin w f) : WhOK w := by
  unfold WhOK
  rw [h.2.contents]; exact h.2

theorem WhOK.twin {w : WhFilter} (h : WhOK w) : Twin w w.flat := ⟨rfl, h⟩

theorem RelRes.flat {r : Res WhFilter} {s : Res Filter} (h : RelRes Twin r s) : r.bind (fun w => .ok w.flat) = s := by
  cases r <;> cases s <;> simp only [RelRes] at h <;> try contradiction
  · rw [Res.bind_ok, h.flat]
  · rfl
  · rfl

theorem RelRes.okL {α β : Type} {R : α → β → Prop} {r : Res α} {s : Res β} {a : α} (h : RelRes R r s) (e : r = .ok a) :
    ∃ b, s = .ok b ∧ R a b := by
  subst e
  cases s <;> simp only [RelRes] at h
  exact ⟨_, rfl, h⟩

theorem RelRes.okR {α β : Type} {R : α → β → Prop} {r : Res α} {s : Res β} {b : β} (h : RelRes R r s) (e : s = .ok b) :
    ∃ a, r = .ok a ∧ R a b := by
  subst e
  cases r <;> simp only [RelRes] at h
  exact ⟨_, rfl, h⟩

/-! ## Operations on a well-formed tree -/

variable {w : WhFilter} {k : Key}

theorem WhOK.point (h : WhOK w) (hk : k.length ≤ 8) :
    RelRes (fun q b => Twin q.1 w.flat ∧ q.2 = b) (whPointQuery w k) (pointQuery w.flat k) := by
  have := pointQuery_wh w.cfg h hk
  revert this
  show RelRes _ (whPointQuery w k) (pointQuery w.flat k) → _
  cases whPointQuery w k <;> cases pointQuery w.flat k <;> simp only [RelRes] <;> try exact id
  rintro ⟨h1, h2, _, h4⟩
  exact ⟨⟨h1, h2⟩, h4⟩

theorem WhOK.range (h : WhOK w) (hk : k.length ≤ 8) (r : Key) :
    RelRes (fun q b => Twin q.1 w.flat ∧ q.2 = b) (whRangeQuery w k r) (rangeQuery true w.flat k r) := by
  have := rangeQuery_wh w.cfg h hk r
  revert this
  show RelRes _ (whRangeQuery w k r) (rangeQuery true w.flat k r) → _
  cases whRangeQuery w k r <;> cases rangeQuery true w.flat k r <;> simp only [RelRes] <;> try exact id
  rintro ⟨h1, h2, _, h4⟩
  exact ⟨⟨h1, h2⟩, h4⟩

theorem planSplit_new {f : Filter} {n : Nat} (h : FilterOK f) (hn : n < 2 ^ 28) (hkn : k.length ≤ n) (hlen : LenLe n f)
    (hfit : InsertFits f k true) {d : SplitPlan} (hp : planSplit f k = .ok (some d)) : d.boundary k ∉ boundaries f := by
  have hf : SplitFits f d := by
    unfold InsertFits at hfit
    rw [hp] at hfit
    exact hfit
  obtain ⟨A, next, st', B, sh, ig, imp, L, sp, shL, igL, impL, shG, igG, impG, I⟩ :=
    planSplit_spec h hp hf.shamtL hf.shamtG hn hkn hlen
  have hb : d.boundary k = d.edited := by
    unfold SplitPlan.boundary
    rw [I.edited]
    cases d.zeroPos <;> rfl
  rw [hb]
  intro hm
  obtain ⟨e, he, e1⟩ := List.mem_map.1 hm
  have hpw := h.pairwise
  rw [I.tree] at he hpw
  rcases List.mem_append.1 he with he | he
  · have := (List.pairwise_append.1 hpw).2.2 e he _ (List.mem_cons_self)
    rw [e1] at this
    exact PadLt.irrefl _ (I.ltL.trans this)
  · have hpw := (List.pairwise_append.1 hpw).2.1
    rcases List.mem_cons.1 he with rfl | he
    · have := I.ltL
      rw [← e1] at this
      exact PadLt.irrefl _ this
    · have hpw := (List.pairwise_cons.1 hpw).2
      rcases List.mem_cons.1 he with rfl | he
      · have := I.ltG
        rw [← e1] at this
        exact PadLt.irrefl _ this
      · have := (List.pairwise_cons.1 hpw).1 e he
        rw [e1] at this
        exact PadLt.irrefl _ (I.ltG.trans this)

theorem WhOK.insert (h : WhOK w) {n : Nat} (hn : n ≤ 8) (hk : k.length ≤ n) (hf : FilterOK w.flat) (hlen : LenLe n w.flat)
    {split : Bool} (hfit : InsertFits w.flat k split) : RelRes Twin (whInsert w k split) (Verif.insert w.flat k split) := by
  cases split with
  | false => exact insertSimple_wh w.cfg h (by omega)
  | true =>
    exact insertSplit_wh w.cfg h (by omega) fun d hd => Or.inl (planSplit_new hf (by omega) hk hlen hfit hd)

theorem WhOK.delete (h : WhOK w) (hk : k.length ≤ 8) (hc : DeleteCalm w k) :
    RelRes Twin (whDelete w k) (Verif.delete w.flat k) := delete_wh w.cfg h hk hc

/-! ## Histories -/

theorem keys_nodup {K : List Key} (h : K.Pairwise fun a b => keyLt a b = true) : K.Nodup :=
  h.imp fun hab => by rintro rfl; rw [keyLt_irrefl] at hab; cases hab

theorem IntReach.sound {c : Cfg} (hc : c.WF) {n : Nat} (hn : n ≤ 8) {w : WhFilter} (h : IntReach c n w) :
    WhOK w ∧ Reach c n w.flat := by
  induction h with
  | @load m K w hm h1 h2 h3 =>
    obtain ⟨f, hf, ht⟩ := (bulkFixed_wh (by omega : m ≤ 8) c (grouped_sorted h2)
      (fun k hk => by rw [h1 k hk]; omega)).okL h3
    refine ⟨ht.ok, ?_⟩
    rw [ht.flat]
    exact .fixed hm h1 h2 hf
  | @insert w w' k split _ hk hfit hi ih =>
    obtain ⟨ok, r⟩ := ih
    have I := r.inv hc (by omega)
    obtain ⟨f, hf, ht⟩ := (ok.insert hn hk I.ok I.len hfit).okL hi
    refine ⟨ht.ok, ?_⟩
    rw [ht.flat]
    exact .insert r hk hfit hf
  | @point w w' k b _ hk hq ih =>
    obtain ⟨ok, r⟩ := ih
    obtain ⟨_, _, ht, _⟩ := (ok.point (by omega)).okL hq
    exact ⟨ht.ok, by rw [ht.flat]; exact r⟩
  | @range w w' l r' b _ hk hq ih =>
    obtain ⟨ok, r⟩ := ih
    obtain ⟨_, _, ht, _⟩ := (ok.range (by omega) r').okL hq
    exact ⟨ht.ok, by rw [ht.flat]; exact r⟩

theorem IntOps.strict {c : Cfg} {n : Nat} {K : List Key} {w : WhFilter} (h1 : ∀ k ∈ K, k.length = n)
    (h2 : K.Pairwise fun a b => keyLt a b = true) (h3 : whBulkFixed c n K = .ok w) : IntOps c n true w K :=
  .load h1 (h2.imp fun h => keyLt_keyLe h) (fun _ => Nat.le_refl _) (fun _ h => h) h3
    fun k _ => List.nodup_iff_count_le_one.1 (keys_nodup h2) k

theorem IntOps.sound {c : Cfg} (hc : c.WF) {n : Nat} (hn : n ≤ 8) {ins : Bool} {w : WhFilter} {S : List Key}
    (h : IntOps c n ins w S) : WhOK w ∧ OpsTame c n ins w.flat S := by
  induction h with
  | @load K S w h1 h2 hS hS' h3 hb =>
    obtain ⟨f, hf, ht⟩ := (bulkFixed_wh hn c (grouped_sorted h2) (fun k hk => by rw [h1 k hk]; omega)).okL h3
    refine ⟨ht.ok, ?_⟩
    rw [ht.flat] at hb ⊢
    exact .load h1 h2 hS hS' hf hb
  | @stream K S w h1 h2 hsam h0 hS hS' h3 hb =>
    obtain ⟨f, hf, ht⟩ := (streamAll_wh hn c h1 h2 (h0.imp_right fun h => .inr h.2)).okL h3
    refine ⟨ht.ok, ?_⟩
    rw [ht.flat] at hb ⊢
    exact .stream h1 h2 hsam (h0.imp_right fun h => h.1) hS hS' hf hb
  | @insert w w' S k split _ hk hfit hi ih =>
    obtain ⟨ok, r⟩ := ih
    have I := r.inv hc (by omega)
    obtain ⟨f, hf, ht⟩ := (ok.insert hn (Nat.le_of_eq hk) (I.strong rfl) I.len hfit).okL hi
    refine ⟨ht.ok, ?_⟩
    rw [ht.flat]
    exact .insert r hk hfit hf
  | @delete ins ins' w w' S k _ hk hii htame hcalm hd ih =>
    obtain ⟨ok, r⟩ := ih
    have I := r.inv hc (by omega)
    obtain ⟨f, hf, ht⟩ := (ok.delete (by rw [I.mem k hk]; omega) hcalm).okL hd
    refine ⟨ht.ok, ?_⟩
    rw [ht.flat]
    exact .delete r hk hii htame hf
  | @point ins w w' S k b _ hk hq ih =>
    obtain ⟨ok, r⟩ := ih
    obtain ⟨_, _, ht, _⟩ := (ok.point (by omega)).okL hq
    exact ⟨ht.ok, by rw [ht.flat]; exact r⟩
  | @range ins w w' S l r' b _ hk hq ih =>
    obtain ⟨ok, r⟩ := ih
    obtain ⟨_, _, ht, _⟩ := (ok.range (by omega) r').okL hq
    exact ⟨ht.ok, by rw [ht.flat]; exact r⟩

theorem IntStates.sound {c : Cfg} (hc : c.WF) {n : Nat} (hn : n ≤ 8) {w : WhFilter} (h : IntStates c n w) :
    WhOK w ∧ States c n w.flat := by
  cases h with
  | reach h => exact ⟨(h.sound hc hn).1, .reach (h.sound hc hn).2⟩
  | ops h => exact ⟨(h.sound hc hn).1, .tame (h.sound hc hn).2⟩

end Verif
