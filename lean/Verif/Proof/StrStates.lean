import Verif.Proof.WhStrMap
import Verif.Proof.WhStrScan
import Verif.Proof.IntStates
import Verif.Spec.StrStates

/-!
# Histories on the tree of `Diva<false>` follow those on the list
-/

namespace Verif.Str

theorem SRep.contents {t : STree} {m : Tree} (h : SRep t m) : t.contents = m := by
  have hp := h.pairs
  obtain ⟨h1, h2⟩ := fold_treePut (es := t.pairs) (m := []) List.Pairwise.nil (((hp.map Prod.fst).nodup_iff).2 h.inc.nodup)
  exact Inc.eq_of_perm (h2.trans hp) h1 h.inc

theorem Twin.flat {w : StrFilter} {f : Filter} (h : Twin w f) : w.flat = f := by
  obtain ⟨h1, h2, _⟩ := h
  cases f
  simp only [StrFilter.flat]
  rw [h1, SRep.contents h2]

/-- Both sides have the same outcome, and go on with the same regions. -/
def Same (r : Res (StrFilter × List Answer)) (s : Res (Filter × List Answer)) : Prop :=
  RelRes (fun p q => Twin p.1 q.1 ∧ p.2 = q.2) r s

theorem Same.flat {r : Res (StrFilter × List Answer)} {s : Res (Filter × List Answer)} (h : Same r s) :
    r.bind (fun q => .ok (q.1.flat, q.2)) = s := by
  cases r <;> cases s <;> simp only [Same, RelRes] at h <;> try contradiction
  · rw [Res.bind_ok, Twin.flat h.1, h.2]
  · rfl
  · rfl

theorem load_same (c : Cfg) {ld : Load} (h : ld.KeysLe 65535) : RelRes Twin (ld.onTree c) (ld.onList c) := by
  cases ld with
  | fixed n K =>
    simp only [Load.KeysLe] at h
    obtain ⟨h1, h2⟩ := h
    show RelRes Twin (strBulkFixed c n K) (bulkFixed c n K)
    exact bulkFixed_str h1 c h2
  | var K =>
    simp only [Load.KeysLe] at h
    generalize hX : Load.onTree c (.var K) = X
    generalize hY : Load.onList c (.var K) = Y
    exact bulkVar_str c h hX hY
  | stream K =>
    simp only [Load.KeysLe] at h
    show RelRes Twin (strStreamAll c K) (streamAll c K)
    exact streamAll_str c h
  | restore buf =>
    generalize hX : Load.onTree c (.restore buf) = X
    generalize hY : Load.onList c (.restore buf) = Y
    have := deserialize_str buf
    rw [← hX, ← hY]
    exact this

theorem call_same {w : StrFilter} {f : Filter} (h : Twin w f) {call : FilterCall}
    (hk : ∀ k split, call = .insert k split → k.length ≤ 65535) : Same (call.onTree w) (call.onList f) := by
  obtain ⟨hc, hr, hb⟩ := h
  obtain ⟨c, t⟩ := w
  obtain ⟨c', m⟩ := f
  dsimp only at hc hr hb
  subst hc
  cases call with
  | insert k split =>
    have hk' : k.length ≤ 65535 := hk k split rfl
    clear hk
    have : RelRes Twin (strInsert ⟨c, t⟩ k split) (Verif.insert ⟨c, m⟩ k split) := by
      cases split with
      | false => exact insertSimple_str c hr hb
      | true => exact insertSplit_str c hr hb hk'
    show Same (Res.bind (strInsert ⟨c, t⟩ k split) _) (Res.bind (Verif.insert ⟨c, m⟩ k split) _)
    revert this
    generalize strInsert ⟨c, t⟩ k split = X
    generalize Verif.insert ⟨c, m⟩ k split = Y
    cases X <;> cases Y <;> intro hr <;> first | exact hr.elim | trivial
  | delete k =>
    have := delete_str (k := k) c hr hb
    show Same (Res.bind (strDelete ⟨c, t⟩ k) _) (Res.bind (Verif.delete ⟨c, m⟩ k) _)
    revert this
    generalize strDelete ⟨c, t⟩ k = X
    generalize Verif.delete ⟨c, m⟩ k = Y
    cases X <;> cases Y <;> intro hr <;> first | exact hr.elim | trivial
  | point k =>
    have := pointQuery_str (k := k) c hr
    show Same (Res.bind (strPointQuery ⟨c, t⟩ k) _) (Res.bind (pointQuery ⟨c, m⟩ k) _)
    revert this
    generalize strPointQuery ⟨c, t⟩ k = X
    generalize pointQuery ⟨c, m⟩ k = Y
    cases X <;> cases Y <;> intro hr <;> first | exact hr.elim | trivial | skip
    exact ⟨⟨hr.1, hr.2.1, hb⟩, by rw [hr.2.2.2]⟩
  | range l r =>
    have := rangeQuery_str (k := l) c hr r
    show Same (Res.bind (strRangeQuery ⟨c, t⟩ l r) _) (Res.bind (rangeQuery false ⟨c, m⟩ l r) _)
    revert this
    generalize strRangeQuery ⟨c, t⟩ l r = X
    generalize rangeQuery false ⟨c, m⟩ l r = Y
    cases X <;> cases Y <;> intro hr <;> first | exact hr.elim | trivial | skip
    exact ⟨⟨hr.1, hr.2.1, hb⟩, by rw [hr.2.2.2]⟩
  | shrink s =>
    have := shrink_str c s hr hb
    show Same (Res.bind (strShrink ⟨c, t⟩ s) _) (Res.bind (shrinkInfixSize ⟨c, m⟩ s) _)
    revert this
    generalize strShrink ⟨c, t⟩ s = X
    generalize shrinkInfixSize ⟨c, m⟩ s = Y
    cases X <;> cases Y <;> intro hr <;> first | exact hr.elim | trivial
  | size =>
    obtain ⟨t', e, h'⟩ := size_str c hr
    show Same (Res.bind (strSize ⟨c, t⟩) _) _
    rw [e]
    exact ⟨⟨rfl, h', hb⟩, rfl⟩
  | serialize seed lf =>
    obtain ⟨t', e, h'⟩ := serialize_str c seed lf hr
    show Same (Res.bind (strSerialize seed lf ⟨c, t⟩) _) _
    rw [e]
    exact ⟨⟨rfl, h', hb⟩, rfl⟩

theorem calls_same : ∀ {calls : List FilterCall}, InsertsLe 65535 calls → ∀ {r : Res (StrFilter × List Answer)}
    {s : Res (Filter × List Answer)}, Same r s →
    Same (calls.foldl (fun r call => r.bind fun q => (call.onTree q.1).bind fun p => .ok (p.1, q.2 ++ p.2)) r)
      (calls.foldl (fun r call => r.bind fun q => (call.onList q.1).bind fun p => .ok (p.1, q.2 ++ p.2)) s)
  | [], _, _, _, h => h
  | call :: calls, hk, r, s, h => by
    rw [List.foldl_cons, List.foldl_cons]
    refine calls_same (fun k split hin => hk k split (by simp [hin])) ?_
    revert h
    cases r <;> cases s <;> intro h <;> first | exact h.elim | trivial | skip
    rename_i p q
    obtain ⟨w, as⟩ := p
    obtain ⟨f, bs⟩ := q
    obtain ⟨h1, h2⟩ := h
    dsimp only at h1 h2
    subst h2
    have := call_same h1 (call := call) (fun k split e => hk k split (by simp [e]))
    rw [Res.bind_ok, Res.bind_ok]
    dsimp only
    revert this
    generalize call.onTree w = X
    generalize call.onList f = Y
    cases X <;> cases Y <;> intro hr <;> first | exact hr.elim | trivial | skip
    exact ⟨hr.1, by rw [hr.2]⟩

theorem run_same (c : Cfg) {ld : Load} {calls : List FilterCall} (h1 : ld.KeysLe 65535) (h2 : InsertsLe 65535 calls) :
    Same (runTree c ld calls) (runList c ld calls) := by
  refine calls_same h2 ?_
  have := load_same c h1
  revert this
  generalize ld.onTree c = X
  generalize ld.onList c = Y
  cases X <;> cases Y <;> intro hr <;> first | exact hr.elim | trivial

end Verif.Str
