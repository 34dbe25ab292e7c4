import Verif.Proof.WhScan
import Verif.Proof.WhStream
import Verif.Proof.Serial

/-!
# Histories of `Diva<true>` on its tree follow the ordered list
-/

namespace Verif

/-- Same outcome, same answers, and the tree holds the list. -/
def IntSame (r : Res (WhFilter × List Answer)) (s : Res (Filter × List Answer)) : Prop :=
  RelRes (fun p q => Twin p.1 q.1 ∧ p.2 = q.2) r s

theorem IntSame.flat {r : Res (WhFilter × List Answer)} {s : Res (Filter × List Answer)} (h : IntSame r s) :
    r.bind (fun q => .ok (q.1.flat, q.2)) = s := by
  revert h
  cases r <;> cases s <;> intro h <;> first | exact h.elim | rfl | skip
  rename_i p q
  obtain ⟨h1, h2⟩ := h
  rw [Res.bind_ok, h1.flat, h2]

theorem intLoad_same (c : Cfg) {ld : IntLoad} (h : ld.OK) : RelRes Twin (ld.onTree c) (ld.onList c) := by
  cases ld with
  | fixed n K => exact bulkFixed_wh h.1 c h.2.2 h.2.1
  | stream K =>
    obtain ⟨n, hn, h1, h2, h3⟩ := h
    exact streamAll_wh hn c h1 h2 h3
  | restore buf => exact deserialize_wh h

theorem intCall_same {w : WhFilter} {f : Filter} (h : Twin w f) {call : FilterCall} (hs : call.Short)
    (hd : ∀ k, call = .delete k → DeleteCalm w k) : IntSame (call.onIntTree w) (call.onIntList f) := by
  have hfl := h.flat
  obtain ⟨c, t⟩ := w
  obtain ⟨c', m⟩ := f
  obtain ⟨hc, hr⟩ := h
  dsimp only at hc hr
  subst hc
  cases call with
  | insert k split =>
    have := insert_wh c hr hs split
    show IntSame (Res.bind (whInsert ⟨c, t⟩ k split) _) (Res.bind (Verif.insert ⟨c, m⟩ k split) _)
    revert this
    generalize whInsert ⟨c, t⟩ k split = X
    generalize Verif.insert ⟨c, m⟩ k split = Y
    cases X <;> cases Y <;> intro hr <;> first | exact hr.elim | trivial
  | delete k =>
    have hd := hd k rfl
    unfold DeleteCalm at hd
    rw [hfl] at hd
    have := delete_wh c hr hs hd
    show IntSame (Res.bind (whDelete ⟨c, t⟩ k) _) (Res.bind (Verif.delete ⟨c, m⟩ k) _)
    revert this
    generalize whDelete ⟨c, t⟩ k = X
    generalize Verif.delete ⟨c, m⟩ k = Y
    cases X <;> cases Y <;> intro hr <;> first | exact hr.elim | trivial
  | point k =>
    have := pointQuery_wh c hr hs
    show IntSame (Res.bind (whPointQuery ⟨c, t⟩ k) _) (Res.bind (pointQuery ⟨c, m⟩ k) _)
    revert this
    generalize whPointQuery ⟨c, t⟩ k = X
    generalize pointQuery ⟨c, m⟩ k = Y
    cases X <;> cases Y <;> intro hr <;> first | exact hr.elim | trivial | skip
    exact ⟨⟨hr.1, hr.2.1⟩, by rw [hr.2.2.2]⟩
  | range l r =>
    have := rangeQuery_wh c hr hs r
    show IntSame (Res.bind (whRangeQuery ⟨c, t⟩ l r) _) (Res.bind (rangeQuery true ⟨c, m⟩ l r) _)
    revert this
    generalize whRangeQuery ⟨c, t⟩ l r = X
    generalize rangeQuery true ⟨c, m⟩ l r = Y
    cases X <;> cases Y <;> intro hr <;> first | exact hr.elim | trivial | skip
    exact ⟨⟨hr.1, hr.2.1⟩, by rw [hr.2.2.2]⟩
  | shrink s =>
    have := shrink_wh c s hr
    show IntSame (Res.bind (whShrink ⟨c, t⟩ s) _) (Res.bind (shrinkInfixSize ⟨c, m⟩ s) _)
    revert this
    generalize whShrink ⟨c, t⟩ s = X
    generalize shrinkInfixSize ⟨c, m⟩ s = Y
    cases X <;> cases Y <;> intro hr <;> first | exact hr.elim | trivial
  | size =>
    obtain ⟨t', e, h'⟩ := size_wh c hr
    show IntSame (Res.bind (whSize ⟨c, t⟩) _) _
    rw [e]
    exact ⟨⟨rfl, h'⟩, rfl⟩
  | serialize seed lf =>
    obtain ⟨t', e, h'⟩ := serialize_wh c seed lf hr
    show IntSame (Res.bind (whSerialize seed lf ⟨c, t⟩) _) _
    rw [e]
    exact ⟨⟨rfl, h'⟩, rfl⟩

theorem intFrom_same : ∀ {calls : List FilterCall} {w : WhFilter} {f : Filter}, Twin w f → (∀ call ∈ calls, call.Short) →
    CalmFrom w calls → IntSame (intTreeFrom w calls) (intListFrom f calls)
  | [], _, _, h, _, _ => ⟨h, rfl⟩
  | call :: calls, w, f, h, hs, hc => by
    have := intCall_same h (hs call List.mem_cons_self) hc.1
    have hc2 := hc.2
    unfold intTreeFrom intListFrom
    revert this hc2
    generalize call.onIntTree w = X
    generalize call.onIntList f = Y
    cases X <;> cases Y <;> intro hr hc2 <;> first | exact hr.elim | trivial | skip
    rename_i p q
    obtain ⟨h1, h2⟩ := hr
    have := intFrom_same h1 (fun c' hc' => hs c' (List.mem_cons_of_mem _ hc')) (hc2 p.1 p.2 rfl)
    rw [Res.bind_ok, Res.bind_ok]
    revert this
    generalize intTreeFrom p.1 calls = X
    generalize intListFrom q.1 calls = Y
    cases X <;> cases Y <;> intro hr <;> first | exact hr.elim | trivial | skip
    exact ⟨hr.1, by rw [hr.2, h2]⟩

theorem intRun_same (c : Cfg) {ld : IntLoad} {calls : List FilterCall} (h1 : ld.OK) (h2 : ∀ call ∈ calls, call.Short)
    (h3 : ∀ w, ld.onTree c = .ok w → CalmFrom w calls) : IntSame (intTreeRun c ld calls) (intListRun c ld calls) := by
  have := intLoad_same c h1
  unfold intTreeRun intListRun
  revert this h3
  generalize ld.onTree c = X
  generalize ld.onList c = Y
  cases X <;> cases Y <;> intro h3 hr <;> first | exact hr.elim | trivial | skip
  exact intFrom_same hr h2 (h3 _ rfl)

theorem calm_of_noDelete : ∀ {calls : List FilterCall} (w : WhFilter), (∀ call ∈ calls, ¬ call.IsDelete) → CalmFrom w calls
  | [], _, _ => trivial
  | call :: calls, w, h => by
    refine ⟨fun k e => absurd (by rw [e]; trivial) (h call List.mem_cons_self), fun w' as _ => ?_⟩
    exact calm_of_noDelete w' fun c' hc' => h c' (List.mem_cons_of_mem _ hc')

/-! ## Buffers written by `Serialize` -/

theorem bufKeys_written (c : Cfg) : ∀ (es : Tree) (fuel : Nat) (tail : List UInt8), es.length < fuel →
    (∀ e ∈ es, e.1.length ≤ 20000) →
    bufKeys c fuel (es.flatMap (serializeEntry c) ++ (leBytes 4 (2 ^ 32 - 1) ++ tail)) = keysOf es
  | _, 0, _, hf, _ => by omega
  | [], fuel + 1, tail, _, _ => by
    rw [List.flatMap_nil, List.nil_append, bufKeys, readLe_le]
    dsimp only
    rw [if_pos (by norm_num)]
    rfl
  | e :: es, fuel + 1, tail, hf, hlen => by
    have he := hlen e (by simp)
    have hr := le_roundKeyLen e.1.length
    rw [List.flatMap_cons, bufKeys]
    rw [show serializeEntry c e = leBytes 4 e.1.length ++ (e.1 ++ List.replicate (roundKeyLen e.1.length - e.1.length) 0) ++
      serializeStore c e.2 from rfl, List.append_assoc, List.append_assoc, List.append_assoc, readLe_le]
    dsimp only
    rw [show (256 : Nat) ^ 4 = 2 ^ 32 by norm_num, Nat.mod_eq_of_lt (show e.1.length < 2 ^ 32 by omega), if_neg (by omega),
      if_neg (by simp; omega)]
    have hd : ∀ l : List UInt8, List.drop (roundKeyLen e.1.length)
        ((e.1 ++ List.replicate (roundKeyLen e.1.length - e.1.length) 0) ++ l) = l := by
      intro l; exact List.drop_left' (by simp; omega)
    have ht : ∀ l : List UInt8, List.take e.1.length
        ((e.1 ++ List.replicate (roundKeyLen e.1.length - e.1.length) 0) ++ l) = e.1 := by
      intro l; rw [List.append_assoc]; exact List.take_left
    rw [hd, ht, store_trip]
    dsimp only
    rw [bufKeys_written c es fuel tail (by simp at hf; omega) fun x hx => hlen x (by simp [hx])]
    rfl

theorem restoreOK_written {s : Nat} {f : Filter} (hs : s < 2 ^ 32) (hc : f.cfg = cfg95 s) (hi : Inc f.tree) (hsh : Short f.tree)
    (seed : Nat) (tail : List UInt8) : RestoreOK (serialize true seed lfBits95 f ++ tail) := by
  have hsf : f.cfg.infixSize = s := by rw [hc]; rfl
  intro s' seed' rest hm
  unfold serialize at hm
  rw [List.append_assoc, List.append_assoc, hsf, metadata_trip true hs] at hm
  simp only [Res.ok.injEq, Prod.mk.injEq] at hm
  obtain ⟨rfl, _, rfl⟩ := hm
  have := flatMap_length_ge (c := f.cfg) f.tree
  rw [← hc, bufKeys_written f.cfg f.tree _ tail (by simp only [List.length_append]; omega) fun e he => Nat.le_trans (hsh e he) (by omega)]
  refine ⟨fun k hk => ?_, hi.nodup⟩
  obtain ⟨e, he, rfl⟩ := List.mem_map.1 hk
  exact hsh e he

end Verif
