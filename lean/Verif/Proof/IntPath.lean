import Verif.Proof.Plan
import Verif.Proof.Query

/-!
# The integer tail of the range query
-/

namespace Verif

/-- A field of an 8-byte key, as the integer tail computes it. -/
theorem int_field {k : Key} (hk : k.length ≤ 8) {d w : Nat} (hw : w ≤ 64) (hd : d < 128) (h1 : 1 ≤ d) :
    shr64 (shl64 (beWord k 0) (d - 64)) (64 - d) &&& bitmask w = pre d k % 2 ^ w := by
  have hb : beWord k 0 = pre 64 k := by
    have := beWord_eq k 0
    rw [Nat.mul_zero, Nat.zero_add] at this
    rw [this, Nat.mod_eq_of_lt (pre_lt k 64)]
  have hlt := pre_lt k 64
  rw [and_bitmask _ _ hw, hb]
  unfold shr64 shl64
  rw [Nat.mod_eq_of_lt (show d - 64 < 64 by omega), Nat.mod_eq_of_lt (show 64 - d < 64 by omega),
    Nat.shiftLeft_eq, Nat.shiftRight_eq_div_pow]
  by_cases h : d ≤ 64
  · rw [show d - 64 = 0 by omega, pow_zero, Nat.mul_one, Nat.mod_eq_of_lt hlt]
    obtain ⟨e, he⟩ := Nat.exists_eq_add_of_le h
    have := pre_add k d e
    rw [← he] at this
    rw [show 64 - d = e by omega, this]
  · rw [show 64 - d = 0 by omega, pow_zero, Nat.div_one]
    have hz : pre (64 + (d - 64)) k = pre 64 k * 2 ^ (d - 64) :=
      pre_zeros (fun i hi => kbit_of_ge (by omega)) (d - 64)
    rw [show 64 + (d - 64) = d by omega] at hz
    rw [hz, Nat.mod_mod_of_dvd _ (pow_dvd_pow 2 hw)]

theorem int_bit (k : Key) {i : Nat} (hi : i < 64) : shr64 (beWord k 0) (63 - i) &&& 1 = kbit k i := by
  have hb : beWord k 0 = pre 64 k := by
    have := beWord_eq k 0
    rw [Nat.mul_zero, Nat.zero_add] at this
    rw [this, Nat.mod_eq_of_lt (pre_lt k 64)]
  unfold shr64
  rw [Nat.mod_eq_of_lt (show 63 - i < 64 by omega), Nat.and_one_is_mod, Nat.shiftRight_eq_div_pow, hb]
  have := pre_bit k i (63 - i)
  rwa [show i + 1 + (63 - i) = 64 by omega] at this

theorem rangeTailInt_eq {c : Cfg} (h1 : 1 ≤ c.infixSize) (h2 : c.infixSize ≤ 46) {prev next : Key} {st : Store}
    (hp : prev.length ≤ 8) (hn : next.length ≤ 8) {fr : RFrame}
    (hf : getFrame c.infixSize prev next = .ok fr) {l r : Key} (hl : l.length ≤ 8) (hr : r.length ≤ 8) :
    rangeTailInt c st fr prev l r = rangeTail c st fr l r := by
  unfold getFrame at hf
  cases hsii : sharedIgnoreImplicit prev next with
  | none => rw [hsii] at hf; cases hf
  | some v =>
  obtain ⟨sh, ig, imp⟩ := v
  rw [hsii] at hf
  simp only [Res.ok.injEq] at hf
  subst hf
  have hlen := sii_spec hsii
  have himp := hlen.imp_cases
  have hbound := hlen.bound hp hn
  have hsh : sh < 64 := by
    by_contra hcon
    exact hlen.diff (by rw [kbit_of_ge (by omega), kbit_of_ge (by omega)])
  have ext : ∀ k : Key, k.length ≤ 8 →
      (shl64 (shr64 (beWord k 0) (63 - sh) &&& 1) (imp - 1 + c.infixSize) |||
        (shr64 (shl64 (beWord k 0) (sh + ig + imp + c.infixSize - 64)) (64 - (sh + ig + imp + c.infixSize)) &&&
          bitmask (imp - 1 + c.infixSize))) = extractPartialKey c.infixSize k sh ig imp (keyBit k sh) := by
    intro k hk
    have hb := kbit_lt k sh
    rw [int_bit k hsh, int_field hk (by omega) (by omega) (by omega),
      extract_eq _ _ _ _ _ _ (by omega) (by rw [keyBit_eq]; omega) (by omega), keyBit_eq]
    unfold shl64
    rw [Nat.mod_eq_of_lt (show imp - 1 + c.infixSize < 64 by omega), Nat.shiftLeft_eq]
    have hlt : kbit k sh * 2 ^ (imp - 1 + c.infixSize) < 2 ^ 64 := by
      have : 2 ^ (imp - 1 + c.infixSize) ≤ 2 ^ 60 := Nat.pow_le_pow_right (by decide) (by omega)
      have : kbit k sh * 2 ^ (imp - 1 + c.infixSize) ≤ 1 * 2 ^ 60 := Nat.mul_le_mul (by omega) this
      omega
    rw [Nat.mod_eq_of_lt hlt, Nat.mul_comm, ← Nat.two_pow_add_eq_or_of_lt (Nat.mod_lt _ (Nat.two_pow_pos _))]
  have himpl : shr64 (shl64 (beWord prev 0) (sh + ig + imp - 64)) (64 - (sh + ig + imp)) &&& bitmask (imp - 1) =
      extractPartialKey c.infixSize prev sh ig imp 0 >>> c.infixSize := by
    rw [int_field hp (by omega) (by omega) (by omega), extract_eq _ _ _ _ _ _ (by omega) (by omega) (by omega),
      Nat.shiftRight_eq_div_pow, Nat.zero_mul, Nat.zero_add]
    rw [Nat.add_comm (imp - 1), pow_add, Nat.mod_mul_right_div_self, pre_add]
  unfold rangeTailInt rangeTail RFrame.item RFrame.extract
  dsimp only
  rw [ext l hl, ext r hr, himpl]

/-- In every state of a filter with short boundary keys. -/
theorem rangeQuery_int0 {f : Filter} (hs1 : 1 ≤ f.cfg.infixSize) (hs2 : f.cfg.infixSize ≤ 46)
    (hlen : ∀ e ∈ f.tree, e.1.length ≤ 8) {l r : Key} (hl : l.length ≤ 8)
    (hr : r.length ≤ 8) : rangeQuery true f l r = rangeQuery false f l r := by
  unfold rangeQuery
  dsimp only
  cases hp : treePeek f.tree (treeSeek f.tree l) with
  | ub => rw [Res.bind_ub, Res.bind_ub]
  | hang => rw [Res.bind_hang, Res.bind_hang]
  | ok e =>
    rw [Res.bind_ok, Res.bind_ok]
    by_cases hc1 : keyLe e.1 r = true
    · rw [if_pos hc1, if_pos hc1]
    rw [if_neg hc1, if_neg hc1]
    by_cases h2 : treeSeek f.tree l = 0
    · rw [if_pos h2, if_pos h2]
    rw [if_neg h2, if_neg h2]
    obtain ⟨A, B, ht, hs, hA, hle⟩ := seek_split hp
    rcases List.eq_nil_or_concat A with rfl | ⟨A', p, rfl⟩
    · exact absurd hs.symm h2
    have ht' : f.tree = A' ++ p :: e :: B := by rw [ht]; simp
    have hpk : treePeek f.tree (treeSeek f.tree l - 1) = .ok p := by
      have := peek_append (A := A') (e := p) (B := e :: B)
      rw [← hs, ht', List.concat_eq_append, List.length_append]
      exact this
    rw [hpk, Res.bind_ok, Res.bind_ok]
    by_cases h3 : (p.2.isPartial && isPrefixOf p.1 l p.2.invalidBits) = true
    · rw [if_pos h3, if_pos h3]
    rw [if_neg h3, if_neg h3]
    cases hf : getFrame f.cfg.infixSize p.1 e.1 with
    | ub => rw [Res.bind_ub, Res.bind_ub]
    | hang => rw [Res.bind_hang, Res.bind_hang]
    | ok fr =>
      rw [Res.bind_ok, Res.bind_ok, if_pos rfl, if_neg Bool.false_ne_true,
        rangeTailInt_eq hs1 hs2 (hlen p (by rw [ht']; simp)) (hlen e (by rw [ht']; simp)) hf hl hr]

theorem rangeQuery_int {f : Filter} (h : f.cfg.WF) (hlen : ∀ e ∈ f.tree, e.1.length ≤ 8) {l r : Key} (hl : l.length ≤ 8)
    (hr : r.length ≤ 8) : rangeQuery true f l r = rangeQuery false f l r :=
  rangeQuery_int0 h.s1 h.s2 hlen hl hr

end Verif
