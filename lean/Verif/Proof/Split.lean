import Verif.Proof.Plan
import Verif.Proof.Clean

/-!
# Splitting a region keeps the invariant and every positive answer
-/

namespace Verif

/-! ## Tree updates -/

theorem keyLt_asymm {a b : Key} (h : keyLt a b = true) : keyLt b a = false := by
  have := keyLt_keyLe h
  rw [keyLe_iff_not_lt] at this
  simpa using this

theorem keyLt_ne {a b : Key} (h : keyLt a b = true) : b ≠ a := fun e => (keyLt_iff.1 h).2 e.symm

theorem treePut_below {A B : Tree} {k : Key} {st : Store} (hA : ∀ a ∈ A, keyLt a.1 k = true) :
    treePut (A ++ B) k st = A ++ treePut B k st := by
  induction A with
  | nil => rfl
  | cons a A ih =>
    have ha := hA a (by simp)
    rw [List.cons_append, treePut, if_neg (by rw [keyLt_asymm ha]; simp), if_neg (by simpa using keyLt_ne ha),
      ih (fun b hb => hA b (by simp [hb]))]
    rfl

theorem treePut_replace {A B : Tree} {k : Key} {st st2 : Store} (hA : ∀ a ∈ A, keyLt a.1 k = true) :
    treePut (A ++ (k, st) :: B) k st2 = A ++ (k, st2) :: B := by
  rw [treePut_below hA, treePut, if_neg (by rw [keyLt_irrefl]; simp), if_pos (by simp)]

theorem treePut_insert {A B : Tree} {k : Key} {e : Key × Store} {st : Store} (hA : ∀ a ∈ A, keyLt a.1 k = true)
    (he : keyLt k e.1 = true) : treePut (A ++ e :: B) k st = A ++ (k, st) :: e :: B := by
  rw [treePut_below hA, treePut, if_pos he]

/-! ## Status of a new region -/

theorem StoreHas.flags {c : Cfg} {T : Nat} {st : Store} {L : List Nat} (h : StoreHas c T st L) {v : Nat} {b : Bool}
    (hv : v < 8) : StoreHas c T ((st.setInvalidBits v).setPartial b) L ∧
      ((st.setInvalidBits v).setPartial b).invalidBits = v ∧ ((st.setInvalidBits v).setPartial b).isPartial = b := by
  obtain ⟨lay, I, rfl⟩ := h
  have h0 := I.status
  have e1 := setInvalidBits_status (v := v) h0 hv
  have h1 : (st.setInvalidBits v).status < 2 ^ 32 := by rw [e1]; omega
  have e2 := setPartial_status (v := b) h1
  have hb : b.toNat ≤ 1 := Bool.toNat_le b
  have em : ((st.setInvalidBits v).setPartial b).mem = st.mem := by rw [setPartial_mem, setInvalidBits_mem]
  have eg : ((st.setInvalidBits v).setPartial b).sizeGrade = st.sizeGrade := by
    rw [sizeGrade_eq, sizeGrade_eq, e2, e1]; omega
  have ec : ((st.setInvalidBits v).setPartial b).elemCount = st.elemCount := by
    rw [elemCount_eq, elemCount_eq, e2, e1]; omega
  refine ⟨⟨lay, ⟨?_, ?_, ?_, ?_, by rw [eg]; exact I.fine⟩, by rw [eg]⟩, ?_, ?_⟩
  · rw [eg]; exact I.wf
  · rw [eg, em]; exact I.rep
  · rw [eg, ec]; exact I.count
  · rw [e2]; omega
  · rw [invalidBits_eq, e2, e1]; omega
  · rw [isPartial_eq, e2]
    cases b
    · simp
    · simp

/-! ## The new regions -/

theorem and_bitmask_mod {x s : Nat} (hs : s ≤ 63) : x &&& bitmask s = x % 2 ^ s := and_bitmask _ _ (by omega)

/-- A key with the same first bits as `E` at the level and not below it afterwards. -/
theorem edit_mod_le {key : Key} {zp : Option Nat} (hz : ∀ z, zp = some z → 1 ≤ z) (p j : Nat) :
    pre (p + j) (editKey key zp) % 2 ^ j ≤ pre (p + j) key % 2 ^ j := by
  cases zp with
  | none => exact Nat.le_refl _
  | some z =>
    have hz1 := hz z rfl
    by_cases h : z ≤ p
    · obtain ⟨i, rfl⟩ := Nat.exists_eq_add_of_le h
      have e := pre_zeros (editKey_zeros key z hz1) (i + j)
      rw [← Nat.add_assoc] at e
      rw [e, pow_add, ← Nat.mul_assoc, Nat.mul_mod_left]
      omega
    · have e := editKey_le key z hz1 (p + j)
      have e1 := pre_split (editKey key (some z)) p j
      have e2 := pre_split key p j
      rw [editKey_pre key z hz1 (show p ≤ z by omega)] at e1
      omega

section
variable {f : Filter} {key : Key} {d : SplitPlan} {A : Tree} {next : Key} {st' : Store} {B : Tree}
  {sh ig imp : Nat} {L : List Nat} {sp shL igL impL shG igG impG : Nat}

theorem SplitInfo.zpos (I : SplitInfo f key d A next st' B sh ig imp L sp shL igL impL shG igG impG) :
    ∀ z, d.zeroPos = some z → 1 ≤ z := by
  intro z hz
  have := (I.cut.head z hz).1
  have := I.region.lengths.imp_cases
  omega

theorem SplitInfo.levelL (I : SplitInfo f key d A next st' B sh ig imp L sp shL igL impL shG igG impG) :
    sh + ig + imp + d.shamtL = shL + igL + impL := by
  have := I.leL; rw [I.shamtL]; omega

theorem SplitInfo.levelG (I : SplitInfo f key d A next st' B sh ig imp L sp shL igL impL shG igG impG) :
    sh + ig + imp + d.shamtG = shG + igG + impG := by
  have := I.leG; rw [I.shamtG]; omega

theorem SplitInfo.sortedL (I : SplitInfo f key d A next st' B sh ig imp L sp shL igL impL shG igG impG) :
    (L.take sp).Pairwise ile := I.region.has.loadable.sorted.sublist (List.take_sublist _ _)

theorem SplitInfo.sortedG (I : SplitInfo f key d A next st' B sh ig imp L sp shL igL impL shG igG impG) :
    (L.drop sp).Pairwise ile := I.region.has.loadable.sorted.sublist (List.drop_sublist _ _)

/-- The left region. -/
theorem SplitInfo.specL (I : SplitInfo f key d A next st' B sh ig imp L sp shL igL impL shG igG impG) :
    Loadable f.cfg.infixSize d.totalL d.left ∧
    (∀ y ∈ d.left, Inside f.cfg.infixSize (shL + igL + impL) d.prev d.edited y) ∧
    ∀ k, Between d.prev k d.edited →
      ((∃ x ∈ L.take sp, pre (ilen f.cfg.infixSize (sh + ig + imp) x) k =
        ival f.cfg.infixSize (pre (sh + ig + imp) d.prev) x) ↔
      HitL f.cfg.infixSize (shL + igL + impL) d.prev d.left k) := by
  obtain ⟨h1, _, h3, h4⟩ := rewrite_spec I.rwL I.oldL I.sortedL I.left
  rw [I.levelL] at h1 h3 h4
  rw [I.totalL]
  exact ⟨h1, h3, fun k hk => h4 k (hk _).1 (hk _).2⟩

/-- The right region before its head is dropped. -/
theorem SplitInfo.specG (I : SplitInfo f key d A next st' B sh ig imp L sp shL igL impL shG igG impG) :
    Loadable f.cfg.infixSize d.totalG d.right ∧
    (∀ y ∈ d.right, Inside f.cfg.infixSize (shG + igG + impG) d.edited next y) ∧
    ∀ k, Between d.edited k next →
      ((∃ x ∈ L.drop sp, pre (ilen f.cfg.infixSize (sh + ig + imp) x) k =
        ival f.cfg.infixSize (pre (sh + ig + imp) d.prev) x) ↔
      HitL f.cfg.infixSize (shG + igG + impG) d.edited d.right k) := by
  obtain ⟨h1, _, h3, h4⟩ := rewrite_spec I.rwG I.oldG I.sortedG I.right
  rw [I.levelG] at h1 h3 h4
  rw [I.totalG]
  exact ⟨h1, h3, fun k hk => h4 k (hk _).1 (hk _).2⟩

theorem SplitInfo.T_leL (I : SplitInfo f key d A next st' B sh ig imp L sp shL igL impL shG igG impG) :
    d.totalL ≤ 1024 := by
  have := I.lenL.total I.ltL
  rw [I.totalL]; omega

theorem SplitInfo.T_leG (I : SplitInfo f key d A next st' B sh ig imp L sp shL igL impL shG igG impG) :
    d.totalG ≤ 1024 := by
  have := I.lenG.total I.ltG
  rw [I.totalG]; omega

/-- The item that is dropped answers only for keys that the new boundary's partial flag covers. -/
theorem SplitInfo.head (I : SplitInfo f key d A next st' B sh ig imp L sp shL igL impL shG igG impG)
    (hf : f.cfg.WF) {z : Nat} (hz : d.zeroPos = some z) :
    ∃ y0 rest, d.right = y0 :: rest ∧ ∀ k, Between d.edited k next →
      pre (ilen f.cfg.infixSize (shG + igG + impG) y0) k =
        ival f.cfg.infixSize (pre (shG + igG + impG) d.edited) y0 → pre z k = pre z key := by
  obtain ⟨hzp, x0, tl, hd, hx0, hl0, hv0, hrest⟩ := I.cut.head z hz
  have hz1 := I.zpos z hz
  have hEz : ∀ q, q ≤ z → pre q d.edited = pre q key := by
    intro q hq
    rw [I.edited, hz]; exact editKey_pre key z hz1 hq
  obtain ⟨s1, s2, s3⟩ := I.specG
  have bE : Between d.edited d.edited next := between_left I.ltG
  have hhit : HitL f.cfg.infixSize (shG + igG + impG) d.edited d.right d.edited := by
    rw [← s3 _ bE]
    exact ⟨x0, by rw [hd]; simp, by rw [hl0, hv0, hEz z (Nat.le_refl _)]⟩
  obtain ⟨y1, hy1, hy1e⟩ := hhit
  cases hr : d.right with
  | nil => rw [hr] at hy1; simp at hy1
  | cons h rest =>
    refine ⟨h, rest, rfl, ?_⟩
    have hmem : h ∈ d.right := by rw [hr]; simp
    obtain ⟨a1, a2⟩ := s1.item h hmem
    obtain ⟨b1, b2⟩ := s1.item y1 hy1
    have hT := I.T_leG
    have a64 := (item_bound (s := f.cfg.infixSize) (by have := hf.s2; omega) (show h / 2 ^ f.cfg.infixSize < 1024 by omega)).2
    have b64 := (item_bound (s := f.cfg.infixSize) (by have := hf.s2; omega) (show y1 / 2 ^ f.cfg.infixSize < 1024 by omega)).2
    have hle : ile h y1 := by
      rw [hr] at hy1
      rcases List.mem_cons.1 hy1 with rfl | hy1
      · exact ile_refl _
      · have := s1.sorted
        rw [hr, List.pairwise_cons] at this
        exact this.1 _ hy1
    -- the head starts at the boundary
    have hE : pre (ilen f.cfg.infixSize (shG + igG + impG) h) d.edited =
        ival f.cfg.infixSize (pre (shG + igG + impG) d.edited) h := by
      have hlo := (s2 h hmem).1
      have hn := ile_nolb hle
      obtain ⟨m, t, e, ht⟩ := item_decomp a1
      obtain ⟨m', t', e', ht'⟩ := item_decomp b1
      rw [e] at hlo hn a64 ⊢
      rw [e'] at hy1e hn b64
      rw [ilen_odd b64, ival_odd b64, ← relVal_cut (Nat.le_refl _) ht'] at hy1e
      rw [ilen_odd a64, ival_odd a64, ← relVal_cut (Nat.le_refl _) ht] at hlo ⊢
      have h1 : nolb64 ((2 * m' + 1) * 2 ^ t') ≤ relVal f.cfg.infixSize (shG + igG + impG) d.edited d.edited := by
        rw [nolb_le_iff b64]; omega
      have h2 := Nat.le_trans hn h1
      rw [nolb_le_iff a64] at h2
      omega
    intro k hk hke
    -- back to the item it came from
    obtain ⟨_, r2, _, _⟩ := rewrite_spec I.rwG I.oldG I.sortedG I.right
    obtain ⟨x, hx, hy⟩ := (r2 h).1 hmem
    have hex := (expand_spec I.rwG (I.oldG x hx)).2
    rw [I.levelG] at hex
    have xE := (hex d.edited (bE _).1 (bE _).2).2 ⟨h, hy, hE⟩
    have xk := (hex k (hk _).1 (hk _).2).2 ⟨h, hy, hke⟩
    have hzl := (I.cut.zeros x hx (by rw [← I.edited]; exact xE)).2 z hz
    rw [← hEz z (Nat.le_refl _)]
    exact pre_eq_len hzl (by rw [xk, xE])

/-- The item for the new key in the right region. -/
theorem SplitInfo.keyItem_spec (I : SplitInfo f key d A next st' B sh ig imp L sp shL igL impL shG igG impG)
    (hf : f.cfg.WF) : d.keyItem % 2 = 1 ∧ d.keyItem / 2 ^ f.cfg.infixSize < d.totalG ∧
      Inside f.cfg.infixSize (shG + igG + impG) d.edited next d.keyItem := by
  have hs1 := hf.s1
  have hs2 := hf.s2
  have himp := I.lenG.imp_cases
  have hv : d.keyItem = (pre (shG + igG + impG + f.cfg.infixSize) key % 2 ^ f.cfg.infixSize ||| 1) := by
    rw [I.keyItem, extract_eq _ _ _ _ _ _ (by omega) (by omega) (by omega), and_bitmask_mod (by omega), Nat.zero_mul,
      Nat.zero_add, Nat.mod_mod_of_dvd]
    exact pow_dvd_pow 2 (by omega)
  have hlt : pre (shG + igG + impG + f.cfg.infixSize) key % 2 ^ f.cfg.infixSize < 2 ^ f.cfg.infixSize :=
    Nat.mod_lt _ (Nat.two_pow_pos _)
  obtain ⟨j, hj⟩ : ∃ j, f.cfg.infixSize = j + 1 := ⟨f.cfg.infixSize - 1, by omega⟩
  have hT := I.lenG.total I.ltG
  have hhalf : pre (shG + igG + impG + (j + 1)) key % 2 ^ (j + 1) / 2 = pre (shG + igG + impG + j) key % 2 ^ j := by
    have h1 : pre (shG + igG + impG + (j + 1)) key = 2 * pre (shG + igG + impG + j) key + kbit key (shG + igG + impG + j) := rfl
    have h2 := kbit_lt key (shG + igG + impG + j)
    rw [pow_succ, Nat.mul_comm (2 ^ j) 2, Nat.mod_mul_right_div_self, h1]
    congr 1; omega
  have hodd : d.keyItem = (2 * (pre (shG + igG + impG + j) key % 2 ^ j) + 1) * 2 ^ 0 := by
    rw [hv, or_one, hj, pow_zero, Nat.mul_one]
    omega
  have hltj : pre (shG + igG + impG + j) key % 2 ^ j < 2 ^ j := Nat.mod_lt _ (Nat.two_pow_pos _)
  have h64 : (2 * (pre (shG + igG + impG + j) key % 2 ^ j) + 1) * 2 ^ 0 < 2 ^ 64 := by
    have : 2 ^ j ≤ 2 ^ 46 := Nat.pow_le_pow_right (by decide) (by omega)
    rw [pow_zero]; omega
  refine ⟨by rw [hodd]; omega, ?_, ?_⟩
  · rw [Nat.div_eq_of_lt, I.totalG]
    · omega
    · rw [hodd, hj, pow_succ]; omega
  · unfold Inside
    rw [hodd, ilen_odd h64, ival_odd h64, hj, show shG + igG + impG + (j + 1) - 1 - 0 = shG + igG + impG + j by omega,
      show j + 1 - 1 - 0 = j by omega]
    have e1 := pre_split d.edited (shG + igG + impG) j
    have e2 := pre_split next (shG + igG + impG) j
    have e3 := edit_mod_le (key := key) (zp := d.zeroPos) I.zpos (shG + igG + impG) j
    rw [← I.edited] at e3
    have e4 : (pre (shG + igG + impG) d.edited + 1) * 2 ^ j ≤ pre (shG + igG + impG) next * 2 ^ j :=
      Nat.mul_le_mul_right _ (by omega)
    rw [Nat.add_mul] at e4
    constructor <;> omega

theorem SplitInfo.edited_ne (I : SplitInfo f key d A next st' B sh ig imp L sp shL igL impL shG igG impG) :
    d.edited ≠ [] := by
  intro h
  obtain ⟨q, hq⟩ := I.ltL
  rw [h, pre_nil] at hq
  omega

/-- The partial flag of the new boundary covers keys that share `z` bits with the new key. -/
theorem SplitInfo.prefix_of (I : SplitInfo f key d A next st' B sh ig imp L sp shL igL impL shG igG impG)
    {z : Nat} (hz : d.zeroPos = some z) {k : Key} (hlt : keyLt d.edited k = true) (hk : pre z k = pre z key) :
    isPrefixOf d.edited k (7 - (z - 1) % 8) = true := by
  have hz1 := I.zpos z hz
  have hE : pre z d.edited = pre z k := by rw [I.edited, hz, editKey_pre key z hz1 (Nat.le_refl _), hk]
  have hlen := (editKey_length key z hz1).2
  rw [← hz, ← I.edited] at hlen
  have hq : 8 * d.edited.length - (7 - (z - 1) % 8) ≤ z := by omega
  have hp := pre_eq_len hq hE
  rw [isPrefixOf_iff (by omega)]
  exact ⟨I.edited_ne, length_le_of_prefix hlt (by omega) hp, hp⟩

/-- No key above the new boundary is covered by the partial flag of the lower one. -/
theorem SplitInfo.no_prefix (I : SplitInfo f key d A next st' B sh ig imp L sp shL igL impL shG igG impG)
    {k : Key} (hlt : keyLe d.edited k = true) (hp : d.store.isPartial = true) :
    isPrefixOf d.prev k d.store.invalidBits = false := by
  rw [Bool.eq_false_iff]
  intro hc
  have hib := invalidBits_lt d.store
  apply I.nopart
  refine ⟨hp, ?_⟩
  have h1 : isPrefixOf d.prev d.edited d.store.invalidBits = true :=
    isPrefixOf_convex hib (keyLt_of_padLt I.ltL) hlt hc
  cases hz : d.zeroPos with
  | none => rw [I.edited, hz] at h1; exact h1
  | some z =>
    have hz1 := I.zpos z hz
    rw [isPrefixOf_iff hib] at h1 ⊢
    obtain ⟨g1, g2, g3⟩ := h1
    by_cases hq : 8 * d.prev.length - d.store.invalidBits ≤ z
    · refine ⟨g1, ?_, ?_⟩
      · have := editKey_length_le key (some z)
        rw [← hz, ← I.edited] at this
        omega
      · rw [g3, I.edited, hz, editKey_pre key z hz1 hq]
    · exfalso
      have h2 := pre_eq_len (show z ≤ _ by omega) g3
      obtain ⟨q, hq⟩ := I.ltL
      by_cases hqz : q ≤ z
      · rw [pre_eq_len hqz h2] at hq; omega
      · obtain ⟨j, rfl⟩ := Nat.exists_eq_add_of_le (show z ≤ q by omega)
        have e1 := pre_zeros (editKey_zeros key z hz1) j
        rw [← hz, ← I.edited, ← h2] at e1
        have e2 := pre_split d.prev z j
        omega

end

theorem prefix_of_bytes {k key : Key} (hl : k.length ≤ key.length) (h : ∀ i, i < k.length → byteAt k i = byteAt key i) :
    k <+: key := by
  have : k = key.take k.length := by
    apply List.ext_getElem
    · rw [List.length_take]; omega
    · intro i h1 h2
      have := h i h1
      unfold byteAt at this
      rw [List.getD_eq_getElem?_getD, List.getD_eq_getElem?_getD, List.getElem?_eq_getElem h1,
        List.getElem?_eq_getElem (by omega)] at this
      rw [List.getElem_take]
      exact UInt8.toNat_inj.1 this
  rw [this]
  exact List.take_prefix _ _

theorem editKey_byteAt (key : Key) (z : Option Nat) {i : Nat} (hi : i + 1 < (editKey key z).length) :
    byteAt (editKey key z) i = byteAt key i := by
  cases z with
  | none => rfl
  | some z =>
    unfold editKey at hi ⊢
    dsimp only at hi ⊢
    by_cases hl : key.length > (z - 1) / 8
    · rw [if_pos hl] at hi ⊢
      simp only [List.length_append, List.length_take, List.length_cons, List.length_nil] at hi
      rw [byteAt_take_append _ _ _ (by omega), if_pos (by omega)]
    · rw [if_neg hl]

/-- A key that equals the new boundary after padding but is smaller is a proper prefix of the inserted key. -/
theorem prefix_of_editKey {k key : Key} {z : Option Nat} (h : PadEq (editKey key z) k)
    (hlt : keyLt k (editKey key z) = true) : k <+: key ∧ k ≠ key := by
  have hlen : k.length < (editKey key z).length := by
    by_contra hc
    have := keyLe_of_padEq h (by omega)
    rw [keyLe_iff_not_lt, hlt] at this
    exact absurd this (by decide)
  have h2 := editKey_length_le key z
  refine ⟨prefix_of_bytes (by omega) ?_, fun e => by rw [e] at hlen; omega⟩
  intro i hi
  rw [← editKey_byteAt key z (by omega)]
  exact byteAt_of_pre (p := 8 * i + 8) (h _).symm (Nat.le_refl _)

/-! ## The whole operation -/

/-- The state after a split. -/
structure SplitDone (f f' : Filter) (key : Key) (A : Tree) (prev E next : Key) (st storeL storeG st' : Store) (B : Tree) : Prop where
  tree : f.tree = A ++ (prev, st) :: (next, st') :: B
  tree' : f'.tree = A ++ (prev, storeL) :: (E, storeG) :: (next, st') :: B
  cfg : f'.cfg = f.cfg
  ok : FilterOK f'
  le : keyLe prev key = true
  lt : keyLt key next = true
  len : E.length ≤ key.length
  pos : pointQuery f' key = .ok true
  bits : BitsOK f → BitsOK f'
  clean : CleanTree f.cfg f.tree → CleanTree f.cfg f'.tree
  keep : ∀ k, (k <+: key → k = key) → pointQuery f k = .ok true → pointQuery f' k = .ok true

/-- The regions after a split. -/
structure SplitLists (f : Filter) (key : Key) (d : SplitPlan) (A : Tree) (next : Key) (st' : Store) (B : Tree)
    (storeL storeG : Store) (sh ig imp : Nat) (L : List Nat) (sp shL igL impL shG igG impG : Nat) (LG : List Nat) : Prop where
  info : SplitInfo f key d A next st' B sh ig imp L sp shL igL impL shG igG impG
  lower : RegionHas f.cfg d.prev storeL d.edited shL igL impL d.left
  part : storeL.isPartial = d.store.isPartial
  ib : storeL.invalidBits = d.store.invalidBits
  upper : RegionHas f.cfg d.edited storeG next shG igG impG LG
  shape : match d.zeroPos with
    | none => storeG.isPartial = false ∧ LG = d.right
    | some z => storeG.isPartial = true ∧ storeG.invalidBits = 7 - (z - 1) % 8 ∧
      ∃ y0 X Y, d.right = y0 :: (X ++ Y) ∧ LG = X ++ d.keyItem :: Y

theorem applySplit_full {f : Filter} (h : FilterOK f) {key : Key} {d : SplitPlan}
    (hp : planSplit f key = .ok (some d)) (hfit : SplitFits f d) {n : Nat} (hn : n < 2 ^ 28) (hkn : key.length ≤ n)
    (htn : ∀ e ∈ f.tree, e.1.length ≤ n) {f' : Filter} (ha : applySplit f key d = .ok f') :
    ∃ A next st' B storeL storeG, SplitDone f f' key A d.prev d.edited next d.store storeL storeG st' B ∧
      ∃ sh ig imp L sp shL igL impL shG igG impG LG,
        SplitLists f key d A next st' B storeL storeG sh ig imp L sp shL igL impL shG igG impG LG := by
  have hwf := h.wf
  obtain ⟨A, next, st', B, sh, ig, imp, L, sp, shL, igL, impL, shG, igG, impG, I⟩ :=
    planSplit_spec h hp hfit.shamtL hfit.shamtG hn hkn htn
  obtain ⟨l1, l2, l3⟩ := I.specL
  obtain ⟨g1, g2, g3⟩ := I.specG
  have hib := invalidBits_lt d.store
  -- left store
  obtain ⟨_, _, aL⟩ := allocWithList_has hwf I.T_leL l1 hfit.left
  have cL := (clean_alloc hwf I.T_leL l1 hfit.left).flags (v := d.store.invalidBits) (b := d.store.isPartial) hib
  obtain ⟨sL, iL, pL⟩ := aL.flags (v := d.store.invalidBits) (b := d.store.isPartial) hib
  generalize hSL : ((allocWithList f.cfg d.left d.totalL).setInvalidBits d.store.invalidBits).setPartial d.store.isPartial = storeL at *
  have RL : RegionHas f.cfg d.prev storeL d.edited shL igL impL d.left :=
    .make I.ltL I.lenL.sii (by rw [← I.totalL]; exact sL) l2 (by rw [pL]; exact I.region.part)
  have BL : BitsOK f → BitsAt f.cfg (d.prev, storeL) (d.edited, st') := by
    intro hb sh' ig' imp' e hp
    dsimp only at e hp ⊢
    have e1 := I.lenL.sii
    rw [e] at e1
    injection e1 with e1
    injection e1 with a1 e1
    injection e1 with a2 a3
    unfold BitsOK at hb
    rw [I.tree] at hb
    have h1 := (List.isChain_append_cons_cons.1 hb).2.1 sh ig imp I.region.sii (by rw [← pL]; exact hp)
    dsimp only at h1
    have h2 := I.leL
    rw [iL]
    omega
  -- the tree after the first put
  have hA : ∀ a ∈ A, keyLt a.1 d.prev = true := fun a ha => keyLt_of_padLt (h.before I.tree ha)
  have hput : ∀ stG, treePut (treePut f.tree d.prev storeL) d.edited stG =
      A ++ (d.prev, storeL) :: (d.edited, stG) :: (next, st') :: B := by
    intro stG
    rw [I.tree, treePut_replace hA]
    have := treePut_insert (A := A ++ [(d.prev, storeL)]) (B := B) (k := d.edited) (e := (next, st')) (st := stG)
      (by
        intro a ha
        rcases List.mem_append.1 ha with ha | ha
        · exact keyLt_of_padLt ((h.before I.tree ha).trans I.ltL)
        · simp only [List.mem_singleton] at ha; subst ha; exact keyLt_of_padLt I.ltL)
      (keyLt_of_padLt I.ltG)
    simpa using this
  -- right store
  have hG : ∃ storeG LG, f' = { f with tree := treePut (treePut f.tree d.prev storeL) d.edited storeG } ∧
      CleanStore f.cfg storeG ∧ RegionHas f.cfg d.edited storeG next shG igG impG LG ∧
      (storeG.isPartial = true → 8 * d.edited.length ≤ shG + igG + impG + f.cfg.infixSize - 1 + storeG.invalidBits) ∧
      (∀ k, Between d.edited k next → keyLt d.edited k = true →
        (∃ x ∈ L.drop sp, pre (ilen f.cfg.infixSize (sh + ig + imp) x) k =
          ival f.cfg.infixSize (pre (sh + ig + imp) d.prev) x) ∨ (k = key) →
        (storeG.isPartial = true ∧ isPrefixOf d.edited k storeG.invalidBits = true) ∨
          HitL f.cfg.infixSize (shG + igG + impG) d.edited LG k) ∧
      match d.zeroPos with
      | none => storeG.isPartial = false ∧ LG = d.right
      | some z => storeG.isPartial = true ∧ storeG.invalidBits = 7 - (z - 1) % 8 ∧
        ∃ y0 X Y, d.right = y0 :: (X ++ Y) ∧ LG = X ++ d.keyItem :: Y := by
    unfold applySplit at ha
    dsimp only at ha
    rw [hSL] at ha
    cases hz : d.zeroPos with
    | none =>
      rw [hz] at ha
      dsimp only at ha
      have hEk : d.edited = key := by rw [I.edited, hz]; rfl
      obtain ⟨_, pG, aG⟩ := allocWithList_has hwf I.T_leG g1 hfit.right
      refine ⟨_, d.right, ?_, clean_alloc hwf I.T_leG g1 hfit.right, .make I.ltG I.lenG.sii (by rw [← I.totalG]; exact aG) g2 (by rw [pG]; simp), by rw [pG]; simp, ?_, pG, rfl⟩
      · rw [hEk]; injection ha with ha; exact ha.symm
      · rintro k hk hlt (hx | rfl)
        · exact Or.inr ((g3 k hk).1 hx)
        · rw [hEk, keyLt_irrefl] at hlt; exact absurd hlt (by decide)
    | some z =>
      rw [hz] at ha
      dsimp only at ha
      obtain ⟨y0, rest, hr, hy0⟩ := I.head hwf hz
      have hlen : d.right.length = rest.length + 1 := by rw [hr]; rfl
      rw [if_neg (by omega)] at ha
      have hdrop : d.right.drop 1 = rest := by rw [hr]; rfl
      rw [hdrop] at ha
      have hfr := hfit.right
      have gr : Loadable f.cfg.infixSize d.totalG rest := by
        refine ⟨?_, fun x hx => g1.item x (by rw [hr]; exact List.mem_cons_of_mem _ hx)⟩
        have := g1.sorted
        rw [hr, List.pairwise_cons] at this
        exact this.2
      obtain ⟨_, _, aG⟩ := allocWithList_has hwf I.T_leG gr (by omega)
      obtain ⟨k1, k2, k3⟩ := I.keyItem_spec hwf
      obtain ⟨_, _, X, Y, hXY, bG⟩ := insertRaw_has hwf aG I.T_leG k2 k1 (by omega)
      obtain ⟨cG, iG, pG⟩ := bG.flags (v := 7 - (z - 1) % 8) (b := true) (by omega)
      have ccG := clean_insertRaw hwf aG I.T_leG (clean_alloc hwf I.T_leG gr (by omega)) k2 k1 (by omega)
      refine ⟨_, X ++ d.keyItem :: Y, ?_, ccG.flags (by omega), .make I.ltG I.lenG.sii (by rw [← I.totalG]; exact cG) ?_ (fun _ => I.edited_ne), ?_, ?_,
        ⟨pG, iG, y0, X, Y, by rw [hr, hXY], rfl⟩⟩
      · injection ha with ha; exact ha.symm
      · intro x hx
        rcases List.mem_append.1 hx with hx | hx
        · exact g2 x (by rw [hr, hXY]; exact List.mem_cons_of_mem _ (List.mem_append_left _ hx))
        · rcases List.mem_cons.1 hx with rfl | hx
          · exact k3
          · exact g2 x (by rw [hr, hXY]; exact List.mem_cons_of_mem _ (List.mem_append_right _ hx))
      · intro _
        rw [iG, I.edited, hz]
        obtain ⟨hz1, x0, _, _, _, hx0, _⟩ := I.cut.head z hz
        have hle : z ≤ sh + ig + imp + f.cfg.infixSize - 1 := by rw [← hx0]; unfold ilen; omega
        have hlG := I.leG
        have hzp := I.zpos z hz
        have hed : (editKey key (some z)).length ≤ (z - 1) / 8 + 1 := by
          unfold editKey
          dsimp only
          split_ifs with hc
          · simp
          · omega
        omega
      · rintro k hk hlt (hx | rfl)
        · obtain ⟨y, hy, hye⟩ := (g3 k hk).1 hx
          rw [hr] at hy
          rcases List.mem_cons.1 hy with rfl | hy
          · left
            rw [pG, iG]
            exact ⟨rfl, I.prefix_of hz hlt (hy0 k hk hye)⟩
          · right
            refine ⟨y, ?_, hye⟩
            rw [hXY] at hy
            rcases List.mem_append.1 hy with hy | hy
            · exact List.mem_append_left _ hy
            · exact List.mem_append_right _ (List.mem_cons_of_mem _ hy)
        · left
          rw [pG, iG]
          exact ⟨rfl, I.prefix_of hz hlt rfl⟩
  obtain ⟨storeG, LG, rfl, cG, RG, bG, hans, hshape⟩ := hG
  have ht' := hput storeG
  have hok : FilterOK { f with tree := treePut (treePut f.tree d.prev storeL) d.edited storeG } := by
    refine ⟨hwf, ?_⟩
    have hc := h.chain
    rw [I.tree] at hc
    obtain ⟨c1, c2, c3⟩ := List.isChain_append_cons_cons.1 hc
    simp only [ht']
    refine List.isChain_append_cons_cons.2 ⟨?_, ⟨_, _, _, _, RL⟩, List.isChain_cons_cons.2 ⟨⟨_, _, _, _, RG⟩, c3⟩⟩
    rw [List.isChain_append] at c1 ⊢
    obtain ⟨a, b, e⟩ := c1
    refine ⟨a, List.isChain_singleton _, ?_⟩
    intro x hx y hy
    simp only [List.head?_cons, Option.mem_def, Option.some.injEq] at hy
    subst hy
    exact e x hx (d.prev, d.store) (by simp)
  have hEk : keyLe d.edited key = true := by
    have hlen := editKey_length_le key d.zeroPos
    rw [← I.edited] at hlen
    have hle : ∀ q, pre q d.edited ≤ pre q key := by
      intro q
      rw [I.edited]
      cases hz : d.zeroPos with
      | none => exact Nat.le_refl _
      | some z => exact editKey_le key z (I.zpos z hz) q
    rcases pad_trichotomy d.edited key with g | g | ⟨q, g⟩
    · exact keyLt_keyLe (keyLt_of_padLt g)
    · exact keyLe_of_padEq g hlen
    · have := hle q; omega
  have htE : treePut (treePut f.tree d.prev storeL) d.edited storeG =
      (A ++ [(d.prev, storeL)]) ++ (d.edited, storeG) :: (next, st') :: B := by rw [ht']; simp
  have gapG : ∀ k, keyLt d.edited k = true → keyLt k next = true →
      (∃ x ∈ L.drop sp, pre (ilen f.cfg.infixSize (sh + ig + imp) x) k =
          ival f.cfg.infixSize (pre (sh + ig + imp) d.prev) x) ∨ (k = key) →
      pointQuery { f with tree := treePut (treePut f.tree d.prev storeL) d.edited storeG } k = .ok true := by
    intro k h1 h2 hx
    obtain ⟨b, hb, hbt⟩ := pointQuery_gap hok htE RG h1 h2
    rw [hb]
    congr 1
    rw [hbt]
    exact hans k (between_of_le (keyLt_keyLe h1) (keyLt_keyLe h2)) h1 hx
  have hbits : BitsOK f → BitsOK { f with tree := treePut (treePut f.tree d.prev storeL) d.edited storeG } := by
    intro hb
    have hc := hb
    unfold BitsOK at hc ⊢
    rw [I.tree] at hc
    obtain ⟨c1, c2, c3⟩ := List.isChain_append_cons_cons.1 hc
    simp only [ht']
    refine List.isChain_append_cons_cons.2 ⟨?_, BL hb, List.isChain_cons_cons.2 ⟨?_, c3⟩⟩
    · rw [List.isChain_append] at c1 ⊢
      obtain ⟨a, b, e⟩ := c1
      refine ⟨a, List.isChain_singleton _, ?_⟩
      intro x hx y hy
      simp only [List.head?_cons, Option.mem_def, Option.some.injEq] at hy
      subst hy
      exact e x hx (d.prev, d.store) (by simp)
    · intro sh' ig' imp' e hp
      have e1 := I.lenG.sii
      dsimp only at e hp
      rw [e] at e1
      injection e1 with e1
      injection e1 with a1 e1
      injection e1 with a2 a3
      subst a1 a2 a3
      exact bG hp
  refine ⟨A, next, st', B, storeL, storeG, ⟨I.tree, ht', rfl, hok, I.le, I.lt, ?_, ?_, hbits, fun h => (h.put cL).put cG, ?_⟩,
    sh, ig, imp, L, sp, shL, igL, impL, shG, igG, impG, LG, I, RL, pL, iL, RG, hshape⟩
  · rw [I.edited]; exact editKey_length_le _ _
  · by_cases he : d.edited = key
    · have := pointQuery_boundary hok htE
      simpa only [he] using this
    · exact gapG key (keyLt_iff.2 ⟨hEk, he⟩) I.lt (Or.inr rfl)
  · intro k hkl hk
    by_cases hin : keyLt d.prev k = true ∧ keyLt k next = true
    · obtain ⟨h1, h2⟩ := hin
      obtain ⟨b, hb, hbt⟩ := pointQuery_gap h I.tree I.region h1 h2
      rw [hb] at hk
      obtain rfl : b = true := by injection hk
      have hold := hbt.1 rfl
      dsimp only at hold
      by_cases he : d.edited = k
      · have := pointQuery_boundary hok htE
        simpa only [he] using this
      rcases keyLe_or_lt d.edited k with hc | hc
      · -- above the new boundary
        have hlt := keyLt_iff.2 ⟨hc, he⟩
        rcases hold with ⟨o1, o2⟩ | ⟨x, hx, hxe⟩
        · rw [I.no_prefix (keyLt_keyLe hlt) o1] at o2; exact absurd o2 (by decide)
        · apply gapG k hlt h2
          left
          rw [← List.take_append_drop sp L] at hx
          rcases List.mem_append.1 hx with hx | hx
          · have h3 := I.cut.left x hx
            rw [← I.edited] at h3
            have := keyLe_pre hc (ilen f.cfg.infixSize (sh + ig + imp) x)
            omega
          · exact ⟨x, hx, hxe⟩
      · -- below
        obtain ⟨b, hb, hbt⟩ := pointQuery_gap hok ht' RL h1 hc
        rw [hb]
        congr 1
        rw [hbt]
        dsimp only
        rcases hold with ⟨o1, o2⟩ | ⟨x, hx, hxe⟩
        · left; rw [pL, iL]; exact ⟨o1, o2⟩
        · right
          rw [← l3 k (between_of_le (keyLt_keyLe h1) (keyLt_keyLe hc))]
          rw [← List.take_append_drop sp L] at hx
          rcases List.mem_append.1 hx with hx | hx
          · exact ⟨x, hx, hxe⟩
          · exfalso
            have h3 := I.cut.right x hx
            rw [← I.edited] at h3
            have h4 := keyLe_pre (keyLt_keyLe hc)
            have h5 := h4 (ilen f.cfg.infixSize (sh + ig + imp) x)
            have h6 : pre (ilen f.cfg.infixSize (sh + ig + imp) x) d.edited =
                ival f.cfg.infixSize (pre (sh + ig + imp) d.prev) x := by omega
            have h7 := (I.cut.zeros x hx (by rw [← I.edited]; exact h6)).1
            rw [← I.edited] at h7
            have heq : PadEq d.edited k := by
              intro q
              have := h4 q
              by_cases hq : q ≤ ilen f.cfg.infixSize (sh + ig + imp) x
              · exact pre_eq_len hq (by omega)
              · obtain ⟨j, rfl⟩ := Nat.exists_eq_add_of_le (show ilen f.cfg.infixSize (sh + ig + imp) x ≤ q by omega)
                have e1 := pre_zeros h7 j
                have e2 := pre_split k (ilen f.cfg.infixSize (sh + ig + imp) x) j
                rw [h6] at e1
                rw [hxe] at e2
                omega
            rw [I.edited] at heq hc
            obtain ⟨p1, p2⟩ := prefix_of_editKey heq hc
            exact p2 (hkl p1)
    · have S : SameOutside f { f with tree := treePut (treePut f.tree d.prev storeL) d.edited storeG } A d.prev next B :=
        ⟨rfl, h, hok, [], [(d.edited, storeG)], d.store, storeL, st', I.tree, by rw [ht']; simp⟩
      rw [S.point hin]; exact hk

theorem applySplit_spec {f : Filter} (h : FilterOK f) {key : Key} {d : SplitPlan}
    (hp : planSplit f key = .ok (some d)) (hfit : SplitFits f d) {n : Nat} (hn : n < 2 ^ 28) (hkn : key.length ≤ n)
    (htn : ∀ e ∈ f.tree, e.1.length ≤ n) {f' : Filter} (ha : applySplit f key d = .ok f') :
    ∃ A next st' B storeL storeG, SplitDone f f' key A d.prev d.edited next d.store storeL storeG st' B := by
  obtain ⟨A, next, st', B, storeL, storeG, D, _⟩ := applySplit_full h hp hfit hn hkn htn ha
  exact ⟨A, next, st', B, storeL, storeG, D⟩

end Verif
