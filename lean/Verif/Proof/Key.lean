import Verif.Spec.Key
import Verif.Proof.Order

/-!
# Prefix values of keys, words and bit fields
-/

namespace Verif

theorem byteAt_lt (k : Key) (i : Nat) : byteAt k i < 256 := UInt8.toNat_lt _

theorem byteAt_nil (i : Nat) : byteAt [] i = 0 := by simp [byteAt]

theorem byteAt_cons_zero (x : UInt8) (k : Key) : byteAt (x :: k) 0 = x.toNat := by simp [byteAt]

theorem byteAt_cons_succ (x : UInt8) (k : Key) (i : Nat) : byteAt (x :: k) (i + 1) = byteAt k i := by
  simp [byteAt]

theorem byteAt_of_ge {k : Key} {i : Nat} (h : k.length ≤ i) : byteAt k i = 0 := by
  simp [byteAt, List.getD, List.getElem?_eq_none h]

theorem kbit_lt (k : Key) (i : Nat) : kbit k i < 2 := Nat.mod_lt _ (by decide)

theorem kbit_of_ge {k : Key} {i : Nat} (h : 8 * k.length ≤ i) : kbit k i = 0 := by
  unfold kbit; rw [byteAt_of_ge (by omega)]; simp

theorem keyBit_eq (k : Key) (i : Nat) : keyBit k i = kbit k i := by
  unfold keyBit kbit
  by_cases h : i / 8 < k.length
  · rw [if_pos h, Nat.shiftRight_eq_div_pow, Nat.and_one_is_mod]
  · rw [if_neg h, byteAt_of_ge (by omega)]; simp

theorem pre_lt (k : Key) : ∀ p, pre p k < 2 ^ p
  | 0 => by simp [pre]
  | p + 1 => by
    have := pre_lt k p; have := kbit_lt k p
    rw [pre, pow_succ]; omega

theorem pre_add (k : Key) (p : Nat) : ∀ q, pre (p + q) k / 2 ^ q = pre p k
  | 0 => by simp
  | q + 1 => by
    have := kbit_lt k (p + q)
    rw [← Nat.add_assoc, pre, pow_succ, Nat.mul_comm (2 ^ q) 2, ← Nat.div_div_eq_div_mul,
      show (2 * pre (p + q) k + kbit k (p + q)) / 2 = pre (p + q) k by omega, pre_add k p q]

theorem pre_split (k : Key) (p q : Nat) : pre (p + q) k = pre p k * 2 ^ q + pre (p + q) k % 2 ^ q := by
  rw [← pre_add k p q, Nat.mul_comm, Nat.div_add_mod]

theorem pre_mod_two (k : Key) (p : Nat) : pre (p + 1) k % 2 = kbit k p := by
  have := kbit_lt k p; rw [pre]; omega

/-- Any bit of a prefix value. -/
theorem pre_bit (k : Key) (p q : Nat) : pre (p + 1 + q) k / 2 ^ q % 2 = kbit k p := by
  rw [pre_add, pre_mod_two]

theorem pre_mono_len {a b : Key} {p q : Nat} (h : p ≤ q) (hlt : pre p a < pre p b) : pre q a < pre q b := by
  obtain ⟨d, rfl⟩ := Nat.exists_eq_add_of_le h
  rw [← pre_add a p d, ← pre_add b p d] at hlt
  by_contra hc
  have := Nat.div_le_div_right (c := 2 ^ d) (Nat.le_of_not_lt hc)
  omega

theorem pre_le_len {a b : Key} {p q : Nat} (h : p ≤ q) (hle : pre q a ≤ pre q b) : pre p a ≤ pre p b := by
  obtain ⟨d, rfl⟩ := Nat.exists_eq_add_of_le h
  rw [← pre_add a p d, ← pre_add b p d]
  exact Nat.div_le_div_right hle

theorem pre_eq_len {a b : Key} {p q : Nat} (h : p ≤ q) (hle : pre q a = pre q b) : pre p a = pre p b := by
  obtain ⟨d, rfl⟩ := Nat.exists_eq_add_of_le h
  rw [← pre_add a p d, ← pre_add b p d, hle]

theorem pre_eq_iff {a b : Key} {p : Nat} : pre p a = pre p b ↔ ∀ i, i < p → kbit a i = kbit b i := by
  induction p with
  | zero => simp [pre]
  | succ p ih =>
    have h1 := kbit_lt a p; have h2 := kbit_lt b p
    rw [pre, pre]
    constructor
    · intro h i hi
      have h3 : pre p a = pre p b ∧ kbit a p = kbit b p := by omega
      rcases Nat.lt_or_ge i p with hi' | hi'
      · exact ih.1 h3.1 i hi'
      · rw [show i = p by omega]; exact h3.2
    · intro h
      rw [ih.2 (fun i hi => h i (by omega)), h p (by omega)]

theorem PadLt.le {a b : Key} (h : PadLt a b) (p : Nat) : pre p a ≤ pre p b := by
  obtain ⟨q, hq⟩ := h
  by_contra hc
  have h1 := pre_mono_len (Nat.le_max_left p q) (Nat.lt_of_not_le hc)
  have h2 := pre_mono_len (Nat.le_max_right p q) hq
  omega

theorem PadLt.irrefl (a : Key) : ¬ PadLt a a := by rintro ⟨p, h⟩; omega

theorem PadLt.trans {a b c : Key} (h1 : PadLt a b) (h2 : PadLt b c) : PadLt a c := by
  obtain ⟨p, hp⟩ := h1
  exact ⟨p, Nat.lt_of_lt_of_le hp (h2.le p)⟩

theorem PadLt.trans_le {a b c : Key} (h1 : PadLt a b) (h2 : ∀ p, pre p b ≤ pre p c) : PadLt a c := by
  obtain ⟨p, hp⟩ := h1
  exact ⟨p, Nat.lt_of_lt_of_le hp (h2 p)⟩

theorem PadLt.le_trans {a b c : Key} (h1 : ∀ p, pre p a ≤ pre p b) (h2 : PadLt b c) : PadLt a c := by
  obtain ⟨p, hp⟩ := h2
  exact ⟨p, Nat.lt_of_le_of_lt (h1 p) hp⟩

theorem padLt_or (a b : Key) : PadLt a b ∨ ∀ p, pre p b ≤ pre p a := by
  by_cases h : PadLt a b
  · exact Or.inl h
  · refine Or.inr fun p => ?_
    by_contra hc; exact h ⟨p, Nat.lt_of_not_le hc⟩

theorem pad_trichotomy (a b : Key) : PadLt a b ∨ PadEq a b ∨ PadLt b a := by
  rcases padLt_or a b with h | h
  · exact Or.inl h
  rcases padLt_or b a with h' | h'
  · exact Or.inr (Or.inr h')
  · exact Or.inr (Or.inl fun p => Nat.le_antisymm (h' p) (h p))

/-! ## Bytes and words -/

theorem pre_byte_part (k : Key) (i : Nat) : ∀ j, j ≤ 8 →
    pre (8 * i + j) k = pre (8 * i) k * 2 ^ j + byteAt k i / 2 ^ (8 - j)
  | 0, _ => by
    have := byteAt_lt k i
    rw [Nat.div_eq_of_lt (by simpa using this)]; simp
  | j + 1, h => by
    rw [← Nat.add_assoc, pre, pre_byte_part k i j (by omega)]
    have e : kbit k (8 * i + j) = byteAt k i / 2 ^ (7 - j) % 2 := by
      unfold kbit
      rw [show (8 * i + j) / 8 = i by omega, show (8 * i + j) % 8 = j by omega]
    rw [e, show 8 - j = 7 - j + 1 by omega, pow_succ, ← Nat.div_div_eq_div_mul,
      show 8 - (j + 1) = 7 - j by omega, pow_succ]
    generalize byteAt k i / 2 ^ (7 - j) = y
    have : pre (8 * i) k * (2 ^ j * 2) = 2 * (pre (8 * i) k * 2 ^ j) := by ring
    omega

theorem pre_byte (k : Key) (i : Nat) : pre (8 * i + 8) k = pre (8 * i) k * 256 + byteAt k i := by
  have := pre_byte_part k i 8 (by decide)
  simpa using this

theorem pre_fold (k : Key) (i : Nat) : ∀ n, pre (8 * i + 8 * n) k = pre (8 * i) k * 256 ^ n +
    (List.range n).foldl (fun acc j => acc * 256 + byteAt k (i + j)) 0
  | 0 => by simp
  | n + 1 => by
    rw [List.range_succ, List.foldl_append, List.foldl_cons, List.foldl_nil,
      show 8 * i + 8 * (n + 1) = 8 * (i + n) + 8 by omega, pre_byte,
      show 8 * (i + n) = 8 * i + 8 * n by omega, pre_fold k i n, pow_succ]
    ring

theorem fold_lt (k : Key) (i : Nat) : ∀ n,
    (List.range n).foldl (fun acc j => acc * 256 + byteAt k (i + j)) 0 < 256 ^ n
  | 0 => by simp
  | n + 1 => by
    have := fold_lt k i n
    have := byteAt_lt k (i + n)
    rw [List.range_succ, List.foldl_append, List.foldl_cons, List.foldl_nil, pow_succ]
    omega

theorem beWord_lt (k : Key) (i : Nat) : beWord k i < 2 ^ 64 := fold_lt k i 8

theorem pre_word (k : Key) (i : Nat) : pre (8 * i + 64) k = pre (8 * i) k * 2 ^ 64 + beWord k i :=
  pre_fold k i 8

theorem beWord_eq (k : Key) (i : Nat) : beWord k i = pre (8 * i + 64) k % 2 ^ 64 := by
  have := beWord_lt k i
  rw [pre_word, Nat.mul_comm, Nat.mul_add_mod, Nat.mod_eq_of_lt this]

theorem beWord_of_ge {k : Key} {i : Nat} (h : k.length ≤ i) : beWord k i = 0 := by
  simp only [beWord, List.range_succ, List.range_zero, List.nil_append, List.cons_append, List.foldl]
  rw [byteAt_of_ge (by omega), byteAt_of_ge (by omega), byteAt_of_ge (by omega), byteAt_of_ge (by omega),
    byteAt_of_ge (by omega), byteAt_of_ge (by omega), byteAt_of_ge (by omega), byteAt_of_ge (by omega)]

theorem wordAt_beWord (k : Key) (i : Nat) : wordAt k i = beWord k i := by
  unfold wordAt
  split_ifs with h
  · rw [beWord_of_ge h]
  · rfl

theorem wordAt_eq (k : Key) (i : Nat) : wordAt k i = pre (8 * i + 64) k % 2 ^ 64 := by
  rw [wordAt_beWord, beWord_eq]

theorem wordAt_lt (k : Key) (i : Nat) : wordAt k i < 2 ^ 64 := by
  rw [wordAt_beWord]; exact beWord_lt k i

/-- A field of a word. -/
theorem word_field (k : Key) (b e w : Nat) (h : e + w ≤ 64) :
    beWord k b / 2 ^ e % 2 ^ w = pre (8 * b + 64 - e) k % 2 ^ w := by
  rw [beWord_eq, show (64 : Nat) = e + (64 - e) by omega]
  rw [pow_add, Nat.mod_mul_right_div_self]
  rw [show 8 * b + (e + (64 - e)) - e = 8 * b + (64 - e) by omega,
    show 8 * b + (e + (64 - e)) = 8 * b + (64 - e) + e by omega, pre_add]
  exact Nat.mod_mod_of_dvd _ (pow_dvd_pow 2 (by omega))

theorem bitsAt_eq (k : Key) (pos w : Nat) (h : w + pos % 8 ≤ 64) :
    bitsAt k pos w = pre (pos + w) k % 2 ^ w := by
  rw [show bitsAt k pos w = shr64 (beWord k (pos / 8)) (sub64 (sub64 64 w) (pos % 8)) &&& bitmask w by
    unfold bitsAt
    split_ifs with hl
    · rw [beWord_of_ge hl]; simp [shr64]
    · rfl]
  rw [and_bitmask _ _ (by omega)]
  rcases Nat.eq_zero_or_pos w with rfl | hw
  · simp [Nat.mod_one]
  have e : sub64 (sub64 64 w) (pos % 8) = 64 - w - pos % 8 := by
    have e1 : sub64 64 w = 64 - w := sub64_of_le (by decide) (by omega)
    rw [e1, sub64_of_le (by omega) (by omega)]
  rw [e, shr64, Nat.mod_eq_of_lt (show 64 - w - pos % 8 < 64 by omega), Nat.shiftRight_eq_div_pow, word_field _ _ _ _ (by omega)]
  rw [show 8 * (pos / 8) + 64 - (64 - w - pos % 8) = pos + w by omega]

theorem extract_eq (s : Nat) (k : Key) (sh ig imp msb : Nat) (himp : 1 ≤ imp) (hmsb : msb ≤ 1)
    (h : imp + s + (sh + ig) % 8 ≤ 64) :
    extractPartialKey s k sh ig imp msb =
      msb * 2 ^ (imp - 1 + s) + pre (sh + ig + imp + s) k % 2 ^ (imp - 1 + s) := by
  unfold extractPartialKey
  dsimp only
  rw [and_bitmask _ _ (by omega)]
  have e : sub32 (sub32 (sub32 63 (imp - 1)) s) ((sh + ig) % 8) = 64 - imp - s - (sh + ig) % 8 := by
    unfold sub32; omega
  rw [e, shr64, Nat.mod_eq_of_lt (show 64 - imp - s - (sh + ig) % 8 < 64 by omega),
    Nat.shiftRight_eq_div_pow, wordAt_beWord,
    word_field _ _ _ _ (by omega)]
  rw [show 8 * ((sh + ig) / 8) + 64 - (64 - imp - s - (sh + ig) % 8) = sh + ig + imp + s by omega]
  have hl : pre (sh + ig + imp + s) k % 2 ^ (imp - 1 + s) < 2 ^ (imp - 1 + s) :=
    Nat.mod_lt _ (Nat.two_pow_pos _)
  have hp : 2 ^ (imp - 1 + s) < 2 ^ 64 := Nat.pow_lt_pow_right (by decide) (by omega)
  have e2 : shl64 msb (imp - 1 + s) = msb <<< (imp - 1 + s) := by
    unfold shl64
    rw [Nat.mod_eq_of_lt (show imp - 1 + s < 64 by omega), Nat.shiftLeft_eq, Nat.mod_eq_of_lt]
    have : msb * 2 ^ (imp - 1 + s) ≤ 1 * 2 ^ (imp - 1 + s) := Nat.mul_le_mul_right _ hmsb
    omega
  rw [e2, Nat.or_comm, ← Nat.shiftLeft_add_eq_or_of_lt hl, Nat.shiftLeft_eq]

/-! ## Order -/

theorem u8_trichotomy (x y : UInt8) : x < y ∨ x = y ∨ y < x := by
  simp only [UInt8.lt_iff_toNat_lt, ← UInt8.toNat_inj]; omega

theorem u8_asymm {x y : UInt8} (h : x < y) : ¬ y < x := by
  simp only [UInt8.lt_iff_toNat_lt] at *; omega

theorem u8_irrefl (x : UInt8) : ¬ x < x := by
  simp only [UInt8.lt_iff_toNat_lt]; omega

theorem u8_trans {x y z : UInt8} (h : x < y) (h' : y < z) : x < z := by
  simp only [UInt8.lt_iff_toNat_lt] at *; omega

theorem pre8_cons (x : UInt8) (k : Key) : ∀ n, pre (8 * (n + 1)) (x :: k) = x.toNat * 256 ^ n + pre (8 * n) k
  | 0 => by
    have := pre_byte (x :: k) 0
    rw [byteAt_cons_zero] at this
    simpa [pre] using this
  | n + 1 => by
    have h1 := pre_byte (x :: k) (n + 1)
    have h2 := pre_byte k n
    rw [byteAt_cons_succ, pre8_cons x k n] at h1
    rw [show 8 * (n + 1 + 1) = 8 * (n + 1) + 8 by omega, h1, show 8 * (n + 1) = 8 * n + 8 by omega, h2, pow_succ]
    ring

theorem pre_nil : ∀ p, pre p [] = 0
  | 0 => rfl
  | p + 1 => by rw [pre, pre_nil p]; simp [kbit, byteAt_nil]

theorem pre8_lt (k : Key) (n : Nat) : pre (8 * n) k < 256 ^ n := by
  have := pre_lt k (8 * n)
  rwa [pow_mul] at this

theorem keyLe_pre8 : ∀ (a b : Key) (n : Nat), keyLe a b = true → pre (8 * n) a ≤ pre (8 * n) b
  | [], b, n, _ => by rw [pre_nil]; omega
  | _ :: _, [], _, h => by simp [keyLe] at h
  | _ :: _, _ :: _, 0, _ => by simp [pre]
  | x :: a, y :: b, n + 1, h => by
    rw [pre8_cons, pre8_cons]
    simp only [keyLe, Bool.or_eq_true, Bool.and_eq_true, decide_eq_true_eq, beq_iff_eq] at h
    rcases h with h | ⟨rfl, h⟩
    · have h1 : x.toNat + 1 ≤ y.toNat := UInt8.lt_iff_toNat_lt.1 h
      have h2 := pre8_lt a n
      have h3 : (x.toNat + 1) * 256 ^ n ≤ y.toNat * 256 ^ n := Nat.mul_le_mul_right _ h1
      rw [Nat.add_mul] at h3
      omega
    · have := keyLe_pre8 a b n h
      omega

theorem keyLe_pre {a b : Key} (h : keyLe a b = true) (p : Nat) : pre p a ≤ pre p b :=
  pre_le_len (show p ≤ 8 * p by omega) (keyLe_pre8 a b p h)

theorem keyLt_keyLe : ∀ {a b : Key}, keyLt a b = true → keyLe a b = true
  | [], _, _ => by simp [keyLe]
  | _ :: _, [], h => by simp [keyLt] at h
  | x :: a, y :: b, h => by
    simp only [keyLt, keyLe, Bool.or_eq_true, Bool.and_eq_true, decide_eq_true_eq, beq_iff_eq] at *
    rcases h with h | ⟨h1, h2⟩
    · exact Or.inl h
    · exact Or.inr ⟨h1, keyLt_keyLe h2⟩

theorem keyLe_refl : ∀ a : Key, keyLe a a = true
  | [] => by simp [keyLe]
  | x :: a => by simp [keyLe, keyLe_refl a]

theorem keyLt_irrefl : ∀ a : Key, keyLt a a = false
  | [] => by simp [keyLt]
  | x :: a => by simp [keyLt, keyLt_irrefl a]

theorem keyLe_iff_not_lt : ∀ a b : Key, keyLe a b = !keyLt b a
  | [], [] => by simp [keyLe, keyLt]
  | [], _ :: _ => by simp [keyLe, keyLt]
  | _ :: _, [] => by simp [keyLe, keyLt]
  | x :: a, y :: b => by
    have ih := keyLe_iff_not_lt a b
    simp only [keyLe, keyLt]
    rcases u8_trichotomy x y with h | h | h
    · have h' : ¬ y < x := u8_asymm h
      have h2 : ¬ y = x := fun e => by subst e; exact h' h
      simp [h, h', h2]
    · subst h; simp [ih]
    · have h' : ¬ x < y := u8_asymm h
      have h2 : ¬ x = y := fun e => by subst e; exact h' h
      simp [h, h', h2]

theorem keyLe_antisymm : ∀ {a b : Key}, keyLe a b = true → keyLe b a = true → a = b
  | [], [], _, _ => rfl
  | [], _ :: _, _, h => by simp [keyLe] at h
  | _ :: _, [], h, _ => by simp [keyLe] at h
  | x :: a, y :: b, h1, h2 => by
    simp only [keyLe, Bool.or_eq_true, Bool.and_eq_true, decide_eq_true_eq, beq_iff_eq] at *
    rcases h1 with h | ⟨rfl, h⟩
    · rcases h2 with h' | ⟨rfl, h'⟩
      · exact absurd h (u8_asymm h')
      · exact absurd h (u8_irrefl _)
    · rcases h2 with h' | ⟨_, h'⟩
      · exact absurd h' (u8_irrefl _)
      · rw [keyLe_antisymm h h']

theorem keyLe_trans : ∀ {a b c : Key}, keyLe a b = true → keyLe b c = true → keyLe a c = true
  | [], _, _, _, _ => by simp [keyLe]
  | _ :: _, [], _, h, _ => by simp [keyLe] at h
  | _ :: _, _ :: _, [], _, h => by simp [keyLe] at h
  | x :: a, y :: b, z :: c, h1, h2 => by
    simp only [keyLe, Bool.or_eq_true, Bool.and_eq_true, decide_eq_true_eq, beq_iff_eq] at *
    rcases h1 with h | ⟨rfl, h⟩
    · rcases h2 with h' | ⟨rfl, h'⟩
      · exact Or.inl (u8_trans h h')
      · exact Or.inl h
    · rcases h2 with h' | ⟨rfl, h'⟩
      · exact Or.inl h'
      · exact Or.inr ⟨rfl, keyLe_trans h h'⟩

theorem keyLt_iff {a b : Key} : keyLt a b = true ↔ keyLe a b = true ∧ a ≠ b := by
  constructor
  · intro h
    refine ⟨keyLt_keyLe h, ?_⟩
    rintro rfl
    rw [keyLt_irrefl] at h; exact absurd h (by decide)
  · rintro ⟨h1, h2⟩
    by_contra hc
    have : keyLe b a = true := by rw [keyLe_iff_not_lt]; simpa using hc
    exact h2 (keyLe_antisymm h1 this)

theorem keyLe_total (a b : Key) : keyLe a b = true ∨ keyLe b a = true := by
  by_cases h : keyLe a b = true
  · exact Or.inl h
  · rw [keyLe_iff_not_lt] at h
    exact Or.inr (keyLt_keyLe (by simpa using h))

/-- Padded order determines the byte-wise order. -/
theorem keyLt_of_padLt {a b : Key} (h : PadLt a b) : keyLt a b = true := by
  rw [keyLt_iff]
  have hne : a ≠ b := by rintro rfl; exact PadLt.irrefl _ h
  refine ⟨?_, hne⟩
  rcases keyLe_total a b with h' | h'
  · exact h'
  · obtain ⟨p, hp⟩ := h
    have := keyLe_pre h' p
    omega

/-- Keys with equal padding: the shorter one comes first. -/
theorem keyLe_of_padEq {a b : Key} (h : PadEq a b) (hl : a.length ≤ b.length) : keyLe a b = true := by
  induction a generalizing b with
  | nil => simp [keyLe]
  | cons x a ih =>
    cases b with
    | nil => simp at hl
    | cons y b =>
      have h1 := h 8
      have e1 : pre 8 (x :: a) = x.toNat * 1 + 0 := pre8_cons x a 0
      have e2 : pre 8 (y :: b) = y.toNat * 1 + 0 := pre8_cons y b 0
      rw [e1, e2] at h1
      have hxy : x = y := UInt8.toNat_inj.1 (by omega)
      subst hxy
      have : PadEq a b := by
        intro p
        apply pre_eq_len (show p ≤ 8 * p by omega)
        have h2 := h (8 * (p + 1))
        rw [pre8_cons, pre8_cons] at h2
        omega
      simp [keyLe, ih this (by simpa using hl)]

/-- Among keys of one length the padded order is the byte-wise order. -/
theorem padEq_length {a b : Key} (h : PadEq a b) (hl : a.length = b.length) : a = b :=
  keyLe_antisymm (keyLe_of_padEq h (by omega)) (keyLe_of_padEq (fun p => (h p).symm) (by omega))

end Verif
