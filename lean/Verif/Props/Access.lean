import Verif.Model.Access
import Verif.Proof.Reach2
import Verif.Proof.Mem
import Verif.Props.Queries
import Verif.Props.Sample

/-!
# C26: slot accesses and the block
-/

namespace Verif.Props

/-- C26 for slots with at least 64 bits between their start and the end of the last slot. For the remaining slots the
claim is false, see `C26_false` and `C26_overhang`. -/
theorem C26_partial {n s pos : Nat} (h32 : 64 + 1024 + n + n * s < 2 ^ 32) (hpos : pos < n) (h : 64 ≤ (n - pos) * s) :
    slotFirstByte n s pos + 8 ≤ blockBytes n s := by
  have h1 : n * s = pos * s + (n - pos) * s := by rw [← Nat.add_mul]; congr 1; omega
  unfold slotFirstByte blockBytes ptrWordCount
  rw [Nat.mod_eq_of_lt (by omega), Nat.mul_add_one n s]
  omega

/-- No access goes more than seven bytes past the block, and the bits of every slot are inside the block. -/
theorem C26_overhang {n s pos : Nat} (hs : 1 ≤ s) (h32 : 64 + 1024 + n + n * s < 2 ^ 32) (hpos : pos < n) :
    slotFirstByte n s pos + 8 ≤ blockBytes n s + 7 ∧ 64 + 1024 + n + pos * s + s ≤ 8 * blockBytes n s := by
  have h1 : pos * s + s ≤ n * s := mul_succ_le hpos
  unfold slotFirstByte blockBytes ptrWordCount
  rw [Nat.mod_eq_of_lt (by omega), Nat.mul_add_one n s]
  omega

/-- When the access to the last slot stays inside. -/
theorem C26_last {n s : Nat} (hn : 1 ≤ n) (h32 : 64 + 1024 + n + n * s < 2 ^ 32) :
    slotFirstByte n s (n - 1) + 8 ≤ blockBytes n s ↔
      (64 + 1024 + n + (n - 1) * s) / 8 * 8 + 64 ≤ (64 + 1024 + n + n * s + 63) / 64 * 64 := by
  have h1 : n * s = (n - 1) * s + s := by
    obtain ⟨m, rfl⟩ : ∃ m, n = m + 1 := ⟨n - 1, by omega⟩
    rw [Nat.add_sub_cancel, Nat.add_mul, Nat.one_mul]
  unfold slotFirstByte blockBytes ptrWordCount
  rw [Nat.mod_eq_of_lt (by omega), Nat.mul_add_one n s]
  omega

example : slotFirstByte 1077 5 1000 + 8 ≤ blockBytes 1077 5 := C26_partial (by decide) (by decide) (by decide)

/-- The sizes of the grades of a filter with the default load factor. -/
example : (cfg95 5).size growSep = 1077 := by decide +kernel

/-- C26 is violated: with infix size 5, in a region of the initial grade (1077 slots, a block of 944 bytes), the
access to the last slot touches the bytes 943 to 950. -/
theorem C26_false : ∃ s g pos, (cfg95 s).WF ∧ g < 256 ∧ pos < (cfg95 s).size g ∧
    ¬ slotFirstByte ((cfg95 s).size g) s pos + 8 ≤ blockBytes ((cfg95 s).size g) s :=
  ⟨5, growSep, 1076, cfg95_5, by decide, by decide +kernel, by decide +kernel⟩

/-- The access happens: inserting the integer 2^64 - 2 into a filter loaded with 0 and 2^63 computes the home slot 1076 of
its region, and that slot is the first one `InsertRawIntoInfixStore` reads (diva.hpp:2272). -/
theorem C26_false_insert : ∃ f i prev st next fr, Reach (cfg95 5) 8 f ∧
    locate f.tree (encodeInt (2 ^ 64 - 2)) = .ok (i, prev, st, next) ∧ getFrame 5 prev next = .ok fr ∧
    getMappedPos (cfg95 5) (fr.item 5 (encodeInt (2 ^ 64 - 2)) >>> 5) st.sizeGrade (implicitScalars (fr.total - 512)) = 1076 ∧
    getBit st.mem 1 (fr.item 5 (encodeInt (2 ^ 64 - 2)) >>> 5) = 0 ∧
    ¬ slotFirstByte ((cfg95 5).size st.sizeGrade) 5 1076 + 8 ≤ blockBytes ((cfg95 5).size st.sizeGrade) 5 := by
  have hk1 : ∀ k ∈ [encodeInt 0, encodeInt (2 ^ 63)], k.length = 8 := by decide +kernel
  have hk2 : [encodeInt 0, encodeInt (2 ^ 63)].Pairwise fun a b => keyLt a b = true := by decide +kernel
  obtain ⟨f, hf⟩ := res_ok (r := bulkFixed (cfg95 5) 8 [encodeInt 0, encodeInt (2 ^ 63)]) (by decide +kernel)
  have h : (bulkFixed (cfg95 5) 8 [encodeInt 0, encodeInt (2 ^ 63)]).bind (fun f =>
    (locate f.tree (encodeInt (2 ^ 64 - 2))).bind fun (_, prev, st, next) => (getFrame 5 prev next).bind fun fr =>
      .ok (decide (getMappedPos (cfg95 5) (fr.item 5 (encodeInt (2 ^ 64 - 2)) >>> 5) st.sizeGrade
        (implicitScalars (fr.total - 512)) = 1076) && decide (getBit st.mem 1 (fr.item 5 (encodeInt (2 ^ 64 - 2)) >>> 5) = 0) &&
        decide (¬ slotFirstByte ((cfg95 5).size st.sizeGrade) 5 1076 + 8 ≤ blockBytes ((cfg95 5).size st.sizeGrade) 5))) =
    .ok true := by decide +kernel
  rw [hf, Res.bind_ok] at h
  cases hl : locate f.tree (encodeInt (2 ^ 64 - 2)) with
  | ub => rw [hl] at h; cases h
  | hang => rw [hl] at h; cases h
  | ok q =>
    obtain ⟨i, prev, st, next⟩ := q
    rw [hl, Res.bind_ok] at h
    dsimp only at h
    cases hg : getFrame 5 prev next with
    | ub => rw [hg] at h; cases h
    | hang => rw [hg] at h; cases h
    | ok fr =>
      rw [hg, Res.bind_ok] at h
      simp only [Res.ok.injEq, Bool.and_eq_true, decide_eq_true_eq] at h
      exact ⟨f, i, prev, st, next, fr, .fixed (Nat.le_refl _) hk1 (hk2.imp fun h => keyLt_keyLe h) hf, hl, hg, h.1.1, h.1.2, h.2⟩

end Verif.Props
