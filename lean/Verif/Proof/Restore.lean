import Verif.Proof.Serial
import Verif.Proof.States
import Verif.Model.Rng

/-!
# Restoring a saved filter gives the same filter
-/

namespace Verif

theorem truncStore_clean {c : Cfg} {st : Store} (h : CleanStore c st) : truncStore c st = st := by
  unfold truncStore
  have h2 : st.mem % 256 ^ (ptrWordCount (c.size st.sizeGrade) c.infixSize * 8) = st.mem := by
    rw [show (256 : Nat) = 2 ^ 8 by rfl, ← pow_mul]
    refine Nat.mod_eq_of_lt (Nat.lt_pow_two_of_testBit _ fun j hj => ?_)
    have hb := block_bits (c.size st.sizeGrade) c.infixSize
    have := h.out j (by rw [Nat.mul_add] at hb; omega)
    simpa using this
  rw [Nat.mod_eq_of_lt h.status, h2]

theorem truncFilter_clean {f : Filter} (h : CleanTree f.cfg f.tree) : truncFilter f = f := by
  unfold truncFilter
  have : f.tree.map (fun e => (e.1, truncStore f.cfg e.2)) = f.tree := by
    conv_rhs => rw [← List.map_id f.tree]
    refine List.map_congr_left fun e he => ?_
    rw [truncStore_clean (h e he)]
    rfl
  rw [this]

end Verif
