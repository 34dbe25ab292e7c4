import Verif.Model.Store

/-!
# Bounds on the number of items of one region
-/

namespace Verif

/-- A region must stay below this number of items: the counter has 20 bits, and the grade 8 bits. -/
def Cfg.cap (c : Cfg) : Nat := min (2 ^ 20) (c.size 254 / 2)

/-- Size grades of regions with fewer than `c.cap` items. -/
def Cfg.Fine (c : Cfg) (g : Nat) : Prop := g < 256 ∧ (g = 0 ∨ c.size (g - 1) < 2 ^ 21)

theorem Cfg.cap_le (c : Cfg) : c.cap ≤ 2 ^ 20 := Nat.min_le_left _ _

end Verif
