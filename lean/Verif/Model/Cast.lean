import Verif.Model.Core
import Mathlib.Algebra.Order.Floor.Defs
/-!
# Conversions from floating point to `std::size_t`
-/
namespace Malg

/-- `static_cast<std::size_t>(x)`: truncation towards zero, undefined if the truncated value is not representable
([conv.fpint]). Used at `control.hpp:135`. -/
def floorSize {K : Type} [Ring K] [LinearOrder K] [FloorSemiring K] (x : K) : Res Nat :=
  if -1 < x ∧ ⌊x⌋₊ < W then .ok ⌊x⌋₊ else .ub .badCast

end Malg
