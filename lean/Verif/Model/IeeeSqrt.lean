import Verif.Model.Ieee
import Verif.Model.Sqrt
/-!
# `std::sqrt` for IEEE doubles
-/
namespace Malg

/-- `std::sqrt` (IEEE 754-2008, sections 5.4.1, 6.3 and 7.2): NaN of a negative number, the zero itself, infinity of infinity, otherwise the root rounded once.
Used by `square_norm`, `math.hpp:1377-1409`, and thereby by `expm`, `linalg.hpp:403-445`. -/
def Ieee.sqrt {p : ℕ} {emin : ℤ} {emax : ℕ} : Ieee ℚ p emin emax → Ieee ℚ p emin emax
  | .nan => .nan
  | .inf s => if s then .nan else .inf false
  | .fin x z hz hx => if x.val < 0 then .nan else if x.val = 0 then .fin x z hz hx else .mk false (sqrtQ (1 - emin).toNat x.val)

end Malg
