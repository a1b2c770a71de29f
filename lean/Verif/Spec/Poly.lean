import Mathlib.Algebra.Polynomial.Basic
/-!
# Coefficient lists as polynomials
-/
namespace Malg
open Polynomial

/-- The polynomial whose coefficients, highest degree first, are the elements of the list. -/
noncomputable def polyOf {R : Type} [Semiring R] : List R → R[X]
  | [] => 0
  | c :: l => C c * X ^ l.length + polyOf l

end Malg
