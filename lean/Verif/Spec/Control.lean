import Verif.Model.Control
import Verif.Spec.Matrix
/-!
# State space systems as Mathlib matrices
-/
namespace Malg
open Matrix
variable {K : Type} {n m p : Nat}

/-- The system object has the matrices `A`, `B`, `C`, `D`. -/
structure StateSpace.Is (sys : StateSpace K) (A : Matrix (Fin n) (Fin n) K) (B : Matrix (Fin n) (Fin m) K)
    (C : Matrix (Fin p) (Fin n) K) (D : Matrix (Fin p) (Fin m) K) : Prop where
  a : sys.A.toMB.Is A
  b : sys.B.toMB.Is B
  c : sys.C.toMB.Is C
  d : sys.D.toMB.Is D

/-- The state after `k` steps of `x⁺ = A x + B u` from `x0` with inputs `u 0, u 1, …`. -/
def traj [NonUnitalNonAssocSemiring K] (A : Matrix (Fin n) (Fin n) K) (B : Matrix (Fin n) (Fin m) K) (x0 : Fin n → K)
    (u : Nat → Fin m → K) : Nat → Fin n → K
  | 0 => x0
  | k + 1 => A *ᵥ traj A B x0 u k + B *ᵥ u k

end Malg
