import Verif.Spec.Rep
import Mathlib.Data.Matrix.Basic
import Mathlib.Data.Matrix.Mul
import Mathlib.Algebra.BigOperators.Fin
/-!
# Tables as Mathlib matrices

`toM n m e` is the Mathlib matrix with the entries of the table `e`; `Is`/`Yields` say that an object or the
result of a call is a given Mathlib matrix.
-/
namespace Malg
variable {T : Type}

/-- The `n × m` Mathlib matrix of a table. -/
def toM (n m : Nat) (e : Nat → Nat → T) : Matrix (Fin n) (Fin m) T := fun i j => e i j

/-- The vector of a table. -/
def toV (n : Nat) (f : Nat → T) : Fin n → T := fun i => f i

/-- The matrix-like object `b` is the Mathlib matrix `M` (through `(r,c)` and through `[i]`). -/
def MB.Is {n m : Nat} (b : MB T) (M : Matrix (Fin n) (Fin m) T) : Prop :=
  ∃ e, Rep b n m e ∧ toM n m e = M

/-- The call succeeds and returns a consistent matrix object that is `M`. -/
def Yields {n m : Nat} (x : Res (Mat T)) (M : Matrix (Fin n) (Fin m) T) : Prop :=
  ∃ A : Mat T, x = .ok A ∧ A.WF ∧ A.toMB.Is M

/-- The left-to-right sum `((0 + g 0) + g 1) + …`, as computed by an accumulation loop. -/
def lsum [Zero T] [Add T] : Nat → (Nat → T) → T
  | 0, _ => 0
  | k + 1, g => lsum k g + g k

end Malg
