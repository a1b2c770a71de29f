import Verif.Model.Mat
/-!
# What it means for a matrix-like object to hold a given table of entries

The specification side of all matrix theorems: a table is a plain function
`Nat → Nat → T` together with its dimensions.  `Is` (in `Verif.Spec.Matrix`) ties
this to Mathlib's `Matrix (Fin n) (Fin m) T`.
-/
namespace Malg
variable {T : Type}

/-- Dimensions that a `Matrix` object can have without any 64-bit wrap-around. -/
def Fits (n m : Nat) : Prop := n * m < allocMax ∧ n < W ∧ m < W

instance (n m : Nat) : Decidable (Fits n m) := inferInstanceAs (Decidable (_ ∧ _ ∧ _))

/-- `b` is an `n × m` matrix-like object whose `(r,c)` access yields `e r c`. -/
structure RepAt (b : MB T) (n m : Nat) (e : Nat → Nat → T) : Prop where
  fits : Fits n m
  rows : b.rows = n
  cols : b.cols = m
  size : b.size = n * m
  get : ∀ r c, r < n → c < m → b.at_ r c = .ok (e r c)

/-- … and whose linear access enumerates the same entries row by row. -/
structure Rep (b : MB T) (n m : Nat) (e : Nat → Nat → T) : Prop extends RepAt b n m e where
  lin : ∀ r c, r < n → c < m → b.lin (r * m + c) = .ok (e r c)

/-- A matrix object in a consistent state: the storage has exactly `rows*cols` elements. -/
def Mat.WF (A : Mat T) : Prop := A.data.length = A.rows * A.cols ∧ Fits A.rows A.cols

instance (A : Mat T) : Decidable A.WF := inferInstanceAs (Decidable (_ ∧ _))

/-- The matrix object `A` is in a consistent state and holds the table `e`. -/
structure Mat.Holds (A : Mat T) (n m : Nat) (e : Nat → Nat → T) : Prop where
  wf : A.WF
  rep : Rep A.toMB n m e

/-- A call succeeds and returns a matrix holding the table `e`. -/
def Returns (x : Res (Mat T)) (n m : Nat) (e : Nat → Nat → T) : Prop :=
  ∃ A, x = .ok A ∧ A.Holds n m e

/-- A call succeeds and returns a vector with `n` elements `f 0, …, f (n-1)`. -/
def ReturnsVec (x : Res (List T)) (n : Nat) (f : Nat → T) : Prop :=
  ∃ v, x = .ok v ∧ v.length = n ∧ ∀ i, i < n → v[i]? = some (f i)

/-- A vector with `n` elements `f 0, …, f (n-1)`. -/
def VRep (v : List T) (n : Nat) (f : Nat → T) : Prop :=
  n < allocMax ∧ v.length = n ∧ ∀ i, i < n → v[i]? = some (f i)

/-- The matrix object with entries `e`, row by row. -/
def Mat.ofFn (n m : Nat) (e : Nat → Nat → T) : Mat T :=
  ⟨n, m, (List.range (n * m)).map fun i => e (i / m) (i % m)⟩

end Malg
