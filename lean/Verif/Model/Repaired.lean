import Verif.Model.MathOps
import Verif.Model.Linalg
import Verif.Model.Io
/-!
# Functions that do not compile, with the least edit that makes them compile

The edits, function by function:

* `is_zero`, `is_constant` (`utility.hpp:575-588`): `MatrixBase` has no `begin`/`end`; the parameter is taken as a
  `const Matrix<T> &`.
* `is_identity`, `is_orthogonal` (`utility.hpp:640-658`): `==` returns a matrix of truth values, which does not convert to
  `bool`; it is wrapped in `all(…)`. `matrix.transpose()` is read as `transpose(matrix)`.
* `is_invertible`, `is_linearly_dependent`, `is_linearly_independent` (`utility.hpp:666-689`): `matrix.f()` is read as
  `f(matrix)`.
* `vstack`, `hstack` of a matrix and a vector (`utility.hpp:235-301`): `Matrix<T> C = A;` needs an explicit constructor; it
  is read as `Matrix<T> C(A);`.
* `A += b`, `A -= b` for a matrix and a scalar (`math.hpp:85-91, 163-169`): the result type `auto` is read as `auto &`.
* `a += b`, `a -= b`, `a *= b`, `a /= b` for a vector and a scalar (`math.hpp:720-726, 796-802, 872-878, 908-914`): `const` is
  dropped from the parameter, the result type `auto` is read as `auto &`.
* scalar times vector (`math.hpp:854-864`): `a.size()` is read as `b.size()`.
* `sign` (`math.hpp:1129-1146`): `if` is read as `if constexpr`.
* `hermitian_transpose` (`linalg.hpp:60-68`): the element type of the result is read as `std::complex<T>`.
* `to_cpp` (`io.hpp:329-375`): `v->f` is read as `v.f`.
-/
namespace Malg.Fix
variable {T : Type} {S : Type}
open Malg.Ops

/-! ## Predicates -/

/-- `is_zero`, `utility.hpp:575-578`: `std::all_of` over the elements. -/
def isZero [Zero T] [DecidableEq T] (A : Mat T) : Res Bool := do
  let r ← forSearch 0 A.data.length fun i => do
    let x ← vget A.data i
    return (if x ≠ 0 then some false else none)
  return r.getD true

/-- `is_constant`, `utility.hpp:585-588`: `std::adjacent_find` compares every element with the next one, as long as there
is a next one. -/
def isConstant [DecidableEq T] (A : Mat T) : Res Bool := do
  let r ← forSearch 1 A.data.length fun i => do
    let x ← vget A.data (i - 1)
    let y ← vget A.data i
    return (if x ≠ y then some false else none)
  return r.getD true

/-- The numbers that truth values convert to. -/
scoped instance : Zero Bool := ⟨false⟩

/-- `is_identity`, `utility.hpp:640-646`; `c` is the element comparison chosen by `==`. -/
def isIdentity [Zero T] [One T] (c : T → T → Bool) (A : MB T) : Res Bool :=
  if !Util.isSquare A then .ok false
  else do
    let I ← Util.identity A.cols (1 : T)
    let E ← cmp c A I.toMB
    Ops.all E.toMB

/-- `is_orthogonal`, `utility.hpp:653-659`. -/
def isOrthogonal [Zero T] [One T] [Add T] [Mul T] (c : T → T → Bool) (A : MB T) : Res Bool :=
  if !Util.isSquare A then .ok false
  else do
    let B ← Lin.transpose A
    let P ← mul A B.toMB
    let I ← Util.identity A.cols (1 : T)
    let E ← cmp c P.toMB I.toMB
    Ops.all E.toMB

section
variable [Zero T] [One T] [Add T] [Sub T] [Mul T] [Neg T] [CDiv T] [DecidableEq T]

/-- `is_invertible`, `utility.hpp:666-669`. -/
def isInvertible (isz : T → Bool) (A : MB T) : Res Bool := do
  let d ← Lin.determinant isz A
  return decide (d ≠ 0)

/-- `is_linearly_dependent`, `utility.hpp:676-679`. -/
def isDependent (isz : T → Bool) (A : MB T) : Res Bool := do
  let d ← Lin.determinant isz A
  return decide (d = 0)

/-- `is_linearly_independent`, `utility.hpp:686-689`. -/
def isIndependent (isz : T → Bool) (A : MB T) : Res Bool := do
  let b ← isDependent isz A
  return !b
end

/-! ## Stacking a matrix and a vector -/

/-- `vstack(A, b)`, `utility.hpp:235-250`. -/
def vstackVec [Zero T] (A : MB T) (b : List T) : Res (Mat T) :=
  if A.cols ≠ b.length then .throw .invalidArgument
  else do
    let C ← Mat.ofMB A id
    let C ← C.resize (wadd A.rows 1) A.cols
    forRange 0 b.length C fun i C => do
      let x ← vget b i
      C.setAt A.rows i x

/-- `hstack(A, b)`, `utility.hpp:286-301`. -/
def hstackVec [Zero T] (A : MB T) (b : List T) : Res (Mat T) :=
  if A.rows ≠ b.length then .throw .invalidArgument
  else do
    let C ← Mat.ofMB A id
    let C ← C.resize A.rows (wadd A.cols 1)
    forRange 0 b.length C fun i C => do
      let x ← vget b i
      C.setAt i A.cols x

/-! ## In-place operations with a scalar -/

/-- `A += b`, `math.hpp:85-91`; `b` is a reference, so it is read anew in every iteration. -/
def addSAssign [Add T] (A : MRef S T) (b : S → Res T) (s : S) : Res S :=
  forRange 0 (A.view s).size s fun i s => do
    let x ← (A.view s).lin i
    let y ← b s
    A.setLin s i (x + y)

/-- `A -= b`, `math.hpp:163-169`. -/
def subSAssign [Sub T] (A : MRef S T) (b : S → Res T) (s : S) : Res S :=
  forRange 0 (A.view s).size s fun i s => do
    let x ← (A.view s).lin i
    let y ← b s
    A.setLin s i (x - y)

/-- The body shared by the four in-place operations of a vector variable and a scalar, `math.hpp:720-726, 796-802,
872-878, 908-914`; `b` is a reference. -/
def vscalarAssign (op : T → T → Res T) (a : Nat) (b : VStore T → Res T) (s : VStore T) : Res (VStore T) :=
  forRange 0 (s a).length s fun i s => do
    let x ← vget (s a) i
    let y ← b s
    let z ← op x y
    let v ← vset (s a) i z
    return VStore.put s a v

/-- `a += b`, `math.hpp:720-726`. -/
def vaddSAssign [Add T] (a : Nat) (b : VStore T → Res T) := vscalarAssign (fun x y : T => .ok (x + y)) a b
/-- `a -= b`, `math.hpp:796-802`. -/
def vsubSAssign [Sub T] (a : Nat) (b : VStore T → Res T) := vscalarAssign (fun x y : T => .ok (x - y)) a b
/-- `a *= b`, `math.hpp:872-878`. -/
def vmulSAssign [Mul T] (a : Nat) (b : VStore T → Res T) := vscalarAssign (fun x y : T => .ok (x * y)) a b
/-- `a /= b`, `math.hpp:908-914`. -/
def vdivSAssign [CDiv T] (a : Nat) (b : VStore T → Res T) := vscalarAssign (fun x y : T => cdiv x y) a b

/-- `a * b` for a scalar `a` and a vector `b`, `math.hpp:854-864`. -/
def svmul [Zero T] [Mul T] (a : T) (b : List T) : Res (List T) := mapVec 0 (fun x => .ok (a * x)) b

/-! ## `sign` and `hermitian_transpose` -/

/-- What `sign` computes for one value, `math.hpp:1134, 1145`. -/
def signOf [Zero T] [One T] [Neg T] [LT T] [DecidableRel (α := T) (· < ·)] (x : T) : T := if 0 < x then 1 else -1

/-- `sign` of a vector, `math.hpp:1140-1146`. -/
def signVec [Zero T] [One T] [Neg T] [LT T] [DecidableRel (α := T) (· < ·)] (a : List T) : Res (List T) :=
  mapFnVec id signOf a
/-- `sign` of a matrix, `math.hpp:1129-1135`. -/
def signMat [Zero T] [One T] [Neg T] [LT T] [DecidableRel (α := T) (· < ·)] (A : MB T) : Res (Mat T) :=
  mapFnMat (signOf (T := T)) A

/-- `hermitian_transpose`, `linalg.hpp:60-69`. -/
def hermitianTranspose [Zero T] (conj : T → T) (A : MB T) : Res (Mat T) := do
  let result ← Mat.new A.cols A.rows (0 : T)
  forRange 0 A.rows result fun r result =>
    forRange 0 A.cols result fun c result => do
      let x ← A.at_ r c
      result.setAt c r (conj x)

/-! ## `to_cpp` -/

/-- `to_cpp` of a vector, `io.hpp:329-345`; `el` is the text of one element. -/
def toCppVec (el : T → List Char) (name type : List Char) (v : List T) : Res (List Char) := do
  let ss := "malg::Vector<".toList ++ type ++ "> ".toList ++ name ++ " = {".toList
  let ss ← forRange 0 v.length ss fun i ss => do
    let x ← vget v i
    let ss := ss ++ el x
    return (if i < wsub v.length 1 then ss ++ ", ".toList else ss)
  return ss ++ "}".toList

/-- `to_cpp` of a matrix, `io.hpp:353-376`. -/
def toCppMat (el : T → List Char) (name type : List Char) (A : MB T) : Res (List Char) := do
  let ss := "malg::Matrix<".toList ++ type ++ "> ".toList ++ name ++ " = {".toList
  let ss ← forRange 0 A.rows ss fun r ss => do
    let ss := ss ++ "{".toList
    let ss ← forRange 0 A.cols ss fun c ss => do
      let x ← A.at_ r c
      let ss := ss ++ el x
      return (if c < wsub A.cols 1 then ss ++ ",".toList else ss)
    let ss := ss ++ "}".toList
    return (if r < wsub A.rows 1 then ss ++ ",".toList else ss)
  return ss ++ "}".toList

/-- The text of a complex element, `io.hpp:335, 361`: `fmt` prints a part, `fmtP` prints it with `std::showpos`. -/
def cpxText {R : Type} (fmt fmtP : R → List Char) (z : R × R) : List Char := fmt z.1 ++ fmtP z.2 ++ "i".toList

/-- `stream << std::showpos << x` for a signed integer. -/
def fmtIntP (x : Int) : List Char := if x < 0 then '-' :: Io.fmtNat x.natAbs else '+' :: Io.fmtNat x.natAbs

end Malg.Fix
