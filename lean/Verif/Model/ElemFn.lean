import Verif.Model.MathOps
import Verif.Model.EigenQr
/-!
# `real`, `imag` and `abs` of vectors and matrices

They hand a lambda to `element_wise_function`. The element type of the result is the common type of argument and value of the lambda:
`std::complex<T>` for a complex argument, also when the lambda returns a `T`.
-/
namespace Malg.Ops
variable {T K : Type}

/-- `real(MatrixBase)`, `math.hpp:1074-1078`. -/
def realMat [Zero K] (A : MB (Cpx K)) : Res (Mat (Cpx K)) := mapFnMat (R := Cpx K) (fun z => z.re) A
/-- `real(Vector)`, `math.hpp:1083-1087`. -/
def realVec [Zero K] (a : List (Cpx K)) : Res (List (Cpx K)) := mapFnVec id (fun z : Cpx K => z.re) a
/-- `imag(MatrixBase)`, `math.hpp:1092-1096`. -/
def imagMat [Zero K] (A : MB (Cpx K)) : Res (Mat (Cpx K)) := mapFnMat (R := Cpx K) (fun z => z.im) A
/-- `imag(Vector)`, `math.hpp:1101-1105`. -/
def imagVec [Zero K] (a : List (Cpx K)) : Res (List (Cpx K)) := mapFnVec id (fun z : Cpx K => z.im) a
/-- `abs(MatrixBase)`, `math.hpp:1110-1114`; `abs` is `std::abs`. -/
def absMat [Zero T] {R : Type} (abs : T → R) (A : MB T) : Res (Mat T) := mapFnMat (R := T) abs A
/-- `abs(Vector)`, `math.hpp:1119-1123`. -/
def absVec [Zero T] {R : Type} (abs : T → R) (a : List T) : Res (List T) := mapFnVec id abs a

end Malg.Ops
