import Verif.Model.Types
import Verif.Model.MathOps
import Verif.Model.EigenQr
import Verif.Model.Io
/-!
# `const` element types

A view of a constant matrix, `View<const Matrix<T>>` (`matrix.hpp:441`, `view.hpp:32-35, 258-261`), is a
`MatrixBase<const T>`: the functions on `MatrixBase` are instantiated with `const T`. The standard traits
(`std::is_floating_point_v`, `std::common_type_t`) ignore the qualifier; `is_complex` does not, as it is specialised for
`std::complex<T>` only (`type_traits.hpp:16-27`).
-/
namespace Malg

/-- `T` in `MatrixBase<T>`: an element type, `const` or not. -/
structure QType where
  const : Bool
  elem : ElemType
  deriving DecidableEq, Repr

/-- Types that `std::complex<…>` can name when its argument is computed. -/
inductive CType
  | arith (t : Arith)
  | cpx (t : CType)
  deriving DecidableEq, Repr

namespace CType

def ofElem : ElemType → CType
  | .real t => .arith t
  | .complex t => .cpx (.arith t)

/-- `std::common_type_t`: the decayed type of `false ? a : b`. Numbers convert to complex numbers but not back; between
complex types of floating point numbers the wider one is taken. `none`: no such type, or one this model does not cover
(complex numbers over integers of different types). -/
def common : CType → CType → Option CType
  | .arith a, .arith b => some (.arith (Arith.common a b))
  | .arith _, .cpx (.arith t) => some (.cpx (.arith t))
  | .cpx (.arith t), .arith _ => some (.cpx (.arith t))
  | .cpx t, .cpx u =>
    if t = u then some (.cpx t)
    else
      match t, u with
      | .arith a, .arith b => if a.isFloat && b.isFloat then some (.cpx (.arith (Arith.common a b))) else none
      | _, _ => none
  | _, _ => none

end CType

namespace QType

/-- The elements of a matrix, and of a view of a matrix that is not constant. -/
def plain (e : ElemType) : QType := ⟨false, e⟩
/-- The elements of a view of a constant matrix, `view.hpp:32, 258`. -/
def constView (e : ElemType) : QType := ⟨true, e⟩

/-- `is_complex_v<T>`, `type_traits.hpp:16-35`. -/
def isComplex (q : QType) : Bool := !q.const && q.elem.isComplex

/-- `is_complex_t<T>`, `type_traits.hpp:16-27, 42-43`, without the qualifier that it keeps. -/
def complexT (q : QType) : CType := if q.isComplex then .arith q.elem.inner else CType.ofElem q.elem

/-- `extract_common_type_t<T1, T2>`, `type_traits.hpp:53-54`. -/
def extract (a b : QType) : Option CType :=
  if a.isComplex || b.isComplex then (CType.common a.complexT b.complexT).map .cpx
  else CType.common (CType.ofElem a.elem) (CType.ofElem b.elem)

/-- `std::is_floating_point_v<T>`. -/
def isFloat (q : QType) : Bool :=
  match q.elem with
  | .real t => t.isFloat
  | .complex _ => false

end QType

/-- The three ways of `==` and `!=` to compare elements. -/
inductive CmpMode
  | approx | parts | exact
  deriving DecidableEq, Repr

/-- The choice, `math.hpp:320-328, 346-354, 368-376, 390-398, 419-427, 445-453, 467-475, 489-497`. -/
def cmpMode (a b : QType) : CmpMode :=
  if a.isFloat || b.isFloat then .approx else if a.isComplex && b.isComplex then .parts else .exact

/-- `A == B` on complex elements, with the comparison chosen for the two types, `math.hpp:309-330`. -/
def eqComplex {K : Type} [Sub K] [Mul K] [Max K] [LE K] [DecidableRel (α := K) (· ≤ ·)] [DecidableEq (Cpx K)]
    (abs : K → K) (tol : K) (a b : QType) (A B : MB (Cpx K)) : Res (Mat Bool) :=
  match cmpMode a b with
  | .parts => Ops.cmp (Ops.eqParts abs Cpx.re Cpx.im tol) A B
  | _ => Ops.cmp Ops.eqExact A B

/-- `to_matlab(MatrixBase)` on complex elements, `io.hpp:300-321`: the branch taken depends on `is_complex_v<T>`. -/
def matlabComplexMat (c : Io.Codec Int) (q : QType) (name : List Char) (A : MB (Int × Int)) : Res (List Char) :=
  Io.matlabMat (if q.isComplex then Io.matlabComplex c.fmt else (Io.complexCodec c).fmt) name A

/-- `square_norm(MatrixBase)` on a `const` complex element type, `math.hpp:1394-1409`: `accum` is complex and the branch
`accum += A(r, c) * A(r, c)` is taken; `std::sqrt` is the complex one. (For complex elements that are not `const` the
function does not compile.) -/
def squareNormConst {K : Type} [Zero K] [Add K] [Sub K] [Mul K] (csqrt : Cpx K → Cpx K) (A : MB (Cpx K)) : Res (Cpx K) :=
  Ops.squareNorm csqrt A
/-- `vector_length` likewise, `math.hpp:1166-1177`. -/
def vectorLengthConst {K : Type} [Zero K] [Add K] [Sub K] [Mul K] (csqrt : Cpx K → Cpx K) (A : MB (Cpx K))
    (c r_start r_end : Nat) : Res (Cpx K) := Ops.vectorLength csqrt A c r_start r_end

end Malg
