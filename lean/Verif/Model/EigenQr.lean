import Verif.Model.Eigen
import Verif.Model.MathOps
/-!
# `hessenberg`, `qr_factorise_givens`, `QRHessenberg` and `eigenvectorUpper`

These four do not compile as they stand. They are modelled with the smallest edits that make them compile:

* `eigen.hpp:51, 78, 99, 150`: `utility::identity<std::complex<T>>(N)` lacks its second argument; read as
  `utility::identity<std::complex<T>>(N, 1)`;
* `eigen.hpp:56`: `vector_length(H, k, k + 1)` lacks the end row; read as `vector_length(H, k, k + 1, N)`;
* `math.hpp:1170, 1381, 1400, 1469`: `if (is_complex_v<T>)`, whose second branch adds a complex number to a real one; read as
  `if constexpr`.

Everything else is as written. Numbers are elements of a field `K`, complex numbers are pairs of them; `eps` is
`std::numeric_limits<T>::epsilon()`, `sqrt` and `abs` are `std::sqrt` on numbers and `std::abs` on complex numbers, `sqrtC` is
`std::sqrt` on complex numbers. Lines written to `std::cout` are returned as a truth value (`true`: the warning was printed).

`int N = A.rows()` is implementation defined from `2^31` on; that case has the outcome `ub badCast`. Below it the `int`
arithmetic cannot overflow, and the indices are natural numbers.
-/
namespace Malg
namespace Cpx
variable {K : Type}

instance [Zero K] : Zero (Cpx K) := ⟨⟨0, 0⟩⟩
instance [Zero K] [One K] : One (Cpx K) := ⟨⟨1, 0⟩⟩
instance [Add K] : Add (Cpx K) := ⟨addC⟩
instance [Sub K] : Sub (Cpx K) := ⟨subC⟩
instance [Neg K] : Neg (Cpx K) := ⟨fun z => ⟨-z.re, -z.im⟩⟩
instance [Add K] [Sub K] [Mul K] : Mul (Cpx K) := ⟨mulC⟩

/-- `std::conj`. -/
def conj [Neg K] (z : Cpx K) : Cpx K := ⟨z.re, -z.im⟩

end Cpx

namespace Eigen
open Cpx
variable {K : Type}

/-- `int N = A.rows()`. -/
def intDim (n : Nat) : Res Nat := if n < 2 ^ 31 then .ok n else .ub .badCast

section
variable [Zero K] [Add K] [Mul K]

/-- `vector_length(A, c, r_start, r_end)` on complex elements, `math.hpp:1166-1177`. -/
def vectorLengthC (sqrt : K → K) (A : MB (Cpx K)) (c r_start r_end : Nat) : Res K := do
  let accum ← forRange r_start (min r_end A.rows) (0 : K) fun r accum => do
    let x ← A.at_ r c
    return accum + norm x
  return sqrt accum

/-- `square_norm(Vector)` on complex elements, `math.hpp:1377-1388`. -/
def squareNormVecC (sqrt : K → K) (v : List (Cpx K)) : Res K := do
  let accum ← forRange 0 v.length (0 : K) fun i accum => do
    let x ← vget v i
    return accum + norm x
  return sqrt accum

/-- `square_norm(MatrixBase)` on complex elements, `math.hpp:1394-1409`. -/
def squareNormC (sqrt : K → K) (A : MB (Cpx K)) : Res K := do
  let accum ← forRange 0 A.rows (0 : K) fun r accum =>
    forRange 0 A.cols accum fun c accum => do
      let x ← A.at_ r c
      return accum + norm x
  return sqrt accum

/-- `sub_norm(MatrixBase)` on complex elements, `math.hpp:1456-1476`. -/
def subNormC (sqrt : K → K) (A : MB (Cpx K)) : Res K :=
  if A.empty then .ok 0
  else if !Util.isSquare A then .throw .invalidArgument
  else do
    let accum ← forRange 1 A.rows (0 : K) fun r accum =>
      forRange 0 r accum fun c accum => do
        let x ← A.at_ r c
        return accum + norm x
    return sqrt accum

end

section
variable [Zero K] [One K] [Add K] [Sub K] [Mul K] [Neg K] [CDiv K] [LT K] [DecidableRel (α := K) (· < ·)]

/-- `rho`, `eigen.hpp:60-65`. -/
def rhoDir (eps : K) (abs : Cpx K → K) (xk : Cpx K) : Res (Cpx K) :=
  let axk := abs xk
  if eps < axk then divR (-xk) axk else .ok 1

/-- One pass of the loop of `hessenberg`, `eigen.hpp:54-88`; the state is `(P, H)`, `2.0` is `1 + 1`. `std::max(x, eps)` is
`eps` if `x < eps` and `x` otherwise. -/
def hessStep (eps : K) (sqrt : K → K) (abs : Cpx K → K) (N k : Nat) (s : Mat (Cpx K) × Mat (Cpx K)) :
    Res (Mat (Cpx K) × Mat (Cpx K)) := do
  let (P, H) := s
  let xlength ← vectorLengthC sqrt H.toMB k (k + 1) N
  let U ← vnew N (0 : Cpx K)
  let xk ← H.at_ (k + 1) k
  let rho ← rhoDir eps abs xk
  let U ← vset U (k + 1) (xk - mulR rho xlength)
  let u ← vget U (k + 1)
  let (U, ulength) ← forRange (k + 2) N (U, norm u) fun i (s : List (Cpx K) × K) => do
    let (U, ulength) := s
    let x ← H.at_ i k
    let U ← vset U i x
    let x ← vget U i
    return (U, ulength + norm x)
  let ulength := if sqrt ulength < eps then eps else sqrt ulength
  let U ← forRange (k + 1) N U fun i U => do
    let x ← vget U i
    let x ← divR x ulength
    vset U i x
  let PK ← Util.eye N N (1 : Cpx K)
  let PK ← forRange (k + 1) N PK fun r PK =>
    forRange (k + 1) N PK fun c PK => do
      let p ← PK.at_ r c
      let ur ← vget U r
      let uc ← vget U c
      PK.setAt r c (p - mulR ur (1 + 1) * conj uc)
  let HP ← Ops.mul H.toMB PK.toMB
  let X ← Ops.mul PK.toMB HP.toMB
  let Y ← Ops.mul P.toMB PK.toMB
  return ((P.moveAssign Y).1, (H.moveAssign X).1)

/-- `hessenberg`, `eigen.hpp:48-90`. -/
def hessenberg (eps : K) (sqrt : K → K) (abs : Cpx K → K) (A : Mat (Cpx K)) : Res (Mat (Cpx K) × Mat (Cpx K)) := do
  let N ← intDim A.rows
  let P ← Util.eye N N (1 : Cpx K)
  forRange 0 (N - 2) (P, A) (hessStep eps sqrt abs N)

/-- One pass of the loop of `qr_factorise_givens`, `eigen.hpp:101-123`, with `j = i - 1`; the state is `(Q, R)`. -/
def givensStep (eps : K) (sqrt : K → K) (abs : Cpx K → K) (cols i : Nat) (s : Mat (Cpx K) × Mat (Cpx K)) :
    Res (Mat (Cpx K) × Mat (Cpx K)) := do
  let (Q, R) := s
  let j := i - 1
  let x ← R.at_ i j
  if abs x < eps then return (Q, R)
  else do
    let c ← R.at_ j j
    let s := -conj x
    let length := sqrt (norm c + norm s)
    let c ← divR c length
    let s ← divR s length
    let cstar := conj c
    let sstar := conj s
    forRange 0 cols (Q, R) fun m (st : Mat (Cpx K) × Mat (Cpx K)) => do
      let (Q', R') := st
      let rj ← R.at_ j m
      let ri ← R.at_ i m
      let R' ← R'.setAt j m (cstar * rj - s * ri)
      let R' ← R'.setAt i m (sstar * rj + c * ri)
      let qj ← Q.at_ m j
      let qi ← Q.at_ m i
      let Q' ← Q'.setAt m j (c * qj - sstar * qi)
      let Q' ← Q'.setAt m i (s * qj + cstar * qi)
      return (Q', R')

/-- `qr_factorise_givens`, `eigen.hpp:97-125`. -/
def qrFactoriseGivens (eps : K) (sqrt : K → K) (abs : Cpx K → K) (A : Mat (Cpx K)) : Res (Mat (Cpx K) × Mat (Cpx K)) := do
  let Q ← Util.eye A.rows A.rows (1 : Cpx K)
  forRange 1 A.rows (Q, A) (givensStep eps sqrt abs A.cols)

/-- `linear_combination(A, 1.0, B, b)` with a complex `b`, `math.hpp:1196-1199`. -/
def combC (A B : Mat (Cpx K)) (b : Cpx K) : Res (Mat (Cpx K)) :=
  Ops.binFnMat (fun lhs rhs => mulR lhs 1 + rhs * b) A.toMB B.toMB

/-- `linear_combination(A, 1.0, B, b)` with a number `b`, `math.hpp:1196-1199`. -/
def combR (A B : Mat (Cpx K)) (b : K) : Res (Mat (Cpx K)) :=
  Ops.binFnMat (fun lhs rhs => mulR lhs 1 + mulR rhs b) A.toMB B.toMB

/-- The variables of the loop of `QRHessenberg` that live from one pass to the next. -/
structure QrState (K : Type) where
  iter : Nat
  residual : K
  HM : Mat (Cpx K)
  UT : Mat (Cpx K)

/-- One pass of the loop of `QRHessenberg`, `eigen.hpp:158-184`. -/
def qrIter (eps : K) (sqrt : K → K) (abs : Cpx K → K) (sqrtC : Cpx K → Cpx K) (four half : K) (I : Mat (Cpx K))
    (st : QrState K) : Res (QrState K) := do
  let Told := st.UT
  let mu ← wilkinsonShift sqrtC four half st.UT
  let mu := if abs mu < eps then 1 else mu
  let UT ← combC st.UT I (-mu)
  let (Q, R) ← qrFactoriseGivens eps sqrt abs UT
  let UT ← Ops.mul R.toMB Q.toMB
  let HM ← Ops.mul st.HM.toMB Q.toMB
  let UT ← combC UT I mu
  let D ← combR UT Told (-1)
  let d ← squareNormC sqrt D.toMB
  let l ← subNormC sqrt UT.toMB
  return ⟨st.iter + 1, d + l, HM, UT⟩

/-- `QRHessenberg`, `eigen.hpp:142-190`; `tol` is `1e-14`, `maxIter` is `10000`. The loop makes at most `maxIter - 1` passes,
so the fuel is never used up. -/
def qrHessenberg (eps tol : K) (maxIter : Nat) (sqrt : K → K) (abs : Cpx K → K) (sqrtC : Cpx K → Cpx K) (four half : K)
    (A : Mat (Cpx K)) : Res ((Mat (Cpx K) × Mat (Cpx K)) × Bool) := do
  let N ← intDim A.rows
  let _Told ← Mat.new N N (0 : Cpx K)
  let I ← Util.eye N N (1 : Cpx K)
  let (HM, UT) ← hessenberg eps sqrt abs A
  let st ← whileFuel (fun st : QrState K =>
    if tol < st.residual ∧ st.iter < maxIter then do
      let st' ← qrIter eps sqrt abs sqrtC four half I st
      return some st'
    else return none) (maxIter + 1) ⟨1, 1, HM, UT⟩
  return ((st.HM, st.UT), decide (tol < st.residual))

/-- Back substitution for one eigenvector, `eigen.hpp:224-236`; the state is `(V, ok)`, the loop variable of the code is
`i = L - 1 - t`. -/
def eigenBack (eps : K) (abs : Cpx K → K) (TT : Mat (Cpx K)) (L : Nat) (V : List (Cpx K)) : Res (List (Cpx K) × Bool) :=
  forRange 0 L (V, true) fun t (s : List (Cpx K) × Bool) => do
    let (V, ok) := s
    let i := L - 1 - t
    let V ← vset V i 0
    let V ← forRange (i + 1) (L + 1) V fun j V => do
      let x ← vget V i
      let a ← TT.at_ i j
      let y ← vget V j
      vset V i (x - a * y)
    let d ← TT.at_ i i
    let x ← vget V i
    if abs d < eps then do
      let V ← vset V i 0
      return (V, if eps < abs x then false else ok)
    else do
      let q ← divC x d
      let V ← vset V i q
      return (V, ok)

/-- One pass of the loop of `eigenvectorUpper`, `eigen.hpp:209-248`; the state is `(E, TT, fullset)`. -/
def eigenStep (eps : K) (sqrt : K → K) (abs : Cpx K → K) (M : Mat (Cpx K)) (N L : Nat)
    (s : Mat (Cpx K) × Mat (Cpx K) × Bool) : Res (Mat (Cpx K) × Mat (Cpx K) × Bool) := do
  let (E, TT, fullset) := s
  let V ← vnew N (0 : Cpx K)
  let lambda ← M.at_ L L
  let TT ← forRange 0 N TT fun k TT => do
    let x ← M.at_ k k
    TT.setAt k k (x - lambda)
  let V ← vset V L 1
  let (V, ok) ← eigenBack eps abs TT L V
  if ok then do
    let length ← squareNormVecC sqrt V
    let E ← forRange 0 (L + 1) E fun i E => do
      let x ← vget V i
      let x ← divR x length
      E.setAt i L x
    return (E, TT, fullset)
  else do
    let E ← forRange 0 (L + 1) E fun i E => E.setAt i L 0
    return (E, TT, false)

/-- `eigenvectorUpper`, `eigen.hpp:198-256`: the loop runs from the last column to the first. The warning is printed exactly
if the second component is `false`. -/
def eigenvectorUpper (eps : K) (sqrt : K → K) (abs : Cpx K → K) (M : Mat (Cpx K)) : Res (Mat (Cpx K) × Bool) := do
  let N ← intDim M.rows
  let E ← Mat.new N N (0 : Cpx K)
  let (E, _, fullset) ← forRange 0 N (E, M, true) fun t => eigenStep eps sqrt abs M N (N - 1 - t)
  return (E, fullset)

end
end Eigen
end Malg
