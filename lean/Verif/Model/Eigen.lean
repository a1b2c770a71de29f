import Verif.Model.Mat
import Verif.Model.ComplexMath
/-!
# `eigen.hpp`

Only `wilkinson_shift` can be instantiated: `hessenberg`, `qr_factorise_givens` and `QRHessenberg` call
`utility::identity` with one argument instead of two, `eigenvectorUpper` calls `square_norm` on complex elements.
They are modelled with edits in `Verif.Model.EigenQr`.
-/
namespace Malg
namespace Eigen
open Cpx
variable {K : Type}

/-- `std::norm`: the squared modulus. -/
def norm [Add K] [Mul K] (z : Cpx K) : K := z.re * z.re + z.im * z.im

/-- `wilkinson_shift`, `eigen.hpp:26-39`; `sqrt` is `std::sqrt` on complex numbers, `four` and `half` are the constants
`4.0` and `0.5` (products with a number scale both parts). -/
def wilkinsonShift [Zero K] [Add K] [Sub K] [Mul K] [LT K] [DecidableRel (α := K) (· < ·)] (sqrt : Cpx K → Cpx K)
    (four half : K) (A : Mat (Cpx K)) : Res (Cpx K) :=
  let N := wsub A.rows 1
  if 0 < N then do
    let a ← A.at_ (N - 1) (N - 1)
    let b ← A.at_ (N - 1) N
    let c ← A.at_ N (N - 1)
    let d ← A.at_ N N
    let delta := sqrt (subC (mulC (addC a d) (addC a d)) (mulR (subC (mulC a d) (mulC b c)) four))
    let s1 := mulR (addC (addC a d) delta) half
    let s2 := mulR (subC (addC a d) delta) half
    return (if norm (subC s1 d) < norm (subC s2 d) then s1 else s2)
  else return ⟨0, 0⟩

end Eigen
end Malg
