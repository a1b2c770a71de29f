import Verif.Model.Linalg
import Verif.Model.View
/-!
# `qr_decomposition`, `solve` and `obsv`

These three do not compile as they stand. They are modelled with the smallest edits that make them compile:

* `linalg.hpp:271`: `2. / (u * u)` divides a number by a vector; read as `2. / malg::dot(u, u)`;
* `linalg.hpp:290`: `View(H, i, -1, i, -1)` with a matrix instead of a pointer; read as `View(&H, i, -1, i, -1)`, and in
  the same way `View(_r, …)`, `View(_q, …)` in `linalg.hpp:361, 363`;
* `control.hpp:197`: `Matrix<T> result = C` uses an explicit constructor; read as `Matrix<T> result(C)`.

Everything else is as written.
-/
namespace Malg
namespace Lin
variable {S T : Type}

/-- `make_householder`, `linalg.hpp:265-272`; `sqrt` and `copysign` are those of the element type, `2.` is `1 + 1`. -/
def makeHouseholder [Zero T] [One T] [Add T] [Sub T] [Mul T] [CDiv T] (sqrt : T → T) (copysign : T → T → T)
    (a : List T) : Res (Mat T) := do
  let a0 ← vget a 0
  let norm ← Ops.squareNormVec sqrt a
  let u ← Ops.vdivS a (a0 + copysign norm a0)
  let u ← vset u 0 1
  let I ← Util.eye a.length a.length (1 : T)
  let col ← Util.toMatrix u false
  let row ← Util.toMatrix u true
  let P ← Ops.mul col.toMB row.toMB
  let d ← Ops.dot u u
  let f ← cdiv ((1 : T) + 1) d
  let X ← Ops.mulS P.toMB f
  Ops.sub I.toMB X.toMB

/-- The body of the main loop of `qr_decomposition`, `linalg.hpp:283-294`; the state is `(H, Q, R)`. -/
def qrStep [Zero T] [One T] [Add T] [Sub T] [Mul T] [CDiv T] (sqrt : T → T) (copysign : T → T → T) (i : Nat)
    (s : Mat T × Mat T × Mat T) : Res (Mat T × Mat T × Mat T) := do
  let (H, Q, R) := s
  let H ← forRange 0 H.rows H fun r H =>
    forRange 0 H.cols H fun c H => H.setAt r c (if r = c then 1 else 0)
  let a ← Util.extractColumn R.toMB i i (W - 1)
  let X ← makeHouseholder sqrt copysign a
  if viewOk ⟨i, W - 1⟩ ⟨i, W - 1⟩ then do
    let st ← ((MRef.var 0).sub ⟨i, W - 1⟩ ⟨i, W - 1⟩).assign (fun _ => X.toMB) id (fun _ => H)
    let H := st 0
    let QH ← Ops.mul Q.toMB H.toMB
    let HR ← Ops.mul H.toMB R.toMB
    return (H, (Q.moveAssign QH).1, (R.moveAssign HR).1)
  else .abort

/-- `qr_decomposition`, `linalg.hpp:261-303`; `conv` converts the elements to the common type with `double`. The number
of columns of `R` does not change in the loop, so its bound is computed once. -/
def qrDecomposition [Zero T] [One T] [Add T] [Sub T] [Mul T] [CDiv T] (sqrt : T → T) (copysign : T → T → T)
    (conv : S → T) (A : Mat S) : Res (Mat T × Mat T) := do
  let R ← Mat.ofMB A.toMB conv
  let Q ← Util.eye R.rows R.rows (1 : T)
  let H ← Mat.new R.rows R.rows (0 : T)
  let (_, Q, R) ← forRange 0 (wsub R.cols (if R.cols = R.rows then 1 else 0)) (H, Q, R) (qrStep sqrt copysign)
  let R ← forRange 1 R.rows R fun r R =>
    forRange 0 (min r R.cols) R fun c R => R.setAt r c 0
  return (Q, R)

/-- `solve`, `linalg.hpp:352-371`. -/
def solve [Zero T] [One T] [Add T] [Sub T] [Mul T] [Neg T] [CDiv T] (isz : T → Bool) (sqrt : T → T)
    (copysign : T → T → T) (A : Mat T) (b : List T) : Res (List T) :=
  if A.rows = A.cols then do
    let X ← inverse isz A.toMB
    Ops.dotMat X.toMB b
  else if A.rows > A.cols then do
    let (q, r) ← qrDecomposition sqrt copysign id A
    let v ← r.toMB.mkView ⟨0, A.cols⟩ ⟨0, A.cols⟩
    let X ← inverse isz v
    let w ← q.toMB.mkView ⟨0, A.rows⟩ ⟨0, A.cols⟩
    let Y ← transpose w
    let z ← Ops.dotMat Y.toMB b
    Ops.dotMat X.toMB z
  else do
    let At ← transpose A.toMB
    let G ← Ops.mul A.toMB At.toMB
    let X ← inverse isz G.toMB
    let M ← Ops.mul At.toMB X.toMB
    Ops.dotMat M.toMB b

end Lin

namespace Control
variable {T : Type}

/-- `obsv`, `control.hpp:187-203`. -/
def obsv [Zero T] [One T] [Add T] [Mul T] (A C : MB T) : Res (Mat T) :=
  if !Util.isSquare A then .throw .runtimeError
  else if A.rows ≠ C.cols then .throw .runtimeError
  else do
    let result ← Mat.ofMB C id
    forRange 1 A.rows result fun i result => do
      let P ← Lin.powm A i
      let CP ← Ops.mul C P.toMB
      let stacked ← Util.vstack result.toMB CP.toMB
      return (result.moveAssign stacked).1

end Control
end Malg
