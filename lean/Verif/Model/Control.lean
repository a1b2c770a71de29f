import Verif.Model.Linalg
/-!
# `control/control.hpp`

`isz` is `feq::approximately_equal_to_zero`, `toSize` is `static_cast<std::size_t>` from the element type.
`std::vector<Vector<T>>` is a list of lists. `obsv` (187-203) does not compile when used (copy initialisation through an
explicit constructor); it is transcribed as it is meant in `Model/Qr.lean`.
-/
namespace Malg

/-- `StateSpace`, `control.hpp:18-52`; the default constructor is `⟨empty0, empty0, empty0, empty0⟩`. -/
structure StateSpace (T : Type) where
  A : Mat T
  B : Mat T
  C : Mat T
  D : Mat T
  deriving DecidableEq, Repr

/-- `DiscreteStateSpace`, `control.hpp:56-81`. -/
structure DiscreteStateSpace (T : Type) extends StateSpace T where
  sampleTime : T
  deriving DecidableEq, Repr

namespace Control
open Ops
variable {T : Type}

/-- `StateSpace(A, B, C, D)`, `control.hpp:44-51`: four copies. -/
def mkStateSpace [Zero T] (A B C D : Mat T) : Res (StateSpace T) := do
  let a ← A.copy
  let b ← B.copy
  let c ← C.copy
  let d ← D.copy
  return ⟨a, b, c, d⟩

/-- `c2d`, `control.hpp:87-104`; `expm` is `linalg::expm(·, 1e-05)`. The targets are the empty matrices of a default
constructed system, temporaries are moved and lvalues copied into them; the `assert`s are the last three tests. -/
def c2d [Zero T] [One T] [Add T] [Sub T] [Mul T] [Neg T] [CDiv T] (isz : T → Bool) (expm : MB T → Res (Mat T))
    (sys : StateSpace T) (sample_time : T) : Res (DiscreteStateSpace T) := do
  let At ← mulS sys.A.toMB sample_time
  let E ← expm At.toMB
  let dA := (Mat.empty0.moveAssign E).1
  let inv ← Lin.inverse isz sys.A.toMB
  let I ← Util.identity sys.A.rows (1 : T)
  let diff ← sub dA.toMB I.toMB
  let X ← mul inv.toMB diff.toMB
  let Y ← mul X.toMB sys.B.toMB
  let dB := (Mat.empty0.moveAssign Y).1
  let dC ← Mat.empty0.assign sys.C.toMB
  let dD ← Mat.empty0.assign sys.D.toMB
  if dA.rows ≠ dA.cols then .abort
  else if dB.rows ≠ dA.rows then .abort
  else if dC.cols ≠ dA.rows then .abort
  else return { A := dA, B := dB, C := dC, D := dD, sampleTime := sample_time }

/-- `simulate_step`, `control.hpp:111-120`. -/
def simulateStep [Zero T] [Add T] [Mul T] (sys : DiscreteStateSpace T) (x u : List T) : Res (List T × List T) := do
  let ax ← dotMat sys.A.toMB x
  let bu ← dotMat sys.B.toMB u
  let next ← vadd ax bu
  let cx ← dotMat sys.C.toMB x
  let du ← dotMat sys.D.toMB u
  let out ← vadd cx du
  return (next, out)

/-- Loop variables of `simulate`. -/
structure SimState (T : Type) where
  rtime : T
  t : List T
  x : List (List T)
  y : List (List T)

/-- `simulate`, `control.hpp:128-152`. -/
def simulate [Zero T] [Add T] [Mul T] [CDiv T] (toSize : T → Res Nat) (sys : DiscreteStateSpace T) (u : List (List T))
    (simulated_time : T) (init : List T) : Res (List T × List (List T) × List (List T)) := do
  let q ← cdiv simulated_time sys.sampleTime
  let k ← toSize q
  let steps := min u.length k
  let s ← forRange 0 steps ⟨0, List.replicate (steps + 1) 0, [init], []⟩ fun i (s : SimState T) => do
    let t ← vset s.t i s.rtime
    let xb ← vget s.x (s.x.length - 1)
    let ui ← vget u i
    let (next, out) ← simulateStep sys xb ui
    return ⟨s.rtime + sys.sampleTime, t, s.x ++ [next], s.y ++ [out]⟩
  return (s.t, s.x, s.y)

/-- `ctrb`, `control.hpp:159-175`. -/
def ctrb [Zero T] [One T] [Add T] [Mul T] (A B : MB T) : Res (Mat T) :=
  if !Util.isSquare A then .throw .runtimeError
  else if A.rows ≠ B.rows then .throw .runtimeError
  else do
    let result ← Mat.ofMB B id
    forRange 1 A.rows result fun i result => do
      let P ← Lin.powm A i
      let Q ← mul P.toMB B
      let H ← Util.hstack result.toMB Q.toMB
      return (result.moveAssign H).1

/-- The loops that multiply out linear factors, `control.hpp:212-217` and `260-264`; `a` reads the roots and the inner
loop runs downwards from `j + 1` to `1`. -/
def polyLoop [Sub T] [Mul T] (n : Nat) (a : Nat → Res T) (c : List T) : Res (List T) :=
  forRange 0 n c fun j c =>
    forRange 0 (j + 1) c fun k c => do
      let i := j + 1 - k
      let z ← vget c i
      let x ← a j
      let y ← vget c (i - 1)
      vset c i (z - x * y)

/-- `poly(Vector)`, `control.hpp:208-219`. -/
def polyRoots [Zero T] [One T] [Sub T] [Mul T] (a : List T) : Res (List T) := do
  let c ← vnew (wadd a.length 1) (0 : T)
  let c ← vset c 0 1
  polyLoop a.length (vget a) c

/-- `polyreduce`, `control.hpp:225-242`. -/
def polyreduce [Zero T] [DecidableEq T] (a : List T) : Res (List T) := do
  let j ← forSearch 0 a.length fun j => do
    let x ← vget a j
    return (if x ≠ 0 then some j else none)
  let j := j.getD a.length
  if j = a.length then .ok [0]
  else do
    let c ← vnew (wsub a.length j) (0 : T)
    forRange j a.length c fun i c => do
      let x ← vget a i
      vset c (wsub i j) x

/-- `poly(MatrixBase)`, `control.hpp:247-283`; the loop state is `(c, B, last_c)`. `div t m` is the element that
`trace(B) / static_cast<double>(m)` is stored as. -/
def polyMatD [Zero T] [One T] [Add T] [Sub T] [Mul T] [Neg T] (div : T → Nat → Res T) (A : MB T) : Res (List T) :=
  if A.size = 0 then .ok [1]
  else if A.rows = 1 ∨ A.cols = 1 then do
    let c ← vnew (wadd A.size 1) (0 : T)
    let c ← vset c 0 1
    polyLoop A.size A.lin c
  else if !Util.isSquare A then .throw .runtimeError
  else do
    let n := A.rows
    let c ← vnew (wadd n 1) (0 : T)
    let B ← Mat.ofMB A id
    let last ← trace B.toMB
    let c ← vset c 0 1
    let c ← vset c 1 (-last)
    let I ← Util.identity B.rows (1 : T)
    let s ← forRange 2 (wadd n 1) (c, B, last) fun m s => do
      let J ← mulS I.toMB s.2.2
      let D ← sub s.2.1.toMB J.toMB
      let P ← mul A D.toMB
      let B := (s.2.1.moveAssign P).1
      let tr ← trace B.toMB
      let last ← div tr m
      let c ← vset s.1 m (-last)
      return (c, B, last)
    return s.1

/-- `poly(MatrixBase)`, `control.hpp:247-283`, with the division by `double(m)` done in the element type: so for floating point
elements. For integers see `SInt.divDouble`. -/
def polyMat [Zero T] [One T] [Add T] [Sub T] [Mul T] [Neg T] [NatCast T] [CDiv T] (A : MB T) : Res (List T) :=
  polyMatD (fun t m => cdiv t (m : T)) A

/-- `acker`, `control.hpp:290-321` (the messages on `std::cerr` are dropped). -/
def acker [Zero T] [One T] [Add T] [Sub T] [Mul T] [Neg T] [NatCast T] [CDiv T] (isz : T → Bool) (A B poles : MB T) :
    Res (Mat T) :=
  if !Util.isSquare A || !Util.isColumnVector B || A.rows != B.rows then .exit 1
  else if !Util.isRowVector poles || poles.empty then .exit 1
  else do
    let ct ← ctrb A B
    let d ← Lin.determinant isz ct.toMB
    if isz d then .exit 1
    else do
      let p ← polyMat poles
      let Ap ← Util.zeros A.rows A.cols
      let Ap ← forRange 0 (wadd A.rows 1) Ap fun i Ap => do
        let P ← Lin.powm A (wsub A.cols i)
        let x ← vget p i
        let Q ← mulS P.toMB x
        addAssign MRef.self (fun _ => Q.toMB) Ap
      let selection ← Util.zeros 1 ct.rows
      let selection ← selection.setLin (wsub ct.rows 1) 1
      let inv ← Lin.inverse isz ct.toMB
      let X ← mul selection.toMB inv.toMB
      mul X.toMB Ap.toMB

/-- `generate_input_zero`, `control.hpp:326-330`. -/
def generateInputZero [Zero T] (sys : StateSpace T) : Res (List T) := vnew sys.B.cols 0

/-- `generate_state_zero`, `control.hpp:335-339`. -/
def generateStateZero [Zero T] (sys : StateSpace T) : Res (List T) := vnew sys.A.rows 0

end Control
end Malg
