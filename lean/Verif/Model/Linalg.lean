import Verif.Model.MathOps
/-!
# `linalg.hpp`

`isz` stands for `feq::approximately_equal_to_zero` on the element type.
`hermitian_transpose` (60-70), `qr_decomposition` (263-305) and `solve` (353-372) do not compile when used; they are
transcribed as they are meant in `Model/Repaired.lean` and `Model/Qr.lean`.
-/
namespace Malg

/-- A local `Matrix` variable as a reference. -/
def MRef.self {T : Type} : MRef (Mat T) T where
  view := Mat.toMB
  setAt := Mat.setAt
  setLin := Mat.setLin

namespace Lin
open Ops
variable {T R : Type}

/-- `transpose`, `linalg.hpp:22-31`. -/
def transpose [Zero T] (A : MB T) : Res (Mat T) := do
  let result ← Mat.new A.cols A.rows (0 : T)
  forRange 0 A.rows result fun r result =>
    forRange 0 A.cols result fun c result => do
      let x ← A.at_ r c
      result.setAt c r x

/-- `factorial` on a signed type, `linalg.hpp:37-40`, in exact arithmetic. -/
def factorial (n : Int) : Int :=
  if n ≤ 0 then 1 else n * factorial (n - 1)
termination_by n.toNat
decreasing_by omega

/-- `factorial<std::size_t>`, `linalg.hpp:37-40`; `n - 1` is only evaluated for `n > 0`. -/
def factorialU : Nat → Nat
  | 0 => 1
  | n + 1 => wmul (n + 1) (factorialU n)

/-- `powm`, `linalg.hpp:46-54`. -/
def powm [Zero T] [One T] [Add T] [Mul T] (A : MB T) (N : Nat) : Res (Mat T) := do
  let R ← Util.eye A.rows A.cols (1 : T)
  forRange 0 N R fun _ R => mulAssign MRef.self (fun _ => A) R

/-- `conjugate_transpose`, `linalg.hpp:75-84`; `conj` is `std::conj`. -/
def conjTranspose [Zero T] (conj : T → T) (A : MB T) : Res (Mat T) := do
  let result ← Mat.new A.cols A.rows (0 : T)
  forRange 0 A.rows result fun r result =>
    forRange 0 A.cols result fun c result => do
      let x ← A.at_ r c
      result.setAt c r (conj x)

/-- `cofactor`, `linalg.hpp:93-113`; the state is `(output, i, j)`. -/
def cofactor [Zero T] (A : MB T) (p q : Nat) : Res (Mat T) := do
  let output ← Mat.new (wsub A.rows 1) (wsub A.cols 1) (0 : T)
  let s ← forRange 0 A.rows (output, 0, 0) fun row s =>
    forRange 0 A.cols s fun col s =>
      if row ≠ p ∧ col ≠ q then do
        let x ← A.at_ row col
        let output ← s.1.setAt s.2.1 s.2.2 x
        let j := s.2.2 + 1
        if j = wsub A.cols 1 then return (output, s.2.1 + 1, 0) else return (output, s.2.1, j)
      else .ok s
  return s.1

/-- State of the elimination in `determinant`: the working copy, `det`, and whether the loop was left by `break`. -/
structure ElimState (T : Type) where
  A : Mat T
  det : T
  stop : Bool

/-- Exchange of row `c` with the first row below it that has a non-zero entry in column `c`; `none` means there is
none, `linalg.hpp:166-182`. -/
def pivotRow (isz : T → Bool) (A : Mat T) (c : Nat) : Res (Option Nat) :=
  forSearch (c + 1) A.rows fun k => do
    let x ← A.at_ k c
    return (if isz x then none else some k)

/-- Elimination below the pivot, `linalg.hpp:184-190`. -/
def eliminate [Sub T] [Mul T] [CDiv T] (N c : Nat) (pivot : T) (A : Mat T) : Res (Mat T) :=
  forRange (c + 1) N A fun r A => do
    let x ← A.at_ r c
    let ratio ← cdiv x pivot
    forRange c N A fun k A => do
      let y ← A.at_ r k
      let z ← A.at_ c k
      A.setAt r k (y - ratio * z)

/-- One iteration of the elimination, `linalg.hpp:162-193`. -/
def elimStep [Neg T] [One T] [Sub T] [Mul T] [CDiv T] (isz : T → Bool) (N c : Nat) (s : ElimState T) :
    Res (ElimState T) :=
  if s.stop then .ok s
  else do
    let x ← s.A.at_ c c
    let swapped ← (if isz x then do
        match ← pivotRow isz s.A c with
        | none => return none
        | some k => do
          let A ← Util.swapRows MRef.self s.A c k 0 (W - 1)
          return some (A, s.det * (-1))
      else return some (s.A, s.det) : Res (Option (Mat T × T)))
    match swapped with
    | none => return { s with stop := true }
    | some (A, det) => do
      let pivot ← A.at_ c c
      let A ← eliminate N c pivot A
      return ⟨A, det * pivot, false⟩

/-- `determinant`, `linalg.hpp:119-196`. The entries used by a closed formula are read first. -/
def determinant [Zero T] [One T] [Add T] [Sub T] [Mul T] [Neg T] [CDiv T] (isz : T → Bool) (M : MB T) : Res T :=
  if !Util.isSquare M then .throw .invalidArgument
  else
    let N := M.cols
    if N = 1 then M.at_ 0 0
    else if N = 2 then do
      let a ← M.at_ 0 0
      let b ← M.at_ 0 1
      let c ← M.at_ 1 0
      let d ← M.at_ 1 1
      return a * d - b * c
    else if N = 3 then do
      let m00 ← M.at_ 0 0
      let m01 ← M.at_ 0 1
      let m02 ← M.at_ 0 2
      let m10 ← M.at_ 1 0
      let m11 ← M.at_ 1 1
      let m12 ← M.at_ 1 2
      let m20 ← M.at_ 2 0
      let m21 ← M.at_ 2 1
      let m22 ← M.at_ 2 2
      return m00 * (m11 * m22 - m21 * m12) -
             m01 * (m10 * m22 - m12 * m20) +
             m02 * (m10 * m21 - m11 * m20)
    else if N = 4 then do
      let m00 ← M.at_ 0 0
      let m01 ← M.at_ 0 1
      let m02 ← M.at_ 0 2
      let m03 ← M.at_ 0 3
      let m10 ← M.at_ 1 0
      let m11 ← M.at_ 1 1
      let m12 ← M.at_ 1 2
      let m13 ← M.at_ 1 3
      let m20 ← M.at_ 2 0
      let m21 ← M.at_ 2 1
      let m22 ← M.at_ 2 2
      let m23 ← M.at_ 2 3
      let m30 ← M.at_ 3 0
      let m31 ← M.at_ 3 1
      let m32 ← M.at_ 3 2
      let m33 ← M.at_ 3 3
      return m03 * m12 * m21 * m30 - m02 * m13 * m21 * m30 -
             m03 * m11 * m22 * m30 + m01 * m13 * m22 * m30 +
             m02 * m11 * m23 * m30 - m01 * m12 * m23 * m30 -
             m03 * m12 * m20 * m31 + m02 * m13 * m20 * m31 +
             m03 * m10 * m22 * m31 - m00 * m13 * m22 * m31 -
             m02 * m10 * m23 * m31 + m00 * m12 * m23 * m31 +
             m03 * m11 * m20 * m32 - m01 * m13 * m20 * m32 -
             m03 * m10 * m21 * m32 + m00 * m13 * m21 * m32 +
             m01 * m10 * m23 * m32 - m00 * m11 * m23 * m32 -
             m02 * m11 * m20 * m33 + m01 * m12 * m20 * m33 +
             m02 * m10 * m21 * m33 - m00 * m12 * m21 * m33 -
             m01 * m10 * m22 * m33 + m00 * m11 * m22 * m33
    else do
      let A ← Mat.ofMB M id
      let s ← forRange 0 N ⟨A, 1, false⟩ fun c s => elimStep isz N c s
      return s.det

/-- `adjoint`, `linalg.hpp:201-226`. -/
def adjoint [Zero T] [One T] [Add T] [Sub T] [Mul T] [Neg T] [CDiv T] (isz : T → Bool) (M : MB T) : Res (Mat T) :=
  if !Util.isSquare M then .throw .invalidArgument
  else
    let N := M.cols
    if N = 1 then Mat.new 1 1 (1 : T)
    else do
      let adj ← Mat.new N N (0 : T)
      forRange 0 N adj fun i adj =>
        forRange 0 N adj fun j adj => do
          let d ← determinant isz (M.cofactor i j)
          adj.setAt j i ((if (i + j) % 2 = 0 then 1 else -1) * d)

/-- `inverse`, `linalg.hpp:231-257` (the message on `std::cerr` is dropped; the element type is its own common
type with `double`). -/
def inverse [Zero T] [One T] [Add T] [Sub T] [Mul T] [Neg T] [CDiv T] (isz : T → Bool) (M : MB T) : Res (Mat T) :=
  if !Util.isSquare M then .throw .invalidArgument
  else do
    let det ← determinant isz M
    if isz det then return Mat.empty0
    else do
      let adj ← adjoint isz M
      let inv ← Mat.new M.rows M.cols (0 : T)
      forRange 0 M.rows inv fun r inv =>
        forRange 0 M.cols inv fun c inv => do
          let x ← adj.at_ r c
          let y ← cdiv x det
          inv.setAt r c y

/-- `lu_decomposition`, `linalg.hpp:310-346`; the state is `(l, u)`. -/
def lu [Zero T] [One T] [Sub T] [Mul T] [CDiv T] (A : MB T) : Res (Mat T × Mat T) :=
  if !Util.isSquare A then .throw .invalidArgument
  else do
    let N := A.rows
    let l ← Mat.new N N (0 : T)
    let u ← Mat.new N N (0 : T)
    forRange 0 N (l, u) fun i s => do
      let l ← forRange 0 N s.1 fun j l =>
        if j < i then l.setAt j i 0
        else do
          let x ← A.at_ j i
          let l ← l.setAt j i x
          forRange 0 i l fun k l => do
            let x ← l.at_ j i
            let y ← l.at_ j k
            let z ← s.2.at_ k i
            l.setAt j i (x - y * z)
      let u ← forRange 0 N s.2 fun j u =>
        if j < i then u.setAt i j 0
        else if j = i then u.setAt i j 1
        else do
          let x ← A.at_ i j
          let p ← l.at_ i i
          let q ← cdiv x p
          let u ← u.setAt i j q
          forRange 0 i u fun k u => do
            let x ← u.at_ i j
            let y ← l.at_ i k
            let z ← u.at_ k j
            let p ← l.at_ i i
            let q ← cdiv (y * z) p
            u.setAt i j (x - q)
      return (l, u)

/-- `div`, `linalg.hpp:377-381`. -/
def div [Zero T] [One T] [Add T] [Sub T] [Mul T] [Neg T] [CDiv T] (isz : T → Bool) (A B : MB T) : Res (Mat T) := do
  let I ← inverse isz B
  mul A I.toMB

/-- `exp`, `linalg.hpp:386-396`; `ex` is `std::exp`. -/
def exp [Zero T] (ex : T → T) (A : MB T) : Res (Mat T) := do
  let result ← Mat.new A.cols A.rows (0 : T)
  forRange 0 A.rows result fun r result =>
    forRange 0 A.cols result fun c result => do
      let x ← A.at_ r c
      result.setAt c r (ex x)

/-- Loop variables of `expm`. -/
structure ExpmState (T : Type) where
  start : Nat
  mtk : Mat T
  ret : Mat T
  facInv : T
  diff : T

/-- One pass of the inner loop of `expm`, `linalg.hpp:428-436`: terms `start … start+batch-1`, left by `break` when the
inverse factorial has become approximately zero. The state is `(mtk, local_accum, fac_inv, stopped)`. -/
def expmBatch [Zero T] [One T] [Add T] [Mul T] [NatCast T] [CDiv T] (isz : T → Bool) (scaled : Mat T) (start batch : Nat)
    (mtk acc : Mat T) (facInv : T) : Res (Mat T × Mat T × T × Bool) :=
  forRange 0 batch (mtk, acc, facInv, false) fun i s =>
    if s.2.2.2 then .ok s
    else do
      let q ← cdiv (1 : T) (((start + i : Nat)) : T)
      let f := s.2.2.1 * q
      if isz f then return (s.1, s.2.1, f, true)
      else do
        let m ← mul s.1.toMB scaled.toMB
        let x ← mulS m.toMB f
        let a ← addAssign MRef.self (fun _ => x.toMB) s.2.1
        return (m, a, f, false)

/-- `expm`, `linalg.hpp:403-445`, for a real element type; `absf`, `half`, `sqrt` as in `Ops.log2Ceil` and
`Ops.squareNorm`; `batch_start_idx` is taken without wrap-around; `approximately_equal(fac_inv, 0.0)` is `approximately_equal_to_zero(fac_inv)`
(`feq.hpp:26-30, 58-62` with `b = 0`); `fuel` bounds the iterations of both data dependent loops. -/
def expm [Zero T] [One T] [Add T] [Sub T] [Mul T] [Neg T] [NatCast T] [CDiv T] [Max T] [LT T]
    [DecidableRel (α := T) (· < ·)] (isz : T → Bool) (absf sqrt : T → T) (half : T) (A : MB T) (accuracy : T)
    (fuel : Nat) : Res (Mat T) := do
  let (iterations, scale) ← log2Ceil absf half A fuel
  let scaled ← mulS A scale
  let batch := wmul A.rows A.rows
  let sqAcc := accuracy * accuracy * scale * scale
  let mtk ← Util.eye A.rows A.cols (1 : T)
  let ret ← Util.eye A.rows A.cols (1 : T)
  let s ← whileFuel (fun (s : ExpmState T) =>
    if sqAcc < s.diff ∧ isz s.facInv = false then do
      let acc ← Mat.new A.rows A.cols (0 : T)
      let (mtk, acc, f, _) ← expmBatch isz scaled s.start batch s.mtk acc s.facInv
      let ret ← addAssign MRef.self (fun _ => acc.toMB) s.ret
      let n ← mul acc.toMB acc.toMB
      let d ← mul ret.toMB ret.toMB
      let d ← addS d.toMB accuracy
      let relError ← div isz n.toMB d.toMB
      let diff ← squareNorm sqrt relError.toMB
      return some ⟨s.start + batch, mtk, ret, f, diff⟩
    else return none) fuel ⟨1, mtk, ret, 1, sqAcc + 1⟩
  forRange 0 iterations s.ret fun _ ret => mul ret.toMB ret.toMB

end Lin
end Malg
