import Verif.Model.MathOps
import Mathlib.Data.ZMod.Basic
import Mathlib.Data.Rat.Defs
/-!
# Operands with different element types

`math.hpp` computes with the type `R = extract_common_type_t<T1, T2>`: for two arithmetic types that differ, it is the type to
which the usual arithmetic conversions bring both operands of `+`, `-`, `*`, `/` ([expr.arith.conv]; C70), so `c₁`, `c₂` are the
conversions of the operands. With a complex operand they are those of the operators of `complex_math.hpp` (C71). Where the result
goes to an object of the type `T1`, `back` is the conversion from `R`; from floating to integer types it is undefined for values
out of range. The comparisons with a floating operand cannot be instantiated unless both types are the same (`std::max`
in `approximately_equal`, `feq.hpp:29`, takes two values of one type), so only the others are here.
-/
namespace Malg.Mixed
open Malg.Ops
variable {T₁ T₂ R S : Type}

section
variable (c₁ : T₁ → R) (c₂ : T₂ → R)

/-- `A + B`, `math.hpp:21-39`. -/
def add [Zero R] [Add R] (A : MB T₁) (B : MB T₂) : Res (Mat R) := zipMat 0 (fun x y => .ok (c₁ x + c₂ y)) A B
/-- `A + b`, `math.hpp:46-57`. -/
def addS [Zero R] [Add R] (A : MB T₁) (b : T₂) : Res (Mat R) := mapMat 0 (fun x => .ok (c₁ x + c₂ b)) A
/-- `A - B`, `math.hpp:99-117`. -/
def sub [Zero R] [Sub R] (A : MB T₁) (B : MB T₂) : Res (Mat R) := zipMat 0 (fun x y => .ok (c₁ x - c₂ y)) A B
/-- `A - b`, `math.hpp:124-135`. -/
def subS [Zero R] [Sub R] (A : MB T₁) (b : T₂) : Res (Mat R) := mapMat 0 (fun x => .ok (c₁ x - c₂ b)) A
/-- `A * b`, `math.hpp:204-215`. -/
def mulS [Zero R] [Mul R] (A : MB T₁) (b : T₂) : Res (Mat R) := mapMat 0 (fun x => .ok (c₁ x * c₂ b)) A
/-- `a * B`, `math.hpp:222-225`: swaps the operands. -/
def smul [Zero R] [Mul R] (a : T₁) (B : MB T₂) : Res (Mat R) := mapMat 0 (fun x => .ok (c₂ x * c₁ a)) B
/-- `A / b`, `math.hpp:276-287`. -/
def divS [Zero R] [CDiv R] (A : MB T₁) (b : T₂) : Res (Mat R) := mapMat 0 (fun x => cdiv (c₁ x) (c₂ b)) A

/-- `A * B`, `math.hpp:177-197`. -/
def mul [Zero R] [Add R] [Mul R] (A : MB T₁) (B : MB T₂) : Res (Mat R) :=
  if A.cols ≠ B.rows then .throw .invalidArgument
  else do
    let result ← Mat.new A.rows B.cols (0 : R)
    forRange 0 A.rows result fun r result =>
      forRange 0 B.cols result fun c result =>
        forRange 0 B.rows result fun k result => do
          let z ← result.at_ r c
          let x ← A.at_ r k
          let y ← B.at_ k c
          result.setAt r c (z + c₁ x * c₂ y)

/-- `a + b`, `math.hpp:662-677`. -/
def vadd [Zero R] [Add R] (a : List T₁) (b : List T₂) : Res (List R) := zipVec 0 (fun x y => .ok (c₁ x + c₂ y)) a b
/-- `a - b`, `math.hpp:738-753`. -/
def vsub [Zero R] [Sub R] (a : List T₁) (b : List T₂) : Res (List R) := zipVec 0 (fun x y => .ok (c₁ x - c₂ y)) a b
/-- `a * b`, `math.hpp:814-829`. -/
def vmul [Zero R] [Mul R] (a : List T₁) (b : List T₂) : Res (List R) := zipVec 0 (fun x y => .ok (c₁ x * c₂ y)) a b

/-- `a + s`, `math.hpp:684-695`. -/
def vaddS [Zero R] [Add R] (a : List T₁) (s : T₂) : Res (List R) := mapVec 0 (fun x => .ok (c₁ x + c₂ s)) a
/-- `a - s`, `math.hpp:760-771`. -/
def vsubS [Zero R] [Sub R] (a : List T₁) (s : T₂) : Res (List R) := mapVec 0 (fun x => .ok (c₁ x - c₂ s)) a
/-- `a * s`, `math.hpp:836-847`. -/
def vmulS [Zero R] [Mul R] (a : List T₁) (s : T₂) : Res (List R) := mapVec 0 (fun x => .ok (c₁ x * c₂ s)) a
/-- `a / s`, `math.hpp:890-901`. -/
def vdivS [Zero R] [CDiv R] (a : List T₁) (s : T₂) : Res (List R) := mapVec 0 (fun x => cdiv (c₁ x) (c₂ s)) a

/-- `A * b` and `dot(A, b)`, `math.hpp:926-939, 971-984`. -/
def mulVec [Zero R] [Add R] [Mul R] (A : MB T₁) (b : List T₂) : Res (List R) := do
  let result ← vnew A.rows (0 : R)
  forRange 0 A.rows result fun r result =>
    forRange 0 A.cols result fun c result => do
      let z ← vget result r
      let x ← A.at_ r c
      let y ← vget b c
      vset result r (z + c₁ x * c₂ y)

/-- `dot(a, b)`, `math.hpp:949-964`. -/
def dot [Zero R] [Add R] [Mul R] (a : List T₁) (b : List T₂) : Res R :=
  if a.length ≠ b.length then .throw .invalidArgument
  else
    forRange 0 a.length (0 : R) fun i acc => do
      let x ← vget a i
      let y ← vget b i
      return acc + c₁ x * c₂ y

/-- `A == B` for two integer types, `math.hpp:309-330`. -/
def eq [DecidableEq R] (A : MB T₁) (B : MB T₂) : Res (Mat Bool) := zipMat false (fun x y => .ok (decide (c₁ x = c₂ y))) A B
/-- `A != B`, `math.hpp:408-429`. -/
def ne [DecidableEq R] (A : MB T₁) (B : MB T₂) : Res (Mat Bool) := zipMat false (fun x y => .ok (decide (c₁ x ≠ c₂ y))) A B
/-- `A == b`, `math.hpp:364-378`. -/
def eqS [DecidableEq R] (A : MB T₁) (b : T₂) : Res (Mat Bool) := mapMat false (fun x => .ok (decide (c₁ x = c₂ b))) A
/-- `A != b`, `math.hpp:463-477`. -/
def neS [DecidableEq R] (A : MB T₁) (b : T₂) : Res (Mat Bool) := mapMat false (fun x => .ok (decide (c₁ x ≠ c₂ b))) A
/-- `a == b` on vectors, `math.hpp:338-356`. -/
def veq [DecidableEq R] (a : List T₁) (b : List T₂) : Res (List Bool) := zipVec false (fun x y => .ok (decide (c₁ x = c₂ y))) a b
/-- `a != b` on vectors, `math.hpp:437-455`. -/
def vne [DecidableEq R] (a : List T₁) (b : List T₂) : Res (List Bool) := zipVec false (fun x y => .ok (decide (c₁ x ≠ c₂ y))) a b
/-- `a == s` for a vector and a number, `math.hpp:386-400`. -/
def veqS [DecidableEq R] (a : List T₁) (s : T₂) : Res (List Bool) := mapVec false (fun x => .ok (decide (c₁ x = c₂ s))) a
/-- `a != s` for a vector and a number, `math.hpp:485-499`. -/
def vneS [DecidableEq R] (a : List T₁) (s : T₂) : Res (List Bool) := mapVec false (fun x => .ok (decide (c₁ x ≠ c₂ s))) a

section
variable [LT R] [LE R] [DecidableRel (α := R) (· < ·)] [DecidableRel (α := R) (· ≤ ·)]
/-- `A > B`, `math.hpp:507-521`. -/
def gt (A : MB T₁) (B : MB T₂) : Res (Mat Bool) := zipMat false (fun x y => .ok (decide (c₂ y < c₁ x))) A B
/-- `A >= B`, `math.hpp:529-543`. -/
def ge (A : MB T₁) (B : MB T₂) : Res (Mat Bool) := zipMat false (fun x y => .ok (decide (c₂ y ≤ c₁ x))) A B
/-- `A > b`, `math.hpp:551-558`. -/
def gtS (A : MB T₁) (b : T₂) : Res (Mat Bool) := mapMat false (fun x => .ok (decide (c₂ b < c₁ x))) A
/-- `A >= b`, `math.hpp:566-573`. -/
def geS (A : MB T₁) (b : T₂) : Res (Mat Bool) := mapMat false (fun x => .ok (decide (c₂ b ≤ c₁ x))) A
/-- `A < B`, `math.hpp:581-595`. -/
def lt (A : MB T₁) (B : MB T₂) : Res (Mat Bool) := zipMat false (fun x y => .ok (decide (c₁ x < c₂ y))) A B
/-- `A <= B`, `math.hpp:603-617`. -/
def le (A : MB T₁) (B : MB T₂) : Res (Mat Bool) := zipMat false (fun x y => .ok (decide (c₁ x ≤ c₂ y))) A B
/-- `A < b`, `math.hpp:625-632`. -/
def ltS (A : MB T₁) (b : T₂) : Res (Mat Bool) := mapMat false (fun x => .ok (decide (c₁ x < c₂ b))) A
/-- `A <= b`, `math.hpp:640-647`. -/
def leS (A : MB T₁) (b : T₂) : Res (Mat Bool) := mapMat false (fun x => .ok (decide (c₁ x ≤ c₂ b))) A
end

variable (back : R → Res T₁)

/-- `A += B`, `math.hpp:64-78`. An operand with another element type shares no data with the target, so `B` is fixed. -/
def addAssign [Add R] (A : MRef S T₁) (B : MB T₂) (s : S) : Res S :=
  if (A.view s).rows ≠ B.rows then .throw .invalidArgument
  else if (A.view s).cols ≠ B.cols then .throw .invalidArgument
  else
    forRange 0 (A.view s).size s fun i s => do
      let x ← (A.view s).lin i
      let y ← B.lin i
      let z ← back (c₁ x + c₂ y)
      A.setLin s i z

/-- `A -= B`, `math.hpp:142-156`. -/
def subAssign [Sub R] (A : MRef S T₁) (B : MB T₂) (s : S) : Res S :=
  if (A.view s).rows ≠ B.rows then .throw .invalidArgument
  else if (A.view s).cols ≠ B.cols then .throw .invalidArgument
  else
    forRange 0 (A.view s).size s fun i s => do
      let x ← (A.view s).lin i
      let y ← B.lin i
      let z ← back (c₁ x - c₂ y)
      A.setLin s i z

/-- `A *= b`, `math.hpp:262-269`. -/
def mulSAssign [Mul R] (A : MRef S T₁) (b : T₂) (s : S) : Res S :=
  forRange 0 (A.view s).size s fun i s => do
    let x ← (A.view s).lin i
    let z ← back (c₁ x * c₂ b)
    A.setLin s i z

/-- `A /= b`, `math.hpp:294-301`. -/
def divSAssign [CDiv R] (A : MRef S T₁) (b : T₂) (s : S) : Res S :=
  forRange 0 (A.view s).size s fun i s => do
    let x ← (A.view s).lin i
    let q ← cdiv (c₁ x) (c₂ b)
    let z ← back q
    A.setLin s i z

/-- `A *= B`, `math.hpp:232-255`. -/
def mulAssign [Zero R] [Add R] [Mul R] (A : MRef S T₁) (B : MB T₂) (s : S) : Res S :=
  if (A.view s).cols ≠ B.rows then .throw .invalidArgument
  else do
    let result ← Mat.new (A.view s).rows (A.view s).cols (0 : R)
    let result ← forRange 0 (A.view s).rows result fun r result =>
      forRange 0 B.cols result fun c result =>
        forRange 0 B.rows result fun k result => do
          let z ← result.at_ r c
          let x ← (A.view s).at_ r k
          let y ← B.at_ k c
          result.setAt r c (z + c₁ x * c₂ y)
    forRange 0 (A.view s).size s fun i s => do
      let x ← result.lin i
      let z ← back x
      A.setLin s i z

/-- `a += b` on vectors, `math.hpp:702-713`; `b` has another element type and so is another object. -/
def vaddAssign [Add R] (a : Nat) (b : List T₂) (s : VStore T₁) : Res (VStore T₁) :=
  if (s a).length ≠ b.length then .throw .invalidArgument
  else
    forRange 0 (s a).length s fun i s => do
      let x ← vget (s a) i
      let y ← vget b i
      let z ← back (c₁ x + c₂ y)
      let v ← vset (s a) i z
      return s.put a v

/-- `a -= b` on vectors, `math.hpp:778-789`. -/
def vsubAssign [Sub R] (a : Nat) (b : List T₂) (s : VStore T₁) : Res (VStore T₁) :=
  if (s a).length ≠ b.length then .throw .invalidArgument
  else
    forRange 0 (s a).length s fun i s => do
      let x ← vget (s a) i
      let y ← vget b i
      let z ← back (c₁ x - c₂ y)
      let v ← vset (s a) i z
      return s.put a v
end

/-- Conversion from a floating type to a signed type of `w` bits: the fraction is cut off; undefined if the result is out of
range, [conv.fpint]. -/
def truncTo (w : Nat) (q : ℚ) : Res ℤ :=
  let z := q.num.tdiv q.den
  if -2 ^ (w - 1) ≤ z ∧ z < 2 ^ (w - 1) then .ok z else .ub .badCast

/-- Conversion from an unsigned type of `w` bits to the signed one, [conv.integral] (C++20; before, all implementations in
use). -/
def toSigned (w : Nat) (x : ZMod (2 ^ w)) : Res ℤ := .ok ((x.val : ℤ).bmod (2 ^ w))

end Malg.Mixed
