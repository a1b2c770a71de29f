import Verif.Model.Utility
import Verif.Model.Feq
/-!
# `math.hpp`

Operators and reductions.  Operand conversions to `extract_common_type_t` are identities here (one element
type), except where the code converts an operand to the type of the other one (`element_wise_product`,
`linear_combination`).
-/
namespace Malg.Ops
open Malg.Feq
variable {T T₁ T₂ R S : Type}

/-! ## Skeletons shared by the element-wise operators -/

/-- The body shared by `operator+`, `operator-` on two matrices and by the comparisons of two matrices
(`math.hpp:21-39, 99-117, 309-330, 408-429, 507-543, 581-617, 1050-1069`): shape checks, a fresh matrix,
one linear loop. -/
def zipMat (init : R) (f : T₁ → T₂ → Res R) (A : MB T₁) (B : MB T₂) : Res (Mat R) :=
  if A.rows ≠ B.rows then .throw .invalidArgument
  else if A.cols ≠ B.cols then .throw .invalidArgument
  else do
    let result ← Mat.new A.rows A.cols init
    forRange 0 A.size result fun i result => do
      let x ← A.lin i
      let y ← B.lin i
      let z ← f x y
      result.setLin i z

/-- The body shared by the matrix–scalar operators (`math.hpp:46-57, 124-135, 204-215, 276-287, 364-378,
463-477, 551-573, 625-647`). -/
def mapMat (init : R) (f : T → Res R) (A : MB T) : Res (Mat R) := do
  let result ← Mat.new A.rows A.cols init
  forRange 0 A.size result fun i result => do
    let x ← A.lin i
    let z ← f x
    result.setLin i z

/-- The body shared by the vector–vector operators (`math.hpp:662-677, 738-753, 814-829, 338-356, 437-455,
1026-1042`). -/
def zipVec (init : R) (f : T₁ → T₂ → Res R) (a : List T₁) (b : List T₂) : Res (List R) :=
  if a.length ≠ b.length then .throw .invalidArgument
  else do
    let result ← vnew a.length init
    forRange 0 a.length result fun i result => do
      let x ← vget a i
      let y ← vget b i
      let z ← f x y
      vset result i z

/-- The body shared by the vector–scalar operators (`math.hpp:684-695, 760-771, 836-847, 890-901, 386-400,
485-499`). -/
def mapVec (init : R) (f : T → Res R) (a : List T) : Res (List R) := do
  let result ← vnew a.length init
  forRange 0 a.length result fun i result => do
    let x ← vget a i
    let z ← f x
    vset result i z

/-! ## Matrix arithmetic -/

/-- `A + B`, `math.hpp:21-39`. -/
def add [Zero T] [Add T] (A B : MB T) : Res (Mat T) := zipMat 0 (fun x y => .ok (x + y)) A B
/-- `A + b`, `math.hpp:46-57`. -/
def addS [Zero T] [Add T] (A : MB T) (b : T) : Res (Mat T) := mapMat 0 (fun x => .ok (x + b)) A
/-- `A - B`, `math.hpp:99-117`. -/
def sub [Zero T] [Sub T] (A B : MB T) : Res (Mat T) := zipMat 0 (fun x y => .ok (x - y)) A B
/-- `A - b`, `math.hpp:124-135`. -/
def subS [Zero T] [Sub T] (A : MB T) (b : T) : Res (Mat T) := mapMat 0 (fun x => .ok (x - b)) A
/-- `A * b`, `math.hpp:204-215`. -/
def mulS [Zero T] [Mul T] (A : MB T) (b : T) : Res (Mat T) := mapMat 0 (fun x => .ok (x * b)) A
/-- `a * B`, `math.hpp:222-225`: swaps the operands. -/
def smul [Zero T] [Mul T] (a : T) (B : MB T) : Res (Mat T) := mulS B a
/-- `A / b`, `math.hpp:276-287`. -/
def divS [Zero T] [CDiv T] (A : MB T) (b : T) : Res (Mat T) := mapMat 0 (fun x => cdiv x b) A

/-- `A * B`, `math.hpp:177-197`. -/
def mul [Zero T] [Add T] [Mul T] (A B : MB T) : Res (Mat T) :=
  if A.cols ≠ B.rows then .throw .invalidArgument
  else do
    let result ← Mat.new A.rows B.cols (0 : T)
    forRange 0 A.rows result fun r result =>
      forRange 0 B.cols result fun c result =>
        forRange 0 B.rows result fun k result => do
          let z ← result.at_ r c
          let x ← A.at_ r k
          let y ← B.at_ k c
          result.setAt r c (z + x * y)

/-! ## In-place matrix arithmetic

The target is a reference into a state `S`; the other operand is what it shows in the current state, so
that operands sharing data are represented. -/

/-- `A += B`, `math.hpp:64-78`. -/
def addAssign [Add T] (A : MRef S T) (B : S → MB T) (s : S) : Res S :=
  if (A.view s).rows ≠ (B s).rows then .throw .invalidArgument
  else if (A.view s).cols ≠ (B s).cols then .throw .invalidArgument
  else
    forRange 0 (A.view s).size s fun i s => do
      let x ← (A.view s).lin i
      let y ← (B s).lin i
      A.setLin s i (x + y)

/-- `A -= B`, `math.hpp:142-156`. -/
def subAssign [Sub T] (A : MRef S T) (B : S → MB T) (s : S) : Res S :=
  if (A.view s).rows ≠ (B s).rows then .throw .invalidArgument
  else if (A.view s).cols ≠ (B s).cols then .throw .invalidArgument
  else
    forRange 0 (A.view s).size s fun i s => do
      let x ← (A.view s).lin i
      let y ← (B s).lin i
      A.setLin s i (x - y)

/-- `A *= b`, `math.hpp:262-269`; `b` is a reference, so it is read anew in every iteration. -/
def mulSAssign [Mul T] (A : MRef S T) (b : S → Res T) (s : S) : Res S :=
  forRange 0 (A.view s).size s fun i s => do
    let x ← (A.view s).lin i
    let y ← b s
    A.setLin s i (x * y)

/-- `A /= b`, `math.hpp:294-301`; `b` is a reference as well. -/
def divSAssign [CDiv T] (A : MRef S T) (b : S → Res T) (s : S) : Res S :=
  forRange 0 (A.view s).size s fun i s => do
    let x ← (A.view s).lin i
    let y ← b s
    let z ← cdiv x y
    A.setLin s i z

/-- `A *= B`, `math.hpp:232-255`: the temporary has the shape of `A`, the loops run over the columns of `B`. -/
def mulAssign [Zero T] [Add T] [Mul T] (A : MRef S T) (B : S → MB T) (s : S) : Res S :=
  if (A.view s).cols ≠ (B s).rows then .throw .invalidArgument
  else do
    let result ← Mat.new (A.view s).rows (A.view s).cols (0 : T)
    let result ← forRange 0 (A.view s).rows result fun r result =>
      forRange 0 (B s).cols result fun c result =>
        forRange 0 (B s).rows result fun k result => do
          let z ← result.at_ r c
          let x ← (A.view s).at_ r k
          let y ← (B s).at_ k c
          result.setAt r c (z + x * y)
    forRange 0 (A.view s).size s fun i s => do
      let x ← result.lin i
      A.setLin s i x

/-! ## Comparisons

`==` and `!=` select at compile time between three ways to compare elements. -/

/-- Elements of floating point type (at least one of the operands), `math.hpp:321-322`. -/
def eqApprox [Sub T] [Mul R] [Max R] [LE R] [DecidableRel (α := R) (· ≤ ·)] (abs : T → R) (tol : R) (x y : T) :
    Bool := approxEq abs tol x y
/-- Both complex, `math.hpp:323-325`. -/
def eqParts [Sub R] [Mul R] [Max R] [LE R] [DecidableRel (α := R) (· ≤ ·)] (abs : R → R) (re im : T → R) (tol : R)
    (x y : T) : Bool := approxEq abs tol (re x) (re y) && approxEq abs tol (im x) (im y)
/-- Other types, `math.hpp:326-328`. -/
def eqExact [DecidableEq T] (x y : T) : Bool := decide (x = y)
/-- `math.hpp:420-421`. -/
def neApprox [Sub T] [Mul R] [Max R] [LE R] [DecidableRel (α := R) (· ≤ ·)] (abs : T → R) (tol : R) (x y : T) :
    Bool := !approxEq abs tol x y
/-- `math.hpp:422-424`. -/
def neParts [Sub R] [Mul R] [Max R] [LE R] [DecidableRel (α := R) (· ≤ ·)] (abs : R → R) (re im : T → R) (tol : R)
    (x y : T) : Bool := !approxEq abs tol (re x) (re y) || !approxEq abs tol (im x) (im y)
/-- `math.hpp:425-427`. -/
def neExact [DecidableEq T] (x y : T) : Bool := decide (x ≠ y)

/-- `A == B` and `A != B` with the element comparison chosen above, `math.hpp:309-330, 408-429`. -/
def cmp (c : T → T → Bool) (A B : MB T) : Res (Mat Bool) := zipMat false (fun x y => .ok (c x y)) A B
/-- `A == b` and `A != b`, `math.hpp:364-378, 463-477`. -/
def cmpS (c : T → T → Bool) (A : MB T) (b : T) : Res (Mat Bool) := mapMat false (fun x => .ok (c x b)) A
/-- `a == b` and `a != b` on vectors, `math.hpp:338-356, 437-455`. -/
def cmpVec (c : T → T → Bool) (a b : List T) : Res (List Bool) := zipVec false (fun x y => .ok (c x y)) a b
/-- `a == b` and `a != b` for a vector and a scalar, `math.hpp:386-400, 485-499`. -/
def cmpVecS (c : T → T → Bool) (a : List T) (b : T) : Res (List Bool) := mapVec false (fun x => .ok (c x b)) a

section
variable [LT T] [LE T] [DecidableRel (α := T) (· < ·)] [DecidableRel (α := T) (· ≤ ·)]
/-- `A > B`, `math.hpp:507-521`. -/
def gt (A B : MB T) : Res (Mat Bool) := zipMat false (fun x y => .ok (decide (y < x))) A B
/-- `A >= B`, `math.hpp:529-543`. -/
def ge (A B : MB T) : Res (Mat Bool) := zipMat false (fun x y => .ok (decide (y ≤ x))) A B
/-- `A > b`, `math.hpp:551-558`. -/
def gtS (A : MB T) (b : T) : Res (Mat Bool) := mapMat false (fun x => .ok (decide (b < x))) A
/-- `A >= b`, `math.hpp:566-573`. -/
def geS (A : MB T) (b : T) : Res (Mat Bool) := mapMat false (fun x => .ok (decide (b ≤ x))) A
/-- `A < B`, `math.hpp:581-595`. -/
def lt (A B : MB T) : Res (Mat Bool) := zipMat false (fun x y => .ok (decide (x < y))) A B
/-- `A <= B`, `math.hpp:603-617`. -/
def le (A B : MB T) : Res (Mat Bool) := zipMat false (fun x y => .ok (decide (x ≤ y))) A B
/-- `A < b`, `math.hpp:625-632`. -/
def ltS (A : MB T) (b : T) : Res (Mat Bool) := mapMat false (fun x => .ok (decide (x < b))) A
/-- `A <= b`, `math.hpp:640-647`. -/
def leS (A : MB T) (b : T) : Res (Mat Bool) := mapMat false (fun x => .ok (decide (x ≤ b))) A
end

/-! ## Vectors -/

/-- `a + b`, `math.hpp:662-677`. -/
def vadd [Zero T] [Add T] (a b : List T) : Res (List T) := zipVec 0 (fun x y => .ok (x + y)) a b
/-- `a + s`, `math.hpp:684-695`. -/
def vaddS [Zero T] [Add T] (a : List T) (s : T) : Res (List T) := mapVec 0 (fun x => .ok (x + s)) a
/-- `a - b`, `math.hpp:738-753`. -/
def vsub [Zero T] [Sub T] (a b : List T) : Res (List T) := zipVec 0 (fun x y => .ok (x - y)) a b
/-- `a - s`, `math.hpp:760-771`. -/
def vsubS [Zero T] [Sub T] (a : List T) (s : T) : Res (List T) := mapVec 0 (fun x => .ok (x - s)) a
/-- `a * b`, `math.hpp:814-829`. -/
def vmul [Zero T] [Mul T] (a b : List T) : Res (List T) := zipVec 0 (fun x y => .ok (x * y)) a b
/-- `a * s`, `math.hpp:836-847`. -/
def vmulS [Zero T] [Mul T] (a : List T) (s : T) : Res (List T) := mapVec 0 (fun x => .ok (x * s)) a
/-- `a / s`, `math.hpp:890-901`. -/
def vdivS [Zero T] [CDiv T] (a : List T) (s : T) : Res (List T) := mapVec 0 (fun x => cdiv x s) a

/-- The vector variables of a program. -/
abbrev VStore (T : Type) := Nat → List T
/-- Variable `v` replaced. -/
def VStore.put (s : VStore T) (v : Nat) (a : List T) : VStore T := fun w => if w = v then a else s w

/-- `a += b` on vector variables (possibly the same), `math.hpp:702-713`. -/
def vaddAssign [Add T] (a b : Nat) (s : VStore T) : Res (VStore T) :=
  if (s a).length ≠ (s b).length then .throw .invalidArgument
  else
    forRange 0 (s a).length s fun i s => do
      let x ← vget (s a) i
      let y ← vget (s b) i
      let v ← vset (s a) i (x + y)
      return VStore.put s a v

/-- `a -= b`, `math.hpp:778-789`. -/
def vsubAssign [Sub T] (a b : Nat) (s : VStore T) : Res (VStore T) :=
  if (s a).length ≠ (s b).length then .throw .invalidArgument
  else
    forRange 0 (s a).length s fun i s => do
      let x ← vget (s a) i
      let y ← vget (s b) i
      let v ← vset (s a) i (x - y)
      return VStore.put s a v

/-- `A * b`, `math.hpp:926-939`: the size of `b` is not looked at. -/
def mulVec [Zero T] [Add T] [Mul T] (A : MB T) (b : List T) : Res (List T) := do
  let result ← vnew A.rows (0 : T)
  forRange 0 A.rows result fun r result =>
    forRange 0 A.cols result fun c result => do
      let z ← vget result r
      let x ← A.at_ r c
      let y ← vget b c
      vset result r (z + x * y)

/-- `dot(a, b)`, `math.hpp:949-964`. -/
def dot [Zero T] [Add T] [Mul T] (a b : List T) : Res T :=
  if a.length ≠ b.length then .throw .invalidArgument
  else
    forRange 0 a.length (0 : T) fun i acc => do
      let x ← vget a i
      let y ← vget b i
      return acc + x * y

/-- `dot(A, b)`, `math.hpp:971-984`: the text of `A * b`. -/
def dotMat [Zero T] [Add T] [Mul T] (A : MB T) (b : List T) : Res (List T) := do
  let result ← vnew A.rows (0 : T)
  forRange 0 A.rows result fun r result =>
    forRange 0 A.cols result fun c result => do
      let z ← vget result r
      let x ← A.at_ r c
      let y ← vget b c
      vset result r (z + x * y)

/-! ## Functions of elements -/

/-- `element_wise_function(Vector, fun)`, `math.hpp:991-1001`: a converted copy of the argument; then
`std::for_each` calls `fun` on every element and drops what it returns. -/
def mapFnVec [Zero R] (conv : T → R) (fn : R → T₂) (a : List T) : Res (List R) := do
  let result ← vnew a.length (0 : R)
  let result ← forRange 0 a.length result fun i result => do
    let x ← vget a i
    vset result i (conv x)
  forRange 0 result.length result fun i result => do
    let x ← vget result i
    let _ := fn x
    return result

/-- `element_wise_function(MatrixBase, fun)`, `math.hpp:1008-1018`: a fresh matrix; the results of `fun` are dropped
and the argument is never read. -/
def mapFnMat [Zero R] (fn : R → T₂) (A : MB T) : Res (Mat R) := do
  let result ← Mat.new A.rows A.cols (0 : R)
  forRange 0 result.data.length result fun i result => do
    let x ← vget result.data i
    let _ := fn x
    return result

/-- `element_wise_binary_function(Vector, Vector, fun)`, `math.hpp:1026-1042`. -/
def binFnVec [Zero R] (fn : T₁ → T₂ → R) (a : List T₁) (b : List T₂) : Res (List R) :=
  zipVec 0 (fun x y => .ok (fn x y)) a b

/-- `element_wise_binary_function(MatrixBase, MatrixBase, fun)`, `math.hpp:1050-1069`. -/
def binFnMat [Zero R] (fn : T₁ → T₂ → R) (A : MB T₁) (B : MB T₂) : Res (Mat R) :=
  zipMat 0 (fun x y => .ok (fn x y)) A B

/-- `element_wise_product`, `math.hpp:1184-1187`: both parameters of the lambda have type `T1`, so the right element
is converted to the left element type (`conv`); `up` is the conversion to the type of the result. -/
def ewProduct [Zero R] [Mul T₁] (conv : T₂ → T₁) (up : T₁ → R) (A : MB T₁) (B : MB T₂) : Res (Mat R) :=
  binFnMat (fun lhs rhs => up (lhs * conv rhs)) A B

/-- `linear_combination`, `math.hpp:1196-1199`: same conversion of the right element; the scalars are taken in
the type of the result. -/
def linComb [Zero R] [Add R] [Mul R] (conv : T₂ → T₁) (up : T₁ → R) (A : MB T₁) (a : R) (B : MB T₂) (b : R) :
    Res (Mat R) :=
  binFnMat (fun lhs rhs => up lhs * a + up (conv rhs) * b) A B

/-- `projection(a, b)`, `math.hpp:1154-1157`. -/
def projection [Zero T] [Add T] [Mul T] [CDiv T] (a b : List T) : Res (List T) := do
  let x ← dot a b
  let y ← dot b b
  let q ← cdiv x y
  vmulS b q

/-- `vector_length(A, c, r_start, r_end)`, `math.hpp:1166-1177` (real elements; `std::sqrt` is a parameter). -/
def vectorLength [Zero T] [Add T] [Mul T] (sqrt : T → T) (A : MB T) (c r_start r_end : Nat) : Res T := do
  let accum ← forRange r_start (min r_end A.rows) (0 : T) fun r accum => do
    let x ← A.at_ r c
    return accum + x * x
  return sqrt accum

/-! ## Reductions -/

/-- `sum(v)`, `math.hpp:1205-1212`. -/
def sum [Zero T] [Add T] (v : List T) : Res T :=
  forRange 0 v.length (0 : T) fun i s => do
    let x ← vget v i
    return s + x

/-- `trace(A)`, `math.hpp:1218-1229`: runs over the rows. -/
def trace [Zero T] [Add T] (A : MB T) : Res T :=
  forRange 0 A.rows (0 : T) fun i result => do
    let x ← A.at_ i i
    return result + x

section
variable [LT T] [DecidableRel (α := T) (· < ·)]

/-- `min(Vector)`, `math.hpp:1235-1248`. -/
def vmin [Zero T] (v : List T) : Res (T × Nat) :=
  if v.length = 0 then .ok (0, 0)
  else do
    let pos ← forRange 1 v.length 0 fun i pos => do
      let x ← vget v i
      let y ← vget v pos
      return (if x < y then i else pos)
    let x ← vget v pos
    return (x, pos)

/-- `max(Vector)`, `math.hpp:1276-1289`. -/
def vmax [Zero T] (v : List T) : Res (T × Nat) :=
  if v.length = 0 then .ok (0, 0)
  else do
    let pos ← forRange 1 v.length 0 fun i pos => do
      let x ← vget v i
      let y ← vget v pos
      return (if y < x then i else pos)
    let x ← vget v pos
    return (x, pos)

/-- `min(Matrix)`, `math.hpp:1254-1270`. -/
def mmin [Zero T] (A : Mat T) : Res (List T) :=
  if A.isEmpty then .ok []
  else do
    let values ← vnew A.cols (0 : T)
    forRange 0 A.cols values fun c values => do
      let pos ← forRange 1 A.rows 0 fun r pos => do
        let x ← A.at_ r c
        let y ← A.at_ pos c
        return (if x < y then r else pos)
      let x ← A.at_ pos c
      vset values c x

/-- `max(Matrix)`, `math.hpp:1295-1311`. -/
def mmax [Zero T] (A : Mat T) : Res (List T) :=
  if A.isEmpty then .ok []
  else do
    let values ← vnew A.cols (0 : T)
    forRange 0 A.cols values fun c values => do
      let pos ← forRange 1 A.rows 0 fun r pos => do
        let x ← A.at_ r c
        let y ← A.at_ pos c
        return (if y < x then r else pos)
      let x ← A.at_ pos c
      vset values c x
end

section
variable [Zero T] [DecidableEq T]
/-- `all(MatrixBase)`, `math.hpp:1318-1326`. -/
def all (A : MB T) : Res Bool := do
  let r ← forSearch 0 A.size fun i => do
    let x ← A.lin i
    return (if x = 0 then some false else none)
  return r.getD true
/-- `all(Vector)`, `math.hpp:1333-1341`. -/
def allVec (v : List T) : Res Bool := do
  let r ← forSearch 0 v.length fun i => do
    let x ← vget v i
    return (if x = 0 then some false else none)
  return r.getD true
/-- `any(MatrixBase)`, `math.hpp:1348-1356`. -/
def any (A : MB T) : Res Bool := do
  let r ← forSearch 0 A.size fun i => do
    let x ← A.lin i
    return (if x ≠ 0 then some true else none)
  return r.getD false
/-- `any(Vector)`, `math.hpp:1363-1371`. -/
def anyVec (v : List T) : Res Bool := do
  let r ← forSearch 0 v.length fun i => do
    let x ← vget v i
    return (if x ≠ 0 then some true else none)
  return r.getD false
end

/-- `square_norm(Vector)`, `math.hpp:1377-1388` (real elements). -/
def squareNormVec [Zero T] [Add T] [Mul T] (sqrt : T → T) (v : List T) : Res T := do
  let accum ← forRange 0 v.length (0 : T) fun i accum => do
    let x ← vget v i
    return accum + x * x
  return sqrt accum

/-- `square_norm(MatrixBase)`, `math.hpp:1394-1409` (real elements). -/
def squareNorm [Zero T] [Add T] [Mul T] (sqrt : T → T) (A : MB T) : Res T := do
  let accum ← forRange 0 A.rows (0 : T) fun r accum =>
    forRange 0 A.cols accum fun c accum => do
      let x ← A.at_ r c
      return accum + x * x
  return sqrt accum

/-- `infinity_norm(Vector)`, `math.hpp:1415-1429` (real elements). -/
def infNormVec [Zero T] [LT T] [DecidableRel (α := T) (· < ·)] (abs : T → T) (v : List T) : Res T :=
  if v.length = 0 then .ok 0
  else do
    let x0 ← vget v 0
    forRange 1 v.length (abs x0) fun i max => do
      let x ← vget v i
      let tmp := abs x
      return (if max < tmp then tmp else max)

/-- `infinity_norm(MatrixBase)`, `math.hpp:1435-1450`; `abs` is the modulus. -/
def infNorm [Zero R] [Add R] [Max R] (abs : T → R) (A : MB T) : Res R :=
  if A.empty then .ok 0
  else
    forRange 0 A.rows (0 : R) fun r max' => do
      let accum ← forRange 0 A.cols (0 : R) fun c accum => do
        let x ← A.at_ r c
        return accum + abs x
      return max max' accum

/-- `sub_norm(MatrixBase)`, `math.hpp:1456-1476` (real elements). -/
def subNorm [Zero T] [Add T] [Mul T] (sqrt : T → T) (A : MB T) : Res T :=
  if A.empty then .ok 0
  else if !Util.isSquare A then .throw .invalidArgument
  else do
    let accum ← forRange 1 A.rows (0 : T) fun r accum =>
      forRange 0 r accum fun c accum => do
        let x ← A.at_ r c
        return accum + x * x
    return sqrt accum

/-- `log2_ceil`, `math.hpp:1482-1493`: halve until the norm is at most one; `half` is `0.5`. -/
def log2Ceil [Zero R] [One R] [Add R] [Mul R] [Max R] [LT R] [DecidableRel (α := R) (· < ·)] (abs : T → R) (half : R)
    (A : MB T) (fuel : Nat) : Res (Nat × R) := do
  let norm ← infNorm abs A
  whileFuel (fun (p : Nat × R) =>
    if 1 < norm * p.2 then .ok (some (p.1 + 1, p.2 * half)) else .ok none) fuel (0, 1)

end Malg.Ops
