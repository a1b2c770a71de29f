import Verif.Model.View
/-!
# `utility.hpp`

Element-type conversions (`extract_common_type_t`, `remove_const_t`) are identities here: all
operands have the common element type.
-/
namespace Malg
variable {T : Type} {S : Type}

/-- Partial division: integer division by zero is UB; a floating point division by zero has no
value in exact arithmetic and is kept apart the same way. -/
class CDiv (T : Type) where
  cdiv : T → T → Res T
export CDiv (cdiv)

/-- C++ integer division truncates towards zero. -/
instance : CDiv Int := ⟨fun a b => if b = 0 then .ub .divZero else .ok (Int.tdiv a b)⟩

namespace Util

/-- `eye`, `utility.hpp:45-59`. -/
def eye [Zero T] (rows cols : Nat) (value : T) : Res (Mat T) :=
  if rows = 0 then .throw .invalidArgument
  else if cols = 0 then .throw .invalidArgument
  else do
    let m ← Mat.new rows cols (0 : T)
    forRange 0 (min rows cols) m fun i m => m.setAt i i value

/-- `identity`, `utility.hpp:66-69`. -/
def identity [Zero T] (n : Nat) (value : T) : Res (Mat T) := eye n n value

/-- `zeros(rows, cols)`, `utility.hpp:76-87`. -/
def zeros [Zero T] (rows cols : Nat) : Res (Mat T) :=
  if rows = 0 then .throw .invalidArgument
  else if cols = 0 then .throw .invalidArgument
  else Mat.new rows cols (0 : T)

/-- `zeros(size)`, `utility.hpp:92-100`. -/
def zerosVec [Zero T] (size : Nat) : Res (List T) :=
  if size = 0 then .throw .invalidArgument else vnew size (0 : T)

/-- `ones(rows, cols)`, `utility.hpp:106-117`. -/
def ones [One T] (rows cols : Nat) : Res (Mat T) :=
  if rows = 0 then .throw .invalidArgument
  else if cols = 0 then .throw .invalidArgument
  else Mat.new rows cols (1 : T)

/-- `ones(size)`, `utility.hpp:122-130`. -/
def onesVec [One T] (size : Nat) : Res (List T) :=
  if size = 0 then .throw .invalidArgument else vnew size (1 : T)

/-- `diag(matrix)`, `utility.hpp:135-145`. -/
def diagOf [Zero T] (A : MB T) : Res (List T) := do
  let size := min A.rows A.cols
  let v ← vnew size (0 : T)
  forRange 0 size v fun i v => do
    let x ← A.at_ i i
    vset v i x

/-- `diag(vector)`, `utility.hpp:150-159`. -/
def diagMat [Zero T] (a : List T) : Res (Mat T) := do
  let m ← Mat.new a.length a.length (0 : T)
  forRange 0 a.length m fun i m => do
    let x ← vget a i
    m.setAt i i x

/-- `to_matrix`, `utility.hpp:165-174`. -/
def toMatrix [Zero T] (v : List T) (row_matrix : Bool) : Res (Mat T) := do
  let m ← Mat.new (if row_matrix then 1 else v.length) (if row_matrix then v.length else 1) (0 : T)
  forRange 0 v.length m fun i m => do
    let x ← vget v i
    m.setLin i x

/-- `to_vector`, `utility.hpp:179-187`. -/
def toVector [Zero T] (A : Mat T) : Res (List T) := do
  let v ← vnew A.size (0 : T)
  forRange 0 A.size v fun i v => do
    let x ← A.lin i
    vset v i x

/-- `ravel`, `utility.hpp:192-201`. -/
def ravel [Zero T] (A : MB T) : Res (List T) := do
  let a ← vnew A.size (0 : T)
  forRange 0 a.length a fun i a => do
    let x ← A.lin i
    vset a i x

/-- `vstack(A, B)`, `utility.hpp:207-228`. -/
def vstack [Zero T] (A B : MB T) : Res (Mat T) :=
  if A.cols ≠ B.cols then .throw .invalidArgument
  else do
    let C ← Mat.new (wadd A.rows B.rows) A.cols (0 : T)
    let C ← forRange 0 A.rows C fun r C => forRange 0 A.cols C fun c C => do
      let x ← A.at_ r c
      C.setAt r c x
    forRange 0 B.rows C fun r C => forRange 0 B.cols C fun c C => do
      let x ← B.at_ r c
      C.setAt (wadd r A.rows) c x

/-- `hstack(A, B)`, `utility.hpp:258-279` (column by column). -/
def hstack [Zero T] (A B : MB T) : Res (Mat T) :=
  if A.rows ≠ B.rows then .throw .invalidArgument
  else do
    let C ← Mat.new A.rows (wadd A.cols B.cols) (0 : T)
    let C ← forRange 0 A.cols C fun c C => forRange 0 A.rows C fun r C => do
      let x ← A.at_ r c
      C.setAt r c x
    forRange 0 B.cols C fun c C => forRange 0 B.rows C fun r C => do
      let x ← B.at_ r c
      C.setAt r (wadd c A.cols) x

/-- `concatenate`, `utility.hpp:311-325`. -/
def concatenate [Zero T] (a b : List T) : Res (List T) := do
  let c ← vresize a (wadd a.length b.length)
  forRange 0 b.length c fun i c => do
    let x ← vget b i
    vset c (wadd a.length i) x

/-- `extract`, `utility.hpp:334-356`. -/
def extract [Zero T] (A : MB T) (start_row end_row start_col end_col : Nat) : Res (Mat T) :=
  if start_row ≥ end_row then .throw .invalidArgument
  else if start_col ≥ end_col then .throw .invalidArgument
  else do
    let end_row := min A.rows end_row
    let end_col := min A.cols end_col
    let result ← Mat.new (wsub end_row start_row) (wsub end_col start_col) (0 : T)
    forRange start_row end_row result fun r result =>
      forRange start_col end_col result fun c result => do
        let x ← A.at_ r c
        result.setAt (wsub r start_row) (wsub c start_col) x

/-- `extract_column`, `utility.hpp:365-384`. -/
def extractColumn [Zero T] (A : MB T) (column start_row end_row : Nat) : Res (List T) :=
  if start_row ≥ end_row then .throw .invalidArgument
  else if column ≥ A.cols then .throw .invalidArgument
  else do
    let end_row := min A.rows end_row
    let result ← vnew (wsub end_row start_row) (0 : T)
    forRange start_row end_row result fun r result => do
      let x ← A.at_ r column
      vset result (wsub r start_row) x

/-- `extract_row`, `utility.hpp:392-411`. -/
def extractRow [Zero T] (A : MB T) (row start_col end_col : Nat) : Res (List T) :=
  if row ≥ A.rows then .throw .invalidArgument
  else if start_col ≥ end_col then .throw .invalidArgument
  else do
    let end_col := min A.cols end_col
    let result ← vnew (wsub end_col start_col) (0 : T)
    forRange start_col end_col result fun c result => do
      let x ← A.at_ row c
      vset result (wsub c start_col) x

/-- `std::swap(m(r1, c1), m(r2, c2))`. -/
def swapAt (m : MRef S T) (s : S) (r1 c1 r2 c2 : Nat) : Res S := do
  let x ← (m.view s).at_ r1 c1
  let y ← (m.view s).at_ r2 c2
  let s ← m.setAt s r1 c1 y
  m.setAt s r2 c2 x

/-- `swap_rows`, `utility.hpp:419-426`. -/
def swapRows (m : MRef S T) (s : S) (i j start_col end_col : Nat) : Res S :=
  let end_col := min end_col (m.view s).cols
  forRange start_col end_col s fun c s => swapAt m s i c j c

/-- `swap_cols`, `utility.hpp:434-441`. -/
def swapCols (m : MRef S T) (s : S) (i j start_row end_row : Nat) : Res S :=
  let end_row := min (m.view s).rows end_row
  forRange start_row end_row s fun r s => swapAt m s r i r j

/-- `std::swap` of two elements of a `Matrix`. -/
def swapMat (A : Mat T) (r1 c1 r2 c2 : Nat) : Res (Mat T) := do
  let x ← A.at_ r1 c1
  let y ← A.at_ r2 c2
  let A ← A.setAt r1 c1 y
  A.setAt r2 c2 x

/-- `remove_row`, `utility.hpp:447-459`. -/
def removeRow [Zero T] (A : Mat T) (row : Nat) : Res (Mat T) :=
  if row ≥ A.rows then .throw .invalidArgument
  else do
    let B ← forRange row (wsub A.rows 1) A fun r B =>
      forRange 0 A.cols B fun c B => swapMat B r c (wadd r 1) c
    B.resize (wsub B.rows 1) B.cols

/-- `remove_column`, `utility.hpp:466-478`. -/
def removeColumn [Zero T] (A : Mat T) (column : Nat) : Res (Mat T) :=
  if column ≥ A.cols then .throw .invalidArgument
  else do
    let B ← forRange column (wsub A.cols 1) A fun c B =>
      forRange 0 A.rows B fun r B => swapMat B r c r (wadd c 1)
    B.resize B.rows (wsub B.cols 1)

/-- `is_square`, `utility.hpp:485-488`. -/
def isSquare (A : MB T) : Bool := A.rows == A.cols
/-- `is_column_vector`, `utility.hpp:495-498`. -/
def isColumnVector (A : MB T) : Bool := A.cols == 1
/-- `is_row_vector`, `utility.hpp:505-508`. -/
def isRowVector (A : MB T) : Bool := A.rows == 1

/-- The body of the predicate loops: `for i … for j … if (bad) return false`. -/
def scan (lo : Nat → Nat) (hi : Nat → Nat) (rows : Nat) (bad : Nat → Nat → Res Bool) : Res Bool := do
  let r ← forSearch 0 rows fun i => forSearch (lo i) (hi i) fun j => do
    let b ← bad i j
    return (if b then some false else none)
  return r.getD true

/-- `is_symmetric`, `utility.hpp:515-528`. -/
def isSymmetric [DecidableEq T] (A : MB T) : Res Bool :=
  if !isSquare A then .ok false
  else scan (fun _ => 0) (fun _ => A.cols) A.rows fun i j => do
    let x ← A.at_ i j
    let y ← A.at_ j i
    return decide (x ≠ y)

/-- `is_skew_symmetric`, `utility.hpp:535-548` (starts right of the diagonal). -/
def isSkewSymmetric [DecidableEq T] [Neg T] (A : MB T) : Res Bool :=
  if !isSquare A then .ok false
  else scan (fun i => wadd i 1) (fun _ => A.cols) A.rows fun i j => do
    let x ← A.at_ i j
    let y ← A.at_ j i
    return decide (x ≠ -y)

/-- `is_diagonal`, `utility.hpp:555-568`. -/
def isDiagonal [DecidableEq T] [Zero T] (A : MB T) : Res Bool :=
  if !isSquare A then .ok false
  else scan (fun _ => 0) (fun _ => A.cols) A.rows fun i j =>
    if i ≠ j then do
      let x ← A.at_ i j
      return decide (x ≠ 0)
    else .ok false

/-- `is_lower_triangular`, `utility.hpp:696-709`. -/
def isLowerTriangular [DecidableEq T] [Zero T] (A : MB T) : Res Bool :=
  if !isSquare A then .ok false
  else scan (fun r => wadd r 1) (fun _ => A.cols) A.rows fun r c => do
    let x ← A.at_ r c
    return decide (x ≠ 0)

/-- `is_upper_triangular`, `utility.hpp:716-729`. -/
def isUpperTriangular [DecidableEq T] [Zero T] (A : MB T) : Res Bool :=
  if !isSquare A then .ok false
  else scan (fun _ => 0) (fun r => r) A.rows fun r c => do
    let x ← A.at_ r c
    return decide (x ≠ 0)

/-- `all_close` on vectors, `utility.hpp:597-609`; `absf` is `std::abs`, `R` the type of the tolerance. -/
def allCloseVec [Sub T] [LT R] [DecidableRel (α := R) (· < ·)] (absf : T → R) (a b : List T) (tol : R) :
    Res Bool :=
  if a.length ≠ b.length then .throw .invalidArgument
  else do
    let r ← forSearch 0 a.length fun i => do
      let x ← vget a i
      let y ← vget b i
      return (if tol < absf (x - y) then some false else none)
    return r.getD true

/-- `all_close` on matrices, `utility.hpp:618-633`. -/
def allClose [Sub T] [LT R] [DecidableRel (α := R) (· < ·)] (absf : T → R) (A B : MB T) (tol : R) :
    Res Bool :=
  if A.rows ≠ B.rows then .throw .invalidArgument
  else if A.cols ≠ B.cols then .throw .invalidArgument
  else do
    let r ← forSearch 0 A.size fun i => do
      let x ← A.lin i
      let y ← B.lin i
      return (if tol < absf (x - y) then some false else none)
    return r.getD true

/-- `inner_product`, `utility.hpp:760-767`: pointers as offsets into two lists. -/
def innerProduct [Add T] [Mul T] (l1 l2 : List T) (init : T) : Res T :=
  forRange 0 l1.length init fun i init => do
    let x ← vget l1 i
    let y ← vget l2 i
    return init + x * y

/-- `accumulate`, `utility.hpp:775-782`. -/
def accumulate [Add T] (l : List T) (init : T) : Res T :=
  forRange 0 l.length init fun i init => do
    let x ← vget l i
    return init + x

/-- The points of `linspace`/`logspace`, `utility.hpp:791-824, 834-867`.  `same` is the comparison
chosen by `if constexpr`, `post` is the identity for `linspace` and `pow(base, ·)` for `logspace`. -/
def spaced [One T] [Add T] [Sub T] [Mul T] [NatCast T] [CDiv T] [LT T] [DecidableRel (α := T) (· < ·)]
    (same : T → T → Bool) (post : T → T) (start stop : T) (num : Nat) : Res (List T) := do
  let result ← vnew num (1 : T)
  if num = 0 then .ok result
  else if num = 1 then vset result 0 (post stop)
  else if same start stop then
    forRange 0 num result fun i v => vset v i (post stop)
  else if start < stop then do
    let step ← cdiv (stop - start) ((num - 1 : Nat) : T)
    forRange 0 num result fun i v => vset v i (post (start + step * (i : T)))
  else do
    let step ← cdiv (start - stop) ((num - 1 : Nat) : T)
    forRange 0 num result fun i v => vset v i (post (start - step * (i : T)))

/-- `linspace`, `utility.hpp:791-824`; `num` is an `unsigned` (below `2^32`). -/
def linspace [One T] [Add T] [Sub T] [Mul T] [NatCast T] [CDiv T] [LT T] [DecidableRel (α := T) (· < ·)]
    (same : T → T → Bool) (start stop : T) (num : Nat) : Res (List T) :=
  spaced same id start stop num

/-- `logspace`, `utility.hpp:834-867`; the loop counter is `unsigned`, so for a `num` of `2^32` or
more `i < num` stays true and the loop never ends. -/
def logspace [One T] [Add T] [Sub T] [Mul T] [NatCast T] [CDiv T] [LT T] [DecidableRel (α := T) (· < ·)]
    (same : T → T → Bool) (pow : T → T → T) (start stop : T) (num : Nat) (base : T) : Res (List T) :=
  if num < 2 ^ 32 then spaced same (pow base) start stop num
  else do
    let _ ← vnew num (1 : T)
    .ub .noReturn

/-- `flatnonzero`, `utility.hpp:910-927`; `isZero` is the test chosen by `if constexpr`. -/
def flatnonzero (isZero : T → Bool) (A : Mat T) : Res (List Nat) :=
  forRange 0 A.size [] fun i acc => do
    let x ← A.lin i
    return (if !isZero x then acc ++ [i] else acc)

/-- `find`, `utility.hpp:937-957`.  `std::vector<size_t>(a, b)` with integer arguments is the
count/value constructor. -/
def find (isZero : T → Bool) (A : Mat T) (n : Nat) (first_last : Bool) : Res (Mat Nat) := do
  let index ← flatnonzero isZero A
  if n = 0 then Mat.new 0 0 (0 : Nat)
  else
    let index ← (if n > 0 ∧ n < index.length then do
        let start ← vget index 0
        if first_last then
          .ok (List.replicate (wadd start 0) (wadd start n))
        else
          .ok (List.replicate (wsub (wadd start index.length) n) (wadd start index.length))
      else .ok index : Res (List Nat))
    if isRowVector A.toMB then Mat.ofFlat 1 index.length index
    else Mat.ofFlat index.length 1 index

/-- `compare` on matrices, `utility.hpp:967-983`. -/
def compare [LT T] [DecidableRel (α := T) (· < ·)] (A B : MB T) : Res Int :=
  if A.size ≠ B.size then .throw .invalidArgument
  else do
    let r ← forSearch 0 A.size fun i => do
      let x ← A.lin i
      let y ← B.lin i
      return (if x < y then some (-(i : Int)) else if y < x then some (i : Int) else none)
    return r.getD 0

/-- `compare` on vectors, `utility.hpp:991-1007`. -/
def compareVec [LT T] [DecidableRel (α := T) (· < ·)] (a b : List T) : Res Int :=
  if a.length ≠ b.length then .throw .invalidArgument
  else do
    let r ← forSearch 0 a.length fun i => do
      let x ← vget a i
      let y ← vget b i
      return (if x < y then some (-(i : Int)) else if y < x then some (i : Int) else none)
    return r.getD 0

/-- `rand_matrix` for real element types, `utility.hpp:1039-1057`; `rng k` is the `k`-th number drawn
from the distribution. -/
def randMatrix [Zero T] (rng : Nat → T) (rows cols : Nat) : Res (Mat T) := do
  let m ← Mat.new rows cols (0 : T)
  forRange 0 m.size m fun i m => m.setLin i (rng i)

/-- `rand_matrix` for complex element types, `utility.hpp:1019-1038`.  The two draws are constructor
arguments, whose evaluation order is unspecified: `flip i` tells whether the imaginary part of element
`i` is drawn first. -/
def randMatrixC [Zero T] (mk : R → R → T) (rng : Nat → R) (flip : Nat → Bool) (rows cols : Nat) :
    Res (Mat T) := do
  let m ← Mat.new rows cols (0 : T)
  forRange 0 m.size m fun i m =>
    m.setLin i (if flip i then mk (rng (2 * i + 1)) (rng (2 * i)) else mk (rng (2 * i)) (rng (2 * i + 1)))

/-- `rand_vector` for real element types, `utility.hpp:1090-1107`. -/
def randVector [Zero T] (rng : Nat → T) (size : Nat) : Res (List T) := do
  let v ← vnew size (0 : T)
  forRange 0 v.length v fun i v => vset v i (rng i)

/-- `rand_vector` for complex element types, `utility.hpp:1070-1089`. -/
def randVectorC [Zero T] (mk : R → R → T) (rng : Nat → R) (flip : Nat → Bool) (size : Nat) :
    Res (List T) := do
  let v ← vnew size (0 : T)
  forRange 0 v.length v fun i v =>
    vset v i (if flip i then mk (rng (2 * i + 1)) (rng (2 * i)) else mk (rng (2 * i)) (rng (2 * i + 1)))

end Util
end Malg
