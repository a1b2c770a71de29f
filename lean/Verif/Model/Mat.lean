import Verif.Model.Core
/-!
# `Vector` values, `Matrix`, and the read-only `MatrixBase` interface

Layer 2 of the model: a `Vector<T>` is the list of its elements (layer 1,
`Verif.Model.VecMem`, shows that the heap representation behaves like this).
-/

namespace Malg

variable {T : Type}

/-! ## Vector values -/

/-- `Vector::operator[]` read, `vector.hpp:210-213` (no bounds check; outside is UB). -/
def vget (v : List T) (i : Nat) : Res T :=
  match v[i]? with
  | some x => .ok x
  | none => .ub .oob

/-- `v[i] = x`, `vector.hpp:202-205`. -/
def vset (v : List T) (i : Nat) (x : T) : Res (List T) :=
  if i < v.length then .ok (v.set i x) else .ub .oob

/-- `Vector(size, value)`, `vector.hpp:51-60`; also `Vector(size)`, `vector.hpp:41-46`, with
`x = T(0.)`.  Sizes from `allocMax` on cannot be allocated. -/
def vnew (n : Nat) (x : T) : Res (List T) :=
  if n < allocMax then .ok (List.replicate n x) else .ub .allocFail

/-- `Vector::resize(size)`, `vector.hpp:193-197` with `allocate`, `vector.hpp:328-360`: growth is
zero-filled, shrinking keeps the prefix. -/
def vresize [Zero T] (v : List T) (n : Nat) : Res (List T) :=
  if n < allocMax then .ok (v.take n ++ List.replicate (n - v.length) 0) else .ub .allocFail

/-- `Vector(size, initializer_list)`, `vector.hpp:65-76` (assert on the size). -/
def vnewList (size : Nat) (data : List T) : Res (List T) :=
  if size = data.length then (if size < allocMax then .ok data else .ub .allocFail) else .abort

/-! ## Matrix -/

/-- `Matrix<T>`: `_rows`, `_cols` (`matrix_base.hpp`) and `_data` (`matrix.hpp:28`). -/
structure Mat (T : Type) where
  rows : Nat
  cols : Nat
  data : List T
  deriving DecidableEq, Repr

namespace Mat

/-- `Matrix()`, `matrix.hpp:43-48`. -/
def empty0 : Mat T := ⟨0, 0, []⟩

/-- `MatrixBase::size()`, `matrix_base.hpp:69-72`. -/
def size (A : Mat T) : Nat := wmul A.rows A.cols

/-- `MatrixBase::empty()`, `matrix_base.hpp:77-80`. -/
def isEmpty (A : Mat T) : Bool := (A.rows == 0) || (A.cols == 0)

/-- `Matrix(rows, cols, initial)`, `matrix.hpp:54-59`. -/
def new (r c : Nat) (x : T) : Res (Mat T) := do
  let d ← vnew (wmul r c) x
  return ⟨r, c, d⟩

/-- The linear position of `(row, col)`, `matrix.hpp:450` (ROW_MAJOR). -/
def idx (A : Mat T) (r c : Nat) : Nat := wadd (wmul r A.cols) c

/-- `at(row, col)` / `operator()(row, col)` read, `matrix.hpp:426-429, 460-467`. -/
def at_ (A : Mat T) (r c : Nat) : Res T := vget A.data (A.idx r c)

/-- `at(row, col) = x`, `matrix.hpp:417-420, 447-454`. -/
def setAt (A : Mat T) (r c : Nat) (x : T) : Res (Mat T) := do
  let d ← vset A.data (A.idx r c) x
  return { A with data := d }

/-- `operator[](pos)` read, `matrix.hpp:408-411`. -/
def lin (A : Mat T) (i : Nat) : Res T := vget A.data i

/-- `operator[](pos) = x`, `matrix.hpp:400-403`. -/
def setLin (A : Mat T) (i : Nat) (x : T) : Res (Mat T) := do
  let d ← vset A.data i x
  return { A with data := d }

end Mat

/-! ## The `MatrixBase` interface -/

/-- What a function can observe of a `const MatrixBase<T>&` argument (`matrix_base.hpp`): the virtual
functions `rows`, `cols`, `size`, `operator[]`, `at`/`operator()`, and `empty`. -/
structure MB (T : Type) where
  rows : Nat
  cols : Nat
  size : Nat
  empty : Bool
  lin : Nat → Res T
  at_ : Nat → Nat → Res T

/-- A `Matrix` seen through its base class. -/
def Mat.toMB (A : Mat T) : MB T :=
  { rows := A.rows, cols := A.cols, size := A.size, empty := A.isEmpty, lin := A.lin, at_ := A.at_ }

/-! ## Constructors and assignments of `Matrix` -/

namespace Mat

/-- `Matrix(rows, cols, initializer_list)` and `Matrix(rows, cols, std::vector)`,
`matrix.hpp:65-75, 81-91`: `it` walks the list, reading past its end is UB. -/
def ofFlat [Zero T] (r c : Nat) (l : List T) : Res (Mat T) := do
  let A ← Mat.new r c (0 : T)
  let (A, _) ← forRange 0 r (A, 0) fun i s =>
    forRange 0 c s fun j (A, it) => do
      let x ← vget l it
      let A ← A.setAt i j x
      return (A, it + 1)
  return A

/-- `Matrix(initializer_list<initializer_list>)`, `matrix.hpp:95-121`. -/
def ofNested [Zero T] (l : List (List T)) : Res (Mat T) := do
  if l.length = 0 then .throw .invalidArgument
  else
    let first ← vget l 0
    if first.length = 0 then .throw .invalidArgument
    else
      let r := l.length
      let c := first.length
      let d ← vnew (wmul r c) (0 : T)
      forRange 0 r (⟨r, c, d⟩ : Mat T) fun i A => do
        let row ← vget l i
        forRange 0 c A fun j A => do
          let x ← vget row j
          A.setAt i j x

/-- `Matrix(const MatrixBase&)` and the copy constructors, `matrix.hpp:125-168`: linear copy.
`conv` is the element conversion (identity when the element types agree). -/
def ofMB [Zero T] (b : MB S) (conv : S → T) : Res (Mat T) := do
  let d ← vnew (wmul b.rows b.cols) (0 : T)
  let d ← forRange 0 (wmul b.rows b.cols) d fun i d => do
    let x ← b.lin i
    vset d i (conv x)
  return ⟨b.rows, b.cols, d⟩

/-- Copy constructor `Matrix(const Matrix&)`, `matrix.hpp:148-155`. -/
def copy [Zero T] (A : Mat T) : Res (Mat T) := ofMB A.toMB id

/-- Move constructor `Matrix(Matrix&&)`, `matrix.hpp:172-177`: the new matrix and what is left of
`rhs` (its `_rows`, `_cols` are not reset, its `_data` is empty). -/
def move (A : Mat T) : Mat T × Mat T := (A, { A with data := [] })

/-- `operator=(const Matrix&)`, `operator=(const MatrixBase&)` and their templates,
`matrix.hpp:259-350`.  `rhs A` is what the right operand shows while the target holds `A`: a constant
function when the operands do not share data, a view of `A` when they do.  The self check
(`&rhs == this`) is the caller's case split.  -/
def assignFrom [Zero T] (A : Mat T) (rhs : Mat T → MB S) (conv : S → T) : Res (Mat T) :=
  if (rhs A).size > 0 then do
    let d ← vnew (wmul (rhs A).rows (rhs A).cols) (0 : T)
    let A := { A with data := d }
    let A := { A with rows := (rhs A).rows }
    let A := { A with cols := (rhs A).cols }
    forRange 0 A.rows A fun r B =>
      forRange 0 A.cols B fun c B => do
        let x ← (rhs B).at_ r c
        B.setAt r c (conv x)
  else .ok A

/-- `A = B` for distinct objects. -/
def assign [Zero T] (A : Mat T) (b : MB T) : Res (Mat T) := A.assignFrom (fun _ => b) id

/-- `operator=(Matrix&&)` for distinct objects, `matrix.hpp:355-365`: new target and new source. -/
def moveAssign (A B : Mat T) : Mat T × Mat T :=
  if B.size > 0 then ({ rows := B.rows, cols := B.cols, data := B.data }, { B with data := [] })
  else (A, B)

/-- `operator=(initializer_list<initializer_list>)`, `matrix.hpp:370-395`. -/
def assignNested [Zero T] (A : Mat T) (l : List (List T)) : Res (Mat T) := do
  if l.length = 0 then .ok A
  else
    let first ← vget l 0
    if first.length = 0 then .ok A
    else
      let r := l.length
      let c := first.length
      let d ← vnew (wmul r c) (0 : T)
      forRange 0 r (⟨r, c, d⟩ : Mat T) fun i A => do
        let row ← vget l i
        forRange 0 c A fun j A => do
          let x ← vget row j
          A.setAt i j x

/-- `reshape(rows, cols)`, `matrix.hpp:214-222`; `utility::reshape`, `utility.hpp:736-740`, only calls it. -/
def reshape (A : Mat T) (r c : Nat) : Res (Mat T) :=
  if A.size ≠ wmul r c then .throw .invalidArgument
  else .ok { A with rows := r, cols := c }

/-- `resize(rows, cols)`, `matrix.hpp:228-254`; `utility::resize`, `utility.hpp:747-751`, only calls it. -/
def resize [Zero T] (A : Mat T) (r c : Nat) : Res (Mat T) :=
  if A.rows = r ∧ A.cols = c then .ok A
  else if A.cols = c then do
    let d ← vresize A.data (wmul r c)
    return ⟨r, c, d⟩
  else do
    let m ← Mat.new r c (0 : T)
    let m ← forRange 0 (min A.rows r) m fun i m =>
      forRange 0 (min A.cols c) m fun j m => do
        let x ← A.at_ i j
        m.setAt i j x
    return ⟨r, c, m.data⟩

end Mat
end Malg
