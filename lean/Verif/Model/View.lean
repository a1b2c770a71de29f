import Verif.Model.Mat
/-!
# `View`, `CofactorView` and references to matrix variables

`view.hpp`.  A view stores a pointer to the viewed object; reading through it is
modelled on the read-only interface `MB`, writing through it on references `MRef`
into a state.
-/
namespace Malg
variable {T : Type} {S : Type}

/-- `struct Range`, `view.hpp:16-28`. -/
structure Range where
  start : Nat
  stop : Nat
  deriving DecidableEq, Repr

/-- `Range::all()`, `view.hpp:24-27`. -/
def Range.all : Range := ⟨0, W - 1⟩

/-- The read interface of `View<M>`: `rows`, `cols`, `size` `view.hpp:74-91`, `operator[]` `view.hpp:198-205`,
`at` `view.hpp:238-241`.  `empty()` is not overridden and the base class was default constructed
(`matrix_base.hpp:34-38, 77-80`), so it looks at `_rows = _cols = 0`. -/
def MB.view (b : MB T) (row col : Range) : MB T :=
  let rows := wsub (min row.stop b.rows) row.start
  let cols := wsub (min col.stop b.cols) col.start
  let at_ := fun r c => b.at_ (wadd row.start r) (wadd col.start c)
  { rows := rows
    cols := cols
    size := wmul rows cols
    empty := ((0 : Nat) == 0) || ((0 : Nat) == 0)
    at_ := at_
    lin := fun pos => if cols = 0 then .ub .divZero else at_ (pos / cols) (pos % cols) }

/-- The asserts of the constructors, `view.hpp:50-70`. -/
def viewOk (row col : Range) : Bool := decide (row.start < row.stop) && decide (col.start < col.stop)

/-- `View(&A, row, col)`, also `Matrix::operator()(Range, Range)`, `view.hpp:63-70, 244-254`, and
`utility::view`, `utility.hpp:877-880`. -/
def MB.mkView (b : MB T) (row col : Range) : Res (MB T) :=
  if viewOk row col then .ok (b.view row col) else .abort

/-- `utility::row(A, row, start_col, end_col)`, `utility.hpp:889-892`. -/
def MB.mkRow (b : MB T) (row start_col end_col : Nat) : Res (MB T) :=
  b.mkView ⟨row, wadd row 1⟩ ⟨start_col, end_col⟩

/-- `utility::col(A, col, start_row, end_row)`, `utility.hpp:901-904`. -/
def MB.mkCol (b : MB T) (col start_row end_row : Nat) : Res (MB T) :=
  b.mkView ⟨start_row, end_row⟩ ⟨col, wadd col 1⟩

/-- The read interface of `CofactorView<M>`, `view.hpp:286-303, 348-355, 388-391`
(`operator[]` divides by `rows()`). -/
def MB.cofactor (b : MB T) (er ec : Nat) : MB T :=
  let rows := wsub b.rows 1
  let cols := wsub b.cols 1
  let at_ := fun r c => b.at_ (wadd r (if r ≥ er then 1 else 0)) (wadd c (if c ≥ ec then 1 else 0))
  { rows := rows
    cols := cols
    size := wmul rows cols
    empty := ((0 : Nat) == 0) || ((0 : Nat) == 0)
    at_ := at_
    lin := fun pos => if rows = 0 then .ub .divZero else at_ (pos / rows) (pos % rows) }

/-! ## References -/

/-- A non-const `MatrixBase<T>&` into a program state `S`: what it shows now, and its writes. -/
structure MRef (S : Type) (T : Type) where
  view : S → MB T
  setAt : S → Nat → Nat → T → Res S
  setLin : S → Nat → T → Res S

/-- The program state for in-place operations: the matrix variables. -/
abbrev Store (T : Type) := Nat → Mat T

/-- The state with variable `v` replaced. -/
def Store.put (s : Store T) (v : Nat) (A : Mat T) : Store T := fun w => if w = v then A else s w

/-- A matrix variable as a reference, `matrix.hpp:400-467`. -/
def MRef.var (v : Nat) : MRef (Store T) T where
  view s := (s v).toMB
  setAt s r c x := do let A ← (s v).setAt r c x; return s.put v A
  setLin s i x := do let A ← (s v).setLin i x; return s.put v A

/-- A non-const `View`, `view.hpp:186-193, 229-232`. -/
def MRef.sub (m : MRef S T) (row col : Range) : MRef S T where
  view s := (m.view s).view row col
  setAt s r c x := m.setAt s (wadd row.start r) (wadd col.start c) x
  setLin s pos x :=
    let cols := ((m.view s).view row col).cols
    if cols = 0 then .ub .divZero
    else m.setAt s (wadd row.start (pos / cols)) (wadd col.start (pos % cols)) x

/-- A non-const `CofactorView`, `view.hpp:336-343, 379-382`. -/
def MRef.cofactor (m : MRef S T) (er ec : Nat) : MRef S T where
  view s := (m.view s).cofactor er ec
  setAt s r c x := m.setAt s (wadd r (if r ≥ er then 1 else 0)) (wadd c (if c ≥ ec then 1 else 0)) x
  setLin s pos x :=
    let rows := ((m.view s).cofactor er ec).rows
    if rows = 0 then .ub .divZero
    else
      let r := pos / rows
      let c := pos % rows
      m.setAt s (wadd r (if r ≥ er then 1 else 0)) (wadd c (if c ≥ ec then 1 else 0)) x

/-- `View::operator=(const MatrixBase&)`, `operator=(const View&)`, `view.hpp:96-132`, and
`CofactorView::operator=`, `view.hpp:308-317`: asserts on the dimensions, then element by element. (Two cofactor views of the same type are
assigned by the implicit operator, which is `ViewMem.Cmd.rebind`.)
`rhs` is what the right operand shows in a given state (it may share data with the target). -/
def MRef.assign (dst : MRef S T) (rhs : S → MB R) (conv : R → T) (s : S) : Res S :=
  if (dst.view s).rows ≠ (rhs s).rows then .abort
  else if (dst.view s).cols ≠ (rhs s).cols then .abort
  else
    forRange 0 (rhs s).rows s fun r s' =>
      forRange 0 (rhs s).cols s' fun c s' => do
        let x ← (rhs s').at_ r c
        dst.setAt s' r c (conv x)

/-- `View::operator=(initializer_list<initializer_list>)`, `view.hpp:137-167`: a mismatch only prints
to `std::cerr` and leaves everything as it is. -/
def MRef.assignNested (dst : MRef S T) (l : List (List T)) (s : S) : Res S :=
  if l.length = 0 then .ok s
  else if (dst.view s).rows ≠ l.length then .ok s
  else do
    let first ← vget l 0
    if first.length = 0 then .ok s
    else if (dst.view s).cols ≠ first.length then .ok s
    else
      forRange 0 (dst.view s).rows s fun r s' => do
        let row ← vget l r
        forRange 0 (dst.view s).cols s' fun c s' => do
          let x ← vget row c
          dst.setAt s' r c x

end Malg
