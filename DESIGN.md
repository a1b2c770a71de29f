# Formal model of malg: design

The subject is the header-only library in `/repo/include/malg` (C++17, `ROW_MAJOR`
defined in `matrix_base.hpp:11`, asserts active as in the default Debug build).
The source is read as text; nothing is compiled or executed.
Properties are in `properties.jsonl`; the claim table is `MANIFEST.json`; seeded
bugs tried against the theorems are in `seeded/LOG.jsonl`.

## 1. Trusted base

* The Lean 4.33.0 kernel and the installed Mathlib.
* Axioms: at most `propext`, `Classical.choice`, `Quot.sound` (checked with
  `#print axioms` on every property theorem, see section 7). No own axioms, no
  `sorry`, no `native_decide`, no `bv_decide`, no `implemented_by`.
* The reading of the C++ text: every model definition cites the file and lines it
  transcribes. The step from the text to the definition is by hand.
* What is idealised is listed in section 3.

## 2. Shape of the model

* **Outcomes.** A C++ call is a value of `Res α`:
  `ok a | throw e | ub k | abort | exit n | diverge`. Undefined behaviour (out of
  range access, null dereference, use after free, double free, uninitialised
  read, division by zero, impossible allocation) is a distinct outcome, not a
  default value. Loops are fold-like combinators over index ranges; data
  dependent loops (`while`) take a fuel argument and return `diverge` when it is
  used up; theorems about them quantify over the fuel.
* **`std::size_t`.** `Nat` with explicit wrap-around (`wadd`, `wsub`, `wmul`
  modulo `2^64`). Allocating `2^63` or more elements is `ub allocFail` (realloc of
  more than `PTRDIFF_MAX` bytes fails, the result is not checked by the code and
  the following write goes through a null pointer).
* **Layer 1, memory of `Vector`** (`Model/VecMem.lean`): heap of blocks, raw
  pointers, `realloc`/`free`, an allocator oracle that decides for each call
  whether the block moves, stays or the call fails. Vector variables are slots
  holding `(_data,_size)`. The property theorems refine this to variables holding
  plain lists.
* **Layer 2, values.** A `Vector<T>` is a `List T` (justified by layer 1); a
  `Matrix<T>` is `(rows, cols, data)` (justified by C141, which follows programs over
  matrices to the heap, `Model/MatMem.lean`). `WF` says `data.length = rows*cols` below the
  allocation limit; moved-from matrices are not `WF`.
* **`MatrixBase` dispatch.** Read-only arguments `const MatrixBase<T>&` are a record
  `MB T` of the virtual functions (`rows, cols, size, empty, operator[], at`), with
  instances for `Matrix`, `View<M>` and `CofactorView<M>` (nestable).
  The specification side relates an `MB` to a Mathlib matrix
  `Matrix (Fin n) (Fin m) T`, which is independent of the model.
* **Mutable `MatrixBase<T>&` arguments** (in-place operators, view assignment) are
  references into a store of matrix variables, so aliasing between operands is
  represented.
* **Lifetimes of views** (`Model/ViewMem.lean`, C108): a heap of matrices, views and
  cofactor views, where a view has the address of another object; programs make, copy,
  change, write and destroy objects. Following a pointer to an object that has ended is
  `ub useAfterFree`. Addresses are never used twice (in C++ a stale pointer may by chance
  meet a new object; the behaviour is undefined all the same). `p = q` between two
  `CofactorView`s of one type calls the implicit copy assignment (the template in
  view.hpp:308-317 never is a copy assignment operator), which copies the pointer and the
  excluded indices: this is the command `rebind`. Types of views are not tracked: every
  chain of views also exists with pointers of type `MatrixBase<T>*`, where all cofactor
  views have one type.
* **Scalars.** Definitions only use notation classes (`Add`, `Mul`, ...); theorems
  that do not need laws have none (they also describe floating point, where `+` is
  not associative); theorems about determinants, inverses, polynomials etc.
  assume commutative rings or fields, i.e. exact arithmetic. Division is partial:
  `cdiv`.
* **Sessions with files** (`Model/Session.lean`, C120): a program is a sequence of statements
  `out << a << b ...;`. Which overload of `operator<<` prints an operand depends on the static
  type of what stands to its left (`std::ofstream` or `std::ostream`); the model carries that type.
* **Example programs** (`Model/Examples.lean`, C121, C122): the systems that
  `examples/sim_rlc_ct.cpp`, `sim_rlc_dt.cpp` and `pendulum.cpp` build, `operator()` of the models
  (the right side of the differential equation) and the loop of `sim_rlc_dt.cpp`. The integrator
  of the other two is not part of the repository; C121 is about exact solutions instead.
  Plotting and measuring of time are left out; the `stdout` of the loop is a list of triples.

## 3. Deliberate simplifications

* Exception messages are dropped, the exception class is kept.
* `Matrix<T>`/`Vector<T>` element types are assumed trivially copyable (as the code
  itself assumes by using `realloc`).
* Theorems about determinants, inverses, polynomials, norms etc. are over exact
  rings or fields. Rounding is modelled for C74 and from C79 on: `Model/Float.lean`
  has binary formats of any precision and smallest exponent with round to nearest
  even and gradual underflow (`Double` is the format of `double`). There is no largest
  exponent, hence no overflow, infinity or NaN, and no signed zero; `Model/Ieee.lean` adds
  them (one NaN, no exception flags) for C95 and C96. `Model/SInt.lean` has signed integers
  of `w` bits with one extra value for "overflow has happened", standing for the undefined
  behaviour of the expression (types of rank below `int` are promoted and not covered);
  unsigned integers are `ZMod (2^w)` (C94). Error bounds are proved from
  the standard model `Rounds` (`Lemmas/Float.lean`), and `Fl.rounds` proves that the
  formats satisfy it. Contraction (fused multiply-add) and extended intermediate
  precision are excluded. Theorems without algebraic hypotheses hold bit for bit.
* Compound types produced by mixed operands (`extract_common_type_t`) are modelled
  on the type level (C70), and the operators of `math.hpp` on values of two element
  types in `Model/Mixed.lean`; the other value-level functions are modelled for one
  element type, i.e. after the usual conversions.
* `feq::tolerance()` is a global variable in the code; the model passes it as an
  argument, theorems quantify over it.
* Random engines are an arbitrary stream of drawn values.
* Streams are character lists with the `good/fail/eof` state; the locale
  is the classic one. Element input and output is a codec
  (print, parse) with stated laws; the laws are proved for all integer types (parser
  of libstdc++: longest prefix of sign and digits, out-of-range values saturate and
  set failbit), for characters, and for complex numbers over them in the
  parenthesised two-part form that the library prints. Floating point numbers are
  printed and read with any number of digits in `Model/FloatIo.lean` (C112, C119).
  `Model/FloatWide.lean` drops the smallest exponent as well, for statements about
  computations that neither underflow nor overflow (C144).
* Layer 2 (`vnew`, `vresize`) lets an allocation of fewer than 2^63 elements succeed.
  This is exact for one-byte elements; for larger elements the real limit is lower
  and C04 describes what happens beyond it.
* Conversions between `Vector`/`Matrix` of different element types are modelled with
  a conversion function (`id` for equal types). The heap model has one element type.
* `Matrix::operator=(const Matrix<T2>&)` with `T2` different from `T` compares pointers
  of unrelated types and does not compile; it is not modelled.
* `linalg.hpp` and `control.hpp` are modelled for one element type; `inverse` and
  `div` of integer matrices, which return `double`, are in `Model/IntInv.lean`. Products of a
  matrix by a `double` factor are done in the element type. The division by
  `double(m)` in `poly` is a parameter: in the element type for C61, through
  `double` and back for the integers of C111. Loop counters of batches (`expm`) do not wrap.
* The type table of C70 is LP64 (`int` 32 bit, `long` 64 bit, `long double` 80 bit).
* Complex arithmetic is exact (no NaN or infinity recovery).
* Assertions are active: a failing one is the outcome `abort`.

### Check of the model against the tests of the project

`Verif/Check` has the test programs of the repository (`test_view`, `test_find`,
`test_utility`, `test_math`, `test_control`, `test_linalg`), transcribed and evaluated
in the model with the numbers of `double` and `int`. All comparisons succeed as they do
for the program: matrix exponentials of size 10^55 agree to six digits. (`main` of
`test_linalg.cpp` drops the result of its test, so nobody would see it fail.) One
comparison, the quotient in `test_int`, is undefined behaviour. With integers that wrap
around the model gives the values in the test, which are not the quotient (C118). The
checks are no theorems about the code and no property rests on them. `test_memory` and
`test_complex` compare nothing; `test_read_write_file` is C119.

## 4. Code that cannot be instantiated

These templates do not compile for any (or for the intended) argument and are
not modelled: `square_norm` for complex, `Vector(Vector<T2>&&)` and its assignment,
`Matrix(Matrix<T2>&&)` (so a temporary of another element type cannot be converted),
`sub_norm`/`vector_length` for complex outside the eigenvalue functions,
`infinity_norm` of complex vectors, comparisons of a floating with any other element
type (`std::max` of two types, `feq.hpp:29`).

`is_zero`, `is_constant`, `is_identity`, `is_orthogonal`, `is_invertible`,
`is_linearly_dependent/independent`, `vstack(mat,vec)`, `hstack(mat,vec)`
(`utility.hpp`), scalar `+=`/`-=` on matrices (return an abstract class by value),
scalar compound assignment on `Vector` (parameter is const), `scalar * Vector`,
`sign` (`math.hpp`), `hermitian_transpose` (`linalg.hpp`) and `to_cpp` (`io.hpp`) do
not compile either. They are modelled in `Model/Repaired.lean` with the least edit
that makes them compile; the header of that file lists the edits. C97–C101 are about
the edited text.

`qr_decomposition`, `solve` (`linalg.hpp`) and `obsv` (`control.hpp`) do not
compile either, but each needs one or two obvious edits only. They are modelled
with these edits (`Model/Qr.lean` lists them); what is proved about them (C87–C89)
is about the edited text, and this is said in the property statements. The same
goes for `hessenberg`, `qr_factorise_givens`, `QRHessenberg` and `eigenvectorUpper`
(`eigen.hpp`, edits listed in `Model/EigenQr.lean`, C90–C93) and the complex norms
and `vector_length` they call. Their number type is an ordered field with exact
square root and absolute value; `eps` is an arbitrary positive number.

## 5. Plan per property

| id | modelled | proof |
|----|----------|-------|
| C01 | Vector ctor/assign/resize/access over a heap, op sequences | refinement: simulation relation heap ↔ lists, induction over histories |
| C02 | same | ownership invariant, preserved by each operation; final state has no live block |
| C03 | `allocate`, `resize` | corollary of simulation with list spec `take n ++ replicate` |
| C04 | `allocate` with failing oracle / overflowing byte count | false: witnesses for null write and for a lost block; partial: no failure → C01 |
| C05 | copy, move | heap-level: frame of every operation on another slot |
| C06 | `at`, `[]`, writes | address bijection, get/set laws, no wrap under `WF` |
| C07 | constructors | list equations, error branches |
| C08 | `reshape` | iff |
| C09 | `resize` | entrywise; both paths |
| C10 | assignment operators, incl. assignment from a view of the target | false for empty source and self-view: witnesses; partial otherwise |
| C11 | op histories on matrix variables | invariant by induction + refinement to value semantics |
| C12 | moved-from matrix | false: witness; partial: which operations are safe |
| C13 | `rows*cols` wrap | false: witness 2^32 x 2^32; partial for products below the limit |
| C14 | `View` reads, nesting | entrywise against `Matrix.submatrix` |
| C15 | `View` writes | frame theorem through address maps |
| C16 | `View::operator=` | theorem for non-clobbering geometry, witness for overlap |
| C17 | `empty()` | false for views; partial for Matrix |
| C18 | view/extract dims | false: witness start > rows; partial |
| C19 | `CofactorView`, `cofactor` | against `submatrix succAbove`; `[]` false for non-square |
| C20–C25 | construction and editing utilities | entrywise theorems, error branches |
| C26 | predicates | iff; skew-symmetric false (diagonal), witness + what it decides |
| C27–C29 | `all_close`, `flatnonzero`, `find`, `compare` | iff; `find` with n and `compare` at 0 false, witnesses |
| C30 | `linspace`, `logspace` | arithmetic progression over ordered fields |
| C31, C32 | folds, generators | list equations |
| C33–C39 | arithmetic and comparison operators | entrywise; Mathlib matrix operations |
| C40 | `feq` | over ordered fields |
| C41–C45 | reductions | sums/`∑`, extremality, minimality |
| C46 | `element_wise_function` | false: results discarded; witness |
| C47–C49 | elementwise binary, transpose, powers | Mathlib operations |
| C50 | `determinant` | closed forms = `Matrix.det` over commutative rings for N≤4; elimination over fields for N≥5: equals det when det ≠ 0, never 0 otherwise (false) |
| C51 | `adjoint` | N≤5 = adjugate; false for N≥6 |
| C52 | `inverse`, `div` | N≤4 exact; N=5, N≥6 per C50/C51 |
| C53 | `lu_decomposition` | loop invariant: L*U = A |
| C54 | `exp` | false: transposed |
| C55 | `expm` | loop invariant |
| C56 | `factorial` | induction |
| C57, C58 | `simulate` | loop invariant, closed form; time axis false (last stamp 0) |
| C59 | `ctrb` | block columns |
| C60–C62 | `poly`, `polyreduce` | Mathlib polynomials; Faddeev–LeVerrier |
| C63 | `acker` | Cayley–Hamilton and cyclic covector |
| C64, C65 | `c2d`, generators | matrix equations |
| C66–C69 | `io.hpp` | printer/parser round trip on character lists |
| C70 | type traits | finite type lattice |
| C71 | complex arithmetic | algebra over a field |
| C72 | `*=`, `/=` with an element of the target | false: witnesses; partial for scalars elsewhere |
| C73 | `wilkinson_shift` | roots of the characteristic polynomial of the trailing block |
| C74 | `basis` over number formats (floats of any precision, wrapping unsigned, overflowing signed) | loop invariants on powers of two |
| C75 | `expm` over ℝ | Banach algebra bound for truncated exponential and repeated squaring |
| C76 | `expm` over ℝ | exact stopping rule, convergence of the Taylor sums, Neumann series for the divisor, bounded inverse (C142) beyond 5×5 |
| C77 | `simulate` over a field | closed form of the trajectory; linearity, causality, concatenation |
| C78 | `c2d` and `simulate` over ℝ | variation of constants; the state equation has one solution (mean value theorem) |
| C79 | products, sums in floating point | error of a left-to-right sum of terms with errors, induction; `Fl.rounds`: the format satisfies the standard model |
| C80 | same | integers of at most `p` digits are in the format, so no operation rounds |
| C81 | same | commutativity of the rounded operations only; differences by evaluation |
| C82 | `linspace` in floating point | error analysis per point; end point by evaluation in `double` |
| C83 | `simulate` in floating point | loop invariant over any number type, then error analysis; number of steps from the error of the quotient |
| C84 | `lu_decomposition` in floating point | loop invariant over any number type (`LuExec`), then error analysis of the recurrences; growth by evaluation |
| C85 | `determinant`, `adjoint`, `inverse` in floating point | intermediate results are integers of at most `p` digits |
| C86 | same | error propagation (`Near`) through the closed formulas; witnesses by evaluation in `double` |
| C87 | `qr_decomposition` with two repaired expressions | algebra of reflections (`Lemmas/Reflect`), loop invariant `QrInv`, dependence from a vanishing pivot |
| C88 | `solve` | composition of C87, C52, C48, C35; normal equations and orthogonality |
| C89 | `obsv` with a repaired initialisation | as C59; kernel by Cayley–Hamilton |
| C90 | `hessenberg` with repaired calls | complex reflections (`Lemmas/Hess*`), invariant `HessInv` over the passes |
| C91 | `qr_factorise_givens` with a repaired call | plane rotations, invariant `GivensInv` |
| C92 | `QRHessenberg` | loop invariant: unitary similarity; measure: remaining passes |
| C93 | `eigenvectorUpper` | invariant of back substitution; completeness by a polynomial in the matrix that kills all other eigenspaces |
| C94 | integers with an overflow value (`Model/SInt`), `ZMod (2^w)` | results that are numbers come from numbers (`Reads`), partial sums |
| C95 | IEEE numbers (`Model/Ieee`) | `Reads` relates them to the numbers without a largest exponent, C79 for those |
| C96 | the same | case distinctions on the special values, loops over them |
| C97 | repaired predicates (`Model/Repaired`) | search loops, C35, C50 |
| C98 | repaired `vstack`/`hstack` | loop over the new row or column after `Mat.resize_eq` |
| C99 | repaired compound assignments on references | the loops of C34 and C72 |
| C100 | repaired `hermitian_transpose`, `sign` | C48, C46 |
| C101 | text of `to_cpp`, a reader of braced lists (`Spec/CppText`) | induction over the printed list |
| C102 | `Model/Pointers` on the heap layer; owner of a block (`Spec/Pointers`) | the invariant of C01, following the owner through the program |
| C103 | `ctrb`, `obsv`, `simulate`, `acker`, `determinant` together | Cayley–Hamilton; C57, C59, C63, C89 |
| C104 | operators with conversions (`Model/Mixed`) | reduction to the operators on one type; loops of C34, C36 |
| C105 | `determinant`, `inverse`, `div`, `transpose`, `powm`, `trace`, `dot`, `poly` together | C35, C37, C41, C48–C52, C61 and the laws of Mathlib |
| C106 | `square_norm` and `infinity_norm` with `+`, `-`, `*`, `transpose`, `dot`, `inverse` | Cauchy–Schwarz in ordered fields; `infinity_norm` as a least upper bound |
| C107 | `square_norm` and `infinity_norm` in floating point | error of sums of products (C79); perturbation of the square root |
| C108 | programs with views: who points to what, who lives, what is seen | a chain of pointers longer than the heap goes in circles; unless cofactor views are rebound, pointers lead to older objects and never change; the references of C14 to C16 along them |
| C109 | eigenpairs end to end | only the upper part of T is read; unitary matrices keep lengths; Cauchy-Schwarz for what is below the diagonal; for hermitian matrices the spectral theorem and Birkhoff's theorem on doubly stochastic matrices |
| C110 | views of constant matrices | the traits on `const` types as a function of a flag; cases |
| C111 | `poly` with integers | the recursion of C61 with results that may be no numbers; exact quotients in `double` |
| C112 | floating point numbers in files | decimal and binary rounding compared; text of `%g` and the grammar of the reader |
| C113 | inverses in floating point | C86 for minors and determinant; errors of a quotient |
| C114 | correct rounding and order in floating point | rounding to nearest is monotone |
| C115 | powers, `ctrb`, `obsv` and `poly` of integer matrices in floating point | C85 for the algorithm of Faddeev and LeVerrier |
| C116 | accumulated rounding errors of powers, simulations and polynomials | C83 (one step) and C79 over many steps |
| C117 | the error of simulations of discretised systems | C78 says they are not the samples; this says how far off they are |
| C118 | inverses and quotients of integer matrices | computed in the integer type up to the last division; the project's own test overflows |
| C119 | a file keeps numbers up to the tolerance | the default precision of streams is one digit too small for the default tolerance |
| C120 | what is written to a file is read back in order | behind a number or a text in the same statement, vectors and matrices lose their header |
| C121 | the systems of the example programs are passive | `sim_rlc_ct.cpp` has the sign of one coefficient wrong; the circuit is unstable for all values of its parts |
| C122 | the discrete-time example prints what it says | announces 2000 samples and makes 2001 rounds in `double`; the output printed for a time is the one a step later |
| C123 | determinants of 5x5 and larger matrices up to rounding | rows are exchanged only for a zero pivot: with the pivot 2^-60 the result is -1, the determinant 1 - 2^-60 |
| C124 | `expm` in floating point | rounding errors of sums of matrix powers relative to the sums of absolute values; underflow of the inverse factorials |
| C125 | `expm` ends in double | measure of the series loop: inverse factorials underflow at 178! |
| C126 | `c2d` and `simulate` in floating point against the differential equation | perturbation of the exponential, drift of trajectories, rounding of C116; oscillator as a numeric instance |
| C127 | overflow in `expm`, `powm`, `ctrb`, `obsv`, `simulate` on IEEE doubles | the computed tables in both arithmetics; sizes of all intermediate results from C124; finite results read back as in C95. Disagreement: where the infinity norm overflows, `expm` silently returns the identity |
| C128 | `inverse`, `c2d`, `simulate` on IEEE doubles | finite results read back as in C95; sizes of all intermediate results as powers of two, which rounding respects; the real-number part of C126 reused |
| C129 | `Vector` of vectors | two heaps, one for the objects and one for their elements; a cell that was never stored to holds no object |
| C130 | `acker` in floating point | operator-norm bounds of C124 for the matrix polynomial; the coefficients of the characteristic polynomial of `A - b k` are affine in `k`, by the Markov parameters |
| C131 | `acker` on IEEE doubles | C130 transferred by reading off the finite case; exponents for the finite case; `C131_controllable_false`: a determinant that overflows is taken for zero and ends the process |
| C132 | norms of IEEE doubles | sums of squares carry no sign, so they are NaN only if a term is; error of C107 with the root computed by `Ieee.sqrt`. Disagreement: `infinity_norm` hides NaN, `square_norm` overflows at `2^512` |
| C133 | characteristic polynomials in floating point | induction over the recursion of Faddeev and Leverrier with a majorant that adds where the code subtracts; its row sums are `(n+k choose k) μ^(k+1)`. Disagreement: no relative accuracy of small coefficients |
| C134 | characteristic polynomials of IEEE doubles | finite results come from finite operands at each step, so the run agrees with the one of C133; sizes are tracked as powers of two. Disagreement: intermediate overflow |
| C135 | evenly spaced points on IEEE doubles | rounding to IEEE numbers, infinities included, is monotone in the exact result, so products and sums are; accuracy by agreement with the run of C82. Disagreement: the end can be overshot or overflow |
| C136 | LU of diagonally dominant matrices | Induction over the columns: what remains of every row stays dominant and its sum does not grow, up to the errors of the entries already computed (`DomInv`); the loop either ends or stops at a pivot that cannot be divided by (`lu_exec_stop`), which dominance excludes. |
| C137 | determinant of diagonally dominant matrices | The dominance of the remaining rows survives each step up to its rounding errors (`ElimDom`), which bounds the growth in C123 beforehand; a cofactor of a dominant matrix is at most the determinant over the dominance, so a perturbation of a row changes the determinant by a relative amount (`dom_det_perturb`). |
| C138 | LU decomposition of IEEE doubles | The run on IEEE doubles is compared with the run on doubles without largest number entry by entry (`lu_agree`); a zero pivot of the latter would leave a non-finite entry in the former. For dominant matrices the bounds of C136 limit every intermediate result. |
| C139 | determinant of large matrices of IEEE doubles | The elimination on IEEE doubles and on doubles without largest number in parallel, with the dominance of C137 as invariant; the dominance bounds the ratios by 2^47 and the growth the products. |
| C140 | products of complex matrices in floating point | The error calculus of C70 for the real and imaginary parts as sums of two products; moduli by the triangle inequality; conjugation commutes with rounding. |
| C141 | matrices over the heap of C01 | A simulation between the model of values (C11) and `Model/MatMem`: whatever a value-level operation returns, the heap-level one returns the same with the vectors owning the data; loops are related step by step. |
| C142 | `determinant`, `adjoint`, `inverse` of any size over a field | The elimination is a factorisation: the working copy is a unit lower triangular matrix times the rows of the input in some order, so the product of the pivots is a minor; when no pivot is left, the column is a combination of the previous ones. |
| C143 | pointers and memory requests of the programs of C141 | The specification says what becomes of a pointer and what an operation costs; loops only write elements, so each operation is a few calls of `Vector` members, followed block by block. A program reads only those decisions of the allocator that it asks for. |
| C144 | change of units | `Scaling` lists what numbers must satisfy: sums in one unit, products and quotients in the product and the quotient, a test for zero that does not see units. The tables of the generic-arithmetic lemmas (closed formulas, elimination, LU, Leverrier, Ackermann) are rescaled entry by entry; in the elimination both runs take the same branches. Exact numbers, floating point numbers without limits, and IEEE numbers with signs are instances. |
| C145 | zeros and symmetries survive rounding | `Absorbing Z` says that sums and differences of elements of `Z` and products with an element of `Z` are in `Z`; exact numbers, floating point numbers and IEEE numbers (zeros of both signs and NaN) are instances. The tables of the generic-arithmetic lemmas keep the patterns by induction over the loops. |
| C146 | permutations and matrices with one entry in every row | `Sparse isz Z E` lists what the elimination needs of zeros `Z` and entries `E`; exact numbers, floating point numbers and IEEE numbers (finite ones; both zeros are zeros) are instances. The loop invariant is that columns before `c` are done, the remaining rows are a permutation of the remaining entries, and the determinant carries the sign of the exchanges so far. |
| C147 | equal rows and columns are noticed | In rounded arithmetic `x - x` is zero, products commute and a sum that is zero absorbs a number that is added and subtracted again; the closed formulas are followed term by term. Counterexamples for all other pairs were found outside of Lean and are checked by evaluation in the model of `double`. |
| C148 | the block above the diagonal does not change the determinant | Two eliminations run side by side; zeros below and equality inside of the blocks are an invariant of a step, and a pivot search that starts in the upper block and leaves it finds only zeros. The laws of zero that are used hold for exact and for rounded numbers. |
| C149 | parts that do not depend on the rest are computed as if they were alone | Two executions are compared step by step: where the rows have entries the operands agree, elsewhere both products are zero. For the small system on its own the zeros at the end of a sum are dropped as well. |
| C150 | the coordinates of the state do not matter | The results of the functions are known as matrices (C49, C57, C59, C61, C63, C89); powers and controllability matrices of the transformed system are computed with `S^-1 S = 1`, the factors in front of the gain cancel. |
| C151 | stable systems stay bounded, however long they are simulated | One step maps the box `M v` into itself, rounding included; the distance from the exact trajectory satisfies `e' <= q e + δ`. In IEEE arithmetic the box being below the largest number keeps every partial sum finite, by induction on the steps. |
| C152 | discretising a stable system gives a stable system | The eigenvalues of a power of a Taylor sum are those of the sum at the scaled eigenvalues, which are at most one in magnitude; there the sum is close to the exponential, whose magnitude is `e^Re`. For one state the sum alternates. Boundedness of simulations then follows with C151. |
| C153 | feedback and observers designed with acker work | `(A - L C)` is the transpose of what `acker` places for the transposed pair; the distance of the observer satisfies `e' = (A - L C) e` whatever the inputs. An eigenvector of the whole gives one of the observer, or of the feedback if both halves are equal. Boundedness follows with C151. |
| C154 | discretising a system that loses what it exchanges gives a contraction | With a large multiple of the identity added the matrix has row sums below the multiple minus the rate, and the multiple commutes with everything: so the row sums of the exponential are at most `e^(-α t)`. Then C128 for the error of `expm` in `double` and C151 for the simulation. |
| C155 | what cannot become negative does not become negative | With the norm scaled to at most one the matrix is `P - 1` with `P` not negative; the Taylor polynomials of the exponential and of `(e^x - 1)/x`, expanded at minus one, have alternating sums of decreasing terms as coefficients. Squares and geometric sums keep the sign. |
| C156 | a discretised system rests where the system rests | What expm returns is a polynomial in the matrix and commutes with it, so that `A⁻¹ (Ad - 1) B u = -(Ad - 1) x` when `B u = -A x`. The difference from the point of rest evolves without input, by powers of `Ad`, and C152 bounds its eigenvalues. |
| C157 | a few impulses tell how a system answers to everything | Both matrices are zeros of the product of their characteristic polynomials, so that each power is the same combination of lower powers for both (division with remainder). |
| C158 | there is only one answer | Crout's factors column by column and row by row, with pivots that are not zero before the last; the gain is `c q(A)` for the row `c` that the controllability matrix determines and the characteristic polynomial `q` of the closed loop. |

## 6. Disagreements between properties and code

Each line is a theorem that proves, on the model, that the property as stated in
`properties.jsonl` does not hold, with a concrete witness or for a whole class of
inputs. The property keeps its full statement; what does hold is proved under
`_partial` names.

| theorem | source | what happens |
|---------|--------|--------------|
| `C04_leak_false` | vector.hpp: allocate | At the end of every history, shrinking a vector when the allocator refuses looks like a success. The block is live but belongs to no vector any more, and the remaining elements cannot be read. |
| `C04_overflow_false` | vector.hpp: allocate | A size that needs more than half of the address space is never reported. Either the request is refused, or a block that is too small is granted and written beyond its end. |
| `C04_report_false` | vector.hpp: allocate | At the end of every history, growing a vector when the allocator refuses writes through a null pointer. Nothing is reported. |
| `C10_empty_false` | matrix.hpp: operator= | `A = Matrix()` does not make `A` empty. |
| `C10_own_view_false` | matrix.hpp: operator= | Assigning a view of the target destroys it; `A = A(Range{0,1}, Range{0,1})` yields zero instead of `A(0,0)`, and a view that does not start at the first row reads freed storage. |
| `C11_empty_false` | matrix.hpp: operator= | In general: a matrix that is assigned an empty matrix does not become empty, whichever of the two assignments is used, and reports its old elements. |
| `C12_moved_from_false` | matrix.hpp: move constructor/assignment | A moved-from matrix still reports its old shape, but every element access within that shape is undefined, and so is copying it. |
| `C12_resize_columns_false` | matrix.hpp: move constructor/assignment | Resizing a moved-from matrix to another number of columns is undefined: the elements to keep are read from the storage that is gone. |
| `C12_resize_same_shape_false` | matrix.hpp: move constructor/assignment | Resizing a moved-from matrix to its own shape does not repair it. |
| `C13_reshape_wrap_false` | matrix.hpp: constructors, reshape | For `reshape`: a `2 × 2` matrix is accepted as a `3 × 12297829382473034412` matrix because the product wraps to 4. |
| `C13_wrap_false` | matrix.hpp: constructors, reshape | `Matrix(2^32, 2^32)` succeeds and holds no element although its dimensions promise `2^64`; reading `(0,0)` is then undefined. |
| `C16_cofactor_false` | view.hpp: View::operator= | Assignment to a `CofactorView` of a `CofactorView` of the same type does not copy the elements, as all other assignments to views do (`C16_assign_partial`): seen through another view `p'` of what `p` shows, nothing changes. |
| `C16_overlap_false` | view.hpp: View::operator= | For overlapping views: with `A = [1 2 3]`, `A(:, 1..2) = A(:, 0..1)` gives `1 1 1`, not `1 1 2`. |
| `C17_view_false` | matrix_base.hpp, view.hpp: empty | For views: every `View` and every `CofactorView` reports to be empty, whatever it shows. |
| `C18_extract_false` | view.hpp: View::rows/cols; utility.hpp:334 extract | For `extract`: from a `2 × 2` matrix it returns one that claims `(2^64-1) × (2^64-1)` elements over a single storage cell. |
| `C18_view_false` | view.hpp: View::rows/cols; utility.hpp:334 extract | A view starting beyond the last row reports almost `2^64` rows. |
| `C19_linear_false` | view.hpp: CofactorView::operator[] | For linear access on non-square matrices: it divides by the number of rows. |
| `C26_skew_false` | utility.hpp:535 | For `is_skew_symmetric`: the `1 × 1` matrix `(5)` is accepted although `5 ≠ -5`. |
| `C28_find_fewer_false` | utility.hpp:937 | , what `find` returns for fewer: with `s` the first position, `s` times the number `s + n` instead of the first `n` positions, and `s + count - n` times the number `s + count` instead of the last `n`. |
| `C28_find_first_n_false` | utility.hpp:937 | For `find(A, n)`: asking the row `1 1 1` for two positions gives none, because the iterator range is written as a count and a value. |
| `C29_index_zero_false` | utility.hpp:967, 992 | Matrices (and vectors) that differ in their first element compare as equal. |
| `C30_close_false` | utility.hpp:791, 834 | When the endpoints differ but count as the same: all points are the stop value. |
| `C30_int_false` | utility.hpp:791, 834 | For integer element types: `linspace<int>(0, 5, 4)` is `0 1 2 3`. |
| `C30_single_false` | utility.hpp:791, 834 | For one point: the start is dropped. |
| `C36_narrow_false` | math.hpp:232 | For a right operand with fewer columns: `A` keeps its shape and gets columns of zeros. |
| `C36_wide_false` | math.hpp:232 | For a right operand with more columns: the temporary is written out of bounds. |
| `C37_long_false` | math.hpp: operator*(Matrix, Vector) | A longer vector is accepted and its tail ignored. |
| `C37_short_false` | math.hpp: operator*(Matrix, Vector) | With a shorter vector every non-empty product reads out of bounds. |
| `C41_trace_tall_false` | math.hpp:1218 | For every matrix with more rows than columns: `trace` reads behind the storage. |
| `C44_view_false` | math.hpp:1435, 1456 | For views: a view always calls itself empty, so both norms return 0, and `sub_norm` accepts a non-square view. |
| `C45_view_false` | math.hpp:1482 | For views: the view of `[8]` gives no halving, the matrix gives 3. |
| `C46_false` | math.hpp:991, 1008 | `abs` of a vector returns its argument, `abs` of a matrix returns zeros. |
| `C46_parts_false` | math.hpp:991, 1008 | `imag([1+2i])` is `[1+2i]` and `real` of the matrix `[1+2i]` is zero. |
| `C47_mixed_false` | math.hpp:1184, 1196 | For mixed element types: `element_wise_product` of an integer matrix and a real one truncates the real entries first (`3 * 1.5` gives 3), and so does `linear_combination`. |
| `C49_empty_false` | linalg.hpp:47 | For the empty square matrix: `eye` rejects it. |
| `C50_int_false` | linalg.hpp:120 | For integer matrices: the ratios are truncated. |
| `C50_singular_false` | linalg.hpp:120 | For every singular matrix larger than 4×4 the result is not zero. |
| `C51_false` | linalg.hpp:202 | For every matrix larger than 5×5 that has a zero cofactor the result has no zero entry there. |
| `C52_identity_false` | linalg.hpp:232 | The identity is not inverted from 6×6 on. |
| `C52_singular_false` | linalg.hpp:232 | No singular matrix larger than 4×4 is reported; a matrix of the full size is returned. |
| `C52_six_false` | linalg.hpp:232 | For a non-singular matrix larger than 5×5 whose inverse has a zero entry (such as the identity) the result is not the inverse; it has no zero entry at all. |
| `C54_exp_false` | linalg.hpp:387 | On a 1×2 matrix the result is 2×1. |
| `C57_negative_false` | control.hpp:129 | For negative durations of at least one step: the conversion to `std::size_t` is undefined. |
| `C58_last_false` | control.hpp:129 | For every simulation with at least one step: the last time stamp is zero, not `steps * dt`. |
| `C63_few_poles_false` | control.hpp:291 | For pole lists that are too short: they are not rejected, the coefficients are read out of bounds. |
| `C63_many_poles_false` | control.hpp:291 | For pole lists that are too long: they are not rejected, and the poles of the result are others. The system is `x' = u`, the poles asked for are `1` and `2`; the gain `-3` puts the only pole at `3`. |
| `C63_uncontrollable_false` | control.hpp:291 | From five states on: no uncontrollable pair is detected, a gain is returned for all of them. |
| `C63_view_false` | control.hpp:291 | A view is always `empty()`, so poles taken from a matrix through a view are refused. |
| `C64_no_io_false` | control.hpp:88 | For systems without inputs, and for systems without outputs: the assertions end the process. |
| `C64_singular_false` | control.hpp:88 | From five states on: every singular system matrix is accepted. |
| `C66_char_false` | io.hpp: operator<<(ofstream) | A vector of characters with a blank in it is written, but reading what was written takes the next character that is not white space instead, here that of the vector after it. |
| `C66_precision_false` | io.hpp: operator<<(ofstream) | Whenever two different values are printed alike, one of them does not survive the round trip. The library writes floating point numbers with the precision of the stream, six digits by default. |
| `C67_cofactor_false` | io.hpp: operator<</>> (fstream) | Writing a cofactor view that is not square reads outside the matrix. |
| `C67_moved_target_false` | io.hpp: operator<</>> (fstream) | Reading into a matrix that was moved from writes outside its storage when the file has the shape the target still claims to have. |
| `C68_cut_number_false` | io.hpp: operator>> | A file cut inside its last number is accepted with a wrong value; the stream does not fail. |
| `C68_empty_false` | io.hpp: operator>> | An empty file, or one with white space only, makes the reader look at an uninitialised tag. |
| `C68_failed_stream_false` | io.hpp: operator>> | The same happens on a stream that has failed before, for example because the file could not be opened. |
| `C68_foreign_text_false` | io.hpp: operator>> | A foreign text that happens to start with the tag letter empties the target. |
| `C68_mixing_false` | io.hpp: operator>> | A truncated file leaves a target that mixes the old and the new data. |
| `C68_negative_size_false` | io.hpp: operator>> | A negative size is taken modulo `2^64`, one that does not fit becomes `2^64 - 1`, and the allocation fails unchecked. |
| `C68_no_size_false` | io.hpp: operator>> | A file that ends after the tag makes the reader resize the target to an uninitialised size. |
| `C69_cofactor_false` | io.hpp: operator<<, to_string | Printing a cofactor view that is not square reads outside the matrix. |
| `C69_flags_false` | io.hpp: operator<<, to_string | The padding is measured without the format flags of the stream, so with `std::showpos` the columns are not padded to the longest entry. |
| `C70_float_false` | type_traits.hpp | An integer operand meeting a floating one with a shorter significand loses values. |
| `C70_sign_false` | type_traits.hpp | A signed operand meeting an unsigned one that is at least as wide loses its negative values. |
| `C72_div_false` | math.hpp:262, 294 | For division: `[2 8] /= A(0,0)` gives `[1 8]` instead of `[1 4]`. |
| `C72_mul_false` | math.hpp:262, 294 | Scaling `[2 3]` by its first element in place gives `[4 12]` instead of `[4 6]`. |
| `C73_empty_false` | eigen.hpp:26 | For the empty matrix: the index of the last row wraps around and the matrix is read outside its storage. |
| `C74_signed_false` | utility.hpp:27 | For signed integer types: the loop overflows. |
| `C74_unsigned_false` | utility.hpp:27 | For unsigned integer types: the loop never ends. |
| `C75_accuracy_false` | linalg.hpp:403 | `expm([[32]], 1e-05)` returns a number that is more than ten million below `e³²`. |
| `C76_false` | linalg.hpp:403 | With accuracy 1 the call `expm([[0 0 1][0 0 1][0 0 0]], 1)` throws `invalid_argument`, although the matrix is square and non-empty, because the divisor of the relative change is singular. |
| `C78_expm_false` | control.hpp:88 | With the library's `expm` and the accuracy `1e-05` that `c2d` uses: for `x' = 32 x`, sampled once per second, from `x = 1`, the simulated state after one second is more than ten million below the solution `e³²`. |
| `C82_end_false` | utility.hpp:791 | `linspace(0.0, 1.0, 50)` ends at `1 - 2^-53`, not at `1`. |
| `C83_steps_false` | control.hpp:129 | In `double`, `simulate` for `0.3` seconds with a sample time of `0.1` seconds and three inputs does two steps only. |
| `C84_growth_false` | linalg.hpp:310 | There is no pivoting, so the error can be as large as the matrix. In `double`, the product of the factors of `[2^-60 1; 1 1]` is `[2^-60 1; 1 0]`. |
| `C86_regular_false` | linalg.hpp:120, 232 | A regular matrix is reported as singular. The determinant of `[1 + 2^-30, 1; 1, 1 - 2^-30]` is `-2^-60`; in `double` the result is zero. |
| `C86_singular_false` | linalg.hpp:120, 232 | A singular integer matrix (the last row is the sum of the others) has the determinant `-64` in `double`, and `inverse` returns a matrix for it. |
| `C87_dependent_false` | linalg.hpp:259-303, 283, 269 | If one of these columns depends on the others, the computation divides by zero. |
| `C87_wide_false` | linalg.hpp:259-303, 283, 269 | No matrix with more columns than rows is decomposed; past the last row an empty column is accessed, if no division by zero occurred before. |
| `C88_dependent_false` | linalg.hpp:352-371, 236 | Dependent columns make the decomposition divide by zero. |
| `C88_many_false` | linalg.hpp:352-371, 236 | With six or more unknowns there is, for every tall matrix with independent columns, a solvable system that is not solved: the inverse of the triangular factor is computed without any zero entry. |
| `C88_no_unknowns_false` | linalg.hpp:352-371, 236 | A system without unknowns ends in a failed assertion. |
| `C88_rows_false` | linalg.hpp:352-371, 236 | More dependent rows are answered by some vector, also if there is no solution. |
| `C88_singular_false` | linalg.hpp:352-371, 236 | Larger singular systems are answered by some vector, also if they have no solution. |
| `C88_six_false` | linalg.hpp:352-371, 236 | Beyond 5×5 a non-singular matrix whose inverse has a zero entry is solved wrongly for some right-hand side. |
| `C90_unitary_false` | eigen.hpp:48-90, 72 | For every `eps` there is a 3×3 matrix for which the returned `P` is not unitary and the returned `H` is not similar to the matrix: the eigenvalue 1 has become 1/4. |
| `C92_eigenvalues_false` | eigen.hpp:142-190 | For every `eps`, every tolerance and every number of passes there is a 3×3 matrix with eigenvalues 1, 0, 0 for which the returned `T` has the trace 1/4; it does not have the eigenvalues of the matrix. |
| `C93_repeated_false` | eigen.hpp:198-256, 227-232 | For every `eps` the matrix `[[1, eps/2], [0, 1]]` has no basis of eigenvectors, but the flag says that one was found; the second column is `(0, 1)`, which is no eigenvector. |
| `C94_determinant_false` | math.hpp:1205-1213; linalg.hpp:136-138 | As a statement about results: the determinant is `1`, the closed formula overflows. |
| `C94_sum_false` | math.hpp:1205-1213; linalg.hpp:136-138 | As a statement about results: the sum `INT_MAX + 1 - 1` is representable, `sum` overflows; with the terms in another order it does not. |
| `C95_representable_false` | math.hpp: dot; linalg.hpp: determinant | What C95 does not promise: results that could be represented, `0` and `1`, are lost by overflow on the way. |
| `C96_all_close_nan_false` | feq.hpp:26-30, 58-62; utility.hpp:618-633 | , the negation for `all_close`: a matrix of NaN is close to every matrix of its shape, whatever the tolerance. |
| `C96_equal_inf_false` | feq.hpp:26-30, 58-62; utility.hpp:618-633 | , `A == b` with an infinite `b`: true for the entries that are neither NaN nor that infinity, so for all finite ones and for the opposite infinity. |
| `C96_inverse_false` | feq.hpp:26-30, 58-62; utility.hpp:618-633 | For `inverse`: a multiple of the identity whose determinant overflows has no inverse, although the inverse is representable; its entries are `2^-600`. |
| `C96_inverse_overflow_false` | feq.hpp:26-30, 58-62; utility.hpp:618-633 | , `inverse`: when the determinant overflows the matrix counts as singular. |
| `C96_simulate_false` | feq.hpp:26-30, 58-62; utility.hpp:618-633 | For `simulate`: with a sample time of zero the number of steps is cast from an infinity or a NaN, which is undefined. |
| `C97_empty_false` | utility.hpp:666-670; linalg.hpp:141-175 | For the empty matrix, which is the 0×0 identity: both predicates throw. |
| `C97_invertible_false` | utility.hpp:666-670; linalg.hpp:141-175 | With more than four rows every matrix is called invertible and linearly independent. |
| `C97_orthogonal_false` | utility.hpp:666-670; linalg.hpp:141-175 | For floating point elements: a matrix that is not orthogonal is accepted, for every positive tolerance (below 1), and one whose product with its transpose is as close to the identity is rejected. |
| `C99_alias_false` | math.hpp:85-91, 163-169, 720-726, 872-878 | When the number is an element of the target: `[2 3] -= A(0,0)` gives `[0 3]` instead of `[0 1]`, and `[2 3] *= a[0]` gives `[4 12]` instead of `[4 6]`. |
| `C100_sign_false` | math.hpp:1129-1146, 1063-1073 | Zero has sign −1, and `sign` returns its argument (vectors) or zeros (matrices) whatever the function computes. |
| `C101_complex_false` | io.hpp:329-375 | For complex numbers: `1+2i` is no item of such a list, neither as an integer nor as a pair. |
| `C101_empty_false` | io.hpp:329-375 | For matrices without entries: all matrices without rows print alike, whatever their number of columns, and the list printed for a matrix without columns makes the constructor throw. |
| `C102_view_false` | view.hpp:171-181 | For views: `data()[0]` of the view of the second column is the first element of the matrix. |
| `C103_test_false` | linalg.hpp:120-198 | Beyond four states: for every system whose input does nothing at all the determinant is not zero, although the system never leaves the state of rest. |
| `C104_compound_false` | math.hpp:21-57, 99-135, 177-215, 276-287 | In place is not the same as out of place. With an `int` matrix on the left, `A + B` is `[1.5]` and `A * 0.5` is `[0.5]`, but `A += B` leaves `[1]` and `A *= 0.5` leaves `[0]`; a result that is no `int` is undefined. |
| `C104_sign_false` | math.hpp:21-57, 99-135, 177-215, 276-287 | For negative numbers next to unsigned ones: `[-1] + [0u]` is `[4294967295]`, equal to `[-1]` according to `==`, but `[-1] < [0u]` does not hold. |
| `C105_inverse_false` | linalg.hpp:20-60, 120-198, 300-381 | Beyond 5×5: the inverse of the inverse of the 6×6 identity is not the identity, and the product of its inverse with itself is not its inverse. |
| `C105_product_false` | linalg.hpp:20-60, 120-198, 300-381 | For every size beyond four: `determinant(A * B)` is not `determinant(A) * determinant(B)` for the zero matrix and twice the identity. |
| `C105_transpose_false` | linalg.hpp:20-60, 120-198, 300-381 | A singular 5×5 matrix and its transpose get different determinants. |
| `C106_view_false` | math.hpp:1373-1450 | For views: the infinity norm of every view is zero, also of one that shows the whole of a matrix whose norm is not zero; so a norm of zero does not mean a zero matrix, and adding two views gives a matrix whose norm is larger than the sum. |
| `C107_overflow_false` | math.hpp:1373-1450 | Of very long vectors: the length of the vector with the single element `2^520` comes out as infinity. |
| `C107_underflow_false` | math.hpp:1373-1450 | Of very short vectors: in `double`, the length of the vector with the single element `2^-540` comes out as 0, whatever `std::sqrt` does (`std::sqrt(0)` is 0), although `2^-540` is a `double`. |
| `C108_cycle_false` | view.hpp:40-400; matrix.hpp:440-520 | A cofactor view can even be made to show itself; asking for its size then never ends. |
| `C108_rebind_false` | view.hpp:40-400; matrix.hpp:440-520 | A cofactor view in an outer scope, assigned one of a matrix in an inner scope, dangles when the inner scope is left; the assignment looks like all the others that copy elements. |
| `C108_shrink_false` | view.hpp:40-400; matrix.hpp:440-520 | A view is not told when its matrix shrinks. The view of the last row of a `3 × 2` matrix that is then resized to `1 × 2` claims `2 ^ 64 - 1` rows, and reading its first element is out of bounds, although the matrix lives. |
| `C108_temporary_false` | view.hpp:40-400; matrix.hpp:440-520 | A view does not keep what it shows alive. In `auto V = (A + B)(Range::all(), Range::all());` the sum ends with the statement, and every use of the living view `V` is undefined. |
| `C109_eigenvalues_false` | eigen.hpp:141-256 | With the constants of the code, no warning is printed for a lower triangular matrix with the eigenvalues 0, 1, 0, for which 0, 1/4, 0 are returned; the vector that is reported for 1/4 is an eigenvector for 1. |
| `C110_equal_false` | type_traits.hpp:16-54, math.hpp:309-499, 1166-1177, 1394-1409, io.hpp:300-321 | The verdict of `==` on the same complex entries depends on `const`: two numbers within the tolerance are equal as entries of matrices and different as soon as one of the matrices is seen through a view of a constant matrix. |
| `C110_matlab_false` | type_traits.hpp:16-54, math.hpp:309-499, 1166-1177, 1394-1409, io.hpp:300-321 | For them: `to_matlab` writes `(re,im)` instead, two numbers to matlab. |
| `C110_mode_false` | type_traits.hpp:16-54, math.hpp:309-499, 1166-1177, 1394-1409, io.hpp:300-321 | For complex elements: one view of a constant matrix among the operands and the comparison is exact. |
| `C110_narrow_false` | type_traits.hpp:16-54, math.hpp:309-499, 1166-1177, 1394-1409, io.hpp:300-321 | For `cA(rows, cols) + b` with a complex matrix and a real operand of another type: the result keeps the parts of the view, so `complex<float>` with `double` is rounded and `complex<int>` with `double` is truncated, whereas without the view the parts are `double`. |
| `C110_norm_false` | type_traits.hpp:16-54, math.hpp:309-499, 1166-1177, 1394-1409, io.hpp:300-321 | The norm of a complex matrix seen through a view of a constant matrix can be 0 although the matrix is not: `(1, i)`, for whatever complex square root. |
| `C110_result_false` | type_traits.hpp:16-54, math.hpp:309-499, 1166-1177, 1394-1409, io.hpp:300-321 | For `cA(rows, cols) + B` and `B + cA(rows, cols)` on complex elements: the element type of the result is `std::complex<std::complex<T>>`, whatever `T`. |
| `C111_unsigned_false` | control.hpp:208-283 | For unsigned elements the quotient of the wrapped trace is not the wrapped quotient; `poly` of the identity. |
| `C111_wide_false` | control.hpp:208-283 | `poly` divides by a `double`, so for 64 bit integers the coefficients are rounded to 53 binary digits although nothing overflows. |
| `C112_lossy_false` | io.hpp:21-211 | With the default precision a third of one is not read back. |
| `C112_overflow_false` | io.hpp:21-211 | With five digits the largest `double` is written as a number that is too large, reading fails there and the elements after it are not read. |
| `C112_widen_false` | io.hpp:21-211 | Digits enough for `float` are not enough when the file is read into a vector of `double`: one tenth in `float`, written with nine digits, is another number as a `double`. |
| `C113_inaccurate_false` | linalg.hpp:116-257 | Without the condition: the inverse of this regular matrix is `2^25` times too small. Its determinant is `2^-78 + 2^-104`, in `double` it is `2^-53`. |
| `C118_five_false` | linalg.hpp:120-257,377-381 | For five rows: `determinant` eliminates with integer quotients. This matrix of determinant -1 has an inverse of integers; nothing overflows, and what is returned is no inverse. |
| `C118_own_test_false` | linalg.hpp:120-257,377-381 | For the test of the project itself: `div` of its two `int` matrices overflows. With results that wrap around, as a processor computes them, it gives the values which the test expects. They are not the quotient: with 64 bits nothing overflows and the result is another one, and it is a third one for the same matrices of `double`. |
| `C118_reference_false` | linalg.hpp:120-257,377-381 | The values which the test expects, multiplied exactly by the second matrix, do not give the first one: the first entry of the product is larger than 170, the first entry of the first matrix is -77. |
| `C119_default_false` | io.hpp:99-210 | With the default settings, six digits and the tolerance `1e-06`: 1.0000049 is written as 1, and `==` tells the difference. |
| `C120_adjacent_false` | io.hpp:52-144,162-210 | Right behind a number too: `out << 2 << v` has no header, and the first element is joined to the number. |
| `C120_order_false` | io.hpp:52-144,162-210 | A vector that is written behind a number in the same statement has no header. Reading it leaves the variable as it was, and the stream does not fail. |
| `C120_title_false` | io.hpp:52-144,162-210 | For a matrix too: `out << "A\n" << A`, whose title is skipped by the reader; the first character of the first element is lost, and the number that is read next is a wrong one. In a statement of its own the matrix is read. |
| `C121_rlc_ct_energy_false` | examples/sim_rlc_ct.cpp:64-89,examples/sim_rlc_dt.cpp:43-56,examples/pendulum.cpp:73-102 | In `sim_rlc_ct.cpp` there is, for all values of the parts, a solution without input whose energy grows beyond all bounds; with the values of the program (1, 0.5, 0.5) it starts with 1 V. |
| `C121_rlc_ct_false` | examples/sim_rlc_ct.cpp:64-89,examples/sim_rlc_dt.cpp:43-56,examples/pendulum.cpp:73-102 | The circuit of `sim_rlc_ct.cpp`, whatever its resistance, inductance and capacitance. With one sign wrong, a deviation in the direction `(C λ, 1)` grows like `e^{λ t}` with a positive `λ`, whatever the input and the solution it is added to. |
| `C122_count_false` | examples/sim_rlc_dt.cpp:21-25,34-39,65-95 | With the constants of the program, in `double`, 2000 samples are announced and 2001 rounds are made, for every input and every discretised system. |
| `C122_late_false` | examples/sim_rlc_dt.cpp:21-25,34-39,65-95 | The program, over the real numbers, with an exact exponential. The second line it prints, for 1 ms, shows a voltage above zero; the voltage of the circuit is still zero then, because the first sample of the input is zero. |
| `C122_one_more_false` | examples/sim_rlc_dt.cpp:21-25,34-39,65-95 | Otherwise there is one round more than announced. |
| `C123_tiny_pivot_false` | include/malg/linalg.hpp:159-196, 231-257 | A tiny pivot is not exchanged, and the other rows are lost by rounding; the loop is left as if the matrix were singular, with the product of the pivots so far. The determinant of the matrix is `1 - 2^-60`, the result is `-1`; the sum of the absolute values of the products in the determinant is about three. |
| `C127_norm_false` | linalg.hpp:46-54, 398-445; math.hpp:1431-1493; control.hpp:108-198 | For larger elements: where the sum of a row overflows, `log2_ceil` halves the scale until it is zero, and `expm` returns the identity. The exponential is representable here, and the identity is wrong by `2^1023`. |
| `C129_grow_false` | vector.hpp:41-104, 193-197, 328-360 | A vector of vectors cannot grow. Whatever its elements are (`cells`), however large it is, and wherever the allocator puts the block, `allocate` for more elements is undefined: if the memory is granted because an object is read that does not exist, if it is refused because a null pointer is followed. |
| `C129_list_false` | vector.hpp:41-104, 193-197, 328-360 | No list of vectors can be made a vector, except the empty one. |
| `C130_controllable_false` | control.hpp:160-192, 247-321, linalg.hpp:44-60, 120-256 | A controllable system whose determinant is lost by rounding is refused: `A = diag (1, 1 + 2^-52)`, `B = (13/8 + 2^-52, 11/8 + 2^-52)`. |
| `C131_controllable_false` | control.hpp:160-192, 247-321, linalg.hpp:44-60, 120-256, feq.hpp:20-44 | A controllable system with finite numbers is refused because the determinant of its controllability matrix overflows: `A = (0 2^600; 0 0)`, `B = (0, 2^600)`. For the poles `p` and `q` the gains would be `(p q / 2^1200, -(p + q) / 2^600)`. |
| `C132_nan_false` | math.hpp:1166-1177, 1377-1450 | Of `infinity_norm` with NaN: a matrix of NaN has norm zero, and the norm of a vector depends on where the NaN is. |
| `C132_range_false` | math.hpp:1166-1177, 1377-1450 | At the ends of the range: with `std::sqrt` as IEEE defines it, the computed length of a vector with the single element `2^512` is infinite and that of one with `2^-538` is zero, although both lengths are doubles. |
| `C133_relative_false` | control.hpp:247-283 | For relative errors: the determinant of `diag(1, 2^-60)` is `2^-60`, and `determinant` returns it, but the last coefficient of `poly` is `2^-61`. |
| `C134_overflow_false` | control.hpp:247-283 | , the part that fails: a product overflows and is then multiplied by zero, although the matrix and the coefficients of its characteristic polynomial `x^3 - 2^600 x^2` are doubles. |
| `C135_end_false` | utility.hpp:791-824 | , what fails: from 1 to 26 in 11 steps the last point is beyond 26. From 0 to the largest double in three steps the last point is infinite. If the difference of the endpoints overflows, no point is right. An infinite end swallows all points, and a NaN makes them NaN. |
| `C136_weak_false` | linalg.hpp:310-346 | The dominance has to be strict: a matrix whose diagonal only reaches the sum of the other entries can make the code divide by zero. |
| `C138_pivot_false` | linalg.hpp:310-346 | Where a pivot vanishes, the decomposition returns infinities without notice, even of an invertible matrix. |
| `C138_small_false` | linalg.hpp:310-346 | A pivot that is merely small makes the factors useless, although they are finite: of `[[2^-60, 1], [1, 1]]` they multiply to `[[2^-60, 1], [1, 0]]`. |
| `C139_overflow_false` | linalg.hpp:119-196 | Without the dominance, an infinite entry that the elimination produces passes for zero, and the product of the pivots so far is returned. All entries of the matrix lie between `2^-600` and `2^600` or are zero, and its determinant is about `-2^600`; the result is `2^-600`. |
| `C140_parts_false` | math.hpp:177-197 | Of the parts: `(1 + 2^-30 + i)(1 - 2^-30 + i)` has the real part zero in `double`, and not zero exactly. |
| `C141_refused_false` | matrix.hpp:26-467 | When memory is short: a matrix with elements whose block is refused is written through a null pointer. Nothing is reported, neither by an exception nor otherwise. |
| `C144_regular_false` | linalg.hpp:60-330, control.hpp:100-420, math.hpp:150-330 | Does not hold for determinants of all regular matrices either: if rounding turns a pivot into zero the rows that follow do not count. |
| `C144_singular_false` | linalg.hpp:60-330, control.hpp:100-420, math.hpp:150-330 | Does not hold for determinants of singular matrices: the elimination stops at a column without pivot and returns the product so far, whatever happens to the rows and columns that were not reached. |
| `C145_covariance_false` | linalg.hpp:60-330, control.hpp:340-420, math.hpp:150-330 | The laws of exact numbers go further: `A * P * transpose(A)` is symmetric if `P` is. In doubles it is not, here the places (0, 1) and (1, 0) differ. |
| `C145_isolated_false` | linalg.hpp:60-330, control.hpp:340-420, math.hpp:150-330 | Does not hold for simulations in which states overflow: the first state is not connected with anything and should stay `1`; after the second state has become infinite it is NaN. |
| `C145_overflow_false` | linalg.hpp:60-330, control.hpp:340-420, math.hpp:150-330 | Does not hold for triangular matrices of doubles whose elimination overflows: the determinant is `2^-1000`, the result NaN. |
| `C145_six_false` | linalg.hpp:60-330, control.hpp:340-420, math.hpp:150-330 | Does not hold for the inverses of 6x6 matrices: the inverse of the identity has an entry that is not zero outside of the diagonal. |
| `C145_symmetric_false` | linalg.hpp:60-330, control.hpp:340-420, math.hpp:150-330 | Does not hold for the inverses of symmetric 4x4 matrices: they are not symmetric. |
| `C146_infinite_false` | linalg.hpp:113-210, 230-260, math.hpp:250-330 | Needs finite numbers: a product that exchanges `+inf` and 1 gives NaN and `+inf`. |
| `C146_order_false` | linalg.hpp:113-210, 230-260, math.hpp:250-330 | Is about matrices with more than four rows: the product of the entries is formed in another order for 3×3, and the numbers differ. The formula of `C146_monomial` would give `2^600 * 2^600 * 2^-600`, which overflows; the result is `2^600` |
| `C147_columns_false` | linalg.hpp:119-260 | Does not hold for any pair of columns of matrices with four rows. |
| `C147_overflow_false` | linalg.hpp:119-260 | Needs products that do not overflow: with `2^600` in all places the determinant is NaN, and `inverse` returns NaNs. |
| `C147_rows_false` | linalg.hpp:119-260 | Does not hold for the other pairs of rows: the determinants of these matrices of tenths are not zero and `inverse` returns a matrix. |
| `C148_infinite_false` | linalg.hpp:119-200 | Needs finite numbers: an infinite number above makes the determinant NaN. |
| `C148_lower_false` | linalg.hpp:119-200 | Does not hold for blocks below and matrices with more than four rows: if the upper block is singular (here it is zero), the elimination takes a row of the lower block as pivot row. Both matrices are singular; the results are 1 and -4. |
| `C149_expm_false` | control.hpp:105-175; linalg.hpp:47-60, 403-445; math.hpp:177-200, 971-986 | Does not hold for `expm`, even without rounding: the number of halvings depends on the norm of the whole matrix, so that the result for a part depends on entries it is not connected with. |
| `C149_overflow_false` | control.hpp:105-175; linalg.hpp:47-60, 403-445; math.hpp:177-200, 971-986 | Does not hold for doubles that overflow: when the second state has become infinite, the first one, which has no connection to it, becomes NaN, since it is computed with a product of zero and infinity. |
| `C150_expm_false` | control.hpp:105-320; linalg.hpp:47-60, 119-260, 403-445 | Does not hold for `expm`, even without rounding: `A' = S A S⁻¹` with `S = (1 2 / 0 1)`, but the first entries of `expm(A)` and of `S⁻¹ expm(A') S`, which is the first entry of `expm(A')` here, are different because the norms of `A` and `A'` are. |
| `C151_stable_false` | control.hpp:129-157; math.hpp:949-986 | Does not hold for all stable systems: with `A² = 0` and without input the exact state is zero after two steps, but in `double` what rounding left over has grown beyond all bounds after four. |
| `C152_c2d_false` | control.hpp:87-105; linalg.hpp:403-445 | In `double` is false for systems close to the imaginary axis: the oscillator has the eigenvalues `-2^-70 ± 3i/1024`, so that it is stable, but the discrete system that `c2d` returns has one outside of the unit circle, so that its oscillation grows. |
| `C152_expm_false` | control.hpp:87-105; linalg.hpp:403-445 | For `expm` with a coarse accuracy, for reasons other than rounding: for a matrix with the eigenvalues `-2^-30 ± 3i/4` and `-1/8` and the accuracy 1 the Taylor sum stops after the term with `A^9`, and the result has the eigenvalues `a ± bi` with `a² + b² > 1 + 2·10^-8`. |
| `C155_c2d_false` | linalg.hpp:403-445; control.hpp:87-105, 129-157 | In `double` is false for `c2d`: in the difference of the exponential and the identity so much is lost that an entry of the discrete `B` is negative. Filled from the outside, the second tank has less than nothing in it after the first step. |
| `C155_expm_false` | linalg.hpp:403-445; control.hpp:87-105, 129-157 | In `double` is false for `expm` where numbers underflow: products with the smallest numbers are rounded by as much as they are large, and the sum of the series has a negative entry. |
| `C156_simulate_false` | control.hpp:87-105, 129-157; linalg.hpp:403-445 | In `double` is false: the simulation leaves the point of rest in its first step. |
| `C157_agree_false` | control.hpp:107-157, 160-203, 248-290 | In `double` is false: two systems that give the same outputs after an impulse, for four steps, but not after an impulse of size three. |
| `C157_fewer_false` | control.hpp:107-157, 160-203, 248-290 | The number of steps cannot be reduced: two systems with one state each that agree for two steps but not for three. |
| `C158_order_false` | linalg.hpp:310-346; control.hpp:209-220, 248-330 | In `double` is false: the poles 0.1, 0.2 and 0.3 and the same poles in the opposite order give gains that differ in every entry. |

Further facts met on the way (part of the model, not claimed by any property):

* `expm` of a non-square or empty matrix and `powm(A, 0)` of an empty one throw from
  the functions they call, not from a check of their own.
* `out << "text" << v` on an `ofstream` selects the `std::ostream` overload after the
  first insertion, so the `V n` header is not written and the file cannot be read
  back. The round trip theorems are about `out << v` on the `ofstream` itself.
* `is_empty()`-guarded functions treat every view as empty (C17), which is why
  several functions that accept `MatrixBase` are only right for `Matrix` objects.

## 7. Axioms and checks

`#print axioms` on every theorem listed in `MANIFEST.json` reports a subset of
`propext`, `Classical.choice`, `Quot.sound`; no theorem depends on anything else.
No `sorry`, `admit`, own `axiom`, `native_decide`, `bv_decide`, `implemented_by`,
`unsafe` or `maxHeartbeats 0` occurs in the sources.

## 8. Layout

* `Verif/Model/*`: the code, one file per header (or part of one), each definition
  with file and lines. `Core` has outcomes, machine integers, loops.
* `Verif/Spec/*`: what the theorems compare with: tables, Mathlib matrices,
  polynomials, list and table variables for histories, linear systems.
* `Verif/Lemmas/*`: helper lemmas. `Verif/Props/*`: the property theorems `Cxx_…`,
  each followed by concrete instances.
* `seeded/LOG.jsonl`: wrong programs tried against the theorems.
