{"id": "C01", "title": "Vector behaves as a value list under every history", "statement": "For any sequence of constructions (default, sized, filled, from list, copy, move), assignments (copy, move, self), resizes, element reads and writes, and destructions on any number of Vector variables, every element read and every size() returns what a plain list-valued variable would return, whatever the allocator does (move or extend in place), as long as allocation succeeds.", "quantifier": "all finite histories of Vector operations over all variables, all element values, all sizes, and all placement decisions of the allocator", "why_tests_cant": "The number of operation histories and allocator placements is unbounded; a test fixes one history and one allocator.", "anchors": ["include/malg/vector.hpp: Vector, allocate, deallocate, operator=, resize, operator[]"]}
{"id": "C02", "title": "Vector memory safety: no leak, double free, dangling or uninitialised read", "statement": "In every such history no freed, foreign, out-of-range or uninitialised memory is touched by in-range accesses, every live heap block is owned by exactly one live Vector, and after all Vectors are destroyed no block is live.", "quantifier": "all finite histories of Vector operations and all allocator placement decisions", "why_tests_cant": "Leaks and double frees depend on the whole history; sanitised tests only see the histories they run.", "anchors": ["include/malg/vector.hpp: allocate, deallocate, ~Vector, Vector(Vector&&), operator=(Vector&&)"]}
{"id": "C03", "title": "Vector resize keeps the prefix and zero-fills the rest", "statement": "After v.resize(n) the first min(n, old size) elements are unchanged and every further element is zero, also when v was shrunk before, so no stale element ever reappears.", "quantifier": "all vectors, all new sizes, all prior histories", "why_tests_cant": "Stale data only appears for particular shrink/grow histories and reallocation behaviours.", "anchors": ["include/malg/vector.hpp: allocate, resize"]}
{"id": "C04", "title": "Vector survives allocation failure", "statement": "If the allocator cannot satisfy a request, the operation reports it and no block is lost and no invalid memory is written.", "quantifier": "all requests, including sizes whose byte count overflows, at every point of every history", "why_tests_cant": "Out-of-memory and overflow points cannot be enumerated by tests.", "anchors": ["include/malg/vector.hpp: allocate (realloc result unchecked, sizeof(T) * size)"]}
{"id": "C05", "title": "Copies are independent, moves leave an empty reusable source", "statement": "Writing to, resizing or destroying a copy never changes the original and vice versa; after a move the target holds the old content of the source, the source has size 0 and can be used again; self copy- and move-assignment change nothing.", "quantifier": "all vectors and all later operations on either object", "why_tests_cant": "Aliasing bugs show up only for some later operation sequence.", "anchors": ["include/malg/vector.hpp: Vector(const Vector&), Vector(Vector&&), operator="]}
{"id": "C06", "title": "Matrix element (r,c) and linear element r*cols+c are the same cell", "statement": "For a matrix of any shape, A(r,c), A.at(r,c) and A[r*cols+c] denote the same element; distinct (r,c) denote distinct elements; every linear position is reached; writing one element changes that one only.", "quantifier": "all shapes, all in-range indices, all element values", "why_tests_cant": "All shapes and index pairs cannot be enumerated; only a theorem covers the address arithmetic for each of them, including 64-bit wrap-around.", "anchors": ["include/malg/matrix.hpp: at, operator(), operator[]"]}
{"id": "C07", "title": "Matrix constructors build exactly the described matrix", "statement": "Matrix(r,c,v) has every entry v; the flat-list constructors fill row by row; the nested-list constructor reproduces the rows; an empty outer or first inner list throws invalid_argument; too short data is undefined behaviour and longer data is cut; Vector(n,list) holds the list.", "quantifier": "all shapes, all lists of every length", "why_tests_cant": "Ragged and over/under-long inputs form an unbounded family.", "anchors": ["include/malg/matrix.hpp: Matrix(rows, cols, initial), Matrix(rows, cols, initializer_list), Matrix(rows, cols, std::vector), Matrix(initializer_list<initializer_list>)"]}
{"id": "C08", "title": "reshape keeps the linear sequence or throws and changes nothing", "statement": "A.reshape(r,c) succeeds exactly when r*c equals the number of elements; then the shape is r x c and A[i] is unchanged for every i; otherwise it throws invalid_argument and A is unchanged (for r*c that does not overflow size_t; see the property on dimension arithmetic).", "quantifier": "all matrices and all requested shapes", "why_tests_cant": "The condition ranges over all factorisations of all sizes.", "anchors": ["include/malg/matrix.hpp: reshape", "include/malg/utility.hpp: reshape"]}
{"id": "C09", "title": "resize keeps the common top-left block and zero-fills the rest", "statement": "After A.resize(r,c), A has shape r x c, A(i,j) is unchanged for i < min(old rows, r) and j < min(old cols, c), and all other entries are zero.", "quantifier": "all matrices, all new shapes (grow, shrink, mixed)", "why_tests_cant": "The two code paths (realloc and copy) interact with every combination of shapes.", "anchors": ["include/malg/matrix.hpp: resize", "include/malg/utility.hpp: resize"]}
{"id": "C10", "title": "Assignment makes the target equal to the source", "statement": "After A = B (copy or move) A has the shape and the elements B had, for every B, including empty matrices.", "quantifier": "all pairs of matrices, all shapes including empty ones, self-assignment", "why_tests_cant": "Empty-source and self-assignment corners multiply with all shapes.", "anchors": ["include/malg/matrix.hpp: operator=(const Matrix&), operator=(const MatrixBase&), operator=(Matrix&&)"]}
{"id": "C11", "title": "Shape and storage stay consistent through every history", "statement": "Through any sequence of constructions, copies, moves, assignments, reshapes, resizes, row/column removals, element writes on any number of matrix variables, every matrix that has not been moved from stores exactly rows*cols elements and behaves as the mathematical matrix value it was last given.", "quantifier": "all finite histories of Matrix operations on all variables", "why_tests_cant": "It is an invariant over unbounded histories.", "anchors": ["include/malg/matrix.hpp: Matrix", "include/malg/utility.hpp: remove_row, remove_column, reshape, resize"]}
{"id": "C12", "title": "A moved-from Matrix is in a valid state", "statement": "After B = std::move(A) or Matrix B(std::move(A)), A may be read through its own size()/rows()/cols(), copied, resized or assigned without undefined behaviour.", "quantifier": "all matrices, all operations applied to the moved-from object", "why_tests_cant": "Tests rarely touch moved-from objects and cannot cover all follow-up operations.", "anchors": ["include/malg/matrix.hpp: Matrix(Matrix&&), operator=(Matrix&&)"]}
{"id": "C13", "title": "Dimension arithmetic does not wrap", "statement": "Constructing a matrix whose rows*cols exceeds the range of std::size_t is rejected; a constructed matrix always has size() equal to the mathematical product of its dimensions.", "quantifier": "all pairs of 64-bit dimensions", "why_tests_cant": "The wrapping pairs are a sparse subset of 2^128 inputs.", "anchors": ["include/malg/matrix_base.hpp: size", "include/malg/matrix.hpp: Matrix(rows, cols, initial), reshape", "include/malg/vector.hpp: allocate"]}
{"id": "C14", "title": "A view reads the selected block of the matrix", "statement": "For any matrix and ranges starting inside it, view(r,c) = A(start_row+r, start_col+c), view dimensions are the range clamped to the matrix, view[i] enumerates the block row by row, and views of views compose.", "quantifier": "all matrices, all in-range blocks, all nesting depths", "why_tests_cant": "Blocks and nestings are unbounded.", "anchors": ["include/malg/view.hpp: View::at, rows, cols, size, operator[], operator()", "include/malg/utility.hpp: view, row, col", "include/malg/matrix.hpp: operator()(Range, Range)"]}
{"id": "C15", "title": "Writing through a view changes exactly the selected entry", "statement": "Assigning view(r,c) or view[i] changes the one corresponding entry of the underlying matrix and nothing else, for views of any nesting depth.", "quantifier": "all matrices, all blocks, all entries, all nesting depths", "why_tests_cant": "Frame conditions quantify over all other entries of all matrices.", "anchors": ["include/malg/view.hpp: View::at, operator[]"]}
{"id": "C16", "title": "Assigning to a view copies the source block", "statement": "After view = B (matrix or view with the same shape), the viewed block equals what B held before, and nothing else changed, also when B is a view of the same matrix.", "quantifier": "all matrices, all pairs of blocks, including overlapping ones", "why_tests_cant": "Overlap geometry is an unbounded family of cases.", "anchors": ["include/malg/view.hpp: View::operator="]}
{"id": "C17", "title": "empty() tells whether a matrix-like object has no elements", "statement": "For Matrix, View and CofactorView, empty() is true exactly when rows() or cols() is zero; functions that special-case empty arguments act on it only then.", "quantifier": "all matrices and all views of them", "why_tests_cant": "The claim ranges over all view/matrix combinations.", "anchors": ["include/malg/matrix_base.hpp: empty", "include/malg/view.hpp: View, CofactorView", "include/malg/math.hpp: infinity_norm, sub_norm", "include/malg/control/control.hpp: acker"]}
{"id": "C18", "title": "View dimensions never exceed the viewed matrix", "statement": "A view or extraction whose range starts beyond the matrix has no elements (or is rejected); its rows()/cols() never exceed those of the matrix.", "quantifier": "all matrices and all ranges", "why_tests_cant": "The out-of-range starts form an unbounded family.", "anchors": ["include/malg/view.hpp: View::rows, View::cols", "include/malg/utility.hpp: extract, extract_column, extract_row"]}
{"id": "C19", "title": "CofactorView is the matrix with one row and one column deleted", "statement": "For every matrix and excluded (p,q), CofactorView(r,c) is the entry of A with row p and column q deleted, its dimensions are one less, and [i] enumerates the same entries row by row; cofactor(A,p,q) returns the same matrix.", "quantifier": "all matrices, all excluded positions, all indices", "why_tests_cant": "All shapes and exclusion points cannot be enumerated.", "anchors": ["include/malg/view.hpp: CofactorView", "include/malg/linalg.hpp: cofactor"]}
{"id": "C20", "title": "eye, identity, zeros, ones", "statement": "eye(r,c,v) is v on the diagonal and zero elsewhere, identity(n,v) is v times the identity, zeros/ones are constant, for matrices and vectors; a zero dimension throws invalid_argument.", "quantifier": "all dimensions and values", "why_tests_cant": "Unbounded dimensions.", "anchors": ["include/malg/utility.hpp: eye, identity, zeros, ones"]}
{"id": "C21", "title": "Vector/matrix conversions preserve every element", "statement": "diag(diag(v)) = v; diag(A) is the main diagonal of any rectangular A; to_vector(to_matrix(v,row_or_col)) = v; ravel(A) lists the entries row by row and agrees with to_vector.", "quantifier": "all vectors and matrices", "why_tests_cant": "Unbounded shapes.", "anchors": ["include/malg/utility.hpp: diag, to_matrix, to_vector, ravel"]}
{"id": "C22", "title": "vstack, hstack and concatenate", "statement": "vstack(A,B) is A above B, hstack(A,B) is A left of B, concatenate(a,b) is a followed by b; a mismatch of the shared dimension throws invalid_argument and nothing else does.", "quantifier": "all pairs of matrices and vectors", "why_tests_cant": "Unbounded shapes.", "anchors": ["include/malg/utility.hpp: vstack, hstack, concatenate"]}
{"id": "C23", "title": "extract, extract_row, extract_column", "statement": "For ranges starting inside the matrix they return exactly the selected block/row/column clamped to the matrix; an empty range or an out-of-range fixed index throws invalid_argument.", "quantifier": "all matrices and all in-range starts, all ends", "why_tests_cant": "Unbounded shapes and ranges.", "anchors": ["include/malg/utility.hpp: extract, extract_row, extract_column"]}
{"id": "C24", "title": "swap_rows and swap_cols are local involutions", "statement": "swap_rows(A,i,j,from,to) exchanges A(i,c) and A(j,c) for from<=c<to and changes nothing else; doing it twice restores A; swap_cols likewise.", "quantifier": "all matrices, row/column pairs (including i=j), ranges", "why_tests_cant": "Frame condition over all entries.", "anchors": ["include/malg/utility.hpp: swap_rows, swap_cols"]}
{"id": "C25", "title": "remove_row and remove_column delete exactly one row/column", "statement": "After remove_row(A,k) the matrix has one row less and row i is the old row i (i<k) or i+1 (i>=k); likewise for columns; an index out of range throws invalid_argument and leaves A unchanged.", "quantifier": "all matrices and indices", "why_tests_cant": "Unbounded shapes; in-place shifting followed by resize.", "anchors": ["include/malg/utility.hpp: remove_row, remove_column"]}
{"id": "C26", "title": "Structure predicates decide their mathematical definitions", "statement": "is_square, is_row_vector, is_column_vector, is_symmetric, is_skew_symmetric, is_diagonal, is_lower_triangular, is_upper_triangular return true exactly on the matrices with that property.", "quantifier": "all matrices", "why_tests_cant": "An 'exactly when' over all matrices.", "anchors": ["include/malg/utility.hpp: is_square, is_row_vector, is_column_vector, is_symmetric, is_skew_symmetric, is_diagonal, is_lower_triangular, is_upper_triangular"]}
{"id": "C27", "title": "all_close decides elementwise closeness", "statement": "all_close(A,B,tol) is true exactly when |A_i - B_i| <= tol for all i; different shapes throw invalid_argument.", "quantifier": "all pairs of vectors/matrices and tolerances", "why_tests_cant": "An 'exactly when' over all inputs.", "anchors": ["include/malg/utility.hpp: all_close"]}
{"id": "C28", "title": "flatnonzero and find return the non-zero positions", "statement": "flatnonzero(A) lists exactly the linear positions of non-zero entries in increasing order; find(A,n,first) returns the first (or last) n of them, all of them when n is omitted, as a row for row vectors and as a column otherwise.", "quantifier": "all matrices, all n, both directions", "why_tests_cant": "Completeness and order over all matrices.", "anchors": ["include/malg/utility.hpp: flatnonzero, find"]}
{"id": "C29", "title": "compare orders matrices lexicographically", "statement": "compare(A,B) is 0 exactly when all elements are equal, and otherwise its sign tells whether the first differing element of A is smaller or greater and its magnitude is that position.", "quantifier": "all pairs of matrices/vectors of equal size", "why_tests_cant": "An 'exactly when' over all inputs.", "anchors": ["include/malg/utility.hpp: compare"]}
{"id": "C30", "title": "linspace and logspace are evenly spaced and hit both endpoints", "statement": "linspace(a,b,n) has n elements, starts at a, ends at b and has constant difference (in exact arithmetic), for increasing, decreasing and equal endpoints; logspace applies base^ to the same points.", "quantifier": "all endpoints and all counts", "why_tests_cant": "Unbounded counts and endpoints.", "anchors": ["include/malg/utility.hpp: linspace, logspace"]}
{"id": "C31", "title": "inner_product and accumulate fold the whole range", "statement": "accumulate(first,last,init) is init plus all elements in order; inner_product likewise with products; a second range shorter than the first is undefined behaviour.", "quantifier": "all ranges and initial values", "why_tests_cant": "Unbounded lengths.", "anchors": ["include/malg/utility.hpp: inner_product, accumulate"]}
{"id": "C32", "title": "Random generators respect shape and bounds", "statement": "rand_matrix(r,c,lo,hi) and rand_vector(n,lo,hi) have the requested shape and every element (or real/imaginary part) is a value drawn by the distribution, hence within [lo,hi].", "quantifier": "all shapes, bounds and all random sequences", "why_tests_cant": "All outcomes of the random source cannot be sampled.", "anchors": ["include/malg/utility.hpp: rand_matrix, rand_vector"]}
{"id": "C33", "title": "Elementwise matrix arithmetic is mathematical arithmetic", "statement": "A+B, A-B, A+s, A-s, A*s, s*A, A/s are computed entry by entry for matrices and views of equal shape; shape mismatch throws invalid_argument and nothing else does.", "quantifier": "all shapes, all element values, all operand kinds (matrix, view, nested view)", "why_tests_cant": "Unbounded shapes and operand kinds.", "anchors": ["include/malg/math.hpp: operator+, operator-, operator*, operator/ (matrix)"]}
{"id": "C34", "title": "In-place matrix arithmetic equals the out-of-place result", "statement": "A+=B, A-=B, A*=s, A/=s leave in A the entries of A+B, A-B, A*s, A/s and change nothing else, also when A and B are the same object or A is a view; B is unchanged unless it shares entries with A.", "quantifier": "all shapes, all aliasing configurations in which no source entry is overwritten before it is read", "why_tests_cant": "Aliasing geometry is unbounded.", "anchors": ["include/malg/math.hpp: operator+=, operator-=, operator*=, operator/="]}
{"id": "C35", "title": "Matrix product is the mathematical product", "statement": "A*B is the matrix product when cols(A)=rows(B), accumulating each entry left to right from zero, and throws invalid_argument otherwise; over exact arithmetic it is associative, distributive and has the identity as unit.", "quantifier": "all shapes and entries", "why_tests_cant": "Unbounded shapes.", "anchors": ["include/malg/math.hpp: operator*(MatrixBase, MatrixBase)"]}
{"id": "C36", "title": "A *= B equals A = A * B", "statement": "After A *= B the matrix A holds the product A*B whenever the product is defined.", "quantifier": "all conformal pairs (A,B), including A *= A", "why_tests_cant": "Non-square right operands and aliasing form an unbounded family.", "anchors": ["include/malg/math.hpp: operator*=(MatrixBase, MatrixBase)"]}
{"id": "C37", "title": "Matrix-vector product", "statement": "A*b and dot(A,b) have rows(A) elements, each the inner product of a row with b, when b has cols(A) elements; other sizes are rejected.", "quantifier": "all matrices and vectors", "why_tests_cant": "Unbounded shapes.", "anchors": ["include/malg/math.hpp: operator*(MatrixBase, Vector), dot(MatrixBase, Vector)"]}
{"id": "C38", "title": "Vector arithmetic", "statement": "a+b, a-b, a*b (elementwise), a+s, a-s, a*s, a/s, a+=b, a-=b are computed entry by entry; size mismatch throws invalid_argument; dot(a,b) is the inner product and projection(a,b) is the component of a along b.", "quantifier": "all vectors and scalars", "why_tests_cant": "Unbounded sizes.", "anchors": ["include/malg/math.hpp: operator+, operator-, operator*, operator/ (vector), dot, projection"]}
{"id": "C39", "title": "Comparison operators are elementwise and mutually consistent", "statement": "A==B, A!=B, A<B, A<=B, A>B, A>=B give a boolean matrix of the same shape with the elementwise verdict; != is the negation of ==, >= of <, <= of >; all(A==A) holds; shape mismatch throws.", "quantifier": "all pairs of matrices/vectors and scalars, all tolerances >= 0", "why_tests_cant": "Consistency laws over all inputs.", "anchors": ["include/malg/math.hpp: operator==, operator!=, operator<, operator<=, operator>, operator>="]}
{"id": "C40", "title": "Approximate comparison laws", "statement": "approximately_equal is reflexive, symmetric and invariant under common scaling; with 0<=tolerance<1 a value is approximately equal to zero exactly when it is zero; approximately_lesser_than_equal and approximately_greater_than_equal hold exactly for < / > or approximate equality and are mirror images.", "quantifier": "all values and tolerances", "why_tests_cant": "Laws over all reals.", "anchors": ["include/malg/feq.hpp: approximately_equal, approximately_lesser_than_equal, approximately_greater_than_equal, approximately_equal_to_zero"]}
{"id": "C41", "title": "sum and trace", "statement": "sum(v) is the sum of all elements; trace(A) is the sum of the main diagonal for every matrix.", "quantifier": "all vectors and matrices", "why_tests_cant": "Unbounded shapes, including non-square ones.", "anchors": ["include/malg/math.hpp: sum, trace"]}
{"id": "C42", "title": "min and max return the extreme value and its first position", "statement": "min(v) / max(v) return a lower/upper bound of v that is attained at the returned position and at no earlier one; on a matrix they return the columnwise extremes; on empty input they return (0,0) or an empty vector.", "quantifier": "all vectors and matrices over a total order", "why_tests_cant": "Extremality quantifies over all elements of all inputs.", "anchors": ["include/malg/math.hpp: min, max"]}
{"id": "C43", "title": "all and any are dual quantifiers", "statement": "all(A) is true exactly when every entry is non-zero, any(A) exactly when some entry is non-zero.", "quantifier": "all matrices, views and vectors", "why_tests_cant": "An 'exactly when' over all inputs.", "anchors": ["include/malg/math.hpp: all, any"]}
{"id": "C44", "title": "Norms", "statement": "square_norm is the square root of the sum of squares, infinity_norm of a vector is the largest absolute value, infinity_norm of a matrix the largest absolute row sum, sub_norm the Euclidean norm of the strictly lower triangle (square matrices only, otherwise invalid_argument), vector_length the Euclidean norm of the part of a column between two rows.", "quantifier": "all vectors and matrices over an ordered field", "why_tests_cant": "Extremality over all inputs.", "anchors": ["include/malg/math.hpp: square_norm, infinity_norm, sub_norm, vector_length"]}
{"id": "C45", "title": "log2_ceil returns the least halving count that brings the norm to at most one", "statement": "log2_ceil(A) terminates and returns (k, 2^-k) with norm(A)*2^-k <= 1 and no smaller k doing so.", "quantifier": "all matrices over an archimedean ordered field", "why_tests_cant": "Termination and minimality over all inputs.", "anchors": ["include/malg/math.hpp: log2_ceil"]}
{"id": "C46", "title": "abs, real, imag and element_wise_function apply the function to every element", "statement": "element_wise_function(A,f) has entry f(A(i,j)) everywhere; abs(A) has |A(i,j)|; real/imag give the real/imaginary parts.", "quantifier": "all vectors and matrices, all functions", "why_tests_cant": "A statement about all functions and inputs.", "anchors": ["include/malg/math.hpp: element_wise_function, abs, real, imag"]}
{"id": "C47", "title": "element_wise_binary_function, element_wise_product, linear_combination", "statement": "The result has entry f(A(i,j),B(i,j)) (product, a*A+b*B respectively); shape mismatch throws invalid_argument.", "quantifier": "all pairs of matrices/vectors, all functions", "why_tests_cant": "A statement about all functions and inputs.", "anchors": ["include/malg/math.hpp: element_wise_binary_function, element_wise_product, linear_combination"]}
{"id": "C48", "title": "transpose and conjugate_transpose", "statement": "transpose(A)(c,r)=A(r,c); it is an involution and reverses products; conjugate_transpose additionally conjugates every entry.", "quantifier": "all matrices", "why_tests_cant": "Unbounded shapes.", "anchors": ["include/malg/linalg.hpp: transpose, conjugate_transpose"]}
{"id": "C49", "title": "powm is the matrix power", "statement": "powm(A,N) is A multiplied N times for square A (identity for N=0); for non-square A and N>0 it throws invalid_argument.", "quantifier": "all matrices and exponents", "why_tests_cant": "Unbounded exponents and shapes.", "anchors": ["include/malg/linalg.hpp: powm"]}
{"id": "C50", "title": "determinant computes the determinant", "statement": "For every square matrix over exact arithmetic determinant(A) equals the mathematical determinant, in particular it is zero exactly on singular matrices; non-square input throws invalid_argument.", "quantifier": "all square matrices of every size", "why_tests_cant": "The elimination path depends on which pivots vanish; all sizes and zero patterns cannot be enumerated.", "anchors": ["include/malg/linalg.hpp: determinant"]}
{"id": "C51", "title": "adjoint is the adjugate", "statement": "For every square matrix adjoint(A) is the transposed cofactor matrix, so A*adjoint(A) = det(A)*I.", "quantifier": "all square matrices of every size", "why_tests_cant": "All sizes and zero patterns of minors.", "anchors": ["include/malg/linalg.hpp: adjoint", "include/malg/view.hpp: CofactorView"]}
{"id": "C52", "title": "inverse inverts, and reports singular matrices", "statement": "For every square matrix inverse(A) returns the inverse when A is non-singular and the empty 0x0 matrix when A is singular; non-square input throws invalid_argument; div(A,B) = A * inverse(B).", "quantifier": "all square matrices of every size", "why_tests_cant": "Singularity is a measure-zero condition that random tests do not hit.", "anchors": ["include/malg/linalg.hpp: inverse, div"]}
{"id": "C53", "title": "lu_decomposition factors the matrix", "statement": "If no zero pivot is met, lu_decomposition(A) = (L,U) with L lower triangular, U unit upper triangular and L*U = A; no zero pivot is met exactly when all proper leading principal minors are non-zero.", "quantifier": "all square matrices over a field", "why_tests_cant": "Quantifies over all sizes and all zero patterns.", "anchors": ["include/malg/linalg.hpp: lu_decomposition"]}
{"id": "C54", "title": "exp is applied entrywise without moving entries", "statement": "linalg::exp(A)(r,c) = exp(A(r,c)) for every entry.", "quantifier": "all matrices", "why_tests_cant": "Symmetric test inputs cannot reveal an index swap.", "anchors": ["include/malg/linalg.hpp: exp"]}
{"id": "C55", "title": "expm evaluates scaled-and-squared Taylor sums", "statement": "When expm(A,acc) returns, its value is the 2^k-th power of a Taylor partial sum of exp(A/2^k) with k=log2_ceil(A), the number of terms being a multiple of rows^2; the zero matrix gives the identity; a non-square argument throws.", "quantifier": "all square matrices, all accuracies, any number of loop iterations", "why_tests_cant": "The number of loop iterations is data dependent and unbounded.", "anchors": ["include/malg/linalg.hpp: expm"]}
{"id": "C56", "title": "factorial", "statement": "factorial(n) is n! for n >= 0 and 1 for negative n; for 64-bit unsigned arguments the result is n! modulo 2^64.", "quantifier": "all integers", "why_tests_cant": "Unbounded input.", "anchors": ["include/malg/linalg.hpp: factorial"]}
{"id": "C57", "title": "simulate follows the state equation", "statement": "simulate(sys,u,T,x0) returns states x[0]=x0, x[k+1]=A x[k]+B u[k] and outputs y[k]=C x[k]+D u[k] for k < min(len u, floor(T/dt)), hence x[k]=A^k x0 + sum A^(k-1-j) B u[j], with one more state than outputs.", "quantifier": "all systems, input sequences, initial states and durations", "why_tests_cant": "Unbounded horizon.", "anchors": ["include/malg/control/control.hpp: simulate, simulate_step"]}
{"id": "C58", "title": "The simulated time axis", "statement": "simulate returns one time stamp per state, the i-th being i*dt.", "quantifier": "all systems and durations", "why_tests_cant": "A statement about every step count.", "anchors": ["include/malg/control/control.hpp: simulate"]}
{"id": "C59", "title": "Controllability matrix", "statement": "ctrb(A,B) is the block row [B, AB, ..., A^(n-1)B] for square A and B with as many rows; non-square A or a row mismatch throws runtime_error.", "quantifier": "all conformal pairs, all sizes", "why_tests_cant": "Unbounded sizes.", "anchors": ["include/malg/control/control.hpp: ctrb", "include/malg/utility.hpp: hstack", "include/malg/linalg.hpp: powm"]}
{"id": "C60", "title": "poly of roots", "statement": "poly(a) are the coefficients, highest degree first, of the monic polynomial whose roots with multiplicity are the elements of a.", "quantifier": "all vectors over a commutative ring, also row/column matrices", "why_tests_cant": "Unbounded degree.", "anchors": ["include/malg/control/control.hpp: poly(Vector), poly(MatrixBase)"]}
{"id": "C61", "title": "poly of a square matrix is its characteristic polynomial", "statement": "For a square matrix poly(A) are the coefficients, highest degree first, of det(X*I - A).", "quantifier": "all square matrices of every size over a field of characteristic zero", "why_tests_cant": "Unbounded size.", "anchors": ["include/malg/control/control.hpp: poly(MatrixBase)"]}
{"id": "C62", "title": "polyreduce strips exactly the leading zeros", "statement": "polyreduce(a) is a without its leading zeros ({0} if all are zero), so it represents the same polynomial and its first coefficient is non-zero unless it is {0}; it is idempotent.", "quantifier": "all vectors", "why_tests_cant": "Unbounded length.", "anchors": ["include/malg/control/control.hpp: polyreduce"]}
{"id": "C63", "title": "acker places the poles", "statement": "For a controllable single-input system and n poles, K=acker(A,B,poles) makes the characteristic polynomial of A-BK equal to the product of (X - pole); an uncontrollable pair, a non-conformal B or an invalid pole list ends the process with exit(1).", "quantifier": "all controllable pairs of every size and all poles", "why_tests_cant": "Unbounded dimension; uncontrollability is a measure-zero condition.", "anchors": ["include/malg/control/control.hpp: acker, ctrb, poly", "include/malg/linalg.hpp: inverse, determinant, powm"]}
{"id": "C64", "title": "c2d solves the discretisation equations", "statement": "c2d(sys,dt) has A_d=expm(A*dt), B_d=A^-1 (A_d - I) B (so A*B_d = (A_d-I)*B), C and D unchanged and sample time dt, for non-singular A; for singular A it is rejected.", "quantifier": "all systems", "why_tests_cant": "Singular system matrices (integrators) are special points.", "anchors": ["include/malg/control/control.hpp: c2d", "include/malg/linalg.hpp: expm, inverse"]}
{"id": "C65", "title": "Zero input and state generators fit the system", "statement": "generate_input_zero / generate_state_zero return zero vectors of the input / state dimension, so simulate_step accepts them and from zero state and input yields zero state and output.", "quantifier": "all systems", "why_tests_cant": "Unbounded dimensions.", "anchors": ["include/malg/control/control.hpp: generate_input_zero, generate_state_zero, simulate_step"]}
{"id": "C66", "title": "File round trip of vectors", "statement": "Writing a Vector to a file stream and reading it back yields the same vector and consumes nothing but it, whatever the target held before and whatever follows in the file.", "quantifier": "all vectors, all target contents, all following data", "why_tests_cant": "Unbounded sizes, paddings and values.", "anchors": ["include/malg/io.hpp: operator<<(ofstream, Vector), operator>>(ifstream, Vector), get_longhest_value"]}
{"id": "C67", "title": "File round trip of matrices", "statement": "Writing a matrix (or view) to a file stream and reading it back yields the same shape and entries, whatever the target held before and whatever follows in the file.", "quantifier": "all matrices, all target contents, all following data", "why_tests_cant": "Unbounded shapes, paddings and values.", "anchors": ["include/malg/io.hpp: operator<<(ofstream, MatrixBase), operator>>(ifstream, Matrix), get_longhest_value"]}
{"id": "C68", "title": "Reading rejects foreign or truncated files", "statement": "A stream that does not start with the expected tag leaves the target unchanged; a file that ends early is reported and never leaves a target mixing old and new data.", "quantifier": "all byte streams and all truncation points", "why_tests_cant": "Every truncation point of every file.", "anchors": ["include/malg/io.hpp: operator>>(ifstream, Vector), operator>>(ifstream, Matrix)"]}
{"id": "C69", "title": "Text exports are well formed", "statement": "operator<< prints rows separated by newlines and entries separated by one blank, every entry padded to the longest one; to_matlab prints [[a b];[c d];] in row order; no trailing separator is printed, also for empty objects; complex numbers, ranges and state space models print all their parts.", "quantifier": "all vectors and matrices", "why_tests_cant": "Unbounded shapes.", "anchors": ["include/malg/io.hpp: operator<<, to_matlab, dump_vector, dump_matrix, get_longhest_value"]}
{"id": "C70", "title": "Result element type is independent of operand order", "statement": "extract_common_type_t is commutative and idempotent, is complex exactly when one operand is complex, and never loses the wider operand type; inverse computes in double or wider.", "quantifier": "all pairs of arithmetic and complex element types", "why_tests_cant": "A statement about all type pairs.", "anchors": ["include/malg/type_traits.hpp: is_complex, extract_common_type_t, extract_common_type_3_t"]}
{"id": "C71", "title": "Mixed complex arithmetic agrees with complex arithmetic", "statement": "The mixed operators complex+real, real+complex, complex-real, real-complex, complex*real, real*complex, complex/real, real/complex give the same value as converting the real operand to a complex number.", "quantifier": "all complex and real operands", "why_tests_cant": "Laws over all values.", "anchors": ["include/malg/complex_math.hpp: operator+, operator-, operator*, operator/"]}
{"id": "C72", "title": "Scaling a matrix by one of its own elements", "statement": "A *= A(i,j) and A /= A(i,j) scale every entry of A by the value A(i,j) had before the call, whichever (i,j) is used.", "quantifier": "all matrices, all positions of the scalar inside the matrix, all element types", "why_tests_cant": "The scalar is taken by reference; the effect depends on every position relative to the traversal.", "anchors": ["include/malg/math.hpp: operator*=, operator/= (matrix, scalar)"]}
{"id": "C73", "title": "Wilkinson shift is the nearer eigenvalue", "statement": "wilkinson_shift(A) returns, for every square complex matrix, an eigenvalue of the trailing 2x2 block such that no other eigenvalue of the block is nearer to the last diagonal entry; matrices with fewer than two rows give 0.", "quantifier": "all square complex matrices of all sizes", "why_tests_cant": "Eigenvalues of all blocks; degenerate blocks (equal diagonal, zero off-diagonal, size below two) are easy to miss.", "anchors": ["include/malg/eigen.hpp: wilkinson_shift"]}
{"id": "C74", "title": "The numeric basis is found", "statement": "basis<T>() returns the radix of the arithmetic type T (2) for every type it accepts.", "quantifier": "all floating point formats (precision) and all integer widths", "why_tests_cant": "Only a few types exist on one machine; termination depends on the rounding and overflow rules of the type.", "anchors": ["include/malg/utility.hpp: basis"]}
{"id": "C75", "title": "expm is accurate", "statement": "The result of expm(A, accuracy) differs from the matrix exponential of A by at most the requested accuracy.", "quantifier": "all square matrices, all accuracies", "why_tests_cant": "The exact exponential is a limit; tests compare a few matrices with tabulated values.", "anchors": ["include/malg/linalg.hpp: expm"]}
{"id": "C76", "title": "expm returns", "statement": "expm(A, accuracy) returns for every non-empty square matrix and every positive accuracy.", "quantifier": "all square matrices, all accuracies", "why_tests_cant": "Termination and regularity of the divisor for all matrices.", "anchors": ["include/malg/linalg.hpp: expm"]}
{"id": "C77", "title": "A simulation is linear, causal and can be continued", "statement": "simulate is linear in the pair of initial state and input sequence. The first states and outputs do not depend on later inputs. A simulation over a concatenated input sequence is the simulation over the first part followed by the simulation over the second part from the state that was reached.", "quantifier": "all systems, initial states, input sequences and durations over an exact field", "why_tests_cant": "Relates several runs with arbitrarily long inputs.", "anchors": ["include/malg/control/control.hpp: simulate"]}
{"id": "C78", "title": "c2d followed by simulate samples the continuous system", "statement": "The states and outputs that simulate gives for c2d(sys, dt) are the values at the times k*dt of the solution of x' = A x + B u, y = C x + D u with the input held constant between samples.", "quantifier": "all systems with a regular A, all sample times, all input sequences, all solutions of the differential equation", "why_tests_cant": "The reference is the solution of a differential equation.", "anchors": ["include/malg/control/control.hpp: c2d", "include/malg/control/control.hpp: simulate"]}
{"id": "C79", "title": "Rounding errors of products and sums stay small", "statement": "In floating point arithmetic every entry of a matrix product over k inner terms differs from the exact entry by at most (1+u)^k - 1 times the corresponding entry of |A||B|, plus a term for underflow, where u is the unit roundoff. The same holds for matrix times vector, scalar products, sums and traces; element-wise operations have one rounding error each.", "quantifier": "all sizes, all operands, all formats (precision and smallest exponent) with round to nearest even, without overflow", "why_tests_cant": "Rounding errors depend on the operands and the size in an irregular way; a test sees only single values.", "anchors": ["include/malg/math.hpp: operator*", "include/malg/math.hpp: dot", "include/malg/math.hpp: sum", "include/malg/math.hpp: trace"]}
{"id": "C80", "title": "Integer-valued arithmetic in floating point is exact", "statement": "If all entries are integers and the product of the absolute values stays within 2^p (2^53 for double), then matrix products, matrix-vector products, scalar products and sums are exact, including all intermediate results.", "quantifier": "all sizes, all integer operands within the bound, all precisions", "why_tests_cant": "The bound of exactness is far outside the values used in tests.", "anchors": ["include/malg/math.hpp: operator*", "include/malg/math.hpp: dot", "include/malg/math.hpp: sum"]}
{"id": "C81", "title": "Laws that hold bit for bit in floating point", "statement": "transpose(A*B) and transpose(B)*transpose(A) are identical, A+B and B+A are identical, and scalar products do not depend on the order of the operands, in floating point arithmetic. This is the limit: (A+B)+C and A+(B+C), (A*B)*C and A*(B*C), A*(B+C) and A*B+A*C may differ.", "quantifier": "all sizes, all operands; existence of operands for the differences", "why_tests_cant": "Bitwise equality for all operands cannot be sampled.", "anchors": ["include/malg/math.hpp: operator*", "include/malg/math.hpp: operator+", "include/malg/math.hpp: dot", "include/malg/linalg.hpp: transpose"]}
{"id": "C82", "title": "linspace in floating point", "statement": "linspace(a, b, n) starts at a, ends at b exactly, and every point differs from the exact point by a few roundings.", "quantifier": "all end points and numbers of points of a floating point format without overflow", "why_tests_cant": "Whether the end point is hit depends on the number of points in an irregular way.", "anchors": ["include/malg/utility.hpp: linspace"]}
{"id": "C83", "title": "simulate in floating point", "statement": "simulate over a duration of N sample times does N steps in floating point, and every computed state and output differs from the exact update of the preceding computed state by a few roundings.", "quantifier": "all systems, initial states, inputs, sample times, all floating point formats without overflow", "why_tests_cant": "The number of steps depends on the rounding of a quotient; errors accumulate over arbitrarily many steps.", "anchors": ["include/malg/control/control.hpp: simulate"]}
{"id": "C84", "title": "LU factors in floating point reproduce the matrix", "statement": "In floating point arithmetic the product of the factors returned by lu_decomposition(A) differs from A by a few roundings relative to |A|.", "quantifier": "all square matrices of all sizes, all floating point formats without overflow", "why_tests_cant": "The error depends on the growth of the factors, which depends on the matrix in an irregular way; the decomposition does not pivot.", "anchors": ["include/malg/linalg.hpp: lu_decomposition"]}
{"id": "C85", "title": "Determinants and inverses of integer matrices are exact in floating point", "statement": "For matrices up to 4x4 whose entries are integers of absolute value at most m with N! m^N <= 2^p (2^53 for double), determinant is exact, inverse reports exactly the singular matrices, and every entry of an inverse is the exact value rounded once. adjoint is exact up to 5x5. From 5x5 on determinant rounds even for small integers.", "quantifier": "all integer matrices within the bound, all precisions", "why_tests_cant": "The bounds and the absence of rounding in all intermediate results cannot be sampled.", "anchors": ["include/malg/linalg.hpp: determinant", "include/malg/linalg.hpp: adjoint", "include/malg/linalg.hpp: inverse"]}
{"id": "C86", "title": "Determinants in floating point", "statement": "Up to 4x4, the floating point determinant differs from the exact one by a few roundings relative to the permanent of the absolute values, and it is zero (and inverse returns the empty matrix) exactly for the singular matrices.", "quantifier": "all matrices up to 4x4 over all floating point formats without overflow", "why_tests_cant": "Cancellation depends on the values; tests use a few small matrices.", "anchors": ["include/malg/linalg.hpp: determinant", "include/malg/linalg.hpp: inverse"]}
{"id": "C87", "title": "QR decomposition", "statement": "qr_decomposition(A) returns Q and R with Q orthogonal, R upper triangular and Q R = A. (The function does not compile as it stands; this is about the function with the two expressions u*u and View(H,...) read as dot(u,u) and View(&H,...).)", "quantifier": "all matrices of all sizes with real elements", "why_tests_cant": "A test with a few matrices can neither show that the factors are right for every matrix nor find out for which matrices the reflections break down.", "anchors": ["include/malg/linalg.hpp: qr_decomposition"]}
{"id": "C88", "title": "solve solves", "statement": "solve(A,b) returns the solution of a regular square system, the least squares solution of an overdetermined one and the shortest solution of an underdetermined one, and reports the systems it cannot solve. (The function does not compile as it stands because qr_decomposition does not.)", "quantifier": "all matrices of all shapes and all right-hand sides", "why_tests_cant": "Optimality quantifies over all other vectors, and the sizes from which the inverse goes wrong are not those of unit tests.", "anchors": ["include/malg/linalg.hpp: solve"]}
{"id": "C89", "title": "Observability matrix", "statement": "obsv(A,C) is the block column C, CA, ..., CA^(n-1); it is the transposed controllability matrix of the dual system, and its kernel consists of the states that never show in the output. (The function does not compile as it stands; `Matrix<T> result = C` is read as `Matrix<T> result(C)`.)", "quantifier": "all systems of all sizes; all times", "why_tests_cant": "The kernel statement is about infinitely many time steps.", "anchors": ["include/malg/control/control.hpp: obsv"]}
{"id": "C90", "title": "Hessenberg form", "statement": "hessenberg(A) returns a unitary P and an H with A P = P H whose entries below the subdiagonal vanish (up to machine epsilon). (The function does not compile as it stands; identity(N) is read as identity(N,1), vector_length(H,k,k+1) as vector_length(H,k,k+1,N), and the complex norms with if constexpr.)", "quantifier": "all square complex matrices of all sizes", "why_tests_cant": "Unitarity and similarity must hold for all matrices; the reflections break down only for columns around machine epsilon, which no unit test hits by chance.", "anchors": ["include/malg/eigen.hpp: hessenberg"]}
{"id": "C91", "title": "QR factorisation by rotations", "statement": "qr_factorise_givens(A) returns a unitary Q and an R with Q R = A; if A has no entries below its subdiagonal, the entries of R below the diagonal are smaller than machine epsilon. (The function does not compile as it stands; identity(n) is read as identity(n,1).)", "quantifier": "all square complex matrices of all sizes", "why_tests_cant": "A statement about all matrices of all sizes; each rotation must leave the zeros of the earlier ones in place.", "anchors": ["include/malg/eigen.hpp: qr_factorise_givens"]}
{"id": "C92", "title": "Schur decomposition", "statement": "QRHessenberg(A) terminates and returns a unitary U and a T with A U = U T, so T has the eigenvalues of A; unless it prints its warning, T is upper triangular within the tolerance, and diagonal within the tolerance if A is hermitian. (Same reading of the code as for hessenberg.)", "quantifier": "all square complex matrices of all sizes, all tolerances and iteration limits", "why_tests_cant": "The number of iterations depends on the matrix, and the invariant has to hold after every one of them.", "anchors": ["include/malg/eigen.hpp: QRHessenberg"]}
{"id": "C93", "title": "Eigenvectors of a triangular matrix", "statement": "eigenvectorUpper(M) returns in its columns unit eigenvectors for the diagonal elements of M, or zero where there is none, and says whether there is a full set; it finds a full set whenever there is one. (Does not compile as it stands: square_norm of complex elements is read with if constexpr.)", "quantifier": "all upper triangular complex matrices, with simple or repeated eigenvalues", "why_tests_cant": "That a basis of eigenvectors is found whenever one exists is a statement about all diagonalisable matrices.", "anchors": ["include/malg/eigen.hpp: eigenvectorUpper"]}
{"id": "C94", "title": "Signed and unsigned integer elements", "statement": "With signed integer elements of rank int or more, products of matrices and vectors, sums, scalar products, traces, element-wise operations, determinants of up to four rows and powers return the exact integer result whenever that result is representable; if there is no overflow (undefined behaviour) the result is exact. With unsigned elements of w bits products are exact modulo 2^w.", "quantifier": "all widths, all sizes, all entries", "why_tests_cant": "Overflow depends on intermediate values; that every partial product and partial sum stays in range is a condition on all prefixes of all sums.", "anchors": ["include/malg/math.hpp: operator*, dot, sum, trace, operator+, operator-", "include/malg/linalg.hpp: determinant, powm"]}
{"id": "C95", "title": "Overflow of floating point numbers is visible", "statement": "In IEEE arithmetic with infinities and NaN, a finite entry of a product, sum, scalar product, trace, element-wise sum, difference or multiple, or determinant of up to four rows has been computed from finite entries without any overflow on the way, and obeys the rounding error bounds. The entry is finite whenever the operands are and (1+u)^k sum|a||b| + k(1+u)^(k-1) eta stays below the largest number. Element-wise operations on finite matrices never give a NaN: where they overflow the result is the infinity with the sign of the exact result.", "quantifier": "all binary formats, all sizes, all entries", "why_tests_cant": "A hidden overflow would need an input where an infinity or NaN turns finite again; that no such input exists is a statement about all inputs.", "anchors": ["include/malg/math.hpp: operator*, dot, sum, trace, operator+, operator-", "include/malg/linalg.hpp: determinant"]}
{"id": "C96", "title": "Infinities and NaN", "statement": "NaN reaches every sum, scalar product, product, trace and determinant of up to four rows it is used for; division of a matrix by a number never stops the program; the comparisons, all_close, max, min, infinity_norm, log2_ceil, inverse and simulate treat infinities and NaN as what they are: an infinity is not zero and not equal to finite numbers, NaN is close to nothing, a matrix without entries that compare unequal to themselves equals itself, and all of them terminate without undefined behaviour.", "quantifier": "all binary formats and all entries including infinities, NaN and signed zeros; double for termination", "why_tests_cant": "The special values interact with every comparison, in every position; tests use ordinary numbers.", "anchors": ["include/malg/feq.hpp: approximately_equal, approximately_equal_to_zero", "include/malg/math.hpp: operator==, operator/, max, min, infinity_norm, log2_ceil", "include/malg/utility.hpp: all_close", "include/malg/linalg.hpp: inverse", "include/malg/control/control.hpp: simulate"]}
{"id": "C97", "title": "Predicates on matrices, compiled after small edits", "statement": "With the edits listed in Model/Repaired.lean that make them compile: is_zero holds exactly for matrices of zeros and is_constant exactly for matrices whose entries all agree; is_identity and is_orthogonal hold exactly for the identity and for orthogonal matrices; is_invertible and is_linearly_independent hold exactly for invertible matrices, is_linearly_dependent exactly for the other square ones, and all three throw for matrices that are not square.", "quantifier": "all sizes and all entries; exact elements, and tolerant comparison in exact arithmetic for is_orthogonal", "why_tests_cant": "Each predicate is an equivalence between a Boolean and a statement about all entries of matrices of all sizes; both directions quantify over all inputs. The functions cannot be instantiated at all at present.", "anchors": ["include/malg/utility.hpp: is_zero, is_constant, is_identity, is_orthogonal, is_invertible, is_linearly_dependent, is_linearly_independent"]}
{"id": "C98", "title": "Stacking a matrix and a vector", "statement": "With the edit that makes them compile, vstack(A, b) is A with the row b below and hstack(A, b) is A with the column b on the right; they agree with stacking the matrix made of b; a vector of the wrong size throws.", "quantifier": "all sizes, all entries, all element types", "why_tests_cant": "The entries are written after the storage is reshaped in place; for all sizes no test shows that the old entries survive at their places.", "anchors": ["include/malg/utility.hpp: vstack, hstack"]}
{"id": "C99", "title": "Numbers added to matrices and vectors in place", "statement": "With the edits that make them compile, A += b and A -= b for a matrix, and a += b, a -= b, a *= b, a /= b for a vector apply the operation with the value b had before to every element and change nothing else; scalar * vector multiplies every element from the left.", "quantifier": "all sizes, views and views of views, all entries, every number including references to elements of the target", "why_tests_cant": "The number is taken by reference; whether it may be an element of the target is a question about all positions at once.", "anchors": ["include/malg/math.hpp: operator+=, operator-=, operator*=, operator/=, operator*"]}
{"id": "C100", "title": "Hermitian transpose and sign", "statement": "With the edits that make them compile, hermitian_transpose is the conjugate transpose, and sign gives 1, 0 or -1 for positive, zero and negative elements.", "quantifier": "all sizes, all entries", "why_tests_cant": "Equality with a mathematical operation for all sizes and entries.", "anchors": ["include/malg/linalg.hpp: hermitian_transpose", "include/malg/math.hpp: sign"]}
{"id": "C101", "title": "Printed C++ declarations", "statement": "With the edit that makes it compile, to_cpp prints a declaration whose initializer list, read as C++, gives the same vector or matrix again.", "quantifier": "all names and type names, all sizes, all elements whose printed text reads back; integers in particular", "why_tests_cant": "A round trip through text for all sizes and numbers.", "anchors": ["include/malg/io.hpp: to_cpp"]}
{"id": "C102", "title": "Pointers and iterators into vectors and views", "statement": "data(), begin() and end() of a vector give a pointer that reads and writes exactly its elements, in order, and the way from begin() to end() visits each once. The pointer stays valid through every later program that neither destroys the vector, nor changes its size, nor overwrites it by a move; after a move it belongs to the vector moved to. data() of a view points to the elements of the view.", "quantifier": "all histories of vector operations before and after taking the pointer, all element values, all allocator decisions; all views", "why_tests_cant": "How long a pointer stays valid is a question about all later programs and all allocators; a test sees one allocator and one program, and reading a dangling pointer often seems to work.", "anchors": ["include/malg/vector.hpp: data, begin, end, resize, operator=, Vector(Vector &&)", "include/malg/matrix.hpp: data, begin, end", "include/malg/view.hpp: data"]}
{"id": "C103", "title": "Reachable and observable states, and bringing a system to rest", "statement": "The states in which a simulation started at rest can end, over all inputs and durations, are exactly the combinations of the columns of ctrb(A,B); n steps suffice. Two initial states give the same outputs for all inputs exactly when obsv(A,C) maps them to the same vector. For one input, determinant(ctrb(A,B)) is not zero exactly when every state can be reached; then the gain acker computes for poles at zero brings every state to zero in n steps.", "quantifier": "all systems of all sizes, all input sequences, all durations and initial states; exact arithmetic", "why_tests_cant": "Reachability quantifies over all input sequences and all durations; a test simulates finitely many. The claim connects three functions that are tested separately, if at all.", "anchors": ["include/malg/control/control.hpp: ctrb, obsv, acker, simulate", "include/malg/linalg.hpp: determinant"]}
{"id": "C104", "title": "Operands with different element types", "statement": "Sums, differences, products and comparisons of matrices, vectors and numbers of different element types are what one gets by converting both operands to the common type first; for integers they are the exact results converted to the common type. A op= B leaves the results converted back to the element type of A, and nothing else changes. So negative numbers next to unsigned ones, and fractions assigned to integer matrices, are not what the mathematics says.", "quantifier": "all shapes, all pairs of element types with their conversions, all values; views as targets of the assignments", "why_tests_cant": "The pairs of element types and their values are unbounded; tests use few pairs, and seldom values on which the conversions are not injective.", "anchors": ["include/malg/math.hpp: operator+, operator-, operator*, operator/, operator+=, operator-=, operator*=, operator/=, operator==, operator<, dot"]}
{"id": "C105", "title": "Laws that connect several functions", "statement": "determinant(A*B) = determinant(A)*determinant(B), determinant(transpose(A)) = determinant(A), trace(A*B) = trace(B*A), inverse(inverse(A)) = A, inverse(A*B) = inverse(B)*inverse(A), inverse and powm commute with transpose, div(A,B)*B = A, the laws of powers, (A*B)*x = A*(B*x), dot(A*x,y) = dot(x,transpose(A)*y), poly(A*B) = poly(B*A), poly(A) has -trace(A) as second and (-1)^n det(A) as last coefficient, and A satisfies poly(A).", "quantifier": "all sizes, all matrices for which both sides are defined, exact arithmetic", "why_tests_cant": "Each law relates two runs of different functions on related inputs, for infinitely many matrices; the cases where a law fails start at sizes tests seldom use.", "anchors": ["include/malg/linalg.hpp: determinant, inverse, div, transpose, powm", "include/malg/math.hpp: operator*, trace, dot", "include/malg/control/control.hpp: poly"]}
{"id": "C106", "title": "The norms are norms", "statement": "square_norm and infinity_norm of matrices and vectors are not negative, zero only for zero, multiplied by |b| when the argument is scaled by b, at most the sum for a sum, at least the difference for a difference and at most the product for a product; dot is bounded by the product of the lengths; square_norm is the same for the transpose and is not changed by matrices with orthonormal columns; infinity_norm of a matrix is the largest stretching of infinity_norm of a vector; the norms bound each other; the norm of inverse(A) bounds the error of a solution by its residual.", "quantifier": "all shapes, all matrices and vectors, exact arithmetic over an ordered field with a square root", "why_tests_cant": "Inequalities between results for infinitely many pairs of matrices; a test that samples matrices never meets the vector at which a bound is attained, and equality cases are where an implementation with a wrong norm goes unnoticed.", "anchors": ["include/malg/math.hpp: square_norm, infinity_norm, operator+, operator-, operator*, dot", "include/malg/linalg.hpp: inverse, transpose"]}
{"id": "C107", "title": "Norms in floating point", "statement": "In floating point arithmetic with unit roundoff u, square_norm of n elements differs from the exact length by at most the fraction (1+u)^(n+1)-1 of it (for double: (n+1) 2^-52), and infinity_norm of a matrix with m columns by at most (1+u)^(m-1)-1 of it whatever the number of rows; infinity_norm of a vector is exact.", "quantifier": "all binary formats, all sizes up to 2^52 elements for double, all entries", "why_tests_cant": "The worst rounding errors happen at inputs nobody writes down; a test compares with a tolerance chosen to make it pass.", "anchors": ["include/malg/math.hpp: square_norm, infinity_norm"]}
{"id": "C108", "title": "Lifetimes of views", "statement": "A view is a pointer: as long as everything it points to lives, it shows the selected block of what its matrix holds now, whatever was assigned, resized or written in between; writes through one view are seen through another exactly where both show the same cell; a copied view is independent of the first; programs whose objects end in reverse order of construction never use an object after its end.", "quantifier": "all programs of any length that construct, copy, change, write, assign and destroy matrices, views, views of views and cofactor views; all element types", "why_tests_cant": "Reading a dead object often gives the expected value by luck; tests keep the matrix next to its views and never run through all orders of destruction.", "anchors": ["include/malg/view.hpp: View, CofactorView", "include/malg/matrix.hpp: operator()(Range, Range)"]}
{"id": "C109", "title": "Eigenvalues and eigenvectors of a matrix", "statement": "After [U, T] = QRHessenberg(A) and [E, full] = eigenvectorUpper(T), the diagonal of T holds the eigenvalues of A and the nonzero columns of U * E are unit eigenvectors for them, both within the tolerances, unless a warning is printed; the columns are a basis if full is set. For a hermitian A the eigenvalues are real and all of them are found, each as often as it occurs.", "quantifier": "all square complex matrices of all sizes, all tolerances and iteration limits", "why_tests_cant": "T is only approximately triangular when the loop stops; how that and the threshold for equal eigenvalues act on the vectors cannot be read off a few matrices.", "anchors": ["include/malg/eigen.hpp: QRHessenberg, eigenvectorUpper"]}
{"id": "C110", "title": "Views of constant matrices behave as the matrices they view", "statement": "An expression with a view of a constant matrix as operand, cA(rows, cols), has the same result as with the matrix or a view of a matrix that is not constant: the same element type, the same verdicts of == and !=, the same text of to_matlab, the same norms.", "quantifier": "all pairs of element types and qualifiers, all matrices", "why_tests_cant": "The templates are instantiated anew for const element types; a test of the matrix says nothing about its constant view.", "anchors": ["include/malg/type_traits.hpp: is_complex, extract_common_type_t", "include/malg/math.hpp: operator==, operator!=, square_norm, vector_length", "include/malg/io.hpp: to_matlab", "include/malg/view.hpp: View"]}
{"id": "C111", "title": "poly with integer elements", "statement": "For a square matrix A with elements of a built-in integer type, poly(A) are the coefficients of det(X*I - A), and for a vector those of the product of the factors X - a_i, as long as no intermediate value overflows; for unsigned types modulo 2^w.", "quantifier": "all widths, all sizes, all entries", "why_tests_cant": "The trace is divided by a double and stored as an integer; whether that loses digits depends on the magnitude of sums over all entries.", "anchors": ["include/malg/control/control.hpp: poly"]}
{"id": "C112", "title": "Floating point numbers in files", "statement": "A floating point number written by the library is the decimal, with the precision of the stream, nearest to it, and a decimal is read as the nearest number of the type: a vector, matrix or view of floating point numbers written to a file is read back as it was if the precision is large enough (17 digits for double, 9 for float), or if its elements are nearest to decimals with at most the precision (up to 15 digits for double); otherwise with a relative error of half a unit of the last digit. What was written and read once does not change any more.", "quantifier": "all vectors, matrices and views, all binary formats, all precisions, all texts", "why_tests_cant": "Whether a number survives depends on its binary and decimal digits; the 2^64 values of a double cannot be tried, and the limits 15 and 17 come from comparing powers of two and ten.", "anchors": ["include/malg/io.hpp: operator<<, operator>>"]}
{"id": "C113", "title": "Inverses in floating point", "statement": "Up to 4x4, inverse in floating point returns a matrix close to the exact inverse for every regular matrix: each entry has the error of its minor and its share of the error of the determinant (see C86), relative to the determinant, and two more roundings. div, which multiplies by the inverse, has the share of these errors and those of the product. The sign of a 2x2 determinant is never reversed.", "quantifier": "all matrices up to 4x4 over all floating point formats without overflow", "why_tests_cant": "The loss of accuracy depends on the cancellation in the determinant; tests use well conditioned matrices.", "anchors": ["include/malg/linalg.hpp: inverse", "include/malg/linalg.hpp: adjoint", "include/malg/linalg.hpp: determinant", "include/malg/linalg.hpp: div"]}
{"id": "C114", "title": "Correct rounding and order in floating point", "statement": "Every element of A+B, A-B, A*s and A/s is the floating point number nearest to the exact result. The operations keep the order bit for bit: A+B and A-B, sums and scalar products, products and powers of matrices without negative elements, square_norm and simulations of systems without negative coefficients grow (or stay) when their operands grow, and are not negative; sums of numbers that are not negative are no smaller than each of them. The exponential of a matrix without negative elements has no negative elements and no diagonal element below one. The order is kept, but not strictly: different operands can give equal sums.", "quantifier": "all sizes, all operands, all binary formats without overflow", "why_tests_cant": "Rounding happens in every operation; whether it can ever reverse an order cannot be sampled.", "anchors": ["include/malg/math.hpp: operator+, operator-, operator*, operator/, sum, dot, square_norm", "include/malg/linalg.hpp: powm, expm", "include/malg/control/control.hpp: simulate"]}
{"id": "C115", "title": "Powers, controllability matrices and characteristic polynomials of integer matrices are exact in floating point", "statement": "For matrices of integers, powm, ctrb and obsv in floating point are exact as long as the powers of the matrix of absolute values (and their products with the absolute values of B or C) stay within 2^p (2^53 for double). poly(A) is exactly the characteristic polynomial as long as n m (n(n+1) m)^(n-1) <= 2^p for n x n matrices with entries of absolute value at most m, and poly(v) exactly the polynomial with the roots v as long as binomial(n,i) m^i <= 2^p for all i. Beyond these bounds the coefficients can be rounded.", "quantifier": "all sizes, all integer matrices within the bounds, all precisions", "why_tests_cant": "poly subtracts, multiplies and divides in a loop; that no intermediate value is rounded for any matrix cannot be sampled.", "anchors": ["include/malg/linalg.hpp: powm", "include/malg/control/control.hpp: ctrb, obsv, poly"]}
{"id": "C116", "title": "Rounding errors that add up over many steps stay within explicit bounds", "statement": "In floating point, powm(A, N) of an n x n matrix differs from the power by at most ((1+u)^(nN) - 1) |A|^N in each entry, the blocks of ctrb and obsv by the corresponding bound for the products with B and C, the states of simulate after i steps from those of the exact simulation by at most ((1+u)^(i(max(n,m)+1)) - 1) times the state of the simulation with absolute values, and the coefficients of poly(v) from those of the polynomial with the roots v by at most ((1+u)^(2n) - 1) times the coefficients of the polynomial with the roots -|v|; each with an explicit term for underflow.", "quantifier": "all sizes, all numbers of steps, all matrices and inputs, all precisions", "why_tests_cant": "The errors of one step are the input of the next; a test sees single trajectories, and no test can show a bound for all of them.", "anchors": ["include/malg/linalg.hpp: powm", "include/malg/control/control.hpp: ctrb, obsv, poly", "include/malg/control/control.hpp: simulate"]}
{"id": "C117", "title": "Simulations of discretised systems stay near the continuous ones", "statement": "c2d followed by simulate gives states that differ from the solution of x' = A x + B u at the sample times by at most e (X + a b) (1 + (f + e) + ... + (f + e)^(k-1)) after k steps, where e is the error of the matrix exponential, X bounds the solution, b the values of B u, and f and a are the largest row sums of exp(A dt) and of the inverse of A; outputs by that times the largest row sum of C. With expm as c2d calls it, e is at most max(1, 2 r) exp(r) (n^2 + 2) / ((n^2 + 1)! (n^2 + 1)) for the largest row sum r of A dt. If f + e < 1 the error stays bounded for all time.", "quantifier": "all regular systems with up to five states, or up to 5000 if the inverse of A has no zero entry, any number of inputs, outputs and steps, all piecewise constant inputs, all sample times; exact arithmetic over the real numbers", "why_tests_cant": "The error of one exponential enters every step; no finite set of simulations shows a bound for all systems and all durations.", "anchors": ["include/malg/control/control.hpp: c2d, simulate", "include/malg/linalg.hpp: expm"]}
{"id": "C118", "title": "Inverses and quotients of integer matrices", "statement": "For a matrix of integers, inverse returns a matrix of double: a singular matrix is reported, and every entry of the inverse of a regular one is the exact (rational) value, rounded once; div(A, B) is A times the inverse of B up to rounding. No intermediate result overflows as long as n! m^n is in the range of the element type, for n rows and entries of size at most m.", "quantifier": "all square integer matrices, all signed element types of two or more bits that the floating point format holds exactly, all tolerances up to 1/4", "why_tests_cant": "determinant and adjoint compute in the integer type and only the final division is done in double, so whether a result is right depends on intermediate values; the project's own test has one 5x5 example.", "anchors": ["include/malg/linalg.hpp: determinant, adjoint, inverse, div", "tests/test_math.cpp: test_int"]}
{"id": "C119", "title": "A file keeps numbers up to the tolerance", "statement": "A vector or matrix of double that is written to a file (or any stream) with the stream's precision P and read back compares equal, with ==, to the one written.", "quantifier": "all sizes, all finite values, all precisions, all tolerances", "why_tests_cant": "whether the comparison succeeds depends on how the decimal digits, the reading back and the subtraction in feq round; the project's test draws one random vector and matrix.", "anchors": ["include/malg/io.hpp: operator<<, operator>>", "include/malg/feq.hpp: approximately_equal", "tests/test_read_write_file.cpp"]}
{"id": "C120", "title": "What is written to a file is read back in order", "statement": "Vectors, matrices and numbers that are written to one std::ofstream by any number of statements `out << a << b ...;` are read back, with the values and in the order they were written, by `in >> x;` into variables of the same types.", "quantifier": "all numbers of statements, all lengths of the statements, all sizes, all element types whose values are read back, all white space between", "why_tests_cant": "the overload that prints an operand is chosen by the static type of what stands left of it, so it depends on everything before it in the statement; a test fixes one statement.", "anchors": ["include/malg/io.hpp: operator<<, operator>>"]}
{"id": "C121", "title": "The systems of the example programs are passive", "statement": "The state space systems that the example programs build describe the circuit and the pendulum they are named after: along every solution of the differential equation whose right side is operator() of the model, the stored energy changes by the power of the input less the power lost in the resistor or by friction; without input it never grows.", "quantifier": "all values of the parts, all inputs, all solutions, all times", "why_tests_cant": "a test runs one simulation over a short time with one set of values; a wrong sign only shows as growth, which looks like a plausible curve for a while.", "anchors": ["examples/sim_rlc_ct.cpp: Model", "examples/sim_rlc_dt.cpp: main", "examples/pendulum.cpp: Pendulum"]}
{"id": "C122", "title": "The discrete-time example prints what it says", "statement": "The loop of examples/sim_rlc_dt.cpp makes as many steps as the program announces, and the line it prints for a time shows the input and the output of the circuit at that time (with the input held between the samples).", "quantifier": "all discretised systems of two states, all inputs, all starts, ends and step widths, all rounds; in exact and in floating point arithmetic", "why_tests_cant": "the number of rounds depends on the accumulated rounding of t += 0.001, and a shift by one sample is below the resolution of a plot.", "anchors": ["examples/sim_rlc_dt.cpp: main, compute_samples"]}
{"id": "C123", "title": "Determinants of large matrices in floating point", "statement": "For 5x5 and larger matrices, determinant returns in floating point the determinant up to rounding errors relative to the entries, and inverse of a 5x5 matrix is as accurate as for the smaller sizes.", "quantifier": "all square matrices from 5x5 on over all floating point formats without overflow", "why_tests_cant": "The elimination exchanges rows only for a zero pivot; whether a small pivot destroys the result depends on the values, and tests use matrices of integers.", "anchors": ["include/malg/linalg.hpp: determinant", "include/malg/linalg.hpp: inverse"]}
{"id": "C124", "title": "The matrix exponential in floating point", "statement": "When expm returns in floating point without overflow, the result differs from the exponential of the matrix, in the largest row sum, by at most the remainder of the series after p terms and the growth of the rounding errors, both relative to exp(x) where x is the largest row sum of the matrix; p is at least the square of the order unless the inverse factorials underflow. In double, for orders up to 1024 and x up to 2^30: at most 2^k exp(x) (((n + 5) p + n + 4) / 2^52 + ((1 + 2^-40) min(1, x))^(p+1) / (p+1)!), where p is at most 177 and 2^k is at most 2.1 x or one; from order five on, at most max(1, 2.1 x) exp(x) 178 (n + 5) / 2^52.", "quantifier": "all square matrices, accuracies, tolerances and numbers of loop iterations", "why_tests_cant": "The error combines the cut of the series, hundreds of rounded matrix products and repeated squaring; tests compare a few small matrices within a tolerance.", "anchors": ["include/malg/linalg.hpp: expm", "include/malg/math.hpp: log2_ceil, infinity_norm"]}
{"id": "C125", "title": "expm on doubles ends, whatever they are", "statement": "expm of a square matrix of doubles ends after at most 1076 halvings in log2_ceil and 179 rounds of the series and returns a matrix of the same size or throws std::invalid_argument, whatever the elements and the accuracy are, infinities and NaNs included. In IEEE arithmetic, determinant returns a number for every square matrix, and inverse a matrix of the same size or an empty one.", "quantifier": "all square matrices of any order with any double values, all accuracies, any square root function", "why_tests_cant": "Loops that end only by underflow, and NaNs that make every comparison false, can hang for some values that no test has.", "anchors": ["include/malg/linalg.hpp: expm, determinant, inverse", "include/malg/math.hpp: log2_ceil"]}
{"id": "C126", "title": "From the differential equation to the numbers", "statement": "c2d and simulate, both computed in floating point without overflow: if the computed exponential and the computed inverse are within eps and rho (largest row sum) of the exact ones, then the discrete input matrix is within an explicit bound of the exact one, and the states and outputs of the simulation differ from the solution of the differential equation at the sample times by an explicit bound (errors of the matrices, rounding, underflow). In double, eps is explicit too. For the undamped oscillator, 1024 steps of 1/1024 s follow cosine and sine within 1e-9.", "quantifier": "all systems with regular A, sample times, inputs, initial states, durations, solutions of the differential equation", "why_tests_cant": "Tests compare a few steps of one system with stored numbers; the exact solution, and the sum of all error sources over any number of steps, is not available to them.", "anchors": ["include/malg/control/control.hpp: c2d, simulate", "include/malg/linalg.hpp: expm, inverse"]}
{"id": "C127", "title": "Overflow in long computations", "statement": "IEEE doubles, with infinities and NaN. If no row of a finite matrix has a sum of absolute values above 700, no operation of expm overflows: the result is finite and the error bound of C124 holds. For sums of up to 2^30 overflow shows: a row of the result that is finite satisfies the bound. The same (a finite element satisfies the bound of C116) for powm, ctrb, obsv and for the states and outputs of simulate.", "quantifier": "all matrices of order up to 1024 with finite elements, all systems, inputs, initial states, exponents", "why_tests_cant": "Overflow needs elements that no test uses; whether a finite result can hide an overflow in between depends on all intermediate values.", "anchors": ["include/malg/linalg.hpp: expm, powm", "include/malg/math.hpp: log2_ceil", "include/malg/control/control.hpp: ctrb, obsv, simulate"]}
{"id": "C128", "title": "Inverse, discretisation and simulation in IEEE doubles", "statement": "IEEE doubles, with infinities and NaN. inverse up to order 4: if the computed determinant is zero or infinite the result is empty, if it is NaN all elements are NaN; otherwise the matrix is finite and each finite element satisfies the bound of C113; with elements up to 2^200 and a determinant that exceeds its error by 2^-200 all elements are finite. c2d: a finite row of the discrete input matrix satisfies the bound of C126, and there is one only if the computed exponential is finite; with row sums of A dt up to 699 and a finite A the exponential is finite and satisfies the bound of C126. simulate after c2d: each finite state and output is as near to the solution of the differential equation as C126 says, and all of them are finite if the numbers involved stay below 2^200. For the oscillator x'' = -x, 1024 steps of 1/1024 follow cosine and sine to nine digits.", "quantifier": "all matrices, systems, inputs, initial states and sample times, of order and number of inputs up to 1024 where finiteness is claimed", "why_tests_cant": "Tests compare with a tolerance for some systems; that no intermediate result overflows, and that a finite result is right even if one does, depends on all of them.", "anchors": ["include/malg/linalg.hpp: inverse, adjoint, determinant, expm", "include/malg/control/control.hpp: c2d, simulate"]}
{"id": "C129", "title": "Vectors whose elements own memory", "statement": "A Vector can hold elements of class type, such as a Vector of Vectors (T(0.) is then an empty vector, so it compiles). It cannot: for every size other than zero, every construction and every growth of such a vector is undefined, whether the allocator grants the memory (an assignment operator runs on an object that was never constructed) or not (a null pointer is followed). Only vectors of vectors without elements work.", "quantifier": "all sizes, all contents, all decisions of the allocator", "why_tests_cant": "Memory fresh from the system is often zero, and an all-zero object happens to look like an empty vector; whether a test notices depends on what the allocator did before.", "anchors": ["include/malg/vector.hpp: Vector(size), Vector(initializer_list), Vector(const Vector&), resize, allocate"]}
{"id": "C130", "title": "Pole placement in floating point", "statement": "acker(A, B, poles) in floating point, for a controllable system with as many poles as states: if the computed inverse of the computed controllability matrix is within rho of the exact inverse, the computed gain K is within an explicit bound of Ackermann's gain, and every coefficient of the characteristic polynomial of A - B K is within that bound, times the size of the adjugate of s - A applied to B, of the coefficient for the wanted poles. Up to four states rho is explicit as well: it follows from the rounding errors of ctrb, determinant and inverse. A controllable system is not always accepted: if rounding makes the computed determinant zero, the process ends. For the double integrator in double, with poles between -1 and 1, the gains are right up to 2^-46.", "quantifier": "all systems, poles, precisions and roundings that follow the standard model; explicit rho for up to four states", "why_tests_cant": "Tests place a few poles for a few systems; how far the closed loop is from the wanted one depends on the condition of the controllability matrix.", "anchors": ["include/malg/control/control.hpp: acker, ctrb, poly", "include/malg/linalg.hpp: inverse, determinant, powm"]}
{"id": "C131", "title": "Pole placement in IEEE doubles", "statement": "acker(A, B, poles) with infinities and NaN: a gain can be finite only if A, the poles and the computed inverse of the controllability matrix are, and the finite gains satisfy the rounding bound of C130. The gains do not overflow if the exponents of A, the poles and the inverse are small against 1024; up to four states with entries up to 2^48 and a determinant that is not too small, the gains are finite and the closed loop has the wanted polynomial up to an explicit bound. If the computed determinant is zero or infinite the process ends with status 1; if it is NaN, all gains are NaN up to four states. So a controllable system with finite numbers can be refused because the determinant overflows. For the double integrator with poles between -1 and 1 the gains are finite and right up to 2^-46.", "quantifier": "all systems and poles of IEEE doubles, including infinities and NaN; fully explicit bounds for up to four states", "why_tests_cant": "Tests use moderate numbers; which numbers overflow inside the computation depends on all operands at once.", "anchors": ["include/malg/control/control.hpp: acker, ctrb, poly", "include/malg/linalg.hpp: inverse, determinant, powm"]}
{"id": "C132", "title": "Norms of IEEE doubles", "statement": "square_norm of a vector, matrix or view of doubles, with std::sqrt as IEEE 754 defines it: the result has no sign; it is NaN exactly if an element is NaN; if it is finite, all elements are and it is the length up to (n + 1) 2^-52 relative and sqrt(n) 2^-536 absolute, so purely relative unless the length is below 2^-459; it is finite if the elements are and the length is at most 2^511, and infinite if an element reaches 2^512. vector_length computes the same number for part of a column. infinity_norm of a vector is exact and never overflows, infinity_norm of a matrix is right up to m 2^-52; but they pass over NaN: a vector is NaN only if its first element is, and a matrix never.", "quantifier": "all vectors, matrices and views of IEEE doubles, including infinities and NaN, up to 2^52 elements", "why_tests_cant": "Overflow and underflow of squares need elements near the square root of the range, and a NaN is passed over or not depending on where it is.", "anchors": ["include/malg/math.hpp: square_norm, infinity_norm, vector_length"]}
{"id": "C133", "title": "Characteristic polynomials in floating point", "statement": "poly(A) of a square n x n matrix of rounded numbers returns n + 1 coefficients. The one of x^(n-i) is that of the characteristic polynomial of the stored matrix up to (2 n + 3) i roundings relative to C(n + i - 1, i) mu^i, where mu is the largest sum of absolute values of a row, plus an underflow term. So every eigenvalue of A, real or complex, is nearly a root of the computed polynomial: the residual is at most ((1 + u)^((2n + 3) n) - 1) C(2n, n) mu^n plus underflow. For double the relative factor is (2 n + 3) i 2^-52.", "quantifier": "all square matrices of all sizes (for double with (2 n + 3) n up to 2^52), all rounded number types without overflow", "why_tests_cant": "An error that grows with the size and the norm of the matrix cannot be seen on a few small matrices with exact results.", "anchors": ["include/malg/control/control.hpp: poly(MatrixBase)"]}
{"id": "C134", "title": "Characteristic polynomials of IEEE doubles", "statement": "poly(A) of a square matrix of doubles returns n + 1 coefficients whatever the elements are. If a coefficient is finite, the diagonal of A is, and from the third coefficient on all of A; and the coefficient satisfies the bound of C133. All coefficients are finite if the elements are finite and at most 2^s in absolute value, n <= 2^q and n (s + 2 q + 1) < 1024.", "quantifier": "all square matrices of IEEE doubles, including infinities and NaN, with (2 n + 3) n up to 2^52", "why_tests_cant": "Overflow of an intermediate product needs particular magnitudes and is hidden or not depending on which zeros it meets.", "anchors": ["include/malg/control/control.hpp: poly(MatrixBase)"]}
{"id": "C135", "title": "Evenly spaced points on IEEE doubles", "statement": "linspace(a, b, n) of doubles with at least two points and endpoints that do not count as equal: if the difference of the endpoints is finite, the first point is a and the points never go back (never decrease if a < b, never increase otherwise), whether or not the last ones overflow. A finite point comes from finite endpoints and is right up to 2^-53 of itself plus 2^-51 of the length of the range plus underflow. All points are finite if the endpoints are and do not exceed 2^1020.", "quantifier": "all IEEE doubles as endpoints, including infinities and NaN, all point counts from 2 below 2^32", "why_tests_cant": "That rounded points stay in order is a claim about every pair of points for every range; overshoot and overflow of the end depend on single bits.", "anchors": ["include/malg/utility.hpp: linspace"]}
{"id": "C136", "title": "lu_decomposition of a diagonally dominant matrix always returns, with a small error", "statement": "If in every row the absolute value of the diagonal entry exceeds the sum of the absolute values of the other entries (by more than a margin for the rounding errors, of about n(2n+1) 2^-52 times the row sum in double), then lu_decomposition does not divide by zero although it does not pivot: it returns factors whose product differs from the matrix by at most that margin in every row, whose pivots are at least the dominance less the margin, and whose entries are at most twice the row sums of the matrix. In exact arithmetic strict dominance suffices, and the determinant is at least the product of the dominances; dominance that is not strict does not suffice.", "quantifier": "all sizes, all matrices with the stated dominance, every arithmetic with bounded relative error (and exact arithmetic, and double without overflow)", "why_tests_cant": "The claim is about all dominant matrices of all sizes and about every rounding in the decomposition; tests see the absence of a division by zero only for the matrices tried.", "anchors": ["include/malg/linalg.hpp: lu_decomposition"]}
{"id": "C137", "title": "determinant of a diagonally dominant matrix is accurate to a high relative precision", "statement": "For every matrix of size above four whose diagonal entries exceed the sums of the other entries of their rows by at least g, the elimination in determinant does not produce a number above twice the largest row sum, and the result has a relative error of at most (1 + 2^-53)^n (1 + d / (g - d))^n - 1, where d is n^2 2^-51 times twice the largest row sum, plus a term for underflow; so it is never mistaken for zero.", "quantifier": "all sizes above four, all matrices with the stated dominance, every arithmetic with bounded relative error (and double without overflow, with the tolerance of the code)", "why_tests_cant": "The growth of the numbers in the elimination depends on the matrix; tests can only observe it for the matrices tried, and cannot separate rounding errors from growth.", "anchors": ["include/malg/linalg.hpp: determinant"]}
{"id": "C138", "title": "lu_decomposition of doubles with overflow", "statement": "lu_decomposition of a square matrix of IEEE doubles always returns two matrices, without an exception or undefined behaviour. If both are finite, the matrix is finite, they are lower triangular and unit upper triangular, and their product differs from the matrix by at most the rounding errors of C84; no infinity is lost on the way. A finite matrix of up to 1023 rows with row sums up to 2^1000, whose diagonal entries exceed the sums of the other entries of their rows by more than twice the rounding errors, has finite factors with the accuracy of C136. A vanishing pivot is not reported: the factors then contain infinities, also where the matrix is invertible, and with a small pivot they are finite, but their product may be off by one in a matrix of entries up to one.", "quantifier": "all sizes, all square matrices of IEEE doubles including infinities and NaN; the second part for all dominant ones", "why_tests_cant": "Whether an infinity or NaN is produced and survives depends on the magnitudes of all intermediate results; tests only see it for the inputs tried.", "anchors": ["include/malg/linalg.hpp: lu_decomposition"]}
{"id": "C139", "title": "determinant of large matrices of doubles with overflow", "statement": "For every finite matrix of IEEE doubles of size above four whose diagonal entries exceed the sums of the other entries of their rows by at least twice the rounding errors, and whose row sums are at most 2^s with n (s + 1) below 1024, determinant returns a finite number with the relative accuracy of C137. Without the dominance this fails silently: the elimination may produce an infinite pivot, which the comparison takes for zero, and the product of the pivots so far is returned.", "quantifier": "all sizes above four, all finite dominant matrices of IEEE doubles", "why_tests_cant": "Overflow in the elimination depends on ratios of intermediate results; tests only see the inputs tried.", "anchors": ["include/malg/linalg.hpp: determinant"]}
{"id": "C140", "title": "products of complex matrices in floating point", "statement": "For matrices of complex numbers with rounded parts: sums and differences have one rounding relative to the modulus of each exact entry; the parts of products differ from the exact ones by k+2 roundings relative to the sums of the products of the absolute values of the parts, and the modulus of the error of an entry is at most twice that factor times the entry of the product of the moduli; the same holds for matrix times vector and for scalar products; products of Gaussian integers with bounded entries are exact; and the conjugate transpose of a product is bit for bit the product of the conjugate transposes in reverse order. The parts by themselves need not be accurate: a real part of zero is computed where the exact one is not zero.", "quantifier": "all shapes, all matrices and vectors of complex numbers, all roundings; binary64 in particular", "why_tests_cant": "The bounds hold for all sizes and all entries, and cancellation between the two products of a real part shows only for particular entries.", "anchors": ["include/malg/math.hpp: operator*", "include/malg/math.hpp: operator+", "include/malg/math.hpp: operator-", "include/malg/linalg.hpp: transpose"]}
{"id": "C141", "title": "matrices on the heap", "statement": "Every program over matrix variables (construction, copying, moving, assignment, reshape, resize, removal of rows and columns, writing and reading, destruction) that makes sense for tables runs on the heap without undefined behaviour and sees exactly what it would see with tables, wherever the allocator puts the blocks. Afterwards the entry (r, c) of an n by m matrix is in cell r m + c of its block, every live block belongs to exactly one matrix and has its size, and nothing is left when no matrix is left, although temporaries come and go and constructors throw. If the allocator refuses a block, the constructor writes through a null pointer.", "quantifier": "all programs, all element types, all allocators that grant the requests; for the refusal all shapes with elements", "why_tests_cant": "The placement of blocks, aliasing and leaks are invisible to assertions on values; the programs are unbounded.", "anchors": ["include/malg/matrix.hpp: Matrix", "include/malg/vector.hpp: Vector", "include/malg/utility.hpp: remove_row"]}
{"id": "C142", "title": "determinants, adjoints and inverses that are wrong are minors", "statement": "Beyond 4x4 determinant(A) returns, up to its sign, the minor of the leading columns that are linearly independent and of some rows; it is never zero. All columns are used exactly when A is regular, so for regular matrices the result is the determinant; otherwise the next column is a combination of those used. The result is bounded by n! max(1, |a|)^n whether it is right or not. adjoint(A) and inverse(A) are therefore right in every entry that is not zero; beyond 5x5 all entries that should be zero are wrong, but within the bound that holds for a proper adjoint or inverse.", "quantifier": "all sizes, all matrices over a field with an absolute value", "why_tests_cant": "Ranges over all singular matrices of all sizes; a test shows one wrong value but not which value is returned in general.", "anchors": ["include/malg/linalg.hpp: determinant", "include/malg/linalg.hpp: adjoint", "include/malg/linalg.hpp: inverse"]}
{"id": "C143", "title": "pointers into matrices, and how often matrices ask for memory", "statement": "A pointer to the elements of a matrix (data(), begin(), &A(r, c)) keeps reading the current elements of the matrix through every later program that does not take the memory from it, and after a move it is the pointer of the matrix moved to. Writing, reshape, resize to the same shape, assignment of an empty matrix and exceptions keep it. Destruction, every assignment of a matrix with elements (also of the same shape), resize to another number of columns or to nothing, and remove_column make it dangle whatever the allocator does; resize to another number of rows and remove_row make it dangle if the allocator moves the block. A program asks for memory once per matrix with elements it builds, copies or copy-assigns, once per resize to another shape and once per row or column removed if anything is left, and never for moves, reshape, reading or writing.", "quantifier": "all programs before and after taking the pointer, all element types, all allocators that grant the requests of the program", "why_tests_cant": "Whether a pointer dangles depends on all later operations and on the allocator; a dangling pointer often still reads the old value. The calls of the allocator are only printed by the tests.", "anchors": ["include/malg/matrix.hpp: Matrix, operator=, resize, reshape", "include/malg/vector.hpp: allocate", "include/malg/utility.hpp: remove_row", "tests/test_memory.cpp"]}
{"id": "C144", "title": "a change of units changes the numbers, not the digits", "statement": "If the rows and columns of matrices are given other units, that is, the entries are multiplied by r_i / s_j, then products, determinants, inverses, LU decompositions, simulated states and outputs, characteristic polynomials and pole placement gains are multiplied by the factors they should be, and the same cases are singular or uncontrollable. With exact numbers for all factors; in floating point for all powers of two and signs while nothing underflows or overflows, digit by digit although every step rounds; in IEEE doubles for signs without any exception, infinities and NaNs included, up to the sign of zeros.", "quantifier": "all matrices of all sizes, all units", "why_tests_cant": "A test compares with a tolerance and for a few units; that not one digit changes for all units, beyond 4x4 through an elimination with row exchanges, cannot be seen from cases.", "anchors": ["include/malg/linalg.hpp: determinant, inverse, lu_decomposition, powm", "include/malg/math.hpp: operator*", "include/malg/control/control.hpp: poly, acker, simulate"]}
{"id": "C145", "title": "zeros and symmetries survive rounding", "statement": "Entries that are zero for structural reasons are returned as exact zeros, however the arithmetic rounds: products and powers keep every pattern of zeros that multiplication keeps, the LU decomposition only fills in where elimination does (bands stay bands), matrices up to 4x4 that have too few nonzero places for a permutation have determinant zero, inverses up to 5x5 keep block triangular patterns, so do matrix exponentials of all sizes, the discretisation of a system with up to five states keeps what is not connected apart, the inverse of a symmetric matrix up to 3x3 is symmetric to the last digit, and so are the products of a matrix with its transpose. The determinant of a triangular matrix is the product of its diagonal, multiplied from top to bottom. Simulated states do not depend on states and inputs they are not connected to.", "quantifier": "all matrices of all sizes and all patterns of zeros, exact numbers, floating point numbers, IEEE doubles without infinities", "why_tests_cant": "A test sees a zero that happens to come out as zero; that no rounding error ever appears in a place that should be empty, for all patterns, is not visible in cases.", "anchors": ["include/malg/linalg.hpp: determinant, inverse, lu_decomposition, powm, expm", "include/malg/math.hpp: operator*", "include/malg/control/control.hpp: simulate, c2d"]}
{"id": "C146", "title": "permutations and matrices with one entry in every row", "statement": "The determinant of a matrix with more than four rows that has one entry in every row and column is the product of these entries, multiplied from the first column to the last, with the sign of the permutation: no other rounding happens, whatever the exchanges of rows. The determinant of a permutation matrix of any size is 1 or -1. Products with a matrix of this form round every element once; products with a permutation matrix move rows or columns and change no number. The inverse of a permutation matrix up to 4x4 is its transpose.", "quantifier": "all sizes, all permutations, all entries, exact numbers, floating point numbers of any format, IEEE doubles", "why_tests_cant": "Permutations of n rows are n! cases; the sign is kept by a loop that exchanges rows, and a test checks a few permutations of a few rows.", "anchors": ["include/malg/linalg.hpp: determinant, inverse", "include/malg/math.hpp: operator*"]}
{"id": "C147", "title": "equal rows and columns are noticed", "statement": "A matrix with two equal rows or two equal columns is singular: its determinant is zero and inverse returns the empty matrix that stands for a singular one.", "quantifier": "all square matrices of floating point numbers with two equal rows or columns, all pairs of rows and columns", "why_tests_cant": "Whether the products cancel exactly depends on the order of the terms and on the digits; a test with whole numbers never sees the rounding.", "anchors": ["include/malg/linalg.hpp: determinant, inverse"]}
{"id": "C148", "title": "the block above the diagonal does not change the determinant", "statement": "The determinant of a matrix made of two square blocks on the diagonal and zeros below them does not depend on what is in the block above, in every digit. The same holds for the block below if there are zeros above.", "quantifier": "all square matrices of any size, all ways to cut them into two diagonal blocks, all numbers in the block beside the diagonal, exact and rounded arithmetic", "why_tests_cant": "The block beside the diagonal is free and the elimination for more than four rows runs through it in every step; a test compares a few fillings.", "anchors": ["include/malg/linalg.hpp: determinant"]}
{"id": "C149", "title": "parts that do not depend on the rest are computed as if they were alone", "statement": "If some states of a system depend only on each other and on some of the inputs, then their values in a simulation, the outputs that depend only on them, their rows of the powers of the system matrix and of the controllability matrix do not depend on the other states, inputs and entries, in every digit; they are the same as those of the small system on its own. The same holds for the matrix exponential.", "quantifier": "all systems of any size, all sets of states, inputs and outputs that depend only on each other, all inputs, initial states and numbers of steps, exact and rounded arithmetic", "why_tests_cant": "The other part of the system is free; a test sees a few of its fillings, and a wrong term is multiplied by zero most of the time.", "anchors": ["include/malg/control/control.hpp: simulate, simulate_step, ctrb", "include/malg/linalg.hpp: powm, expm", "include/malg/math.hpp: operator*, dot"]}
{"id": "C150", "title": "the coordinates of the state do not matter", "statement": "If a system is written in other coordinates, x' = S x with A' = S A S^-1, B' = S B, C' = C S^-1, then simulate returns the same times and outputs and the states in the new coordinates, ctrb and obsv return S times and times S^-1 what they returned, powm returns the power in the new coordinates, poly, trace and determinant return the same, and acker returns the gain G S^-1 that means the same feedback. The same holds for the matrix exponential.", "quantifier": "all systems of any size, all invertible S, all inputs, initial states, durations and poles; exact arithmetic", "why_tests_cant": "Relates two runs on different numbers for every invertible matrix; tests fix one system in one form.", "anchors": ["include/malg/control/control.hpp: simulate, ctrb, obsv, poly, acker", "include/malg/linalg.hpp: powm, determinant, expm", "include/malg/math.hpp: trace"]}
{"id": "C151", "title": "stable systems stay bounded, however long they are simulated", "statement": "If a discrete system is stable and its inputs are bounded, the states and outputs that simulate computes in floating point stay bounded whatever the number of steps, in double they do not overflow, their distance from the states and outputs without rounding is bounded independently of the number of steps, and without input they decay down to what underflows.", "quantifier": "all stable systems of any size, all bounded input sequences of any length, all initial states; exact, rounded and IEEE arithmetic", "why_tests_cant": "A statement about all times; a test runs for a fixed number of steps and cannot see errors that add up slowly.", "anchors": ["include/malg/control/control.hpp: simulate", "include/malg/linalg.hpp: dot"]}
{"id": "C152", "title": "discretising a stable system gives a stable system", "statement": "If a continuous system is stable, the discrete system that c2d computes from it for any positive sample time is stable too: all eigenvalues of the discrete A are inside of the unit circle, so that every simulation of it stays bounded.", "quantifier": "all stable systems with any number of states, all positive sample times, all accuracies, all inputs, simulations of any length", "why_tests_cant": "A statement about all systems and all times; instability shows only after many steps, and only for systems that a test would have to know in advance.", "anchors": ["include/malg/control/control.hpp: c2d", "include/malg/linalg.hpp: expm"]}
{"id": "C153", "title": "feedback and observers designed with acker work", "statement": "For a controllable system, feedback with the gain that acker computes for poles inside of the unit circle makes every simulation stay bounded. For an observable system, an observer with the gain that acker computes for the transposed system, simulated with the inputs and the simulated outputs of the system, follows its states: the distance decays exponentially, and with poles at zero the states are equal after as many steps as there are states. Feedback from the state of such an observer keeps the whole bounded.", "quantifier": "all controllable and observable systems with one input or output for which the inverse is computed correctly (up to five states, or no zero in it), all poles, all inputs, all initial states, simulations of any length", "why_tests_cant": "It connects acker, transpose, mul, sub, hstack, vstack and simulate for all systems and all times; a test can run a few systems for a few steps.", "anchors": ["include/malg/control/control.hpp: acker, simulate", "include/malg/linalg.hpp: transpose", "include/malg/utility.hpp: hstack, vstack"]}
{"id": "C154", "title": "discretising a system that loses what it exchanges gives a contraction", "statement": "If in every row of the system matrix the diagonal entry is negative and outweighs the absolute values of the others by at least a positive rate, the discrete system that c2d computes shrinks the largest absolute value of the state by at least the exponential of minus the rate times the sample time, up to the error of the exponential. In double, if this error is smaller than what is lost in one step, the computed state matrix is finite and a contraction, and no simulation of the discrete system, however long, overflows or leaves a bound that has room for the inputs. Without rounding the simulation stays near the continuous system for all times, with one bound for any number of steps.", "quantifier": "all systems with finite entries and such a diagonal for which the exponential, the inverse and the input matrix come out, all sample times, all inputs, initial states and simulated times", "why_tests_cant": "It bounds all states of all simulations, of any length, of all such systems, with rounding and overflow; a test can run a few systems for a few steps.", "anchors": ["include/malg/control/control.hpp: c2d, simulate", "include/malg/linalg.hpp: expm"]}
{"id": "C155", "title": "what cannot become negative does not become negative", "statement": "If no entry of a matrix beside the diagonal is negative, no entry of what expm returns is negative, and what the matrix conserves or leaves at rest is conserved or left at rest by the result exactly: so the exponential of the rates of a Markov chain is a matrix of probabilities whose rows sum to one, however early the series is cut off. A system with such a matrix, and without negative entries in the others, is discretised to one without negative entries, and with inputs and initial states that are not negative no state and no output of a simulation is ever negative.", "quantifier": "all matrices and systems of this kind, all accuracies and sample times, all inputs and initial states that are not negative, simulations of any length", "why_tests_cant": "The sign of every entry is claimed for all matrices and all numbers of terms and squarings, also where the exponential is inaccurate; a test can look at a few matrices.", "anchors": ["include/malg/linalg.hpp: expm", "include/malg/control/control.hpp: c2d, simulate"]}
{"id": "C156", "title": "a discretised system rests where the system rests", "statement": "If a continuous system rests at a state while its input is held constant, the system that c2d returns rests at the same state with the same input, exactly, whatever the sample time and however inaccurate the exponential is; a simulation started there stays there, and its outputs stay the same. If all modes of the system are damped well enough it rests nowhere else, and every simulation with a constant input approaches this state exponentially: the value to which a step response settles is the one of the continuous system.", "quantifier": "all systems with an invertible matrix, all sample times and accuracies, all constant inputs and initial states, simulations of any length", "why_tests_cant": "That the discrete system settles exactly where the continuous one does, for every sample time and also where the exponential is inaccurate, is an algebraic identity between all entries; a simulation that is run in a test ends before it has settled.", "anchors": ["include/malg/control/control.hpp: c2d, simulate", "include/malg/linalg.hpp: expm"]}
{"id": "C157", "title": "a few impulses tell how a system answers to everything", "statement": "The outputs that simulate computes after an impulse are D, C B, C A B, C A^2 B and so on, and the outputs for any other inputs are sums of these. If two systems with n and n' states give the same outputs in the n + n' + 1 steps that follow an impulse in each of the inputs, they give the same outputs for all inputs in simulations of any length; the number of steps cannot be reduced. The product of what obsv and ctrb return consists of the answers to impulses. Without inputs all states and outputs satisfy the recurrence whose coefficients are what poly returns for the matrix of the system.", "quantifier": "all pairs of systems, with any numbers of states, inputs and outputs, all inputs and initial states, simulations of any length", "why_tests_cant": "Finitely many simulations decide about all of them only because of this property; the simulations themselves cannot show it.", "anchors": ["include/malg/control/control.hpp: simulate, ctrb, obsv, poly"]}
{"id": "C158", "title": "there is only one answer", "statement": "The factors that lu_decomposition returns are the only pair of a lower triangular matrix and an upper triangular one with ones in the diagonal with the given product, also for a singular matrix. The gain that acker returns is the only one that gives the closed loop the requested poles, so that every other correct method leads to the same gain. The order in which poles or roots are given to acker or poly does not matter.", "quantifier": "all matrices for which lu_decomposition returns, all controllable systems with one input and all poles in all orders, all lists of roots", "why_tests_cant": "The claim compares the results with all matrices that could be returned instead; a test can compare them with the result of one other program.", "anchors": ["include/malg/linalg.hpp: lu_decomposition", "include/malg/control/control.hpp: acker, poly"]}
