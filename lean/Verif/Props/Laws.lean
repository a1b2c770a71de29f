import Verif.Props.Det
import Verif.Props.Poly
import Verif.Props.VecOps
import Verif.Props.Reduce
import Mathlib.LinearAlgebra.Matrix.Charpoly.Coeff
import Mathlib.LinearAlgebra.Matrix.Charpoly.LinearMap
/-!
# C105: laws that connect several functions

Equations between calls. Both sides are results of the library; that they are also right is C35 – C61.
-/
namespace Malg
open Ops Lin Control

/-! ## Traces and matrix–vector products -/

/-- C105: `trace(A * B)` is `trace(B * A)`, for every pair of shapes for which both exist, and `trace` of the transpose of a
square matrix is its trace. -/
theorem C105_trace {K : Type} [CommSemiring K] {A B : MB K} {n m : Nat} {M : Matrix (Fin n) (Fin m) K} {N : Matrix (Fin m) (Fin n) K}
    (hA : A.Is M) (hB : B.Is N) (hn : Fits n n) (hm : Fits m m) :
    (mul A B >>= fun X => trace X.toMB) = (mul B A >>= fun X => trace X.toMB) ∧
    (n = m → (transpose A >>= fun X => trace X.toMB) = trace A) := by
  constructor
  · obtain ⟨X, h1, -, hX⟩ := C35_product hA hB hn
    obtain ⟨Y, h2, -, hY⟩ := C35_product hB hA hm
    rw [h1, h2, Res.ok_bind, Res.ok_bind, C41_trace_square_partial hX, C41_trace_square_partial hY, Matrix.trace_mul_comm]
  · rintro rfl
    obtain ⟨X, h1, -, hX⟩ := C48_matrix hA
    rw [h1, Res.ok_bind, C41_trace_square_partial hX, C41_trace_square_partial hA, Matrix.trace_transpose]

/-- C105: `(A * B) * x` is `A * (B * x)`. -/
theorem C105_vector {K : Type} [Semiring K] {A B : MB K} {n k m : Nat} {M : Matrix (Fin n) (Fin k) K} {N : Matrix (Fin k) (Fin m) K}
    (hA : A.Is M) (hB : B.Is N) {x : List K} {f} (hx : VRep x m f) (hf : Fits n m) (hn : n < allocMax) (hk : k < allocMax) :
    (mul A B >>= fun X => mulVec X.toMB x) = (mulVec B x >>= fun y => mulVec A y) := by
  obtain ⟨X, h1, -, hX⟩ := C35_product hA hB hf
  obtain ⟨v, hv, -, hv1, hv2⟩ := C37_matrix_partial hX hx hn
  obtain ⟨y, hy, -, hy1, hy2⟩ := C37_matrix_partial hB hx hk
  have hy3 : VRep y k fun i => if h : i < k then N.mulVec (toV m f) ⟨i, h⟩ else 0 :=
    ⟨hk, hy1, fun i hi => by dsimp only; rw [dif_pos hi]; exact hy2 ⟨i, hi⟩⟩
  obtain ⟨w, hw, -, hw1, hw2⟩ := C37_matrix_partial hA hy3 hn
  rw [h1, Res.ok_bind, hv, hy, Res.ok_bind, hw]
  congr 1
  apply List.ext_getElem? fun i => ?_
  by_cases hi : i < n
  · rw [hv2 ⟨i, hi⟩, hw2 ⟨i, hi⟩, ← Matrix.mulVec_mulVec]
    congr 2
    funext j
    unfold toV; dsimp only; rw [dif_pos j.2]
  · rw [List.getElem?_eq_none (by omega), List.getElem?_eq_none (by omega)]

/-- C105: `dot(A * x, y)` is `dot(x, transpose(A) * y)`. -/
theorem C105_adjoint {K : Type} [CommSemiring K] {A : MB K} {n m : Nat} {M : Matrix (Fin n) (Fin m) K} (hA : A.Is M) {x y : List K}
    {f g} (hx : VRep x m f) (hy : VRep y n g) :
    (mulVec A x >>= fun v => dot v y) = (transpose A >>= fun B => mulVec B.toMB y >>= fun w => dot x w) := by
  obtain ⟨v, hv, -, hv1, hv2⟩ := C37_matrix_partial hA hx hy.1
  obtain ⟨B, h1, -, hB⟩ := C48_matrix hA
  obtain ⟨w, hw, -, hw1, hw2⟩ := C37_matrix_partial hB hy hx.1
  have hv3 : VRep v n fun i => if h : i < n then M.mulVec (toV m f) ⟨i, h⟩ else 0 :=
    ⟨hy.1, hv1, fun i hi => by dsimp only; rw [dif_pos hi]; exact hv2 ⟨i, hi⟩⟩
  have hw3 : VRep w m fun i => if h : i < m then M.transpose.mulVec (toV n g) ⟨i, h⟩ else 0 :=
    ⟨hx.1, hw1, fun i hi => by dsimp only; rw [dif_pos hi]; exact hw2 ⟨i, hi⟩⟩
  rw [hv, h1, Res.ok_bind, Res.ok_bind, hw, Res.ok_bind, C38_dot_sum hv3 hy, C38_dot_sum hx hw3]
  congr 1
  have h := Matrix.dotProduct_mulVec (toV n g) M (toV m f)
  simp only [Fin.is_lt, dite_true, Fin.eta]
  simp only [dotProduct, toV] at h
  rw [show (∑ i : Fin n, M.mulVec (toV m f) i * g i) = ∑ i : Fin n, g i * M.mulVec (toV m f) i from
    Finset.sum_congr rfl fun i _ => mul_comm _ _, Matrix.mulVec_transpose]
  refine h.trans (Finset.sum_congr rfl fun i _ => mul_comm _ _)

/-! ## Powers -/

/-- C105: the laws of powers. -/
theorem C105_powers {K : Type} [Semiring K] {A : MB K} {n : Nat} {M : Matrix (Fin n) (Fin n) K} (h : A.Is M) (hn : 0 < n) (p q : Nat) :
    (powm A p >>= fun X => powm A q >>= fun Y => mul X.toMB Y.toMB) = powm A (p + q) ∧
    (powm A p >>= fun X => powm X.toMB q) = powm A (p * q) := by
  have hf := h.fits
  constructor
  · refine Yields.unique (M := M ^ (p + q)) ?_ (C49_powm_partial h hn _)
    exact (C49_powm_partial h hn p).bind fun X _ hX => (C49_powm_partial h hn q).bind fun Y _ hY =>
      (C35_product hX hY hf).congr (pow_add M p q).symm
  · refine Yields.unique (M := M ^ (p * q)) ?_ (C49_powm_partial h hn _)
    exact (C49_powm_partial h hn p).bind fun X _ hX => (C49_powm_partial hX hn q).congr (pow_mul M p q).symm

/-- C105: the power of the transpose is the transpose of the power. -/
theorem C105_powers_transpose {K : Type} [CommSemiring K] {A : MB K} {n : Nat} {M : Matrix (Fin n) (Fin n) K} (h : A.Is M) (hn : 0 < n)
    (p : Nat) : (transpose A >>= fun X => powm X.toMB p) = (powm A p >>= fun X => transpose X.toMB) := by
  refine Yields.unique (M := (M ^ p).transpose) ?_ ((C49_powm_partial h hn p).bind fun X _ hX => C48_matrix hX)
  exact (C48_matrix h).bind fun X _ hX => (C49_powm_partial hX hn p).congr (Matrix.transpose_pow M p).symm

/-! ## Determinants -/

/-- C105 (partial): up to 4×4 the laws of determinants hold over every commutative ring, so for integers as well, whatever the
zero test and the division do. Missing: larger matrices (below). -/
theorem C105_ring_partial {L : Type} [CommRing L] [CDiv L] (isz : L → Bool) {A B : MB L} {N : Nat} {M M' : Matrix (Fin N) (Fin N) L}
    (hA : A.Is M) (hB : B.Is M') (hN : N ≤ 4) :
    (mul A B >>= fun X => determinant isz X.toMB) = (determinant isz A >>= fun a => determinant isz B >>= fun b => .ok (a * b)) ∧
    (transpose A >>= fun X => determinant isz X.toMB) = determinant isz A := by
  obtain ⟨X, h1, -, hX⟩ := C35_product hA hB hA.fits
  obtain ⟨Y, h2, -, hY⟩ := C48_matrix hA
  rw [h1, h2, Res.ok_bind, Res.ok_bind, C50_small_partial _ hA hN, C50_small_partial _ hB hN, C50_small_partial _ hX hN,
    C50_small_partial _ hY hN, Matrix.det_mul, Matrix.det_transpose]
  exact ⟨rfl, rfl⟩

section
variable {K R : Type} [Field K] [DecidableEq K] [Field R] [LinearOrder R] [IsStrictOrderedRing R]
variable (abs : AbsoluteValue K R) {tol : R} (ht : tol < 1)

include ht in
/-- `determinant` where it is right. -/
theorem determinant_right {A : MB K} {N : Nat} {M : Matrix (Fin N) (Fin N) K} (h : A.Is M) (hN : N ≤ 4 ∨ M.det ≠ 0) :
    determinant (isZ abs tol) A = .ok M.det :=
  hN.elim (C50_small_partial _ h) (C50_large_partial abs ht h)

include ht in
/-- C105 (partial): `determinant(A * B)` is `determinant(A) * determinant(B)`. Missing: singular matrices larger than 4×4
(`C105_product_false`). -/
theorem C105_product_partial {A B : MB K} {N : Nat} {M M' : Matrix (Fin N) (Fin N) K} (hA : A.Is M) (hB : B.Is M')
    (hN : N ≤ 4 ∨ (M.det ≠ 0 ∧ M'.det ≠ 0)) :
    (mul A B >>= fun X => determinant (isZ abs tol) X.toMB) =
      (determinant (isZ abs tol) A >>= fun a => determinant (isZ abs tol) B >>= fun b => .ok (a * b)) := by
  obtain ⟨X, h1, -, hX⟩ := C35_product hA hB hA.fits
  rw [h1, Res.ok_bind, determinant_right abs ht hA (hN.imp_right And.left), Res.ok_bind,
    determinant_right abs ht hB (hN.imp_right And.right), Res.ok_bind, determinant_right abs ht hX ?_, Matrix.det_mul]
  exact hN.imp_right fun h => by rw [Matrix.det_mul]; exact mul_ne_zero h.1 h.2

include ht in
/-- C105 (partial): a matrix and its transpose have the same determinant; the determinant of a power is the power of the
determinant. Missing: singular matrices larger than 4×4 (`C105_transpose_false`). -/
theorem C105_transpose_partial {A : MB K} {N : Nat} {M : Matrix (Fin N) (Fin N) K} (hA : A.Is M) (hN : N ≤ 4 ∨ M.det ≠ 0) :
    (transpose A >>= fun X => determinant (isZ abs tol) X.toMB) = determinant (isZ abs tol) A ∧
    (0 < N → ∀ p, (powm A p >>= fun X => determinant (isZ abs tol) X.toMB) =
      (determinant (isZ abs tol) A >>= fun a => .ok (a ^ p))) := by
  constructor
  · obtain ⟨X, h1, -, hX⟩ := C48_matrix hA
    rw [h1, Res.ok_bind, determinant_right abs ht hA hN, determinant_right abs ht hX (by rwa [Matrix.det_transpose]),
      Matrix.det_transpose]
  · intro h0 p
    obtain ⟨X, h1, -, hX⟩ := C49_powm_partial hA h0 p
    rw [h1, Res.ok_bind, determinant_right abs ht hA hN, Res.ok_bind, determinant_right abs ht hX, Matrix.det_pow]
    exact hN.imp_right fun h => by rw [Matrix.det_pow]; exact pow_ne_zero p h

include ht in
/-- C105 is false for every size beyond four: `determinant(A * B)` is not `determinant(A) * determinant(B)` for the zero matrix
and twice the identity. -/
theorem C105_product_false [CharZero K] {A : Mat K} {B : MB K} {N : Nat} (hN : 4 < N) (hW : A.WF)
    (hA : A.toMB.Is (0 : Matrix (Fin N) (Fin N) K)) (hB : B.Is ((2 : K) • (1 : Matrix (Fin N) (Fin N) K))) :
    ∃ x y, (mul A.toMB B >>= fun X => determinant (isZ abs tol) X.toMB) = .ok x ∧
      (determinant (isZ abs tol) A.toMB >>= fun a => determinant (isZ abs tol) B >>= fun b => .ok (a * b)) = .ok y ∧ x ≠ y := by
  have h0 : (0 : Matrix (Fin N) (Fin N) K).det = 0 := by
    have : Nonempty (Fin N) := ⟨⟨0, by omega⟩⟩
    exact Matrix.det_zero
  have h2 : ((2 : K) • (1 : Matrix (Fin N) (Fin N) K)).det = 2 ^ N := by simp
  obtain ⟨d, hd, hd0⟩ := C50_singular_false abs ht hA hN h0
  obtain ⟨X, h1, h1', hX⟩ := C35_product hA hB hA.fits
  rw [Matrix.zero_mul] at hX
  have hb := C50_large_partial abs ht hB (by rw [h2]; exact pow_ne_zero _ two_ne_zero)
  have hx : determinant (isZ abs tol) X.toMB = .ok d := by
    have := Yields.unique (x := .ok X) (y := .ok A) ⟨X, rfl, h1', hX⟩ ⟨A, rfl, hW, hA⟩
    injection this with this
    rw [this, hd]
  refine ⟨d, d * 2 ^ N, by rw [h1, Res.ok_bind, hx], by rw [hd, Res.ok_bind, hb, Res.ok_bind, h2], fun h => ?_⟩
  have h3 : (2 : K) ^ N = 1 := by
    have := h.symm.trans (mul_one d).symm
    exact mul_left_cancel₀ hd0 this
  have h4 : ((2 ^ N : ℕ) : K) = ((1 : ℕ) : K) := by push_cast; exact h3
  have := Nat.cast_injective h4
  have := Nat.one_lt_two_pow (n := N) (by omega)
  omega

/-! ## Inverses -/

include ht in
/-- C105 (partial): `inverse(inverse(A))` is `A`. Missing: matrices beyond 5×5 with a zero entry in `A` or its inverse. -/
theorem C105_inverse_partial {A : MB K} {N : Nat} {M : Matrix (Fin N) (Fin N) K} (hA : A.Is M) (hM : M.det ≠ 0)
    (hN : N ≤ 5 ∨ ((∀ i j, M i j ≠ 0) ∧ ∀ i j, M⁻¹ i j ≠ 0)) :
    Yields (inverse (isZ abs tol) A >>= fun X => inverse (isZ abs tol) X.toMB) M := by
  have hu : IsUnit M.det := isUnit_iff_ne_zero.2 hM
  refine (C52_large_partial abs ht hA hM (hN.imp_right And.right)).bind fun X _ hX => ?_
  refine (C52_large_partial abs ht hX ?_ ?_).congr (Matrix.nonsing_inv_nonsing_inv M hu)
  · rw [Matrix.det_nonsing_inv, Ring.inverse_eq_inv']; exact inv_ne_zero hM
  · rw [Matrix.nonsing_inv_nonsing_inv M hu]; exact hN.imp_right And.left

include ht in
/-- C105 (partial): `inverse(A * B)` is `inverse(B) * inverse(A)`, and `inverse(transpose(A))` is `transpose(inverse(A))`.
Missing: matrices beyond 5×5 some of whose inverses have a zero entry (`C105_inverse_false`). -/
theorem C105_inverse_product_partial {A B : MB K} {N : Nat} {M M' : Matrix (Fin N) (Fin N) K} (hA : A.Is M) (hB : B.Is M')
    (hM : M.det ≠ 0) (hM' : M'.det ≠ 0)
    (hN : N ≤ 5 ∨ ((∀ i j, M⁻¹ i j ≠ 0) ∧ (∀ i j, M'⁻¹ i j ≠ 0) ∧ ∀ i j, (M'⁻¹ * M⁻¹) i j ≠ 0)) :
    (mul A B >>= fun X => inverse (isZ abs tol) X.toMB) =
      (inverse (isZ abs tol) B >>= fun X => inverse (isZ abs tol) A >>= fun Y => mul X.toMB Y.toMB) ∧
    (transpose A >>= fun X => inverse (isZ abs tol) X.toMB) = (inverse (isZ abs tol) A >>= fun X => transpose X.toMB) := by
  have hf := hA.fits
  constructor
  · refine Yields.unique (M := M'⁻¹ * M⁻¹) ?_ ?_
    · refine (C35_product hA hB hf).bind fun X _ hX => ?_
      refine (C52_large_partial abs ht hX ?_ ?_).congr (Matrix.mul_inv_rev M M')
      · rw [Matrix.det_mul]; exact mul_ne_zero hM hM'
      · rw [Matrix.mul_inv_rev]; exact hN.imp_right fun h => h.2.2
    · exact (C52_large_partial abs ht hB hM' (hN.imp_right fun h => h.2.1)).bind fun X _ hX =>
        (C52_large_partial abs ht hA hM (hN.imp_right fun h => h.1)).bind fun Y _ hY => C35_product hX hY hf
  · refine Yields.unique (M := M⁻¹.transpose) ?_ ?_
    · refine (C48_matrix hA).bind fun X _ hX => ?_
      refine (C52_large_partial abs ht hX ?_ ?_).congr (Matrix.transpose_nonsing_inv M).symm
      · rw [Matrix.det_transpose]; exact hM
      · rw [← Matrix.transpose_nonsing_inv]; exact hN.imp_right fun h i j => h.1 j i
    · exact (C52_large_partial abs ht hA hM (hN.imp_right fun h => h.1)).bind fun X _ hX => C48_matrix hX

include ht in
/-- C105 (partial): multiplying undoes dividing, `div(A, B) * B` is `A`; and `determinant(inverse(B)) * determinant(B)` is one.
Missing: as above. -/
theorem C105_div_partial {A B : MB K} {n N : Nat} {P : Matrix (Fin n) (Fin N) K} {M : Matrix (Fin N) (Fin N) K} (hA : A.Is P) (hB : B.Is M)
    (hM : M.det ≠ 0) (hN : N ≤ 5 ∨ ∀ i j, M⁻¹ i j ≠ 0) :
    Yields (Lin.div (isZ abs tol) A B >>= fun X => mul X.toMB B) P ∧
    (inverse (isZ abs tol) B >>= fun X => determinant (isZ abs tol) X.toMB >>= fun x =>
      determinant (isZ abs tol) B >>= fun y => .ok (x * y)) = .ok 1 := by
  have hi := C52_large_partial abs ht hB hM hN
  have hu : IsUnit M.det := isUnit_iff_ne_zero.2 hM
  constructor
  · refine (C52_div _ hA hi).bind fun X _ hX => (C35_product hX hB hA.fits).congr ?_
    rw [Matrix.mul_assoc, Matrix.nonsing_inv_mul M hu, Matrix.mul_one]
  · obtain ⟨X, h1, -, hX⟩ := hi
    have hdi : M⁻¹.det = M.det⁻¹ := by rw [Matrix.det_nonsing_inv, Ring.inverse_eq_inv']
    rw [h1, Res.ok_bind, C50_large_partial abs ht hX (by rw [hdi]; exact inv_ne_zero hM), Res.ok_bind,
      C50_large_partial abs ht hB hM, Res.ok_bind, hdi, inv_mul_cancel₀ hM]

end

/-! ## Characteristic polynomials -/

section
variable {K : Type} [Field K] [CharZero K] [DecidableEq K]
open Polynomial

omit [CharZero K] [DecidableEq K] in
/-- Coefficient lists of equal length with the same polynomial are equal. -/
theorem polyOf_inj {a b : List K} (hl : a.length = b.length) (h : polyOf a = polyOf b) : a = b := by
  apply List.ext_getElem hl fun i h1 h2 => ?_
  have := congrArg (coeff · (a.length - 1 - i)) h
  simp only [polyOf_coeff] at this
  rw [if_pos (by omega), if_pos (by omega), show a.length - 1 - (a.length - 1 - i) = i by omega,
    show b.length - 1 - (a.length - 1 - i) = i by omega, List.getD_eq_getElem?_getD, List.getD_eq_getElem?_getD,
    List.getElem?_eq_getElem h1, List.getElem?_eq_getElem h2] at this
  exact this

/-- C105: `poly(transpose(A))` is `poly(A)`, and `poly(A * B)` is `poly(B * A)`. -/
theorem C105_poly {A B : MB K} {n : Nat} {M N : Matrix (Fin n) (Fin n) K} (hA : A.Is M) (hB : B.Is N) :
    (transpose A >>= fun X => polyMat X.toMB) = polyMat A ∧
    (mul A B >>= fun X => polyMat X.toMB) = (mul B A >>= fun X => polyMat X.toMB) := by
  have key : ∀ {X Y : MB K} {P Q : Matrix (Fin n) (Fin n) K}, X.Is P → Y.Is Q → P.charpoly = Q.charpoly → polyMat X = polyMat Y := by
    intro X Y P Q hX hY h
    obtain ⟨c, h1, h2, h3⟩ := C61_charpoly hX
    obtain ⟨d, h4, h5, h6⟩ := C61_charpoly hY
    rw [h1, h4, polyOf_inj (h2.trans h5.symm) (by rw [h3, h6, h])]
  constructor
  · obtain ⟨X, h1, -, hX⟩ := C48_matrix hA
    rw [h1, Res.ok_bind]
    exact key hX hA (Matrix.charpoly_transpose M)
  · obtain ⟨X, h1, -, hX⟩ := C35_product hA hB hA.fits
    obtain ⟨Y, h2, -, hY⟩ := C35_product hB hA hA.fits
    rw [h1, h2, Res.ok_bind, Res.ok_bind]
    exact key hX hY (Matrix.charpoly_mul_comm M N)

/-- C105: among the coefficients of `poly(A)` the second one is `-trace(A)` and the last one `(-1)^n * det A`. -/
theorem C105_poly_coefficients {A : MB K} {n : Nat} {M : Matrix (Fin n) (Fin n) K} (hA : A.Is M) (hn : 0 < n) :
    ∃ c t, polyMat A = .ok c ∧ trace A = .ok t ∧ c.length = n + 1 ∧ c[0]? = some 1 ∧ c[1]? = some (-t) ∧
      c[n]? = some ((-1) ^ n * M.det) := by
  have : Nonempty (Fin n) := ⟨⟨0, hn⟩⟩
  obtain ⟨c, h1, h2, h3⟩ := C61_charpoly hA
  have hc : ∀ i, i ≤ n → c[i]? = some (M.charpoly.coeff (n - i)) := by
    intro i hi
    rw [← h3, polyOf_coeff, if_pos (by omega), h2, show n + 1 - 1 - (n - i) = i by omega,
      List.getD_eq_getElem?_getD, List.getElem?_eq_getElem (by omega : i < c.length)]; rfl
  refine ⟨c, _, h1, C41_trace_square_partial hA, h2, ?_, ?_, ?_⟩
  · rw [hc 0 (by omega)]
    have := (Matrix.charpoly_monic M).coeff_natDegree
    rw [Matrix.charpoly_natDegree_eq_dim, Fintype.card_fin] at this
    rw [Nat.sub_zero, this]
  · rw [hc 1 hn, Matrix.trace_eq_neg_charpoly_coeff, Fintype.card_fin, neg_neg]
  · rw [hc n le_rfl, Nat.sub_self, Matrix.det_eq_sign_charpoly_coeff, Fintype.card_fin, ← mul_assoc, ← mul_pow]
    simp

/-- C105 (Cayley–Hamilton): the coefficients of `poly(A)` combine the powers `powm(A, n), …, powm(A, 0)` to zero. -/
theorem C105_cayley_hamilton {A : MB K} {n : Nat} {M : Matrix (Fin n) (Fin n) K} (hA : A.Is M) {r s : Nat} (hr : r < n) (hs : s < n)
    {x : Nat → K} (hx : ∀ i, i ≤ n → (powm A (n - i) >>= fun P => P.at_ r s) = .ok (x i)) :
    ∃ c, polyMat A = .ok c ∧ c.length = n + 1 ∧ ∑ i ∈ Finset.range (n + 1), c.getD i 0 * x i = 0 := by
  obtain ⟨c, h1, h2, h3⟩ := C61_charpoly hA
  refine ⟨c, h1, h2, ?_⟩
  have hx' : ∀ i, i ≤ n → x i = (M ^ (n - i)) ⟨r, hr⟩ ⟨s, hs⟩ := by
    intro i hi
    obtain ⟨P, hP, -, e, hP1, hP2⟩ := C49_powm_partial hA (by omega) (n - i)
    have := hx i hi
    rw [hP, Res.ok_bind] at this
    have h4 := hP1.get r s hr hs
    have h5 := this.symm.trans h4
    injection h5 with h5
    rw [h5, ← hP2]; rfl
  have hch := M.aeval_self_charpoly
  rw [Polynomial.aeval_eq_sum_range, Matrix.charpoly_natDegree_eq_dim, Fintype.card_fin] at hch
  have h6 := congrFun (congrFun hch ⟨r, hr⟩) ⟨s, hs⟩
  rw [Matrix.sum_apply, ← Finset.sum_range_reflect] at h6
  refine Eq.trans (Finset.sum_congr rfl fun i hi => ?_) h6
  have hi' : i ≤ n := by have := Finset.mem_range.1 hi; omega
  rw [hx' i hi', Matrix.smul_apply, smul_eq_mul, show n + 1 - 1 - i = n - i by omega, ← h3, polyOf_coeff, if_pos (by omega), h2,
    show n + 1 - 1 - (n - i) = i by omega]

end

/-- C105 is false: a singular 5×5 matrix and its transpose get different determinants. -/
theorem C105_transpose_false : ∃ A : Mat ℚ, A.WF ∧ A.rows = 5 ∧ A.cols = 5 ∧
    determinant (isZ (AbsoluteValue.abs (S := ℚ)) (1/1000000000)) A.toMB = .ok 1 ∧
    (transpose A.toMB >>= fun X => determinant (isZ (AbsoluteValue.abs (S := ℚ)) (1/1000000000)) X.toMB) = .ok (-2) :=
  ⟨Mat.ofFn 5 5 fun i j => if i = 0 ∧ j = 1 then 2 else 0, by decide +kernel⟩

/-- C105 is false beyond 5×5: the inverse of the inverse of the 6×6 identity is not the identity, and the product of its
inverse with itself is not its inverse. -/
theorem C105_inverse_false :
    let inv := fun A : Mat ℚ => inverse (isZ (AbsoluteValue.abs (S := ℚ)) (1/1000000000)) A.toMB
    let I : Mat ℚ := Mat.ofFn 6 6 fun i j => if i = j then 1 else 0
    (inv I >>= inv) ≠ .ok I ∧
    (mul I.toMB I.toMB >>= inv) ≠ (inv I >>= fun X => inv I >>= fun Y => mul X.toMB Y.toMB) := by
  decide +kernel

/-- Both sides of the law for determinants on a 2×2 example. -/
example : (mul (⟨2, 2, [1, 2, 3, 4]⟩ : Mat Int).toMB (⟨2, 2, [0, 1, 2, 3]⟩ : Mat Int).toMB >>= fun X =>
    determinant (fun x => decide (x = 0)) X.toMB) = .ok 4 := by decide +kernel
/-- A 2×3 and a 3×2 matrix: the products have different shapes and the same trace. -/
example : (mul (⟨2, 3, [1, 2, 3, 4, 5, 6]⟩ : Mat Int).toMB (⟨3, 2, [1, 0, 2, 1, 0, 3]⟩ : Mat Int).toMB >>= fun X => trace X.toMB) =
      .ok 28 ∧
    (mul (⟨3, 2, [1, 0, 2, 1, 0, 3]⟩ : Mat Int).toMB (⟨2, 3, [1, 2, 3, 4, 5, 6]⟩ : Mat Int).toMB >>= fun X => trace X.toMB) =
      .ok 28 := by decide +kernel
/-- `A^2 - 5 A - 2 I` is zero for this matrix, as `poly` says. -/
example : polyMat (⟨2, 2, [1, 2, 3, 4]⟩ : Mat ℚ).toMB = .ok [1, -5, -2] ∧
    powm (⟨2, 2, [1, 2, 3, 4]⟩ : Mat ℚ).toMB 2 = .ok ⟨2, 2, [7, 10, 15, 22]⟩ := by decide +kernel
example : (inverse (isZ (AbsoluteValue.abs (S := ℚ)) (1/1000000000)) (⟨2, 2, [1, 2, 3, 4]⟩ : Mat ℚ).toMB >>= fun X =>
    inverse (isZ (AbsoluteValue.abs (S := ℚ)) (1/1000000000)) X.toMB) = .ok ⟨2, 2, [1, 2, 3, 4]⟩ := by decide +kernel

end Malg
