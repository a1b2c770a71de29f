import Verif.Props.Linalg
import Verif.Props.Compare
import Verif.Lemmas.Det
import Mathlib.LinearAlgebra.Matrix.NonsingularInverse
/-!
# C50 – C52: `determinant`, `adjoint`, `inverse`, `div`

The element type is a field `K` with an absolute value (`std::abs`), and `isZ abs tol` is
`feq::approximately_equal_to_zero` with a tolerance below one. `Mat.empty0` is `Matrix()`.
-/
namespace Malg
open Ops Lin Feq

/-- `feq::approximately_equal_to_zero` on a field. -/
def isZ {K R : Type} [Semiring K] [Semiring R] [LinearOrder R] (abs : AbsoluteValue K R) (tol : R) (x : K) : Bool :=
  approxZero abs tol x

section
variable {K R : Type} [Field K] [DecidableEq K] [Field R] [LinearOrder R] [IsStrictOrderedRing R]
variable (abs : AbsoluteValue K R) {tol : R} (ht : tol < 1)

include ht in
omit [DecidableEq K] in
theorem isZ_iff (x : K) : isZ abs tol x = true ↔ x = 0 := (C40_zero abs tol ht x).2

/-! ## C50 -/

/-- C50, the part that holds for every commutative ring (integers as well): matrices up to 4×4, whatever the zero test
and the division do. Missing: larger matrices, see `C50_large_partial`, `C50_singular_false` and `C50_int_false`. -/
theorem C50_small_partial {L : Type} [CommRing L] [CDiv L] (isz : L → Bool) {A : MB L} {N : Nat} {M : Matrix (Fin N) (Fin N) L}
    (h : A.Is M) (hN : N ≤ 4) : determinant isz A = .ok M.det := by
  obtain ⟨e, h, rfl⟩ := h
  exact determinant_small isz h hN

include ht in
/-- C50, the part that holds in every size: the determinant of non-singular matrices over a field. Missing: singular
matrices larger than 4×4 (`C50_singular_false`). -/
theorem C50_large_partial {A : MB K} {N : Nat} {M : Matrix (Fin N) (Fin N) K} (h : A.Is M) (hM : M.det ≠ 0) :
    determinant (isZ abs tol) A = .ok M.det := by
  obtain ⟨e, h, rfl⟩ := h
  obtain ⟨d, h1, h2⟩ := determinant_ok (isZ_iff abs ht) h
  rw [h1, h2 hM]

include ht in
/-- C50 is false: for every singular matrix larger than 4×4 the result is not zero. -/
theorem C50_singular_false {A : MB K} {N : Nat} {M : Matrix (Fin N) (Fin N) K} (h : A.Is M) (hN : 4 < N)
    (hM : M.det = 0) : ∃ d, determinant (isZ abs tol) A = .ok d ∧ d ≠ 0 := by
  obtain ⟨e, h, rfl⟩ := h
  obtain ⟨d, h1, h2, -⟩ := determinant_large (isZ_iff abs ht) h hN
  exact ⟨d, h1, h2⟩

include ht in
/-- C50: so beyond 4×4 the result is right exactly for the non-singular matrices. -/
theorem C50_large_iff {A : MB K} {N : Nat} {M : Matrix (Fin N) (Fin N) K} (h : A.Is M) (hN : 4 < N) :
    determinant (isZ abs tol) A = .ok M.det ↔ M.det ≠ 0 := by
  refine ⟨fun h1 h2 => ?_, C50_large_partial abs ht h⟩
  obtain ⟨d, h3, h4⟩ := C50_singular_false abs ht h hN h2
  rw [h3] at h1
  injection h1 with h1
  exact h4 (h1.trans h2)

end

/-- C50: non-square input throws. -/
theorem C50_throws {T : Type} [Zero T] [One T] [Add T] [Sub T] [Mul T] [Neg T] [CDiv T] (isz : T → Bool) {A : MB T}
    (h : A.rows ≠ A.cols) : determinant isz A = .throw .invalidArgument := by
  unfold determinant
  rw [if_pos]; simpa [Util.isSquare] using h

/-- C50 is false for integer matrices: the ratios are truncated. -/
theorem C50_int_false : ∃ (A : Mat Int) (M : Matrix (Fin 5) (Fin 5) Int), A.WF ∧ A.toMB.Is M ∧ M.det = 1 ∧
    determinant (fun x => decide (x = 0)) A.toMB = .ok 2 := by
  refine ⟨Mat.ofFn 5 5 fun i j => if i = 0 ∧ j = 0 then 2 else if i < 2 ∧ j < 2 then 1 else if i = j then 1 else 0,
    !![2, 1, 0, 0, 0; 1, 1, 0, 0, 0; 0, 0, 1, 0, 0; 0, 0, 0, 1, 0; 0, 0, 0, 0, 1],
    by decide +kernel, ⟨_, ofFn_rep (by decide +kernel) _, ?_⟩, by decide +kernel, by decide +kernel⟩
  decide +kernel

example : determinant (fun x => decide (x = 0)) (⟨3, 3, [2, 0, 1, 1, 3, 2, 1, 1, 1]⟩ : Mat Int).toMB = .ok 0 := by
  decide +kernel
example : determinant (isZ (AbsoluteValue.abs (S := ℚ)) (1/1000000000)) (Mat.ofFn 5 5 fun i j => if (i + 1) % 5 = j then (2:ℚ) else if i = j then 1 else 0).toMB =
    .ok 33 := by decide +kernel
example : determinant (isZ (AbsoluteValue.abs (S := ℚ)) (1/1000000000)) (Mat.ofFn 5 5 fun _ _ => (0:ℚ)).toMB = .ok 1 := by decide +kernel

section
variable {K R : Type} [Field K] [DecidableEq K] [Field R] [LinearOrder R] [IsStrictOrderedRing R]
variable (abs : AbsoluteValue K R) {tol : R} (ht : tol < 1)

/-! ## C51 -/

theorem adjoint_of_minors {L : Type} [CommRing L] [CDiv L] (isz : L → Bool) {A : MB L} {N : Nat} {e : Nat → Nat → L} (h : Rep A N N e)
    (hd : ∀ i j, i < N → j < N → determinant isz (A.cofactor i j) =
      .ok (toM (N - 1) (N - 1) fun r c => e (skip i r) (skip j c)).det) : Yields (adjoint isz A) (toM N N e).adjugate := by
  by_cases h1 : N = 1
  · subst h1
    have : adjoint isz A = .ok (Mat.ofFn 1 1 fun _ _ => 1) := by
      unfold adjoint
      rw [isSquare_eq h.toRepAt, h.cols, beq_self_eq_true, Bool.not_true, if_neg Bool.false_ne_true, if_pos rfl,
        Mat.new_eq h.fits]
    refine (Yields.of_eq h.fits this).congr ?_
    rw [Matrix.adjugate_fin_one]
    funext i j
    rw [Subsingleton.elim i 0, Subsingleton.elim j 0, Matrix.one_apply_eq]; rfl
  · refine (Yields.of_eq h.fits (adjoint_eq h.toRepAt h1 hd)).congr ?_
    funext r c
    rw [toM_apply]
    exact (adjugate_eq (by have := r.2; omega) e c.2 r.2).symm

/-- C51, the part that holds for every commutative ring: matrices up to 5×5. Missing: larger matrices, see
`C51_large_partial` and `C51_false`. -/
theorem C51_small_partial {L : Type} [CommRing L] [CDiv L] (isz : L → Bool) {A : MB L} {N : Nat} {M : Matrix (Fin N) (Fin N) L}
    (h : A.Is M) (hN : N ≤ 5) : Yields (adjoint isz A) M.adjugate := by
  obtain ⟨e, h, rfl⟩ := h
  refine adjoint_of_minors isz h fun i j hi hj => ?_
  exact determinant_small isz (cofactor_rep h.toRepAt (by omega) i j) (by omega)

include ht in
/-- C51, the part that holds in every size: matrices all of whose cofactors are non-zero. Missing: matrices larger than
5×5 with a zero cofactor (`C51_false`). -/
theorem C51_large_partial {A : MB K} {N : Nat} {M : Matrix (Fin N) (Fin N) K} (h : A.Is M) (hM : ∀ i j, M.adjugate i j ≠ 0) :
    Yields (adjoint (isZ abs tol) A) M.adjugate := by
  obtain ⟨e, h, rfl⟩ := h
  refine adjoint_of_minors _ h fun i j hi hj => ?_
  have hr := cofactor_rep h.toRepAt (by omega) i j
  obtain ⟨d, h1, h2⟩ := determinant_ok (isZ_iff abs ht) hr
  rw [h1, h2]
  have := hM ⟨j, hj⟩ ⟨i, hi⟩
  rw [adjugate_eq (by omega) e hi hj] at this
  exact right_ne_zero_of_mul this

include ht in
/-- C51 is false: for every matrix larger than 5×5 that has a zero cofactor the result has no zero entry there. -/
theorem C51_false {A : MB K} {N : Nat} {M : Matrix (Fin N) (Fin N) K} (h : A.Is M) (hN : 5 < N) :
    ∃ M' : Matrix (Fin N) (Fin N) K, Yields (adjoint (isZ abs tol) A) M' ∧ ∀ i j, M' i j ≠ 0 := by
  obtain ⟨e, h, rfl⟩ := h
  have hr := fun i j => cofactor_rep h.toRepAt (by omega) i j
  choose d hd using fun i j => determinant_large (isZ_iff abs ht) (hr i j) (by omega)
  refine ⟨_, Yields.of_eq h.fits (adjoint_eq h.toRepAt (by omega) fun i j _ _ => (hd i j).1), fun i j => ?_⟩
  exact mul_ne_zero (pow_ne_zero _ (by simp)) (hd _ _).2.1

include ht in
/-- C51: so beyond 5×5 the result is the adjugate exactly when the adjugate has no zero entry. -/
theorem C51_large_iff {A : MB K} {N : Nat} {M : Matrix (Fin N) (Fin N) K} (h : A.Is M) (hN : 5 < N) :
    Yields (adjoint (isZ abs tol) A) M.adjugate ↔ ∀ i j, M.adjugate i j ≠ 0 := by
  refine ⟨fun h1 => ?_, C51_large_partial abs ht h⟩
  obtain ⟨M', h2, h3⟩ := C51_false abs ht h hN
  have : M.adjugate = M' := Yields.inj h1 h2
  rw [this]; exact h3

/-- C51: multiplying by the adjoint gives the determinant times the identity (up to 5×5). -/
theorem C51_product_partial {L : Type} [CommRing L] [CDiv L] (isz : L → Bool) {A : MB L} {N : Nat} {M : Matrix (Fin N) (Fin N) L}
    (h : A.Is M) (hN : N ≤ 5) :
    Yields (adjoint isz A >>= fun B => mul A B.toMB) (M.det • (1 : Matrix (Fin N) (Fin N) L)) :=
  (C51_small_partial isz h hN).bind fun _ _ hB => (C35_product h hB h.fits).congr M.mul_adjugate

/-! ## C52 -/

/-- `inverse` from the value of `determinant` and of `adjoint`. -/
theorem inverse_eq' {isz : K → Bool} (hz : ∀ x, isz x = true ↔ x = 0) {A : MB K} {N : Nat} {e : Nat → Nat → K} (h : RepAt A N N e) {d : K} {M' : Matrix (Fin N) (Fin N) K}
    (hd : determinant isz A = .ok d) (h0 : d ≠ 0) (ha : Yields (adjoint isz A) M') :
    Yields (inverse isz A) (d⁻¹ • M') := by
  unfold inverse
  rw [isSquare_eq h, beq_self_eq_true, Bool.not_true, if_neg Bool.false_ne_true, hd, Res.ok_bind,
    if_neg (fun h' => h0 ((hz d).1 h')), ha.eq, Res.ok_bind, h.rows, h.cols, Mat.new_eq h.fits, Res.ok_bind]
  have := fill_pure h.fits (A := Mat.ofFn N N fun _ _ => (0 : K)) (f0 := fun _ _ => 0) rfl
    (e := fun r c => tab M' r c / d)
    (g := fun r c => (Mat.ofFn N N (tab M')).at_ r c >>= fun x => cdiv x d)
    (fun r c hr hc => by rw [ofFn_at h.fits hr hc, Res.ok_bind, cdiv_ok _ h0])
  simp only [bind_assoc] at this
  refine (Yields.of_eq h.fits this).congr ?_
  funext i j
  rw [toM_apply, tab_lt _ i.2 j.2, Matrix.smul_apply, smul_eq_mul, div_eq_inv_mul]

include ht in
theorem inverse_eq {A : MB K} {N : Nat} {e : Nat → Nat → K} (h : RepAt A N N e) {d : K} {M' : Matrix (Fin N) (Fin N) K}
    (hd : determinant (isZ abs tol) A = .ok d) (h0 : d ≠ 0) (ha : Yields (adjoint (isZ abs tol) A) M') :
    Yields (inverse (isZ abs tol) A) (d⁻¹ • M') := inverse_eq' (isZ_iff abs ht) h hd h0 ha

/-- `inverse` of a non-singular matrix returns some matrix of that size. -/
theorem inverse_some {isz : K → Bool} (hz : ∀ x, isz x = true ↔ x = 0) {A : MB K} {N : Nat} {M : Matrix (Fin N) (Fin N) K} (h : A.Is M)
    (hM : M.det ≠ 0) : ∃ M' : Matrix (Fin N) (Fin N) K, Yields (inverse isz A) M' := by
  obtain ⟨e, h, rfl⟩ := h
  obtain ⟨d, h1, h2⟩ := determinant_ok hz h
  have h0 : d ≠ 0 := by rw [h2 hM]; exact hM
  have ha : ∃ M' : Matrix (Fin N) (Fin N) K, Yields (adjoint isz A) M' := by
    by_cases h5 : N ≤ 5
    · exact ⟨_, C51_small_partial isz h.is h5⟩
    · have hr := fun i j => cofactor_rep h.toRepAt (by omega) i j
      choose d hd using fun i j => determinant_ok hz (hr i j)
      exact ⟨_, Yields.of_eq h.fits (adjoint_eq h.toRepAt (by omega) fun i j _ _ => (hd i j).1)⟩
  obtain ⟨M', ha⟩ := ha
  exact ⟨_, inverse_eq' hz h.toRepAt h1 h0 ha⟩

include ht in
/-- C52, the part that holds: up to 4×4 singular matrices are reported (the empty matrix is returned) and the others
inverted. Missing: larger matrices, see `C52_five_partial`, `C52_large_partial` and the `_false` theorems. -/
theorem C52_small_partial {A : MB K} {N : Nat} {M : Matrix (Fin N) (Fin N) K} (h : A.Is M) (hN : N ≤ 4) :
    (M.det = 0 → inverse (isZ abs tol) A = .ok Mat.empty0) ∧ (M.det ≠ 0 → Yields (inverse (isZ abs tol) A) M⁻¹) := by
  have hd := C50_small_partial (isZ abs tol) h hN
  have ha := C51_small_partial (isZ abs tol) h (by omega)
  obtain ⟨e, h, rfl⟩ := h
  constructor
  · intro h0
    unfold inverse
    rw [isSquare_eq h.toRepAt, beq_self_eq_true, Bool.not_true, if_neg Bool.false_ne_true, hd, Res.ok_bind, if_pos ((isZ_iff abs ht _).2 h0)]
    rfl
  · intro h0
    refine (inverse_eq abs ht h.toRepAt hd h0 ha).congr ?_
    rw [Matrix.inv_def, Ring.inverse_eq_inv']

include ht in
/-- C52, the part that holds in every size: a non-singular matrix is inverted if it is at most 5×5 or if its inverse has
no zero entry. Missing: see `C52_six_false`. -/
theorem C52_large_partial {A : MB K} {N : Nat} {M : Matrix (Fin N) (Fin N) K} (h : A.Is M) (hM : M.det ≠ 0)
    (hi : N ≤ 5 ∨ ∀ i j, M⁻¹ i j ≠ 0) : Yields (inverse (isZ abs tol) A) M⁻¹ := by
  have hd := C50_large_partial abs ht h hM
  have hinv : M⁻¹ = M.det⁻¹ • M.adjugate := by rw [Matrix.inv_def, Ring.inverse_eq_inv']
  have ha : Yields (adjoint (isZ abs tol) A) M.adjugate := by
    rcases hi with h5 | hne
    · exact C51_small_partial _ h h5
    · refine C51_large_partial abs ht h fun i j h0 => hne i j ?_
      rw [hinv, Matrix.smul_apply, h0, smul_zero]
  obtain ⟨e, h, rfl⟩ := h
  rw [hinv]
  exact inverse_eq abs ht h.toRepAt hd hM ha

include ht in
/-- C52 is false: no singular matrix larger than 4×4 is reported; a matrix of the full size is returned. -/
theorem C52_singular_false {A : MB K} {N : Nat} {M : Matrix (Fin N) (Fin N) K} (h : A.Is M) (hN : 4 < N) (hM : M.det = 0) :
    ∃ M' : Matrix (Fin N) (Fin N) K, Yields (inverse (isZ abs tol) A) M' := by
  obtain ⟨d, hd, h0⟩ := C50_singular_false abs ht h hN hM
  have ha : ∃ M' : Matrix (Fin N) (Fin N) K, Yields (adjoint (isZ abs tol) A) M' := by
    by_cases h5 : N ≤ 5
    · exact ⟨_, C51_small_partial _ h h5⟩
    · obtain ⟨M', h1, -⟩ := C51_false abs ht h (by omega)
      exact ⟨M', h1⟩
  obtain ⟨M', ha⟩ := ha
  obtain ⟨e, h, rfl⟩ := h
  exact ⟨_, inverse_eq abs ht h.toRepAt hd h0 ha⟩

include ht in
/-- C52 is false: for a non-singular matrix larger than 5×5 whose inverse has a zero entry (such as the identity) the
result is not the inverse; it has no zero entry at all. -/
theorem C52_six_false {A : MB K} {N : Nat} {M : Matrix (Fin N) (Fin N) K} (h : A.Is M) (hN : 5 < N) (hM : M.det ≠ 0) :
    ∃ M' : Matrix (Fin N) (Fin N) K, Yields (inverse (isZ abs tol) A) M' ∧ ∀ i j, M' i j ≠ 0 := by
  have hd := C50_large_partial abs ht h hM
  obtain ⟨M', ha, h1⟩ := C51_false abs ht h hN
  obtain ⟨e, h, rfl⟩ := h
  refine ⟨_, inverse_eq abs ht h.toRepAt hd hM ha, fun i j => ?_⟩
  rw [Matrix.smul_apply]
  exact mul_ne_zero (inv_ne_zero hM) (h1 i j)

include ht in
/-- C52: the identity is not inverted from 6×6 on. -/
theorem C52_identity_false {A : MB K} {N : Nat} (h : A.Is (1 : Matrix (Fin N) (Fin N) K)) (hN : 5 < N) :
    ¬ Yields (inverse (isZ abs tol) A) (1 : Matrix (Fin N) (Fin N) K) := by
  obtain ⟨M', h1, h2⟩ := C52_six_false abs ht h hN (by rw [Matrix.det_one]; exact one_ne_zero)
  intro h3
  have := Yields.inj h3 h1
  apply h2 ⟨0, by omega⟩ ⟨1, by omega⟩
  rw [← this, Matrix.one_apply_ne]
  intro h'; have := congrArg Fin.val h'; simp at this

/-- C52: `div(A, B)` is `A * inverse(B)`; with the inverse found, it is the product. -/
theorem C52_div (isz : K → Bool) {A B : MB K} {n N : Nat} {M : Matrix (Fin n) (Fin N) K} {M' : Matrix (Fin N) (Fin N) K} (hA : A.Is M)
    (hB : Yields (inverse isz B) M') : Yields (Lin.div isz A B) (M * M') :=
  hB.bind fun _ _ h => C35_product hA h hA.fits

include ht in
/-- C52: dividing by a singular matrix (up to 4×4) throws, as the inverse is the empty matrix. -/
theorem C52_div_singular {A B : MB K} {n N : Nat} {e : Nat → Nat → K} {M : Matrix (Fin N) (Fin N) K} (hA : RepAt A n N e) (hB : B.Is M)
    (hM : M.det = 0) (hN : N ≤ 4) : Lin.div (isZ abs tol) A B = .throw .invalidArgument := by
  unfold Lin.div
  rw [(C52_small_partial abs ht hB hN).1 hM, Res.ok_bind]
  unfold mul
  rw [if_pos]
  rw [hA.cols]
  intro h0
  have h0 : N = 0 := h0
  subst h0
  rw [Matrix.det_isEmpty] at hM
  exact one_ne_zero hM

end

/-- C52: non-square input throws. -/
theorem C52_throws {T : Type} [Zero T] [One T] [Add T] [Sub T] [Mul T] [Neg T] [CDiv T] (isz : T → Bool) {A : MB T}
    (h : A.rows ≠ A.cols) : inverse isz A = .throw .invalidArgument ∧ adjoint isz A = .throw .invalidArgument := by
  unfold inverse adjoint
  constructor <;> rw [if_pos] <;> simpa [Util.isSquare] using h

example : adjoint (isZ (AbsoluteValue.abs (S := ℚ)) (1/1000000000)) (⟨2, 2, [1, 2, 3, 5]⟩ : Mat ℚ).toMB = .ok ⟨2, 2, [5, -2, -3, 1]⟩ := by
  decide +kernel
example : inverse (isZ (AbsoluteValue.abs (S := ℚ)) (1/1000000000)) (⟨2, 2, [1, 2, 3, 5]⟩ : Mat ℚ).toMB = .ok ⟨2, 2, [-5, 2, 3, -1]⟩ := by
  decide +kernel
example : inverse (isZ (AbsoluteValue.abs (S := ℚ)) (1/1000000000)) (⟨2, 2, [1, 2, 2, 4]⟩ : Mat ℚ).toMB = .ok Mat.empty0 := by
  decide +kernel
example : (inverse (isZ (AbsoluteValue.abs (S := ℚ)) (1/1000000000)) (Mat.ofFn 6 6 fun i j => if i = j then (1:ℚ) else 0).toMB >>=
    fun B => B.at_ 0 1) = .ok (-1) := by decide +kernel

end Malg
