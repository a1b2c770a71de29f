import Verif.Model.Repaired
import Verif.Props.Det
/-!
# C97: the predicates of `utility.hpp` that compile after a small edit

`Model/Repaired.lean` lists the edits.
-/
namespace Malg
open Ops Lin Fix Feq
variable {T : Type}

/-- C97: `is_zero` holds exactly for the matrices with zero entries only (also without any entry). -/
theorem C97_zero [Zero T] [DecidableEq T] {A : Mat T} {n m : Nat} {e} (hA : A.Holds n m e) :
    ∃ b, Fix.isZero A = .ok b ∧ (b = true ↔ ∀ i j, i < n → j < m → e i j = 0) := by
  have hl : A.data.length = n * m := by rw [hA.eq]; simp
  unfold Fix.isZero
  rw [hl]
  obtain ⟨b, h1, h2⟩ := Util.search_spec (n := n * m) (P := fun i => e (i / m) (i % m) ≠ 0) (body := fun i => do
    let x ← vget A.data i
    return (if x ≠ 0 then some false else none))
    (fun i hi => by
      have : vget A.data i = .ok (e (i / m) (i % m)) := hA.rep.lin' hi
      rw [this]; rfl)
  refine ⟨b, h1, h2.trans ⟨fun h i j hi hj => ?_, fun h i hi hh => hh (h _ _ (lin_of_lt hi).1 (lin_of_lt hi).2.1)⟩⟩
  have := h (i * m + j) (lin_lt hi hj)
  rw [lin_div hj, lin_mod hj] at this
  exact not_not.1 this

/-- C97: `is_constant` holds exactly if all entries agree. -/
theorem C97_constant [DecidableEq T] {A : Mat T} {n m : Nat} {e} (hA : A.Holds n m e) :
    ∃ b, isConstant A = .ok b ∧ (b = true ↔ ∀ i j i' j', i < n → j < m → i' < n → j' < m → e i j = e i' j') := by
  have hl : A.data.length = n * m := by rw [hA.eq]; simp
  have hg : ∀ i, i < n * m → vget A.data i = .ok (e (i / m) (i % m)) := fun i hi => hA.rep.lin' hi
  unfold isConstant
  rw [hl]
  rcases forSearch_decide (lo := 1) (hi := n * m) (b := false)
    (p := fun i => e ((i - 1) / m) ((i - 1) % m) ≠ e (i / m) (i % m)) (body := fun i => do
      let x ← vget A.data (i - 1)
      let y ← vget A.data i
      return (if x ≠ y then some false else none))
    (fun i h0 hi => by rw [hg _ (by omega), hg _ hi]; rfl) with ⟨h1, i, h0, hi, h2⟩ | ⟨h1, h2⟩
  · rw [h1]
    refine ⟨false, rfl, ?_⟩
    simp only [Bool.false_eq_true, false_iff]
    intro h
    exact h2 (h _ _ _ _ (lin_of_lt (by omega : i - 1 < n * m)).1 (lin_of_lt (by omega : i - 1 < n * m)).2.1
      (lin_of_lt hi).1 (lin_of_lt hi).2.1)
  · rw [h1]
    refine ⟨true, rfl, ?_⟩
    simp only [true_iff]
    have key : ∀ k, k < n * m → e (k / m) (k % m) = e (0 / m) (0 % m) := by
      intro k
      induction k with
      | zero => intro _; rfl
      | succ k ih =>
        intro hk
        rw [← ih (by omega)]
        exact (not_not.1 (h2 (k + 1) (by omega) hk)).symm
    intro i j i' j' hi hj hi' hj'
    have a := key _ (lin_lt hi hj)
    have b := key _ (lin_lt hi' hj')
    rw [lin_div hj, lin_mod hj] at a
    rw [lin_div hj', lin_mod hj'] at b
    rw [a, b]

/-- `all(A == I)` for a non-empty square table. -/
theorem all_cmp_identity [Zero T] [One T] (c : T → T → Bool) {A : MB T} {n : Nat} {e} (hA : Rep A n n e) (hn : 0 < n) :
    ∃ b, (do let I ← Util.identity n (1 : T); let E ← cmp c A I.toMB; Ops.all E.toMB : Res Bool) = .ok b ∧
      (b = true ↔ ∀ i j, i < n → j < n → c (e i j) (if i = j then 1 else 0) = true) := by
  have hI : Util.identity n (1 : T) = .ok (Mat.ofFn n n fun r c => if r = c then 1 else 0) := Util.eye_eq hn hn hA.fits 1
  have hE : cmp c A (Mat.ofFn n n fun r c => if r = c then (1 : T) else 0).toMB =
      .ok (Mat.ofFn n n fun i j => c (e i j) (if i = j then 1 else 0)) :=
    zipMat_eq hA (ofFn_rep hA.fits _) fun _ _ _ _ => rfl
  obtain ⟨b, h1, h2⟩ := (C43_matrix (ofFn_rep hA.fits fun i j => c (e i j) (if i = j then 1 else 0))).1
  refine ⟨b, ?_, h2.trans ?_⟩
  · rw [hI, Res.ok_bind, hE, Res.ok_bind, h1]
  · refine forall_congr' fun i => forall_congr' fun j => imp_congr_right fun _ => imp_congr_right fun _ => ?_
    show (_ ≠ false) ↔ _
    simp

/-- C97, what `is_identity` decides for non-empty matrices: every entry compares equal to that of the identity. With exact
elements this is equality to the identity matrix. Missing: the empty matrix (`C97_empty_false`). -/
theorem C97_identity_partial [Zero T] [One T] [DecidableEq T] (c : T → T → Bool) {A : MB T} {n m : Nat} {e}
    (hA : Rep A n m e) (hn : 0 < n) :
    (n ≠ m → isIdentity c A = .ok false) ∧
    (n = m → ∃ b, isIdentity c A = .ok b ∧
      (b = true ↔ ∀ i j, i < n → j < m → c (e i j) (if i = j then 1 else 0) = true)) ∧
    (∃ b, isIdentity eqExact A = .ok b ∧ (b = true ↔ n = m ∧ ∀ i j, i < n → j < m → e i j = if i = j then 1 else 0)) := by
  have hsq : Util.isSquare A = decide (n = m) := by
    simp only [Util.isSquare, hA.rows, hA.cols]; rfl
  have h1 : ∀ c : T → T → Bool, n ≠ m → isIdentity c A = .ok false := by
    intro c h; unfold isIdentity; rw [hsq]; simp [h]
  have h2 : ∀ c : T → T → Bool, n = m → ∃ b, isIdentity c A = .ok b ∧
      (b = true ↔ ∀ i j, i < n → j < m → c (e i j) (if i = j then 1 else 0) = true) := by
    intro c h
    subst h
    obtain ⟨b, h3, h4⟩ := all_cmp_identity c hA hn
    refine ⟨b, ?_, h4⟩
    unfold isIdentity
    rw [hsq, hA.cols]
    simpa using h3
  refine ⟨h1 c, h2 c, ?_⟩
  by_cases h : n = m
  · obtain ⟨b, h3, h4⟩ := h2 eqExact h
    refine ⟨b, h3, h4.trans ?_⟩
    simp [h, eqExact]
  · exact ⟨false, h1 _ h, by simp [h]⟩

/-- C97, what `is_orthogonal` decides: with exact elements `A * Aᵀ = 1`. Missing: the empty matrix (`C97_empty_false`);
for floating point elements see `C97_orthogonal_tolerance` and `C97_orthogonal_false`. -/
theorem C97_orthogonal_partial {K : Type} [CommRing K] [DecidableEq K] {A : MB K} {n : Nat}
    {M : Matrix (Fin n) (Fin n) K} (hA : A.Is M) (hn : 0 < n) :
    ∃ b, isOrthogonal eqExact A = .ok b ∧ (b = true ↔ M * M.transpose = 1) ∧ (b = true ↔ M.transpose * M = 1) := by
  obtain ⟨e, h, rfl⟩ := hA
  have hsq : Util.isSquare A = true := by simp [Util.isSquare, h.rows, h.cols]
  have ht := transpose_eq h.toRepAt
  obtain ⟨P, hP1, hP2, f, hf, hP3⟩ := C35_product (A := A) ⟨e, h, rfl⟩
    (⟨_, ofFn_rep h.fits.swap fun r c => e c r, rfl⟩ : (Mat.ofFn n n fun r c => e c r).toMB.Is _) h.fits
  obtain ⟨b, h3, h4⟩ := all_cmp_identity eqExact hf hn
  have h5 : b = true ↔ toM n n e * (toM n n e).transpose = 1 := by
    rw [h4]
    have : toM n n f = toM n n e * (toM n n e).transpose := hP3
    rw [← this]
    constructor
    · intro hh
      apply Matrix.ext; intro i j
      have := hh i j i.2 j.2
      simp only [eqExact, decide_eq_true_eq] at this
      rw [Matrix.one_apply]
      refine this.trans ?_
      simp [Fin.ext_iff]
    · intro hh i j hi hj
      have := congrFun (congrFun hh ⟨i, hi⟩) ⟨j, hj⟩
      rw [Matrix.one_apply] at this
      simp only [eqExact, decide_eq_true_eq]
      refine (Eq.trans ?_ this).trans ?_
      · rfl
      · simp [Fin.ext_iff]
  refine ⟨b, ?_, h5, h5.trans (mul_eq_one_comm)⟩
  unfold isOrthogonal
  rw [hsq, ht, h.cols]
  simp only [Bool.not_true, Bool.false_eq_true, if_false, Res.ok_bind]
  rw [hP1, Res.ok_bind]
  exact h3

/-- C97: with floating point elements in exact arithmetic and a tolerance below 1, `is_orthogonal` demands rows that are
exactly orthogonal to each other, but only approximately of length 1. -/
theorem C97_orthogonal_tolerance {K : Type} [Field K] [LinearOrder K] [IsStrictOrderedRing K] {tol : K} (ht : tol < 1)
    {A : MB K} {n : Nat} {M : Matrix (Fin n) (Fin n) K} (hA : A.Is M) (hn : 0 < n) :
    ∃ b, isOrthogonal (eqApprox (|·|) tol) A = .ok b ∧ (b = true ↔
      (∀ i j, i ≠ j → (M * M.transpose) i j = 0) ∧
      ∀ i, approxEq (|·|) tol ((M * M.transpose) i i) 1 = true) := by
  obtain ⟨e, h, rfl⟩ := hA
  have hsq : Util.isSquare A = true := by simp [Util.isSquare, h.rows, h.cols]
  have ht' := transpose_eq h.toRepAt
  obtain ⟨P, hP1, hP2, f, hf, hP3⟩ := C35_product (A := A) ⟨e, h, rfl⟩
    (⟨_, ofFn_rep h.fits.swap fun r c => e c r, rfl⟩ : (Mat.ofFn n n fun r c => e c r).toMB.Is _) h.fits
  obtain ⟨b, h3, h4⟩ := all_cmp_identity (eqApprox (|·|) tol) hf hn
  refine ⟨b, ?_, h4.trans ?_⟩
  · unfold isOrthogonal
    rw [hsq, ht', h.cols]
    simp only [Bool.not_true, Bool.false_eq_true, if_false, Res.ok_bind]
    rw [hP1, Res.ok_bind]
    exact h3
  · have hM : toM n n f = toM n n e * (toM n n e).transpose := hP3
    rw [← hM]
    have hz : ∀ x : K, eqApprox (|·|) tol x 0 = true ↔ x = 0 := fun x =>
      (C40_zero (AbsoluteValue.abs (S := K)) tol ht x).1
    constructor
    · intro hh
      refine ⟨fun i j hij => ?_, fun i => ?_⟩
      · have := hh i j i.2 j.2
        rw [if_neg (fun h => hij (Fin.ext h)), hz] at this
        exact this
      · have := hh i i i.2 i.2
        rw [if_pos rfl] at this
        exact this
    · rintro ⟨a, b⟩ i j hi hj
      by_cases hij : i = j
      · subst hij; rw [if_pos rfl]; exact b ⟨i, hi⟩
      · rw [if_neg hij, hz]
        exact a ⟨i, hi⟩ ⟨j, hj⟩ (fun h => hij (congrArg Fin.val h))

/-- C97 is false for floating point elements: a matrix that is not orthogonal is accepted, for every positive tolerance
(below 1), and one whose product with its transpose is as close to the identity is rejected. -/
theorem C97_orthogonal_false {K : Type} [Field K] [LinearOrder K] [IsStrictOrderedRing K] {tol : K} (h0 : 0 < tol)
    (h1 : tol < 1) :
    (∃ (A : Mat K) (M : Matrix (Fin 1) (Fin 1) K), A.WF ∧ A.toMB.Is M ∧ M * M.transpose ≠ 1 ∧
      isOrthogonal (eqApprox (|·|) tol) A.toMB = .ok true) ∧
    (∃ (A : Mat K) (M : Matrix (Fin 2) (Fin 2) K), A.WF ∧ A.toMB.Is M ∧
      (∀ i j, |(M * M.transpose - 1) i j| ≤ tol) ∧ isOrthogonal (eqApprox (|·|) tol) A.toMB = .ok false) := by
  constructor
  · have hf : Fits 1 1 := fits_small (by norm_num) (by norm_num)
    refine ⟨Mat.ofFn 1 1 fun _ _ => 1 - tol / 2, toM 1 1 fun _ _ => 1 - tol / 2, ofFn_WF hf _, ⟨_, ofFn_rep hf _, rfl⟩, ?_, ?_⟩
    · intro h
      have := congrFun (congrFun h 0) 0
      simp [Matrix.mul_apply, toM] at this
      nlinarith
    · obtain ⟨b, h2, h3⟩ := C97_orthogonal_tolerance h1 (A := (Mat.ofFn 1 1 fun _ _ => 1 - tol / 2).toMB) ⟨_, ofFn_rep hf _, rfl⟩ Nat.one_pos
      rw [h2, h3.2]
      refine ⟨fun i j hij => absurd (Subsingleton.elim i j) hij, fun i => ?_⟩
      simp only [Matrix.mul_apply, Matrix.transpose_apply, toM, Finset.univ_unique, Finset.sum_const, Finset.card_singleton, one_smul]
      refine ((C40_meaning (AbsoluteValue.abs (S := K)) tol h0.le _ _).2 (Or.inr ?_))
      show |_| ≤ tol * |_|
      rw [abs_one, mul_one, abs_le]
      constructor <;> nlinarith
  · have hf : Fits 2 2 := fits_small (by norm_num) (by norm_num)
    refine ⟨Mat.ofFn 2 2 fun i j => if i = j then 1 else if i = 0 then tol else 0,
      toM 2 2 fun i j => if i = j then 1 else if i = 0 then tol else 0, ofFn_WF hf _, ⟨_, ofFn_rep hf _, rfl⟩, ?_, ?_⟩
    · intro i j
      fin_cases i <;> fin_cases j <;> simp [Matrix.mul_apply, toM, Fin.sum_univ_two, abs_of_pos h0]
      · nlinarith
      · exact h0.le
    · obtain ⟨b, h2, h3⟩ := C97_orthogonal_tolerance h1 (A := (Mat.ofFn 2 2 fun i j => if i = j then 1 else if i = 0 then tol else 0).toMB) ⟨_, ofFn_rep hf _, rfl⟩ Nat.two_pos
      rw [h2]
      congr 1
      rw [Bool.eq_false_iff]
      intro hb
      have := (h3.1 hb).1 0 1 (by decide)
      simp [Matrix.mul_apply, toM, Fin.sum_univ_two] at this
      exact h0.ne' this

/-- C97: a matrix that is not square is neither the identity nor orthogonal. -/
theorem C97_not_square {K : Type} [Zero K] [One K] [Add K] [Mul K] (c : K → K → Bool) {A : MB K} {n m : Nat} {e} (h : Rep A n m e)
    (hnm : n ≠ m) : isIdentity c A = .ok false ∧ isOrthogonal c A = .ok false := by
  have hsq : Util.isSquare A = false := by simp [Util.isSquare, h.rows, h.cols, hnm]
  unfold isIdentity isOrthogonal
  rw [hsq]
  exact ⟨rfl, rfl⟩

/-- C97 is false for the empty matrix, which is the 0×0 identity: both predicates throw. -/
theorem C97_empty_false (c : Int → Int → Bool) : ∃ A : Mat Int, A.WF ∧ A.rows = 0 ∧ A.cols = 0 ∧
    isIdentity c A.toMB = .throw .invalidArgument ∧ isOrthogonal c A.toMB = .throw .invalidArgument :=
  ⟨⟨0, 0, []⟩, by decide +kernel, rfl, rfl, rfl, by
    have : Lin.transpose (⟨0, 0, []⟩ : Mat Int).toMB = .ok ⟨0, 0, []⟩ := by decide +kernel
    have h2 : mul (⟨0, 0, []⟩ : Mat Int).toMB (⟨0, 0, []⟩ : Mat Int).toMB = .ok ⟨0, 0, []⟩ := by decide +kernel
    unfold isOrthogonal
    rw [this]
    show (mul _ _ >>= _) = _
    rw [h2]; rfl⟩

section
variable {K R : Type} [Field K] [DecidableEq K] [Field R] [LinearOrder R] [IsStrictOrderedRing R]
variable (abs : AbsoluteValue K R) {tol : R} (ht : tol < 1)

include ht in
/-- C97, invertibility over a field: right for up to four rows and for all invertible matrices. Missing: singular matrices
with more rows (`C97_invertible_false`). -/
theorem C97_invertible_partial {A : MB K} {N : Nat} {M : Matrix (Fin N) (Fin N) K} (h : A.Is M) (hN : N ≤ 4 ∨ IsUnit M) :
    ∃ b, isInvertible (isZ abs tol) A = .ok b ∧ (b = true ↔ IsUnit M) ∧
      isDependent (isZ abs tol) A = .ok (!b) ∧ isIndependent (isZ abs tol) A = .ok b ∧
      (b = true ↔ LinearIndependent K M.row) ∧ (b = true ↔ LinearIndependent K M.col) := by
  have hd : determinant (isZ abs tol) A = .ok M.det := by
    rcases hN with h4 | hu
    · exact C50_small_partial _ h h4
    · exact C50_large_partial abs ht h (((Matrix.isUnit_iff_isUnit_det M).1 hu).ne_zero)
  have hb : decide (M.det ≠ 0) = true ↔ IsUnit M := by
    rw [decide_eq_true_iff, Matrix.isUnit_iff_isUnit_det, isUnit_iff_ne_zero]
  have hdep : isDependent (isZ abs tol) A = .ok (!decide (M.det ≠ 0)) := by
    unfold isDependent; rw [hd]
    show Res.ok _ = _
    simp
  refine ⟨decide (M.det ≠ 0), ?_, hb, hdep, ?_, hb.trans Matrix.linearIndependent_rows_iff_isUnit.symm,
    hb.trans Matrix.linearIndependent_cols_iff_isUnit.symm⟩
  · unfold isInvertible; rw [hd]; rfl
  · unfold isIndependent; rw [hdep]
    show Res.ok _ = _
    simp

include ht in
/-- C97 is false: with more than four rows every matrix is called invertible and linearly independent. -/
theorem C97_invertible_false {A : MB K} {N : Nat} {M : Matrix (Fin N) (Fin N) K} (h : A.Is M) (hN : 4 < N) :
    isInvertible (isZ abs tol) A = .ok true ∧ isDependent (isZ abs tol) A = .ok false ∧
    isIndependent (isZ abs tol) A = .ok true := by
  have hd : ∃ d, determinant (isZ abs tol) A = .ok d ∧ d ≠ 0 := by
    by_cases h0 : M.det = 0
    · exact C50_singular_false abs ht h hN h0
    · exact ⟨_, C50_large_partial abs ht h h0, h0⟩
  obtain ⟨d, hd, h0⟩ := hd
  have hdep : isDependent (isZ abs tol) A = .ok false := by
    unfold isDependent; rw [hd]; show Res.ok _ = _; simp [h0]
  refine ⟨?_, hdep, ?_⟩
  · unfold isInvertible; rw [hd]; show Res.ok _ = _; simp [h0]
  · unfold isIndependent; rw [hdep]; rfl
end

/-- C97: for integers up to four rows the test is for a non-zero determinant; so `(2)` is called invertible although its
inverse has no integer entries. -/
theorem C97_integers (isz : Int → Bool) {A : MB Int} {N : Nat} {M : Matrix (Fin N) (Fin N) Int} (h : A.Is M) (hN : N ≤ 4) :
    isInvertible isz A = .ok (decide (M.det ≠ 0)) ∧ isDependent isz A = .ok (decide (M.det = 0)) := by
  have hd := C50_small_partial isz h hN
  unfold isInvertible isDependent
  rw [hd]
  exact ⟨rfl, rfl⟩

/-- C97: the last three throw for matrices that are not square. -/
theorem C97_throws [Zero T] [One T] [Add T] [Sub T] [Mul T] [Neg T] [CDiv T] [DecidableEq T] (isz : T → Bool) {A : MB T}
    (h : A.rows ≠ A.cols) : isInvertible isz A = .throw .invalidArgument ∧ isDependent isz A = .throw .invalidArgument ∧
    isIndependent isz A = .throw .invalidArgument := by
  unfold isInvertible isIndependent isDependent
  rw [C50_throws isz h]
  exact ⟨rfl, rfl, rfl⟩

example : Fix.isZero (⟨1, 2, [0, 0]⟩ : Mat Int) = .ok true ∧ Fix.isZero (⟨1, 2, [0, 3]⟩ : Mat Int) = .ok false ∧
    isConstant (⟨1, 3, [4, 4, 4]⟩ : Mat Int) = .ok true ∧ isConstant (⟨1, 3, [4, 4, 5]⟩ : Mat Int) = .ok false ∧
    isConstant (⟨0, 0, []⟩ : Mat Int) = .ok true := by decide +kernel
example : isIdentity eqExact (⟨2, 2, [1, 0, 0, 1]⟩ : Mat Int).toMB = .ok true ∧
    isIdentity eqExact (⟨2, 2, [1, 0, 2, 1]⟩ : Mat Int).toMB = .ok false ∧
    isOrthogonal eqExact (⟨2, 2, [0, 1, -1, 0]⟩ : Mat Int).toMB = .ok true ∧
    isOrthogonal eqExact (⟨2, 2, [1, 1, 0, 1]⟩ : Mat Int).toMB = .ok false := by decide +kernel
example : isInvertible (fun x => decide (x = 0)) (⟨2, 2, [1, 2, 2, 4]⟩ : Mat Int).toMB = .ok false ∧
    isInvertible (fun x => decide (x = 0)) (⟨2, 2, [1, 2, 2, 5]⟩ : Mat Int).toMB = .ok true := by decide +kernel

end Malg
