import Verif.Lemmas.Qr
import Verif.Props.Det
import Verif.Props.Control
import Mathlib.Analysis.Real.Sqrt
import Mathlib.LinearAlgebra.Matrix.Block
import Mathlib.LinearAlgebra.Matrix.Charpoly.Coeff
/-!
# C87 – C89: `qr_decomposition`, `solve`, `obsv`

These functions are modelled with the edits listed in `Verif.Model.Qr`. The element type is an ordered field with the
exact square root and `copysign` described by `Sqrt` and `Copysign`; for `copysign` at zero both signs are allowed.
-/
namespace Malg
open Ops Lin Matrix

/-- An exact square root. -/
def Sqrt {K : Type} [Field K] [LinearOrder K] (sqrt : K → K) : Prop := ∀ x, 0 ≤ x → 0 ≤ sqrt x ∧ sqrt x * sqrt x = x

/-- `copysign` of a non-negative number. -/
def Copysign {K : Type} [Field K] [LinearOrder K] (copysign : K → K → K) : Prop :=
  ∀ x y, 0 ≤ x → copysign x y = x ∧ 0 ≤ y ∨ copysign x y = -x ∧ y ≤ 0

/-- The real square root and `copysign` are of this kind. -/
example : Sqrt Real.sqrt ∧ Copysign (fun x y : ℝ => if 0 ≤ y then |x| else -|x|) := by
  refine ⟨fun x hx => ⟨Real.sqrt_nonneg x, Real.mul_self_sqrt hx⟩, fun x y hx => ?_⟩
  by_cases h : 0 ≤ y
  · left; exact ⟨by simp only [if_pos h, abs_of_nonneg hx], h⟩
  · right; exact ⟨by simp only [if_neg h, abs_of_nonneg hx], le_of_not_ge h⟩

section
variable {K : Type} [Field K] [LinearOrder K] [IsStrictOrderedRing K] {sqrt : K → K} {copysign : K → K → K}
variable (hs : Sqrt sqrt) (hcs : Copysign copysign) {m n : Nat}

/-! ## C87 -/

include hs hcs in
/-- C87, the part that holds: a matrix with at least as many rows as columns whose columns before the `m`-th are
independent (all columns if it is tall, all but the last if it is square) is decomposed: `Q` is orthogonal, `R` upper
triangular, `Q R` the matrix. Missing: dependent columns and wide matrices, see the `_false` theorems. -/
theorem C87_qr_partial {S : Type} {A : Mat S} {M : Matrix (Fin m) (Fin n) S} (hA : A.toMB.Is M) (conv : S → K) (hm : 0 < m)
    (hnm : n ≤ m) (hf : Fits m m)
    (hind : ∀ x : Fin n → K, (∀ j, m ≤ j.val + 1 → x j = 0) → M.map conv *ᵥ x = 0 → x = 0) :
    ∃ (q r : Mat K) (Q : Matrix (Fin m) (Fin m) K) (R : Matrix (Fin m) (Fin n) K),
      qrDecomposition sqrt copysign conv A = .ok (q, r) ∧ q.WF ∧ r.WF ∧ q.toMB.Is Q ∧ r.toMB.Is R ∧
      Qᵀ * Q = 1 ∧ Q * R = M.map conv ∧ ∀ i j, j.val < i.val → R i j = 0 := by
  have hfn := hA.fits
  rcases qr_tall hs hcs hm hnm hf hA conv with ⟨Q, R, e, h1, h2, h3, -, -⟩ | ⟨-, x, h1, h2, h3⟩
  · exact ⟨_, _, Q, R, e, ofFn_WF hf _, ofFn_WF hfn _, is_iff_rep.2 (ofFn_rep hf _), is_iff_rep.2 (ofFn_rep hfn _), h1, h2, h3⟩
  · exact absurd (hind x h2 h3) h1

include hs hcs in
/-- C87 is false: if one of these columns depends on the others, the computation divides by zero. -/
theorem C87_dependent_false {S : Type} {A : Mat S} {M : Matrix (Fin m) (Fin n) S} (hA : A.toMB.Is M) (conv : S → K)
    (hm : 0 < m) (hnm : n ≤ m) (hf : Fits m m) {x : Fin n → K} (hx : x ≠ 0) (hx0 : ∀ j, m ≤ j.val + 1 → x j = 0)
    (hMx : M.map conv *ᵥ x = 0) : qrDecomposition sqrt copysign conv A = .ub .divZero := by
  rcases qr_tall hs hcs hm hnm hf hA conv with ⟨Q, R, -, -, -, -, -, h⟩ | ⟨h, -⟩
  · exact absurd (h x hx0 hMx) hx
  · exact h

include hs hcs in
/-- C87 is false: no matrix with more columns than rows is decomposed; past the last row an empty column is accessed, if
no division by zero occurred before. -/
theorem C87_wide_false {S : Type} {A : Mat S} {M : Matrix (Fin m) (Fin n) S} (hA : A.toMB.Is M) (conv : S → K)
    (hm : 0 < m) (hnm : m < n) (hf : Fits m m) :
    qrDecomposition sqrt copysign conv A = .ub .oob ∨ qrDecomposition sqrt copysign conv A = .ub .divZero :=
  qr_wide hs hcs hm hnm hf hA conv

include hs hcs in
/-- C87: so a matrix is decomposed exactly when it is not wide and those columns are independent. -/
theorem C87_exactly {S : Type} {A : Mat S} {M : Matrix (Fin m) (Fin n) S} (hA : A.toMB.Is M) (conv : S → K)
    (hm : 0 < m) (hf : Fits m m) : (∃ p, qrDecomposition sqrt copysign conv A = .ok p) ↔
      n ≤ m ∧ ∀ x : Fin n → K, (∀ j, m ≤ j.val + 1 → x j = 0) → M.map conv *ᵥ x = 0 → x = 0 := by
  constructor
  · rintro ⟨p, h⟩
    have hnm : n ≤ m := by
      by_contra hcon
      rcases C87_wide_false hs hcs hA conv hm (by omega) hf with h' | h' <;> rw [h'] at h <;> exact absurd h (by simp)
    refine ⟨hnm, fun x h1 h2 => ?_⟩
    by_contra hx
    rw [C87_dependent_false hs hcs hA conv hm hnm hf hx h1 h2] at h
    exact absurd h (by simp)
  · rintro ⟨h1, h2⟩
    obtain ⟨q, r, _, _, h, -⟩ := C87_qr_partial hs hcs hA conv hm h1 hf h2
    exact ⟨_, h⟩

end

/-- C87: a matrix without rows is rejected. -/
theorem C87_empty {K S : Type} [Field K] [DecidableEq K] (sqrt : K → K) (copysign : K → K → K) (conv : S → K) {A : Mat S} {n : Nat}
    {M : Matrix (Fin 0) (Fin n) S} (hA : A.toMB.Is M) : qrDecomposition sqrt copysign conv A = .throw .invalidArgument := by
  obtain ⟨e, hA, -⟩ := hA
  unfold qrDecomposition
  rw [Mat.ofMB_eq hA, Res.ok_bind]
  rfl

/-- The square root of squares of small fractions, enough for the examples. -/
def exSqrt (x : ℚ) : ℚ := (Nat.sqrt x.num.toNat : ℚ) / (Nat.sqrt x.den : ℚ)

/-- `copysign` on rationals. -/
def exCopysign (x y : ℚ) : ℚ := if 0 ≤ y then |x| else -|x|

example : qrDecomposition exSqrt exCopysign id (⟨2, 2, [3, 1, 4, 2]⟩ : Mat ℚ) =
    .ok (⟨2, 2, [-3/5, -4/5, -4/5, 3/5]⟩, ⟨2, 2, [-5, -11/5, 0, 2/5]⟩) := by decide +kernel
example : qrDecomposition exSqrt exCopysign id (⟨3, 2, [1, 3, 2, 3, 2, 0]⟩ : Mat ℚ) =
    .ok (⟨3, 3, [-1/3, -2/3, -2/3, -2/3, -1/3, 2/3, -2/3, 2/3, -1/3]⟩, ⟨3, 2, [-3, -3, 0, -3, 0, 0]⟩) := by decide +kernel
example : qrDecomposition exSqrt exCopysign id (⟨3, 2, [1, 2, 2, 4, 2, 4]⟩ : Mat ℚ) = .ub .divZero := by decide +kernel
example : qrDecomposition exSqrt exCopysign id (⟨1, 2, [3, 4]⟩ : Mat ℚ) = .ub .oob := by decide +kernel

/-! ## C88 -/

theorem dot_self_zero {K : Type} [Field K] [LinearOrder K] [IsStrictOrderedRing K] {n : Nat} {x : Fin n → K}
    (h : x ⬝ᵥ x = 0) : x = 0 := by
  funext i
  exact mul_self_eq_zero.1 ((Finset.sum_eq_zero_iff_of_nonneg fun i _ => mul_self_nonneg (x i)).1 h i (Finset.mem_univ i))

/-- With positive squares, orthogonality to the difference minimises. -/
theorem least_squares {K : Type} [Field K] [LinearOrder K] [IsStrictOrderedRing K] {m n : Nat} {M : Matrix (Fin m) (Fin n) K}
    {b : Fin m → K} {x : Fin n → K} (h : Mᵀ *ᵥ (M *ᵥ x) = Mᵀ *ᵥ b) (y : Fin n → K) :
    (M *ᵥ x - b) ⬝ᵥ (M *ᵥ x - b) ≤ (M *ᵥ y - b) ⬝ᵥ (M *ᵥ y - b) := by
  have h1 : (M *ᵥ (y - x)) ⬝ᵥ (M *ᵥ x - b) = 0 := by
    rw [dotProduct_comm, dotProduct_mulVec, ← mulVec_transpose, mulVec_sub, h, sub_self, zero_dotProduct]
  have h2 : M *ᵥ y - b = M *ᵥ (y - x) + (M *ᵥ x - b) := by rw [mulVec_sub]; abel
  have h3 : 0 ≤ (M *ᵥ (y - x)) ⬝ᵥ (M *ᵥ (y - x)) := Finset.sum_nonneg fun i _ => mul_self_nonneg _
  rw [h2, add_dotProduct, dotProduct_add, dotProduct_add, h1, dotProduct_comm (M *ᵥ x - b) (M *ᵥ (y - x)), h1]
  linarith

/-- A solution in the range of the transpose is the shortest one. -/
theorem least_norm {K : Type} [Field K] [LinearOrder K] [IsStrictOrderedRing K] {m n : Nat} {M : Matrix (Fin m) (Fin n) K}
    {z : Fin m → K} {y : Fin n → K} (h : M *ᵥ y = M *ᵥ (Mᵀ *ᵥ z)) : (Mᵀ *ᵥ z) ⬝ᵥ (Mᵀ *ᵥ z) ≤ y ⬝ᵥ y := by
  have h1 : (y - Mᵀ *ᵥ z) ⬝ᵥ (Mᵀ *ᵥ z) = 0 := by
    rw [dotProduct_mulVec, vecMul_transpose, mulVec_sub, h, sub_self, zero_dotProduct]
  have h2 : y = (y - Mᵀ *ᵥ z) + Mᵀ *ᵥ z := by abel
  have h3 : 0 ≤ (y - Mᵀ *ᵥ z) ⬝ᵥ (y - Mᵀ *ᵥ z) := Finset.sum_nonneg fun i _ => mul_self_nonneg _
  have h4 : y ⬝ᵥ y = (y - Mᵀ *ᵥ z) ⬝ᵥ (y - Mᵀ *ᵥ z) + (Mᵀ *ᵥ z) ⬝ᵥ (Mᵀ *ᵥ z) := by
    conv_lhs => rw [h2]
    rw [add_dotProduct, dotProduct_add, dotProduct_add, h1, dotProduct_comm (Mᵀ *ᵥ z) (y - Mᵀ *ᵥ z), h1]
    ring
  linarith

section
variable {K R : Type} [Field K] [LinearOrder K] [IsStrictOrderedRing K] [Field R] [LinearOrder R] [IsStrictOrderedRing R]
variable (abs : AbsoluteValue K R) {tol : R} (ht : tol < 1) {sqrt : K → K} {copysign : K → K → K} {m n : Nat}

omit [IsStrictOrderedRing K] [Field R] [LinearOrder R] [IsStrictOrderedRing R] in
/-- `solve` of a square system is the product with the computed inverse. -/
theorem solve_square {isz : K → Bool} {A : Mat K} {M X : Matrix (Fin n) (Fin n) K} (hA : A.toMB.Is M)
    (hX : Yields (inverse isz A.toMB) X) (hn : n < allocMax) (b : Fin n → K) :
    solve isz sqrt copysign A (List.ofFn b) = .ok (List.ofFn (X *ᵥ b)) := by
  obtain ⟨B, h1, -, h2⟩ := hX
  unfold solve
  rw [if_pos (by obtain ⟨e, hA, -⟩ := hA; exact hA.rows.trans hA.cols.symm), h1, Res.ok_bind, dotMat_ofFn h2 hn]

omit [IsStrictOrderedRing K] in
include ht in
/-- C88, square systems, the part that holds: a non-singular system is solved if it is at most 5×5 or if the inverse has
no zero entry. Missing: `C88_six_false`. -/
theorem C88_square_partial {A : Mat K} {M : Matrix (Fin n) (Fin n) K} (hA : A.toMB.Is M) (hn : n < allocMax) (hM : M.det ≠ 0)
    (hi : n ≤ 5 ∨ ∀ i j, M⁻¹ i j ≠ 0) (b : Fin n → K) :
    ∃ x : Fin n → K, solve (isZ abs tol) sqrt copysign A (List.ofFn b) = .ok (List.ofFn x) ∧ M *ᵥ x = b := by
  refine ⟨_, solve_square hA (C52_large_partial abs ht hA hM hi) hn b, ?_⟩
  rw [mulVec_mulVec, Matrix.mul_nonsing_inv _ (Ne.isUnit hM), one_mulVec]

omit [IsStrictOrderedRing K] in
include ht in
/-- C88: singular square systems up to 4×4 are reported by an empty vector. -/
theorem C88_singular_partial {A : Mat K} {M : Matrix (Fin n) (Fin n) K} (hA : A.toMB.Is M) (hn : n ≤ 4) (hM : M.det = 0)
    (b : List K) : solve (isZ abs tol) sqrt copysign A b = .ok [] := by
  unfold solve
  rw [if_pos (by obtain ⟨e, hA, -⟩ := hA; exact hA.rows.trans hA.cols.symm), (C52_small_partial abs ht hA hn).1 hM, Res.ok_bind]
  unfold dotMat
  show (vnew 0 0 >>= _) = _
  rw [vnew_ok allocMax_pos]; rfl

omit [IsStrictOrderedRing K] in
include ht in
/-- C88 is false: larger singular systems are answered by some vector, also if they have no solution. -/
theorem C88_singular_false {A : Mat K} {M : Matrix (Fin n) (Fin n) K} (hA : A.toMB.Is M) (hn : n < allocMax) (h5 : 4 < n)
    (hM : M.det = 0) : ∃ b : Fin n → K, (∀ x, M *ᵥ x ≠ b) ∧
      ∃ x : Fin n → K, solve (isZ abs tol) sqrt copysign A (List.ofFn b) = .ok (List.ofFn x) := by
  obtain ⟨X, hX⟩ := C52_singular_false abs ht hA h5 hM
  have : ∃ b : Fin n → K, ∀ x, M *ᵥ x ≠ b := by
    by_contra hcon
    push Not at hcon
    have hsurj : Function.Surjective M.mulVec := hcon
    exact (Matrix.mulVec_surjective_iff_isUnit.1 hsurj |> (Matrix.isUnit_iff_isUnit_det M).1).ne_zero hM
  obtain ⟨b, hb⟩ := this
  exact ⟨b, hb, _, solve_square hA hX hn b⟩

omit [IsStrictOrderedRing K] in
include ht in
/-- C88 is false: beyond 5×5 a non-singular matrix whose inverse has a zero entry is solved wrongly for some right-hand
side. -/
theorem C88_six_false {A : Mat K} {M : Matrix (Fin n) (Fin n) K} (hA : A.toMB.Is M) (hn : n < allocMax) (h6 : 5 < n)
    (hM : M.det ≠ 0) {i j : Fin n} (h0 : M⁻¹ i j = 0) :
    ∃ y x : Fin n → K, solve (isZ abs tol) sqrt copysign A (List.ofFn (M *ᵥ y)) = .ok (List.ofFn x) ∧ x ≠ y := by
  obtain ⟨X, hX, hne⟩ := C52_six_false abs ht hA h6 hM
  refine ⟨M⁻¹ *ᵥ Pi.single j 1, _, solve_square hA hX hn _, fun h => hne i j ?_⟩
  have h1 : M *ᵥ (M⁻¹ *ᵥ Pi.single j 1) = Pi.single j (1 : K) := by
    rw [mulVec_mulVec, Matrix.mul_nonsing_inv _ (Ne.isUnit hM), one_mulVec]
  have h2 := congrFun h i
  rw [h1, mulVec_single_one, mulVec_single_one] at h2
  exact h2.trans h0

/-! Overdetermined systems. -/

omit [IsStrictOrderedRing K] [Field R] [LinearOrder R] [IsStrictOrderedRing R] [LinearOrder K] in
/-- The thin factorisation. -/
theorem thin {M : Matrix (Fin m) (Fin n) K} {Q : Matrix (Fin m) (Fin m) K} {R : Matrix (Fin m) (Fin n) K} (hnm : n ≤ m)
    (h1 : Qᵀ * Q = 1) (h2 : Q * R = M) (h3 : ∀ i j, j.val < i.val → R i j = 0)
    (h4 : ∀ r c, r.val = c.val → R r c ≠ 0) :
    (toM m n (tab Q))ᵀ * toM m n (tab Q) = 1 ∧ toM m n (tab Q) * toM n n (tab R) = M ∧ (toM n n (tab R)).det ≠ 0 ∧
      ∀ i j, j < i → toM n n (tab R) i j = 0 := by
  have hQ : ∀ i (j : Fin n), toM m n (tab Q) i j = Q i (Fin.castLE hnm j) := fun i j => tab_lt Q i.2 _
  have hR : ∀ i j : Fin n, toM n n (tab R) i j = R (Fin.castLE hnm i) j := fun i j => tab_lt R _ j.2
  refine ⟨?_, ?_, ?_, ?_⟩
  · funext i j
    have := congrFun (congrFun h1 (Fin.castLE hnm i)) (Fin.castLE hnm j)
    rw [Matrix.mul_apply] at this ⊢
    simp only [transpose_apply, hQ] at this ⊢
    rw [this, Matrix.one_apply, Matrix.one_apply]
    exact if_congr (by simp [Fin.ext_iff]) rfl rfl
  · rw [← h2]
    funext i j
    rw [Matrix.mul_apply, Matrix.mul_apply]
    simp only [hQ, hR]
    rw [← Finset.sum_subset (Finset.subset_univ (Finset.univ.map (Fin.castLEEmb hnm)))]
    · rw [Finset.sum_map]; rfl
    · intro k _ hk
      rw [h3, mul_zero]
      by_contra hcon
      exact hk (Finset.mem_map.2 ⟨⟨k.val, by omega⟩, Finset.mem_univ _, Fin.ext rfl⟩)
  · have : (toM n n (tab R)).BlockTriangular id := fun i j hij => by rw [hR]; exact h3 _ _ hij
    rw [Matrix.det_of_isUpperTriangular this]
    exact Finset.prod_ne_zero_iff.2 fun i _ => by rw [hR]; exact h4 _ _ rfl
  · intro i j hij; rw [hR]; exact h3 _ _ hij

/-- What `solve` computes for a tall matrix with independent columns. -/
theorem solve_tall (hs : Sqrt sqrt) (hcs : Copysign copysign) {A : Mat K} {M : Matrix (Fin m) (Fin n) K} (hA : A.toMB.Is M)
    (hn : 0 < n) (hnm : n < m) (hf : Fits m m) (hind : ∀ x : Fin n → K, M *ᵥ x = 0 → x = 0) (isz : K → Bool) :
    ∃ (Q : Matrix (Fin m) (Fin n) K) (R : Matrix (Fin n) (Fin n) K) (w : MB K), Qᵀ * Q = 1 ∧ Q * R = M ∧ R.det ≠ 0 ∧
      (∀ i j, j < i → R i j = 0) ∧ w.Is R ∧ ∀ X : Matrix (Fin n) (Fin n) K, Yields (inverse isz w) X →
        ∀ b : Fin m → K, solve isz sqrt copysign A (List.ofFn b) = .ok (List.ofFn (X *ᵥ (Qᵀ *ᵥ b))) := by
  have hfn := hA.fits
  have hna : n < allocMax := Nat.lt_of_le_of_lt (Nat.le_mul_of_pos_left n (by omega)) hfn.1
  have hAr : A.rows = m := by obtain ⟨e, hA, -⟩ := hA; exact hA.rows
  have hAc : A.cols = n := by obtain ⟨e, hA, -⟩ := hA; exact hA.cols
  rcases qr_tall hs hcs (by omega) hnm.le hf hA id with ⟨Q, R, e, h1, h2, h3, h4, -⟩ | ⟨-, x, h1, h2, h3⟩
  · rw [Matrix.map_id] at h2
    obtain ⟨t1, t2, t3, t4⟩ := thin hnm.le h1 h2 h3 (fun r c hrc => h4 r c (by omega) hrc)
    obtain ⟨v, hv, hvr⟩ := C14_view (ofFn_rep hfn (tab R)).toRepAt (row := ⟨0, n⟩) (col := ⟨0, n⟩)
      (by simp [viewOk, hn]) (Nat.zero_le _) (Nat.zero_le _)
    obtain ⟨w, hw, hwr⟩ := C14_view (ofFn_rep hf (tab Q)).toRepAt (row := ⟨0, m⟩) (col := ⟨0, n⟩)
      (by simp [viewOk, hn]; omega) (Nat.zero_le _) (Nat.zero_le _)
    simp only [Nat.zero_add, Nat.sub_zero, Nat.min_self, Nat.min_eq_left hnm.le] at hvr hwr
    refine ⟨_, _, v, t1, t2, t3, t4, hvr.is, fun X hX b => ?_⟩
    obtain ⟨B, hB, -, hBX⟩ := hX
    obtain ⟨C, hC, -, hCX⟩ := C48_matrix (hwr.is)
    unfold solve
    rw [if_neg (by omega), if_pos (by omega), e, Res.ok_bind]
    simp only [hAr, hAc]
    rw [hv, Res.ok_bind, hB, Res.ok_bind, hw, Res.ok_bind, hC, Res.ok_bind, dotMat_ofFn hCX hna, Res.ok_bind,
      dotMat_ofFn hBX hna]
  · rw [Matrix.map_id] at h3
    exact absurd (hind x h3) h1

include ht in
/-- C88, overdetermined systems, the part that holds: up to five unknowns and with independent columns the result solves
the normal equations and minimises the sum of squared residuals. Missing: more unknowns (`C88_many_false`) and dependent
columns (`C88_dependent_false`). -/
theorem C88_least_squares_partial (hs : Sqrt sqrt) (hcs : Copysign copysign) {A : Mat K} {M : Matrix (Fin m) (Fin n) K}
    (hA : A.toMB.Is M) (hn : 0 < n) (hnm : n < m) (hf : Fits m m) (h5 : n ≤ 5)
    (hind : ∀ x : Fin n → K, M *ᵥ x = 0 → x = 0) (b : Fin m → K) :
    ∃ x : Fin n → K, solve (isZ abs tol) sqrt copysign A (List.ofFn b) = .ok (List.ofFn x) ∧
      Mᵀ *ᵥ (M *ᵥ x) = Mᵀ *ᵥ b ∧ ∀ y, (M *ᵥ x - b) ⬝ᵥ (M *ᵥ x - b) ≤ (M *ᵥ y - b) ⬝ᵥ (M *ᵥ y - b) := by
  obtain ⟨Q, R', w, h1, h2, h3, -, hw, h⟩ := solve_tall hs hcs hA hn hnm hf hind (isZ abs tol)
  have hX := C52_large_partial abs ht hw h3 (Or.inl h5)
  have hnorm : Mᵀ *ᵥ (M *ᵥ (R'⁻¹ *ᵥ (Qᵀ *ᵥ b))) = Mᵀ *ᵥ b := by
    rw [← h2, ← mulVec_mulVec, mulVec_mulVec _ R', Matrix.mul_nonsing_inv _ (Ne.isUnit h3), one_mulVec, transpose_mul,
      mulVec_mulVec _ _ Q, Matrix.mul_assoc, h1, Matrix.mul_one, mulVec_mulVec]
  exact ⟨_, h _ hX b, hnorm, least_squares hnorm⟩

include ht in
/-- C88 is false: with six or more unknowns there is, for every tall matrix with independent columns, a solvable system that
is not solved: the inverse of the triangular factor is computed without any zero entry. -/
theorem C88_many_false (hs : Sqrt sqrt) (hcs : Copysign copysign) {A : Mat K} {M : Matrix (Fin m) (Fin n) K}
    (hA : A.toMB.Is M) (hnm : n < m) (hf : Fits m m) (h6 : 5 < n) (hind : ∀ x : Fin n → K, M *ᵥ x = 0 → x = 0) :
    ∃ y x : Fin n → K, solve (isZ abs tol) sqrt copysign A (List.ofFn (M *ᵥ y)) = .ok (List.ofFn x) ∧ x ≠ y := by
  obtain ⟨Q, R', w, h1, h2, h3, h4, hw, h⟩ := solve_tall hs hcs hA (by omega) hnm hf hind (isZ abs tol)
  obtain ⟨X, hX, hne⟩ := C52_six_false abs ht hw h6 h3
  have hinv : R'⁻¹ ⟨1, by omega⟩ ⟨0, by omega⟩ = 0 := by
    have hb : R'.BlockTriangular id := fun i j hij => h4 i j hij
    let _ := Matrix.invertibleOfIsUnitDet R' (Ne.isUnit h3)
    exact Matrix.blockTriangular_inv_of_blockTriangular hb (show (⟨0, by omega⟩ : Fin n) < ⟨1, by omega⟩ from Nat.zero_lt_one)
  refine ⟨R'⁻¹ *ᵥ Pi.single ⟨0, by omega⟩ 1, _, h X hX _, fun heq => hne ⟨1, by omega⟩ ⟨0, by omega⟩ ?_⟩
  have e1 : Qᵀ *ᵥ (M *ᵥ (R'⁻¹ *ᵥ Pi.single ⟨0, by omega⟩ 1)) = Pi.single ⟨0, by omega⟩ (1 : K) := by
    rw [← h2, ← mulVec_mulVec, mulVec_mulVec _ R', Matrix.mul_nonsing_inv _ (Ne.isUnit h3), one_mulVec, mulVec_mulVec, h1,
      one_mulVec]
  have e2 := congrFun heq ⟨1, by omega⟩
  rw [e1, mulVec_single_one, mulVec_single_one] at e2
  exact e2.trans hinv

/-- C88 is false: dependent columns make the decomposition divide by zero. -/
theorem C88_dependent_false (hs : Sqrt sqrt) (hcs : Copysign copysign) (isz : K → Bool) {A : Mat K} {M : Matrix (Fin m) (Fin n) K}
    (hA : A.toMB.Is M) (hnm : n < m) (hf : Fits m m) {x : Fin n → K} (hx : x ≠ 0) (hMx : M *ᵥ x = 0) (b : List K) :
    solve isz sqrt copysign A b = .ub .divZero := by
  have hAr : A.rows = m := by obtain ⟨e, hA, -⟩ := hA; exact hA.rows
  have hAc : A.cols = n := by obtain ⟨e, hA, -⟩ := hA; exact hA.cols
  unfold solve
  rw [if_neg (by omega), if_pos (by omega), C87_dependent_false hs hcs hA id (by omega) hnm.le hf hx
    (fun j hj => by omega) (by rw [Matrix.map_id]; exact hMx)]
  rfl

/-- C88 is false: a system without unknowns ends in a failed assertion. -/
theorem C88_no_unknowns_false (hs : Sqrt sqrt) (hcs : Copysign copysign) (isz : K → Bool) {A : Mat K}
    {M : Matrix (Fin m) (Fin 0) K} (hA : A.toMB.Is M) (hm : 0 < m) (hf : Fits m m) (b : List K) :
    solve isz sqrt copysign A b = .abort := by
  have hAr : A.rows = m := by obtain ⟨e, hA, -⟩ := hA; exact hA.rows
  have hAc : A.cols = 0 := by obtain ⟨e, hA, -⟩ := hA; exact hA.cols
  rcases qr_tall hs hcs hm (Nat.zero_le _) hf hA id with ⟨Q, R, e, -⟩ | ⟨-, x, h1, -⟩
  · unfold solve
    rw [if_neg (by omega), if_pos (by omega), e, Res.ok_bind]
    simp only [hAc]
    rw [C14_bad_range _ _ _ (Or.inl (Nat.le_refl _))]; rfl
  · exact absurd (Subsingleton.elim x 0) h1

/-! Underdetermined systems. -/

include ht in
/-- C88, underdetermined systems, the part that holds: with independent rows, at most five of them (or no zero in the
inverse of `A Aᵀ`), the result is the shortest solution. Missing: `C88_rows_false`. -/
theorem C88_shortest_partial {A : Mat K} {M : Matrix (Fin m) (Fin n) K} (hA : A.toMB.Is M) (hmn : m < n) (hn : n < allocMax)
    (hfm : Fits m m) (hdet : (M * Mᵀ).det ≠ 0) (hi : m ≤ 5 ∨ ∀ i j, (M * Mᵀ)⁻¹ i j ≠ 0) (b : Fin m → K) :
    ∃ x : Fin n → K, solve (isZ abs tol) sqrt copysign A (List.ofFn b) = .ok (List.ofFn x) ∧ M *ᵥ x = b ∧
      ∀ y, M *ᵥ y = b → x ⬝ᵥ x ≤ y ⬝ᵥ y := by
  have hAr : A.rows = m := by obtain ⟨e, hA, -⟩ := hA; exact hA.rows
  have hAc : A.cols = n := by obtain ⟨e, hA, -⟩ := hA; exact hA.cols
  obtain ⟨At, h1, -, h2⟩ := C48_matrix hA
  obtain ⟨G, h3, -, h4⟩ := C35_product hA h2 hfm
  obtain ⟨X, h5, -, h6⟩ := C52_large_partial abs ht h4 hdet hi
  obtain ⟨Y, h7, -, h8⟩ := C35_product h2 h6 h2.fits
  have hsol : M *ᵥ (Mᵀ *ᵥ ((M * Mᵀ)⁻¹ *ᵥ b)) = b := by
    rw [mulVec_mulVec, mulVec_mulVec, Matrix.mul_nonsing_inv _ (Ne.isUnit hdet), one_mulVec]
  refine ⟨Mᵀ *ᵥ ((M * Mᵀ)⁻¹ *ᵥ b), ?_, hsol, fun y hy => least_norm (by rw [hsol, hy])⟩
  unfold solve
  rw [if_neg (by omega), if_neg (by omega), h1, Res.ok_bind, h3, Res.ok_bind, h5, Res.ok_bind, h7, Res.ok_bind,
    dotMat_ofFn h8 hn, mulVec_mulVec]

include ht in
/-- C88: up to four dependent rows are reported by an exception, since the inverse is the empty matrix. -/
theorem C88_rows_partial {A : Mat K} {M : Matrix (Fin m) (Fin n) K} (hA : A.toMB.Is M) (hmn : m < n)
    (hfm : Fits m m) (hdet : (M * Mᵀ).det = 0) (h4 : m ≤ 4) (b : List K) :
    solve (isZ abs tol) sqrt copysign A b = .throw .invalidArgument := by
  have hAr : A.rows = m := by obtain ⟨e, hA, -⟩ := hA; exact hA.rows
  have hAc : A.cols = n := by obtain ⟨e, hA, -⟩ := hA; exact hA.cols
  obtain ⟨At, h1, -, h2⟩ := C48_matrix hA
  obtain ⟨G, h3, -, h4'⟩ := C35_product hA h2 hfm
  have h5 := (C52_small_partial abs ht h4' h4).1 hdet
  unfold solve
  rw [if_neg (by omega), if_neg (by omega), h1, Res.ok_bind, h3, Res.ok_bind, h5, Res.ok_bind]
  have : mul At.toMB (Mat.empty0 : Mat K).toMB = .throw .invalidArgument := by
    refine if_pos ?_
    obtain ⟨e, h2, -⟩ := h2
    rw [h2.cols]
    intro h0
    have h0 : m = 0 := h0
    subst h0
    rw [Matrix.det_isEmpty] at hdet
    exact one_ne_zero hdet
  rw [this]; rfl

include ht in
/-- C88 is false: more dependent rows are answered by some vector, also if there is no solution. -/
theorem C88_rows_false {A : Mat K} {M : Matrix (Fin m) (Fin n) K} (hA : A.toMB.Is M) (hmn : m < n) (hn : n < allocMax)
    (hfm : Fits m m) (hdet : (M * Mᵀ).det = 0) (h5 : 4 < m) :
    ∃ b : Fin m → K, (∀ x, M *ᵥ x ≠ b) ∧
      ∃ x : Fin n → K, solve (isZ abs tol) sqrt copysign A (List.ofFn b) = .ok (List.ofFn x) := by
  have hAr : A.rows = m := by obtain ⟨e, hA, -⟩ := hA; exact hA.rows
  have hAc : A.cols = n := by obtain ⟨e, hA, -⟩ := hA; exact hA.cols
  obtain ⟨At, h1, -, h2⟩ := C48_matrix hA
  obtain ⟨G, h3, -, h4⟩ := C35_product hA h2 hfm
  obtain ⟨X', X, hX, -, h6⟩ := C52_singular_false abs ht h4 h5 hdet
  obtain ⟨Y, h7, -, h8⟩ := C35_product h2 h6 h2.fits
  have : ∃ b : Fin m → K, ∀ x, M *ᵥ x ≠ b := by
    obtain ⟨z, hz, hz0⟩ := Matrix.exists_mulVec_eq_zero_iff.2 hdet
    have hzM : Mᵀ *ᵥ z = 0 := by
      have : (Mᵀ *ᵥ z) ⬝ᵥ (Mᵀ *ᵥ z) = 0 := by
        rw [dotProduct_mulVec, vecMul_transpose, mulVec_mulVec, hz0, zero_dotProduct]
      exact dot_self_zero this
    refine ⟨z, fun x hx => hz ?_⟩
    have : z ⬝ᵥ z = 0 := by
      conv_lhs => rw [← hx]
      rw [hx, ← hx, dotProduct_mulVec, ← mulVec_transpose, hx, hzM, zero_dotProduct]
    exact dot_self_zero this
  obtain ⟨b, hb⟩ := this
  refine ⟨b, hb, (Mᵀ * X') *ᵥ b, ?_⟩
  unfold solve
  rw [if_neg (by omega), if_neg (by omega), h1, Res.ok_bind, h3, Res.ok_bind, hX, Res.ok_bind, h7, Res.ok_bind,
    dotMat_ofFn h8 hn]

end

example : solve (isZ (AbsoluteValue.abs (S := ℚ)) (1/1000000000)) exSqrt exCopysign (⟨2, 2, [3, 1, 4, 2]⟩ : Mat ℚ) [5, 8] = .ok [1, 2] := by
  decide +kernel
example : solve (isZ (AbsoluteValue.abs (S := ℚ)) (1/1000000000)) exSqrt exCopysign (⟨3, 2, [1, 3, 2, 3, 2, 0]⟩ : Mat ℚ) [1, 1, 0] =
    .ok [0, 1/3] := by decide +kernel
example : solve (isZ (AbsoluteValue.abs (S := ℚ)) (1/1000000000)) exSqrt exCopysign (⟨1, 2, [3, 4]⟩ : Mat ℚ) [25] = .ok [3, 4] := by
  decide +kernel

/-! ## C89 -/

open Control

/-- The block column `[C; C A; …; C A^(k-1)]`. -/
def blockCol {K : Type} [Semiring K] {n p : Nat} (A : Matrix (Fin n) (Fin n) K) (C : Matrix (Fin p) (Fin n) K) (k : Nat) :
    Matrix (Fin (k * p)) (Fin n) K :=
  fun i j => (C * A ^ (i.1 / p)) ⟨i.1 % p, Nat.mod_lt _ (Nat.pos_of_ne_zero fun h => by have := i.2; simp [h] at this)⟩ j

/-- C89: `obsv(A,C)` is `[C; C A; …; C A^(n-1)]`. -/
theorem C89_obsv {K : Type} [Semiring K] {A C : MB K} {n p : Nat} {M : Matrix (Fin n) (Fin n) K} {N : Matrix (Fin p) (Fin n) K}
    (hA : A.Is M) (hC : C.Is N) (hn : 0 < n) (hf : Fits (n * p) n) : Yields (obsv A C) (blockCol M N n) := by
  have hM := hA
  have hN := hC
  have hfC := hC.fits
  obtain ⟨e, hA, rfl⟩ := hA
  obtain ⟨f, hC, rfl⟩ := hC
  unfold obsv
  have hsq : Util.isSquare A = true := by rw [Lin.isSquare_eq hA.toRepAt, beq_self_eq_true]
  rw [hsq, Bool.not_true, if_neg Bool.false_ne_true, if_neg (by rw [hA.rows, hC.cols]; simp), Mat.ofMB_eq hC, Res.ok_bind, hA.rows]
  dsimp only [id]
  let g : Nat → Nat → Nat → K := fun k r c => tab (toM p n f * toM n n e ^ k) r c
  have hmod : ∀ {j : Nat}, j < n * p → 0 < p := fun {j} h => Nat.pos_of_ne_zero fun h0 => by simp [h0] at h
  rw [forRange_eq (lo := 1) (by omega) (fun i => Mat.ofFn (i * p) n fun r c => g (r / p) (r % p) c)]
  · refine (Yields.of_eq hf rfl).congr ?_
    funext r c
    rw [toM_apply]
    exact tab_lt _ (Nat.mod_lt _ (hmod r.2)) c.2
  · rw [Nat.one_mul]
    apply ofFn_congr
    intro r c hr hc
    show f r c = tab _ _ _
    rw [Nat.div_eq_of_lt hr, Nat.mod_eq_of_lt hr, pow_zero, Matrix.mul_one, tab_lt _ hr hc]; rfl
  · intro i h1 hi
    have hfi : Fits ((i + 1) * p) n := hf.mono (Nat.mul_le_mul_right p (by omega)) (Nat.le_refl n)
    rw [(C49_powm_partial hM hn i).eq, Res.ok_bind]
    have hP : (Mat.ofFn n n (tab (toM n n e ^ i))).toMB.Is (toM n n e ^ i) := by
      have := (ofFn_rep hA.fits (tab (toM n n e ^ i))).is; rwa [toM_tab] at this
    rw [(C35_product hN hP hfC).eq, Res.ok_bind]
    rw [Util.vstack_eq (ofFn_rep (hfi.mono (Nat.mul_le_mul_right p (Nat.le_succ i)) (Nat.le_refl n)) _).toRepAt
      (ofFn_rep hfC _).toRepAt (by rw [← Nat.succ_mul]; exact hfi), Res.ok_bind]
    by_cases hp : p = 0
    · subst hp
      show Res.ok _ = Res.ok _
      congr 1
      unfold Mat.moveAssign
      rw [if_neg (by rw [Mat.size, ofFn_rows, ofFn_cols, Fits.wmul (by simpa using hfi)]; simp)]
      dsimp only
      simp only [Nat.mul_zero]
    · show Res.ok _ = Res.ok _
      rw [moveAssign_fst (by
        show 0 < wmul (i * p + p) n
        rw [← Nat.succ_mul, hfi.wmul]
        exact Nat.mul_pos (Nat.mul_pos (Nat.succ_pos i) (Nat.pos_of_ne_zero hp)) hn)]
      congr 1
      rw [← Nat.succ_mul]
      apply ofFn_congr
      intro r c hr hc
      by_cases hlt : r < i * p
      · rw [if_pos hlt]
      · rw [if_neg hlt]
        have hdiv : r / p = i := by
          rw [Nat.div_eq_iff (Nat.pos_of_ne_zero hp)]; rw [Nat.succ_mul] at hr; constructor <;> omega
        have hmod' : r % p = r - i * p := by
          rw [Nat.mod_eq_sub_mul_div, hdiv, Nat.mul_comm]
        rw [hdiv, hmod']

theorem blockCol_transpose {K : Type} [CommSemiring K] {n p : Nat} (M : Matrix (Fin n) (Fin n) K) (N : Matrix (Fin p) (Fin n) K) (k : Nat) :
    (blockCol M N k)ᵀ = blockRow Mᵀ Nᵀ k := by
  funext i j
  rw [transpose_apply, blockCol, blockRow, ← transpose_pow, ← transpose_mul, transpose_apply]

theorem blockCol_kernel {K : Type} [CommRing K] {n p : Nat} (M : Matrix (Fin n) (Fin n) K) (N : Matrix (Fin p) (Fin n) K)
    (x : Fin n → K) : blockCol M N n *ᵥ x = 0 ↔ ∀ k, N *ᵥ (M ^ k *ᵥ x) = 0 := by
  constructor
  · intro h
    have h1 : ∀ k, k < n → N *ᵥ (M ^ k *ᵥ x) = 0 := by
      intro k hk
      funext i
      have hp : 0 < p := Nat.lt_of_le_of_lt (Nat.zero_le _) i.2
      have hlt : k * p + i.1 < n * p := lin_lt hk i.2
      have := congrFun h ⟨k * p + i.1, hlt⟩
      have hdiv : (k * p + i.1) / p = k := lin_div i.2
      have hmod : (k * p + i.1) % p = i.1 := lin_mod i.2
      rw [mulVec_mulVec, Pi.zero_apply]
      rw [Pi.zero_apply] at this
      rw [← this]
      rw [Matrix.mulVec, Matrix.mulVec, dotProduct, dotProduct]
      refine Finset.sum_congr rfl fun j _ => ?_
      simp only [blockCol, hdiv, hmod]
    intro k
    rcases Nat.eq_zero_or_pos n with rfl | hn
    · rw [show M ^ k *ᵥ x = 0 from Subsingleton.elim _ _, mulVec_zero]
    by_cases hnt : Nontrivial K
    · rw [Matrix.pow_eq_aeval_mod_charpoly M k, Polynomial.aeval_eq_sum_range' (n := n)]
      · rw [sum_mulVec, mulVec_sum]
        refine Finset.sum_eq_zero fun i hi => ?_
        rw [smul_mulVec, mulVec_smul, h1 i (Finset.mem_range.1 hi), smul_zero]
      · have hd := Matrix.charpoly_natDegree_eq_dim M
        rw [Fintype.card_fin] at hd
        have := Polynomial.natDegree_modByMonic_lt (Polynomial.X ^ k) M.charpoly_monic (fun h1 => by
          rw [h1, Polynomial.natDegree_one] at hd; omega)
        omega
    · have := not_nontrivial_iff_subsingleton.1 hnt
      exact Subsingleton.elim _ _
  · intro h
    funext r
    have := congrFun (h (r.1 / p)) ⟨r.1 % p, Nat.mod_lt _ (Nat.pos_of_ne_zero fun h0 => by have := r.2; simp [h0] at this)⟩
    rw [mulVec_mulVec] at this
    exact this

/-- C89: transposed, it is the controllability matrix of the dual system. -/
theorem C89_dual {K : Type} [CommSemiring K] {A C : MB K} {n p : Nat} {M : Matrix (Fin n) (Fin n) K} {N : Matrix (Fin p) (Fin n) K}
    (hA : A.Is M) (hC : C.Is N) (hn : 0 < n) (hf : Fits (n * p) n) :
    (obsv A C >>= fun O => Lin.transpose O.toMB) =
      (Lin.transpose A >>= fun At => Lin.transpose C >>= fun Ct => ctrb At.toMB Ct.toMB) := by
  obtain ⟨At, h1, -, h2⟩ := C48_matrix hA
  obtain ⟨Ct, h3, -, h4⟩ := C48_matrix hC
  refine Yields.unique ((C89_obsv hA hC hn hf).bind fun O _ hO => C48_matrix hO) ?_
  rw [h1, Res.ok_bind, h3, Res.ok_bind, blockCol_transpose]
  exact C59_ctrb h2 h4 hn hf.symm

/-- C89: the observability matrix maps a state to zero exactly when this state never shows in the output of the
uncontrolled system, at any time. -/
theorem C89_unobservable {K : Type} [CommRing K] {A C : MB K} {n p : Nat} {M : Matrix (Fin n) (Fin n) K}
    {N : Matrix (Fin p) (Fin n) K} (hA : A.Is M) (hC : C.Is N) (hn : 0 < n) (hf : Fits (n * p) n) (x : Fin n → K) :
    (obsv A C >>= fun O => dotMat O.toMB (List.ofFn x)) = .ok (List.replicate (n * p) 0) ↔
      ∀ k, N *ᵥ (M ^ k *ᵥ x) = 0 := by
  obtain ⟨O, h1, -, h2⟩ := C89_obsv hA hC hn hf
  have hnp : n * p < allocMax := Nat.lt_of_le_of_lt (Nat.le_mul_of_pos_right _ hn) hf.1
  rw [h1, Res.ok_bind, dotMat_ofFn h2 hnp, ← blockCol_kernel, ← List.ofFn_const, Res.ok.injEq, List.ofFn_inj]
  exact Iff.rfl

/-- C89: for an empty system matrix the result is a copy of `C`. -/
theorem C89_empty {K : Type} [Semiring K] {A C : MB K} {p : Nat} {e} (hA : RepAt A 0 0 e) {f} (hC : Rep C p 0 f) :
    Returns (obsv A C) p 0 f := by
  unfold obsv
  have hsq : Util.isSquare A = true := by rw [Lin.isSquare_eq hA, beq_self_eq_true]
  rw [hsq, Bool.not_true, if_neg Bool.false_ne_true, if_neg (by rw [hA.rows, hC.cols]; simp), Mat.ofMB_eq hC, Res.ok_bind,
    hA.rows, forRange_ge (by omega)]
  exact Returns.of_eq hC.fits rfl

/-- C89: a non-square system matrix or a column mismatch throws `runtime_error`. -/
theorem C89_throws {T : Type} [Zero T] [One T] [Add T] [Mul T] {A C : MB T} (h : A.rows ≠ A.cols ∨ A.rows ≠ C.cols) :
    obsv A C = .throw .runtimeError := by
  unfold obsv
  by_cases h1 : A.rows = A.cols
  · have h2 := h.resolve_left (fun hc => hc h1)
    rw [if_neg (by simp [Util.isSquare, h1]), if_pos h2]
  · rw [if_pos (by simp [Util.isSquare, h1])]

example : obsv (⟨2, 2, [1, 1, 0, 1]⟩ : Mat Int).toMB (⟨1, 2, [1, 2]⟩ : Mat Int).toMB = .ok ⟨2, 2, [1, 2, 1, 3]⟩ := by
  decide +kernel

end Malg
