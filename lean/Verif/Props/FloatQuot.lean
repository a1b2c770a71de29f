import Verif.Props.FloatInv
import Verif.Props.Rounding
/-!
# Property C113: accuracy of `div` in floating point, up to 4×4
-/
namespace Malg
open Ops Lin

section
variable {K : Type} [Field K] [LinearOrder K] [IsStrictOrderedRing K] [FloorRing K] {p : ℕ} {emin : ℤ}

/-- C113: `div` multiplies by the inverse: whatever bounds `D` hold for the elements of the inverse, each element of the quotient is off by the share of these errors and the
rounding of the product. -/
theorem C113_quotient (hp : 1 ≤ p) (isz : Fl K p emin → Bool) {A B : MB (Fl K p emin)} {n m : Nat} {N : Matrix (Fin m) (Fin n) (Fl K p emin)}
    (hA : A.Is N) {X : Matrix (Fin n) (Fin n) (Fl K p emin)} (hX : Yields (inverse isz B) X) {Y D : Matrix (Fin n) (Fin n) K}
    (hD : ∀ i j, |(X i j).val - Y i j| ≤ D i j) (hf : Fits m n) {u η : K} (hu : u = 2 ^ (-(p : ℤ))) (hη : η = 2 ^ emin / 2) :
    ∃ Q : Matrix (Fin m) (Fin n) (Fl K p emin), Yields (Lin.div isz A B) Q ∧ ∀ i j,
      |(Q i j).val - (N.map Fl.val * Y) i j| ≤
        ((1 + u) ^ n - 1) * (N.map (|Fl.val ·|) * Y.map (|·|)) i j + (1 + u) ^ n * (N.map (|Fl.val ·|) * D) i j + n * (1 + u) ^ (n - 1) * η := by
  have R : Rounds (Fl.val : Fl K p emin → K) u η := by subst hu hη; exact Fl.rounds K hp emin
  obtain ⟨V, hV, hw, hI⟩ := hX
  obtain ⟨Q, hQ, h⟩ := C79_product R hA hI hf
  refine ⟨Q, ?_, fun i j => ?_⟩
  · unfold Lin.div
    rwa [hV, Res.ok_bind]
  · have hn : 0 ≤ (1 + u) ^ n - 1 := sub_nonneg.2 (one_le_pow₀ (by linarith [R.u_nonneg]))
    have e1 : (N.map Fl.val * X.map Fl.val) i j - (N.map Fl.val * Y) i j = ∑ l, (N i l).val * ((X l j).val - Y l j) := by
      rw [Matrix.mul_apply, Matrix.mul_apply, ← Finset.sum_sub_distrib]
      exact Finset.sum_congr rfl fun l _ => by rw [mul_sub]; rfl
    have e2 : |(N.map Fl.val * X.map Fl.val) i j - (N.map Fl.val * Y) i j| ≤ (N.map (|Fl.val ·|) * D) i j := by
      rw [e1, Matrix.mul_apply]
      refine (Finset.abs_sum_le_sum_abs _ _).trans (Finset.sum_le_sum fun l _ => ?_)
      rw [abs_mul]
      exact mul_le_mul_of_nonneg_left (hD l j) (abs_nonneg _)
    have e3 : (N.map (|Fl.val ·|) * X.map (|Fl.val ·|)) i j ≤ (N.map (|Fl.val ·|) * Y.map (|·|)) i j + (N.map (|Fl.val ·|) * D) i j := by
      rw [Matrix.mul_apply, Matrix.mul_apply, Matrix.mul_apply, ← Finset.sum_add_distrib]
      refine Finset.sum_le_sum fun l _ => ?_
      rw [← mul_add]
      refine mul_le_mul_of_nonneg_left ?_ (abs_nonneg _)
      show |(X l j).val| ≤ |Y l j| + D l j
      have := abs_add_le (Y l j) ((X l j).val - Y l j)
      rw [add_sub_cancel] at this
      linarith [hD l j]
    have e4 := h i j
    have e5 := mul_le_mul_of_nonneg_left e3 hn
    have e6 := abs_sub_le (Q i j).val ((N.map Fl.val * X.map Fl.val) i j) ((N.map Fl.val * Y) i j)
    linarith

/-- C113, the part that holds: up to 4×4, if the determinant of the divisor is larger than the error `determinant` may have, `div` returns a matrix, and each element has the
error of the product with the exact inverse and the share of the errors of the inverse. Missing: other regular matrices, see `C113_inaccurate_false`. -/
theorem C113_div_partial (hp : 1 ≤ p) (he : emin ≤ 0) {tol : Fl K p emin} (ht : |tol.val| ≤ 1 / 4) {A B : MB (Fl K p emin)} {n k : Nat}
    {N : Matrix (Fin k) (Fin (n + 1)) (Fl K p emin)} (hA : A.Is N) {M : Matrix (Fin (n + 1)) (Fin (n + 1)) (Fl K p emin)} (hB : B.Is M) (hf : Fits k (n + 1)) (hn : n ≤ 3)
    {m : K} (hm : ∀ i j, |(M i j).val| ≤ m) {u η β : K} (hu : u = 2 ^ (-(p : ℤ))) (hη : η = 2 ^ emin / 2)
    (hβ : β = detErr u η m (n + 1) (M.map (|Fl.val ·|)).permanent) (hd : β < |(M.map Fl.val).det|) :
    ∃ Q : Matrix (Fin k) (Fin (n + 1)) (Fl K p emin), Yields (Lin.div (Feq.approxZero Fl.abs tol) A B) Q ∧ ∀ i j,
      |(Q i j).val - (N.map Fl.val * (M.map Fl.val)⁻¹) i j| ≤
        ((1 + u) ^ (n + 1) - 1) * (N.map (|Fl.val ·|) * (M.map Fl.val)⁻¹.map (|·|)) i j +
        (1 + u) ^ (n + 1) * ∑ l, |(N i l).val| * (u * |(M.map Fl.val)⁻¹ l j| +
          (1 + u) * ((detErr u η m n ((M.map (|Fl.val ·|)).submatrix j.succAbove l.succAbove).permanent + |(M.map Fl.val)⁻¹ l j| * β) /
            (|(M.map Fl.val).det| - β)) + η) +
        (n + 1 : ℕ) * (1 + u) ^ n * η := by
  obtain ⟨X, hX, hD⟩ := C113_inverse_partial hp he ht hB hn hm hu hη hβ hd
  exact C113_quotient hp _ hA hX (D := Matrix.of fun i j => _) hD hf hu hη
end

set_option maxRecDepth 100000 in
/-- `[1 2] / [3 1; 1 2]` is `[0, 1]`; in doubles the first element is zero as well, since `0.4 - 2 * 0.2` is. -/
example : Lin.div (Feq.approxZero Fl.abs doubleTol) (⟨1, 2, doubles [1, 2]⟩ : Mat Double).toMB (⟨2, 2, doubles [3, 1, 1, 2]⟩ : Mat Double).toMB =
    .ok ⟨1, 2, [Fl.of 53 (-1074) 0, Fl.of 53 (-1074) 1]⟩ := by
  decide +kernel
end Malg
