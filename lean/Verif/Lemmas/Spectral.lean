import Verif.Lemmas.EigenPairs
import Mathlib.Analysis.Matrix.Spectrum
import Mathlib.Analysis.Convex.Birkhoff
/-!
# Hermitian matrices over the model's complex numbers: the spectral theorem, and eigenvalues near approximate ones
-/
namespace Malg
open Matrix
namespace Eigen
open Cpx
variable {n : Nat}

/-- The model's complex numbers over the reals are those of Mathlib. -/
def toC : Cpx ℝ ≃+* ℂ where
  toFun z := ⟨z.re, z.im⟩
  invFun z := ⟨z.re, z.im⟩
  left_inv _ := rfl
  right_inv _ := rfl
  map_mul' _ _ := rfl
  map_add' _ _ := rfl

theorem toC_star (z : Cpx ℝ) : toC (star z) = star (toC z) := rfl
theorem toC_symm_star (z : ℂ) : toC.symm (star z) = star (toC.symm z) := rfl
theorem toC_symm_ofReal (x : ℝ) : toC.symm (x : ℂ) = ofReal x := rfl

/-- Unitarily similar matrices have the same characteristic polynomial. -/
theorem charpoly_unitary {K : Type} [Field K] [LinearOrder K] [IsStrictOrderedRing K] {M U T : Matrix (Fin n) (Fin n) (Cpx K)}
    (hU : Uᴴ * U = 1) (hM : M * U = U * T) : M.charpoly = T.charpoly := by
  have hM : M = U * T * Uᴴ := by
    rw [← hM, Matrix.mul_assoc, mul_eq_one_comm.1 hU, Matrix.mul_one]
  rw [hM, Matrix.charpoly_mul_comm, ← Matrix.mul_assoc, hU, Matrix.one_mul]

/-- The spectral theorem. -/
theorem spectral {M : Matrix (Fin n) (Fin n) (Cpx ℝ)} (h : Mᴴ = M) :
    ∃ (V : Matrix (Fin n) (Fin n) (Cpx ℝ)) (d : Fin n → ℝ), Vᴴ * V = 1 ∧ M * V = V * diagonal fun i => ofReal (d i) := by
  have hN : (M.map toC).IsHermitian := by
    apply Matrix.ext
    intro r c
    rw [conjTranspose_apply, map_apply, map_apply, ← toC_star, ← conjTranspose_apply, h]
  let W : Matrix (Fin n) (Fin n) ℂ := hN.eigenvectorUnitary
  have hW : Wᴴ * W = 1 := by
    rw [← star_eq_conjTranspose]
    exact Unitary.star_mul_self_of_mem hN.eigenvectorUnitary.2
  have hd : M.map toC * W = W * diagonal (fun i => (hN.eigenvalues i : ℂ)) := by
    apply Matrix.ext
    intro r c
    rw [Matrix.mul_diagonal]
    have := congrFun (hN.mulVec_eigenvectorBasis c) r
    rw [Pi.smul_apply, Complex.real_smul] at this
    rw [mul_comm (W r c)]
    exact this
  refine ⟨W.map toC.symm, hN.eigenvalues, ?_, ?_⟩
  · have h1 := congrArg (fun X : Matrix (Fin n) (Fin n) ℂ => X.map toC.symm) hW
    rw [Matrix.map_mul, Matrix.map_one _ (map_zero _) (map_one _)] at h1
    rw [← h1]
    rfl
  · have h1 := congrArg (fun X : Matrix (Fin n) (Fin n) ℂ => X.map toC.symm) hd
    rw [Matrix.map_mul, Matrix.map_mul, diagonal_map (map_zero _)] at h1
    have h2 : (M.map toC).map toC.symm = M := by
      apply Matrix.ext
      intro r c
      rfl
    rw [h2] at h1
    exact h1

/-- Right factors that are unitary keep the sum of the squares of the entries. -/
theorem frob_unitary {V : Matrix (Fin n) (Fin n) (Cpx ℝ)} (hV : Vᴴ * V = 1) (X : Matrix (Fin n) (Fin n) (Cpx ℝ)) :
    ∑ r, ∑ c, norm ((X * V) r c) = ∑ r, ∑ c, norm (X r c) := by
  refine Finset.sum_congr rfl fun r _ => ?_
  have hV' : (Vᴴ)ᴴ * Vᴴ = 1 := by rw [conjTranspose_conjTranspose]; exact mul_eq_one_comm.1 hV
  have := sq_unitary hV' fun c => star (X r c)
  simp only [Cpx.norm_star] at this
  rw [← this]
  refine Finset.sum_congr rfl fun c _ => ?_
  rw [← Cpx.norm_star, Matrix.mul_apply, star_sum]
  congr 1
  exact Finset.sum_congr rfl fun j _ => by rw [star_mul', mul_comm]; rfl

/-- The squared entries of a unitary matrix are doubly stochastic. -/
theorem unitary_stochastic {V : Matrix (Fin n) (Fin n) (Cpx ℝ)} (hV : Vᴴ * V = 1) :
    (V.map norm) ∈ doublyStochastic ℝ (Fin n) := by
  rw [mem_doublyStochastic_iff_sum]
  have key : ∀ {X : Matrix (Fin n) (Fin n) (Cpx ℝ)}, Xᴴ * X = 1 → ∀ c, ∑ r, norm (X r c) = 1 := by
    intro X hX c
    refine ofReal_inj.1 ?_
    have := congrFun (congrFun hX c) c
    rw [Matrix.mul_apply, Matrix.one_apply_eq] at this
    rw [ofReal_sum, ofReal_one, ← this]
    exact Finset.sum_congr rfl fun r _ => norm_eq _
  refine ⟨fun i j => norm_nonneg _, fun i => ?_, fun j => key hV j⟩
  have := key (X := Vᴴ) (by rw [conjTranspose_conjTranspose]; exact mul_eq_one_comm.1 hV) i
  rw [← this]
  exact Finset.sum_congr rfl fun r _ => by rw [map_apply, conjTranspose_apply, Cpx.norm_star]

/-- A weighted sum of costs over a doubly stochastic matrix is no less than the cost of the best assignment. -/
theorem exists_assignment {S : Matrix (Fin n) (Fin n) ℝ} (hS : S ∈ doublyStochastic ℝ (Fin n)) (g : Fin n → Fin n → ℝ) :
    ∃ σ : Equiv.Perm (Fin n), ∑ r, g r (σ r) ≤ ∑ r, ∑ c, S r c * g r c := by
  obtain ⟨w, h0, h1, h2⟩ := exists_eq_sum_perm_of_mem_doublyStochastic hS
  by_contra hc
  push Not at hc
  have h3 : ∑ r, ∑ c, S r c * g r c = ∑ σ : Equiv.Perm (Fin n), w σ * ∑ r, g r (σ r) := by
    have h4 : ∀ r, ∑ c, S r c * g r c = ∑ σ : Equiv.Perm (Fin n), w σ * g r (σ r) := by
      intro r
      simp only [← h2, Matrix.sum_apply, Matrix.smul_apply, smul_eq_mul, Finset.sum_mul]
      rw [Finset.sum_comm]
      refine Finset.sum_congr rfl fun σ _ => ?_
      simp [PEquiv.toMatrix_apply, Equiv.toPEquiv_apply]
    simp only [h4, Finset.mul_sum]
    exact Finset.sum_comm
  obtain ⟨C, hC⟩ : ∃ C, C = ∑ r, ∑ c, S r c * g r c := ⟨_, rfl⟩
  simp only [← hC] at hc h3
  have h5 : ∃ σ, 0 < w σ := by
    by_contra hw
    push Not at hw
    rw [Finset.sum_eq_zero fun σ _ => le_antisymm (hw σ) (h0 σ)] at h1
    exact zero_ne_one h1
  obtain ⟨σ, hσ⟩ := h5
  have h6 : ∑ σ, w σ * C < ∑ σ : Equiv.Perm (Fin n), w σ * ∑ r, g r (σ r) :=
    Finset.sum_lt_sum (fun τ _ => mul_le_mul_of_nonneg_left (hc τ).le (h0 τ)) ⟨σ, Finset.mem_univ σ, mul_lt_mul_of_pos_left (hc σ) hσ⟩
  rw [← Finset.sum_mul, h1, one_mul, ← h3] at h6
  exact lt_irrefl _ h6

/-- The eigenvalues of a hermitian matrix, in a suitable order, differ from given numbers by no more than the matrix differs from
the diagonal matrix of these numbers. -/
theorem hermitian_match {T : Matrix (Fin n) (Fin n) (Cpx ℝ)} (h : Tᴴ = T) (b : Fin n → ℝ) :
    ∃ d : Fin n → ℝ, T.charpoly = ∏ i, (Polynomial.X - Polynomial.C (ofReal (d i))) ∧
      ∑ i, (d i - b i) ^ 2 ≤ ∑ r, ∑ c, norm ((T - diagonal fun i => ofReal (b i)) r c) := by
  obtain ⟨V, d, hV, hd⟩ := spectral h
  obtain ⟨σ, hσ⟩ := exists_assignment (unitary_stochastic hV) fun r c => (d c - b r) ^ 2
  refine ⟨d ∘ σ, ?_, hσ.trans (le_of_eq ?_)⟩
  · rw [charpoly_unitary hV hd, charpoly_diagonal]
    exact (Equiv.prod_comp σ fun i => Polynomial.X - Polynomial.C (ofReal (d i))).symm
  · rw [← frob_unitary hV]
    refine Finset.sum_congr rfl fun r _ => Finset.sum_congr rfl fun c _ => ?_
    rw [Matrix.sub_mul, hd, Matrix.sub_apply, mul_diagonal, diagonal_mul, mul_comm (V r c), ← sub_mul, Cpx.norm_mul, ← ofReal_sub,
      norm_ofReal, map_apply]
    ring

end Eigen
end Malg
