import Verif.Props.Control
import Verif.Props.ExpmBound
import Mathlib.Analysis.Normed.Algebra.GelfandFormula
/-!
# Property C151 for all stable systems, without rounding
-/
namespace Malg
open Ops Control
open scoped Matrix

section
open scoped Matrix.Norms.Operator NNReal ENNReal
open Filter

set_option backward.isDefEq.respectTransparency false in
/-- Powers of a matrix whose eigenvalues are inside of the unit circle decay. -/
theorem pow_decay {n : Nat} (A : Matrix (Fin n) (Fin n) ℂ) (h : ∀ (μ : ℂ) (z : Fin n → ℂ), z ≠ 0 → A *ᵥ z = μ • z → ‖μ‖ < 1) :
    ∃ c ρ : ℝ, 0 ≤ c ∧ 0 ≤ ρ ∧ ρ < 1 ∧ ∀ k, ‖A ^ k‖ ≤ c * ρ ^ k := by
  rcases Nat.eq_zero_or_pos n with rfl | hn
  · exact ⟨0, 0, le_rfl, le_rfl, zero_lt_one, fun k => by rw [Subsingleton.elim (A ^ k) 0, norm_zero]; simp⟩
  have : Nonempty (Fin n) := ⟨⟨0, hn⟩⟩
  have hs : ∀ μ ∈ spectrum ℂ A, ‖μ‖₊ < 1 := by
    intro μ hμ
    rw [spectrum.mem_iff, Matrix.isUnit_iff_isUnit_det, isUnit_iff_ne_zero, not_not] at hμ
    obtain ⟨z, hz, h1⟩ := Matrix.exists_mulVec_eq_zero_iff.2 hμ
    refine NNReal.coe_lt_coe.1 (h μ z hz ?_)
    rw [Matrix.sub_mulVec, sub_eq_zero] at h1
    rw [← h1]
    funext i
    rw [Matrix.algebraMap_eq_diagonal, Matrix.mulVec_diagonal]
    rfl
  have hr : spectralRadius ℂ A < (1 : ℝ≥0) := spectrum.spectralRadius_lt_of_forall_lt A hs
  obtain ⟨ρ, h1, h2⟩ := ENNReal.lt_iff_exists_nnreal_btwn.1 hr
  have hev := (spectrum.pow_nnnorm_pow_one_div_tendsto_nhds_spectralRadius A).eventually (gt_mem_nhds h1)
  obtain ⟨N, hN⟩ := eventually_atTop.1 hev
  have hρ1 : (ρ : ℝ) < 1 := by exact_mod_cast h2
  have hρ0 : 0 < (ρ : ℝ) := by
    have : (0 : ℝ≥0∞) < ρ := lt_of_le_of_lt zero_le h1
    exact_mod_cast this
  have hbig : ∀ k, N ≤ k → 0 < k → ‖A ^ k‖ ≤ (ρ : ℝ) ^ k := by
    intro k hk hk0
    have h3 := (hN k hk).le
    have h4 := ENNReal.rpow_le_rpow h3 (Nat.cast_nonneg (α := ℝ) k)
    rw [← ENNReal.rpow_mul, one_div_mul_cancel (by exact_mod_cast hk0.ne'), ENNReal.rpow_one, ENNReal.rpow_natCast] at h4
    exact_mod_cast h4
  refine ⟨1 + ∑ i ∈ Finset.range (N + 1), ‖A ^ i‖ / (ρ : ℝ) ^ i, ρ, by positivity, hρ0.le, hρ1, fun k => ?_⟩
  by_cases hk : k ≤ N
  · have h5 := Finset.single_le_sum (f := fun i => ‖A ^ i‖ / (ρ : ℝ) ^ i) (fun i _ => by positivity) (Finset.mem_range.2 (Nat.lt_succ_of_le hk))
    have h6 : ‖A ^ k‖ = ‖A ^ k‖ / (ρ : ℝ) ^ k * (ρ : ℝ) ^ k := by field_simp
    rw [h6]
    refine mul_le_mul_of_nonneg_right ?_ (by positivity)
    exact h5.trans (le_add_of_nonneg_left zero_le_one)
  · refine (hbig k (by omega) (by omega)).trans (le_mul_of_one_le_left (by positivity) ?_)
    exact le_add_of_nonneg_right (Finset.sum_nonneg fun i _ => by positivity)

theorem row_sum_le_cnorm {n : Nat} (M : Matrix (Fin n) (Fin n) ℂ) (i : Fin n) : ∑ j, ‖M i j‖ ≤ ‖M‖ := by
  rw [Matrix.linfty_opNorm_def]
  have : (∑ j, ‖M i j‖₊ : NNReal) ≤ Finset.univ.sup fun i => ∑ j, ‖M i j‖₊ :=
    Finset.le_sup (f := fun i => ∑ j, ‖M i j‖₊) (Finset.mem_univ i)
  have := NNReal.coe_le_coe.2 this
  simpa using this

/-- Powers of a real matrix whose eigenvalues are inside of the unit circle. -/
theorem real_pow_decay {n : Nat} (A : Matrix (Fin n) (Fin n) ℝ) (h : ∀ (μ : ℂ) (z : Fin n → ℂ), z ≠ 0 → A.map Complex.ofReal *ᵥ z = μ • z → ‖μ‖ < 1) :
    ∃ c ρ : ℝ, 0 ≤ c ∧ 0 ≤ ρ ∧ ρ < 1 ∧ ∀ k i, ∑ j, |(A ^ k) i j| ≤ c * ρ ^ k := by
  obtain ⟨c, ρ, h1, h2, h3, h4⟩ := pow_decay _ h
  refine ⟨c, ρ, h1, h2, h3, fun k i => le_trans (le_of_eq ?_) ((row_sum_le_cnorm _ i).trans (h4 k))⟩
  have e : (A.map Complex.ofReal) ^ k = (A ^ k).map Complex.ofReal := (map_pow (Complex.ofRealHom.mapMatrix (m := Fin n)) A k).symm
  rw [e]
  refine Finset.sum_congr rfl fun j _ => ?_
  rw [Matrix.map_apply, Complex.norm_real, Real.norm_eq_abs]
end

theorem traj_closed {K : Type} [CommRing K] {n m : Nat} (A : Matrix (Fin n) (Fin n) K) (B : Matrix (Fin n) (Fin m) K) (x0 : Fin n → K) (u : Nat → Fin m → K) (k : Nat) :
    traj A B x0 u k = A ^ k *ᵥ x0 + ∑ i ∈ Finset.range k, A ^ (k - 1 - i) *ᵥ (B *ᵥ u i) := by
  induction k with
  | zero => rw [pow_zero, Matrix.one_mulVec, Finset.range_zero, Finset.sum_empty, add_zero]; rfl
  | succ k ih =>
    show A *ᵥ traj A B x0 u k + B *ᵥ u k = _
    rw [ih, Finset.sum_range_succ, Matrix.mulVec_add, Matrix.mulVec_mulVec, ← pow_succ', Matrix.mulVec_sum, add_assoc]
    congr 2
    · refine Finset.sum_congr rfl fun i hi => ?_
      have := Finset.mem_range.1 hi
      rw [Matrix.mulVec_mulVec, ← pow_succ', show k - 1 - i + 1 = k + 1 - 1 - i by omega]
    · rw [show k + 1 - 1 - k = 0 by omega, pow_zero, Matrix.one_mulVec]

/-- C151 without rounding, for all stable systems: if all eigenvalues of `A` are inside of the unit circle, there are `c` and `ρ < 1`, for the matrix alone, such that the states of
every simulation are at most `c (ρ^i M + β / (1 - ρ))`, where `M` bounds the initial state and `β` what the inputs contribute. -/
theorem C151_eigenvalues {n m p : Nat} {A : Matrix (Fin n) (Fin n) ℝ} (hA : ∀ (μ : ℂ) (z : Fin n → ℂ), z ≠ 0 → A.map Complex.ofReal *ᵥ z = μ • z → ‖μ‖ < 1) :
    ∃ c ρ : ℝ, 0 ≤ ρ ∧ ρ < 1 ∧ ∀ (toSize : ℝ → Res Nat) (sys : DiscreteStateSpace ℝ) (B : Matrix (Fin n) (Fin m) ℝ) (C : Matrix (Fin p) (Fin n) ℝ) (D : Matrix (Fin p) (Fin m) ℝ)
      (_ : sys.toStateSpace.Is A B C D) (_ : n < allocMax) (_ : p < allocMax) (us : List (Fin m → ℝ)) (x0 : Fin n → ℝ) (st q : ℝ) (k : Nat)
      (_ : cdiv st sys.sampleTime = .ok q) (_ : toSize q = .ok k) (M β : ℝ) (_ : ∀ i, |x0 i| ≤ M) (_ : 0 ≤ β) (_ : ∀ w ∈ us, ∀ i, |(B *ᵥ w) i| ≤ β),
      ∃ t y, ∃ x : Nat → Fin n → ℝ, simulate toSize sys (us.map List.ofFn) st (List.ofFn x0) = .ok (t, vtab (min us.length k + 1) fun i => List.ofFn (x i), y) ∧
        ∀ i, i ≤ min us.length k → ∀ l, |x i l| ≤ c * (ρ ^ i * M + β / (1 - ρ)) := by
  obtain ⟨c, ρ, h1, h2, h3, h4⟩ := real_pow_decay A hA
  refine ⟨c, ρ, h2, h3, fun toSize sys B C D h hn hp us x0 st q k hq hk M β hM hβ hB => ⟨_, _, _, simulate_eq h hn hp us x0 hq hk, fun i hi l => ?_⟩⟩
  have hrow : ∀ (k : Nat) (z : Fin n → ℝ) (y : ℝ), (∀ j, |z j| ≤ y) → |(A ^ k *ᵥ z) l| ≤ c * ρ ^ k * y := by
    intro k z y hz
    have hy : 0 ≤ y := (abs_nonneg _).trans (hz l)
    refine (Finset.abs_sum_le_sum_abs _ _).trans (le_trans (Finset.sum_le_sum fun j _ => ?_) ((Finset.sum_mul _ _ y).symm.le.trans (mul_le_mul_of_nonneg_right (h4 k l) hy)))
    rw [abs_mul]
    exact mul_le_mul_of_nonneg_left (hz j) (abs_nonneg _)
  rw [traj_closed, Pi.add_apply, Finset.sum_apply]
  refine (abs_add_le _ _).trans ?_
  have e1 := hrow i x0 M hM
  have e2 : |∑ j ∈ Finset.range i, (A ^ (i - 1 - j) *ᵥ (B *ᵥ us.getD j 0)) l| ≤ ∑ j ∈ Finset.range i, c * ρ ^ (i - 1 - j) * β :=
    (Finset.abs_sum_le_sum_abs _ _).trans (Finset.sum_le_sum fun j hj => hrow _ _ β fun r => by
      have hj' : j < us.length := by have := Finset.mem_range.1 hj; omega
      rw [List.getD_eq_getElem?_getD, List.getElem?_eq_getElem hj', Option.getD_some]
      exact hB _ (List.getElem_mem hj') r)
  have e3 : ∑ j ∈ Finset.range i, c * ρ ^ (i - 1 - j) * β = c * β * ∑ j ∈ Finset.range i, ρ ^ j := by
    rw [Finset.sum_range_reflect (fun j => c * ρ ^ j * β) i, Finset.mul_sum]
    exact Finset.sum_congr rfl fun j _ => by ring
  have h5 : 0 < 1 - ρ := by linarith
  have e4 : ∑ j ∈ Finset.range i, ρ ^ j ≤ 1 / (1 - ρ) := by
    rw [le_div_iff₀ h5, mul_comm, mul_neg_geom_sum]
    have := pow_nonneg h2 i
    linarith
  have e5 := mul_le_mul_of_nonneg_left e4 (mul_nonneg h1 hβ)
  rw [e3] at e2
  refine (add_le_add e1 (e2.trans e5)).trans (le_of_eq ?_)
  ring

/-- A stable matrix with large entries: its square is zero, so that zero is the only eigenvalue. In `double`, and scaled, it is the one of `C151_stable_false`. -/
example (μ : ℂ) (z : Fin 2 → ℂ) (hz : z ≠ 0) (h : (!![15, 9; -25, -15] : Matrix (Fin 2) (Fin 2) ℝ).map Complex.ofReal *ᵥ z = μ • z) : ‖μ‖ < 1 := by
  have h2 : (!![15, 9; -25, -15] : Matrix (Fin 2) (Fin 2) ℝ).map Complex.ofReal * (!![15, 9; -25, -15] : Matrix (Fin 2) (Fin 2) ℝ).map Complex.ofReal = 0 := by
    ext i j
    fin_cases i <;> fin_cases j <;> norm_num [Matrix.mul_apply, Fin.sum_univ_two]
  have h3 : (μ * μ) • z = 0 := by
    rw [← smul_smul, ← h, ← Matrix.mulVec_smul, ← h, Matrix.mulVec_mulVec, h2, Matrix.zero_mulVec]
  have h4 : μ = 0 := by simpa [hz] using h3
  rw [h4, norm_zero]
  exact zero_lt_one
end Malg
