import Mathlib.Analysis.Normed.Algebra.MatrixExponential
import Mathlib.Analysis.Complex.Exponential
import Mathlib.Analysis.SpecialFunctions.Exponential
import Mathlib.Analysis.Complex.ExponentialBounds
/-!
# The exponential series in a Banach algebra, truncated, and its powers
-/
namespace Malg
open NormedSpace

section
variable {𝔸 : Type} [NormedRing 𝔸] [NormedAlgebra ℝ 𝔸] [NormOneClass 𝔸] [CompleteSpace 𝔸]

/-- The truncated exponential series. -/
noncomputable def partialExp (x : 𝔸) (m : Nat) : 𝔸 := ∑ j ∈ Finset.range m, ((j.factorial : ℝ)⁻¹) • x ^ j

omit [CompleteSpace 𝔸] in
theorem norm_term_le (x : 𝔸) (j : Nat) : ‖((j.factorial : ℝ)⁻¹) • x ^ j‖ ≤ ‖x‖ ^ j / j.factorial := by
  refine (norm_smul_le _ _).trans ?_
  rw [Real.norm_of_nonneg (by positivity), div_eq_inv_mul]
  exact mul_le_mul_of_nonneg_left (norm_pow_le _ _) (by positivity)

theorem real_exp_hasSum (r : ℝ) : HasSum (fun j : Nat => r ^ j / j.factorial) (Real.exp r) := by
  rw [Real.exp_eq_exp_ℝ]; exact expSeries_div_hasSum_exp r

omit [CompleteSpace 𝔸] in
theorem norm_partialExp_le (x : 𝔸) (m : Nat) : ‖partialExp x m‖ ≤ Real.exp ‖x‖ := by
  refine (norm_sum_le _ _).trans ?_
  refine (Finset.sum_le_sum fun j _ => norm_term_le x j).trans ?_
  exact sum_le_hasSum _ (fun j _ => by positivity) (real_exp_hasSum ‖x‖)

theorem norm_exp_le' (x : 𝔸) : ‖exp x‖ ≤ Real.exp ‖x‖ := by
  have h := exp_series_hasSum_exp' (𝕂 := ℝ) x
  rw [← h.tsum_eq, ← (real_exp_hasSum ‖x‖).tsum_eq]
  refine tsum_of_norm_bounded ?_ (norm_term_le x) 
  rw [(real_exp_hasSum ‖x‖).tsum_eq]; exact real_exp_hasSum _

/-- The remainder is at most the remainder of the scalar series. -/
theorem norm_exp_sub_partial (x : 𝔸) (m : Nat) :
    ‖exp x - partialExp x m‖ ≤ Real.exp ‖x‖ - ∑ j ∈ Finset.range m, ‖x‖ ^ j / j.factorial := by
  have h := exp_series_hasSum_exp' (𝕂 := ℝ) x
  have h1 := (hasSum_nat_add_iff' m).2 h
  have h2 := (hasSum_nat_add_iff' m).2 (real_exp_hasSum ‖x‖)
  have e : exp x - partialExp x m = ∑' j : Nat, (((j + m).factorial : ℝ)⁻¹) • x ^ (j + m) := h1.tsum_eq.symm
  rw [e]
  exact tsum_of_norm_bounded h2 fun j => norm_term_le x (j + m)

/-- With norm at most one. -/
theorem norm_exp_sub_partial_pow (x : 𝔸) (hx : ‖x‖ ≤ 1) (p : Nat) :
    ‖exp x - partialExp x (p + 1)‖ ≤ ‖x‖ ^ (p + 1) * ((p + 2 : Nat) / (((p + 1).factorial : ℝ) * (p + 1 : Nat))) := by
  refine (norm_exp_sub_partial x (p + 1)).trans ((le_abs_self _).trans ?_)
  have hb := Real.exp_bound (x := ‖x‖) (by rwa [abs_of_nonneg (norm_nonneg x)]) (n := p + 1) (Nat.succ_pos p)
  rwa [abs_of_nonneg (norm_nonneg x)] at hb

theorem norm_exp_sub_partial_le (x : 𝔸) (hx : ‖x‖ ≤ 1) (p : Nat) :
    ‖exp x - partialExp x (p + 1)‖ ≤ (p + 2 : Nat) / (((p + 1).factorial : ℝ) * (p + 1 : Nat)) :=
  (norm_exp_sub_partial_pow x hx p).trans (mul_le_of_le_one_left (by positivity) (pow_le_one₀ (norm_nonneg x) hx))

omit [NormedAlgebra ℝ 𝔸] [CompleteSpace 𝔸] in
/-- Powers of two elements of bounded norm. -/
theorem norm_pow_sub_pow_le {a b : 𝔸} {C : ℝ} (ha : ‖a‖ ≤ C) (hb : ‖b‖ ≤ C) (N : Nat) :
    ‖a ^ N - b ^ N‖ ≤ N * C ^ (N - 1) * ‖a - b‖ := by
  have hC : 0 ≤ C := (norm_nonneg a).trans ha
  induction N with
  | zero => simp
  | succ N ih =>
    have e : a ^ (N + 1) - b ^ (N + 1) = a ^ N * (a - b) + (a ^ N - b ^ N) * b := by
      rw [pow_succ, pow_succ]; noncomm_ring
    have h1 : ‖a ^ N * (a - b)‖ ≤ C ^ N * ‖a - b‖ :=
      (norm_mul_le _ _).trans (mul_le_mul_of_nonneg_right ((norm_pow_le a N).trans (pow_le_pow_left₀ (norm_nonneg a) ha N)) (norm_nonneg _))
    have h2 : ‖(a ^ N - b ^ N) * b‖ ≤ (N * C ^ (N - 1) * ‖a - b‖) * C :=
      (norm_mul_le _ _).trans (mul_le_mul ih hb (norm_nonneg _) (by positivity))
    rw [e]
    refine (norm_add_le _ _).trans ((add_le_add h1 h2).trans (le_of_eq ?_))
    cases N with
    | zero => simp
    | succ k => simp only [Nat.add_sub_cancel, Nat.cast_add, Nat.cast_one]; ring

/-- Scaling, truncating and squaring. -/
theorem exp_scaled_bound (M : 𝔸) (k p : Nat) (hM : ‖M‖ * (1/2) ^ k ≤ 1) :
    ‖partialExp (((1/2 : ℝ) ^ k) • M) (p + 1) ^ (2 ^ k) - exp M‖ ≤
      2 ^ k * Real.exp ‖M‖ * ((‖M‖ * (1/2) ^ k) ^ (p + 1) * ((p + 2 : Nat) / (((p + 1).factorial : ℝ) * (p + 1 : Nat)))) := by
  set S := ((1/2 : ℝ) ^ k) • M with hS
  have hn : ‖S‖ = ‖M‖ * (1/2) ^ k := by rw [hS, norm_smul, Real.norm_of_nonneg (by positivity), mul_comm]
  have h2 : ((1/2 : ℝ) ^ k) * 2 ^ k = 1 := by rw [← mul_pow]; norm_num
  have hexp : exp M = exp S ^ (2 ^ k) := by
    let _ : NormedAlgebra ℚ 𝔸 := NormedAlgebra.restrictScalars ℚ ℝ 𝔸
    rw [← exp_nsmul, hS, ← Nat.cast_smul_eq_nsmul ℝ, smul_smul]
    push_cast
    rw [mul_comm, h2, one_smul]
  rw [hexp]
  have hb := norm_pow_sub_pow_le (norm_partialExp_le S (p + 1)) (norm_exp_le' S) (2 ^ k)
  have ht := norm_exp_sub_partial_pow S (by rw [hn]; exact hM) p
  rw [norm_sub_rev, hn] at ht
  have hC : Real.exp ‖S‖ ^ (2 ^ k - 1) ≤ Real.exp ‖M‖ := by
    rw [← Real.exp_nat_mul]
    apply Real.exp_le_exp.2
    have : ((2 ^ k - 1 : Nat) : ℝ) ≤ 2 ^ k := by
      have : ((2 ^ k - 1 : Nat) : ℝ) ≤ ((2 ^ k : Nat) : ℝ) := Nat.cast_le.2 (Nat.sub_le _ _)
      simpa only [Nat.cast_pow, Nat.cast_ofNat] using this
    calc ((2 ^ k - 1 : Nat) : ℝ) * ‖S‖ ≤ 2 ^ k * ‖S‖ := mul_le_mul_of_nonneg_right this (norm_nonneg _)
      _ = ‖M‖ := by rw [hn, mul_comm, mul_assoc, h2, mul_one]
  refine hb.trans ?_
  push_cast
  refine mul_le_mul ?_ (by exact_mod_cast ht) (norm_nonneg _) (by positivity)
  exact mul_le_mul_of_nonneg_left hC (by positivity)

/-- Past the fourth power the remainder is at most 1/100. -/
theorem rem_small {p : Nat} (hp : 4 ≤ p) : ((p + 2 : Nat) : ℝ) / (((p + 1).factorial : ℝ) * (p + 1 : Nat)) ≤ 1/100 := by
  have h1 : 120 ≤ (p + 1).factorial := Nat.factorial_le (m := 5) (n := p + 1) (by omega)
  have h1 : (120 : ℝ) ≤ ((p + 1).factorial : ℝ) := by exact_mod_cast h1
  have h2 : (4 : ℝ) ≤ p := by exact_mod_cast hp
  rw [div_le_iff₀ (by positivity)]
  push_cast
  have : (120 : ℝ) * (p + 1) ≤ ((p + 1).factorial : ℝ) * (p + 1) := mul_le_mul_of_nonneg_right h1 (by linarith)
  linarith

/-- Near the exponential of a small element, squaring and adding a little keeps units. -/
theorem isUnit_sq_add {S y J : 𝔸} (hS : ‖S‖ ≤ 1) (hy : ‖exp S - y‖ ≤ 1/100) (hy' : ‖y‖ ≤ Real.exp 1) (hJ : ‖J‖ ≤ 1/20) : IsUnit (y ^ 2 + J) := by
  let : NormedAlgebra ℚ 𝔸 := .restrictScalars ℚ ℝ 𝔸
  have hc : Commute S (-S) := (Commute.refl S).neg_right
  have e1 : exp S * exp (-S) = 1 := by
    rw [← exp_add_of_commute hc, add_neg_cancel, exp_zero]
  have e2 : exp (-S) * exp S = 1 := by
    rw [← exp_add_of_commute hc.symm, neg_add_cancel, exp_zero]
  have hE : ‖exp S‖ ≤ Real.exp 1 := (norm_exp_le' S).trans (Real.exp_le_exp.2 hS)
  have hE' : ‖exp (-S)‖ ≤ Real.exp 1 := (norm_exp_le' (-S)).trans (Real.exp_le_exp.2 (by rwa [norm_neg]))
  have hu : exp S ^ 2 * exp (-S) ^ 2 = 1 := by
    rw [pow_two, pow_two, mul_assoc, ← mul_assoc (exp S) (exp (-S)), e1, one_mul, e1]
  have hv : exp (-S) ^ 2 * exp S ^ 2 = 1 := by
    rw [pow_two, pow_two, mul_assoc, ← mul_assoc (exp (-S)) (exp S), e2, one_mul, e2]
  have hX : ‖exp (-S) ^ 2 * (exp S ^ 2 - y ^ 2 - J)‖ < 1 := by
    refine (norm_mul_le _ _).trans_lt ?_
    have h1 : ‖exp (-S) ^ 2‖ ≤ Real.exp 1 ^ 2 := (norm_pow_le _ _).trans (pow_le_pow_left₀ (norm_nonneg _) hE' 2)
    have h2 : ‖exp S ^ 2 - y ^ 2‖ ≤ 2 * Real.exp 1 * (1/100) := by
      have := norm_pow_sub_pow_le hE hy' 2
      refine this.trans ?_
      simp only [Nat.cast_ofNat, Nat.add_one_sub_one, pow_one]
      gcongr
    have h3 : ‖exp S ^ 2 - y ^ 2 - J‖ ≤ 2 * Real.exp 1 * (1/100) + 1/20 := (norm_sub_le _ _).trans (add_le_add h2 hJ)
    have he := Real.exp_one_lt_d9
    have he0 := Real.exp_pos 1
    calc ‖exp (-S) ^ 2‖ * ‖exp S ^ 2 - y ^ 2 - J‖ ≤ Real.exp 1 ^ 2 * (2 * Real.exp 1 * (1/100) + 1/20) := by gcongr
      _ ≤ (2.72 : ℝ) ^ 2 * (2 * 2.72 * (1/100) + 1/20) := by
        have : Real.exp 1 ≤ 2.72 := by linarith
        gcongr
      _ < 1 := by norm_num
  have key : y ^ 2 + J = exp S ^ 2 * (1 - exp (-S) ^ 2 * (exp S ^ 2 - y ^ 2 - J)) := by
    rw [mul_sub, mul_one, ← mul_assoc, hu, one_mul]; abel
  rw [key]
  exact IsUnit.mul ⟨⟨_, _, hu, hv⟩, rfl⟩ (isUnit_one_sub_of_norm_lt_one hX)

omit [NormOneClass 𝔸] in
theorem partialExp_tendsto (x : 𝔸) : Filter.Tendsto (fun m => partialExp x m) Filter.atTop (nhds (exp x)) :=
  (exp_series_hasSum_exp' (𝕂 := ℝ) x).tendsto_sum_nat
end

end Malg
