import Verif.Props.StableEig
import Verif.Props.Coords
import Verif.Props.C2d
import Verif.Props.IeeeC2d
import Mathlib.FieldTheory.IsAlgClosed.Spectrum
import Mathlib.Analysis.Complex.Exponential
import Mathlib.Analysis.Complex.Polynomial.Basic
/-!
# Property C152: discretising a stable system
-/
namespace Malg
open Ops Lin Control Ieee
open scoped Matrix

theorem alternating_sum {a : Nat → ℝ} (h0 : ∀ j, 0 ≤ a j) (h1 : ∀ j, a (j + 1) ≤ a j) (k : Nat) :
    ∀ j, 0 ≤ ∑ i ∈ Finset.range k, (-1) ^ i * a (j + i) ∧ ∑ i ∈ Finset.range k, (-1) ^ i * a (j + i) ≤ a j := by
  induction k with
  | zero => intro j; simpa using h0 j
  | succ k ih =>
    intro j
    have e : ∑ i ∈ Finset.range (k + 1), (-1) ^ i * a (j + i) = a j - ∑ i ∈ Finset.range k, (-1) ^ i * a (j + 1 + i) := by
      rw [Finset.sum_range_succ', sub_eq_add_neg, ← Finset.sum_neg_distrib, add_comm]
      congr 1
      · simp
      · refine Finset.sum_congr rfl fun i _ => ?_
        rw [pow_succ, show j + (i + 1) = j + 1 + i by omega]; ring
    obtain ⟨h2, h3⟩ := ih (j + 1)
    rw [e]
    exact ⟨by linarith [h1 j], by linarith⟩

/-- The Taylor sum of `exp (-y)`. -/
theorem taylor_neg_lt {y : ℝ} (h0 : 0 < y) (h1 : y ≤ 1) {p : Nat} (hp : 1 ≤ p) : |∑ m ∈ Finset.range (p + 1), (-y) ^ m / (m.factorial : ℝ)| < 1 := by
  have ha : ∀ j, 0 ≤ y ^ j / (j.factorial : ℝ) := fun j => by positivity
  have hb : ∀ j, y ^ (j + 1) / ((j + 1).factorial : ℝ) ≤ y ^ j / (j.factorial : ℝ) := fun j => by
    have e1 : y ^ (j + 1) ≤ y ^ j := pow_le_pow_of_le_one h0.le h1 (Nat.le_succ j)
    have e2 : (j.factorial : ℝ) ≤ (j + 1).factorial := by exact_mod_cast Nat.factorial_le (Nat.le_succ j)
    gcongr
  obtain ⟨q, rfl⟩ : ∃ q, p = q + 1 := ⟨p - 1, by omega⟩
  have e : ∑ m ∈ Finset.range (q + 1 + 1), (-y) ^ m / (m.factorial : ℝ) = 1 - y + ∑ i ∈ Finset.range q, (-1) ^ i * (y ^ (2 + i) / ((2 + i).factorial : ℝ)) := by
    rw [Finset.sum_range_succ', Finset.sum_range_succ']
    simp only [pow_zero, Nat.factorial_zero, Nat.cast_one, zero_add, pow_one, Nat.factorial_one, div_one]
    have : ∑ k ∈ Finset.range q, (-y) ^ (k + 1 + 1) / ((k + 1 + 1).factorial : ℝ) = ∑ i ∈ Finset.range q, (-1) ^ i * (y ^ (2 + i) / ((2 + i).factorial : ℝ)) :=
      Finset.sum_congr rfl fun i _ => by rw [show 2 + i = i + 1 + 1 by omega, neg_pow, pow_succ, pow_succ]; ring
    rw [this]; ring
  obtain ⟨h2, h3⟩ := alternating_sum (a := fun j => y ^ j / (j.factorial : ℝ)) ha hb q 2
  have h4 : y ^ 2 / ((2 : Nat).factorial : ℝ) < y := by
    rw [show ((2 : Nat).factorial : ℝ) = 2 by norm_num]; nlinarith
  rw [e, abs_lt]
  exact ⟨by linarith, by linarith⟩

/-- The factor by which the Taylor sums of order `p` or more are off: 1/100 for `p = 4`, less than 1/3000000 for `p = 9`. -/
noncomputable def tailFactor (p : Nat) : ℝ := ((p + 2 : Nat) : ℝ) / (((p + 1).factorial : ℝ) * (p + 1 : Nat))

/-- The Taylor sum of the exponential of a number in the left half plane that is not too close to the imaginary axis. -/
theorem taylor_left_lt {z : ℂ} (h1 : ‖z‖ ≤ 1) {p q : Nat} (hpq : p ≤ q) (h : 2 * tailFactor p * ‖z‖ < -z.re) :
    ‖∑ m ∈ Finset.range (q + 1), z ^ m / (m.factorial : ℂ)‖ < 1 := by
  have h2 := Complex.exp_bound h1 (Nat.succ_pos q)
  have h3 : ‖z‖ ^ (q + 1) * (((q + 1).succ : ℝ) * (((q + 1).factorial : ℝ) * ((q + 1 : Nat) : ℝ))⁻¹) ≤ ‖z‖ * tailFactor p := by
    have e1 := tail_factor_anti hpq
    rw [← div_eq_mul_inv]
    refine mul_le_mul ?_ e1 (by positivity) (norm_nonneg _)
    rw [pow_succ]
    exact mul_le_of_le_one_left (norm_nonneg _) (pow_le_one₀ (norm_nonneg _) h1)
  have hr1 : -z.re ≤ 1 := (neg_le_abs _).trans ((Complex.abs_re_le_norm z).trans h1)
  have hr0 : 0 < -z.re := lt_of_le_of_lt (by unfold tailFactor; positivity) h
  have h4 : ‖Complex.exp z‖ ≤ 1 - -z.re / 2 := by
    rw [Complex.norm_exp]
    have e2 := Real.add_one_le_exp (-z.re)
    have e3 : Real.exp z.re * Real.exp (-z.re) = 1 := by rw [← Real.exp_add, add_neg_cancel, Real.exp_zero]
    have e4 := Real.exp_pos z.re
    nlinarith
  have h5 : ‖∑ m ∈ Finset.range (q + 1), z ^ m / (m.factorial : ℂ)‖ ≤ ‖Complex.exp z‖ + ‖Complex.exp z - ∑ m ∈ Finset.range (q + 1), z ^ m / (m.factorial : ℂ)‖ := by
    have := norm_sub_le (Complex.exp z) (Complex.exp z - ∑ m ∈ Finset.range (q + 1), z ^ m / (m.factorial : ℂ))
    rwa [sub_sub_cancel] at this
  have h6 := h2.trans h3
  have h7 : ‖z‖ * tailFactor p < -z.re / 2 := by linarith
  exact lt_of_le_of_lt (h5.trans (add_le_add h4 h6)) (by linarith)

section
open Polynomial

/-- Eigenvalues as elements of the spectrum. -/
theorem mem_spectrum_iff_eig {n : Nat} {M : Matrix (Fin n) (Fin n) ℂ} {μ : ℂ} : μ ∈ spectrum ℂ M ↔ ∃ z : Fin n → ℂ, z ≠ 0 ∧ M *ᵥ z = μ • z := by
  have e : ∀ z : Fin n → ℂ, (algebraMap ℂ (Matrix (Fin n) (Fin n) ℂ) μ) *ᵥ z = μ • z := fun z => by
    funext i
    rw [Matrix.algebraMap_eq_diagonal, Matrix.mulVec_diagonal]
    rfl
  rw [spectrum.mem_iff, Matrix.isUnit_iff_isUnit_det, isUnit_iff_ne_zero, not_not, ← Matrix.exists_mulVec_eq_zero_iff]
  refine exists_congr fun z => and_congr_right fun _ => ?_
  rw [Matrix.sub_mulVec, sub_eq_zero, e, eq_comm]

/-- The eigenvalues of what `expm` computes are those of its Taylor sum of the eigenvalues. -/
theorem taylor_eig {n : Nat} {M : Matrix (Fin n) (Fin n) ℝ} {s : ℝ} {p N : Nat} {ν : ℂ} {z : Fin n → ℂ} (hz : z ≠ 0)
    (h : ((taylor (s • M) p) ^ N).map Complex.ofReal *ᵥ z = ν • z) :
    ∃ (μ : ℂ) (w : Fin n → ℂ), w ≠ 0 ∧ M.map Complex.ofReal *ᵥ w = μ • w ∧ ν = (∑ m ∈ Finset.range (p + 1), ((s : ℂ) * μ) ^ m / (m.factorial : ℂ)) ^ N := by
  have hn : 0 < n := by
    rcases Nat.eq_zero_or_pos n with rfl | hn
    · exact absurd (Subsingleton.elim z 0) hz
    · exact hn
  have : Nonempty (Fin n) := ⟨⟨0, hn⟩⟩
  let Q : ℂ[X] := (∑ m ∈ Finset.range (p + 1), C (((m.factorial : ℂ))⁻¹ * (s : ℂ) ^ m) * X ^ m) ^ N
  have hQ : aeval (M.map Complex.ofReal) Q = ((taylor (s • M) p) ^ N).map Complex.ofReal := by
    have e0 : ∀ X : Matrix (Fin n) (Fin n) ℝ, X.map Complex.ofReal = Complex.ofRealHom.mapMatrix X := fun X => rfl
    rw [e0, e0, map_pow, map_pow]
    congr 1
    unfold taylor
    rw [map_sum, map_sum]
    refine Finset.sum_congr rfl fun m _ => ?_
    rw [map_mul, aeval_C, map_pow, aeval_X, smul_pow, ← map_pow, smul_smul, Algebra.algebraMap_eq_smul_one, smul_mul_assoc, one_mul]
    ext i j
    simp [Matrix.map_apply]
  have hev : ∀ μ : ℂ, Q.eval μ = (∑ m ∈ Finset.range (p + 1), ((s : ℂ) * μ) ^ m / (m.factorial : ℂ)) ^ N := fun μ => by
    show eval μ ((∑ m ∈ Finset.range (p + 1), C (((m.factorial : ℂ))⁻¹ * (s : ℂ) ^ m) * X ^ m) ^ N) = _
    rw [eval_pow, eval_finsetSum]
    congr 1
    refine Finset.sum_congr rfl fun m _ => ?_
    rw [eval_mul, eval_C, eval_pow, eval_X, mul_pow, div_eq_mul_inv]; ring
  have hν : ν ∈ spectrum ℂ (aeval (M.map Complex.ofReal) Q) := by rw [hQ]; exact mem_spectrum_iff_eig.2 ⟨z, hz, h⟩
  rw [spectrum.map_polynomial_aeval_of_nonempty _ _ (spectrum.nonempty_of_isAlgClosed_of_finiteDimensional ℂ _)] at hν
  obtain ⟨μ, hμ, rfl⟩ := hν
  obtain ⟨w, hw, h2⟩ := mem_spectrum_iff_eig.1 hμ
  exact ⟨μ, w, hw, h2, hev μ⟩
end

/-- An eigenvalue is at most the largest absolute row sum. -/
theorem eig_le_rows {n : Nat} {M : Matrix (Fin n) (Fin n) ℝ} {x : ℝ} (hx : ∀ i, ∑ j, |M i j| ≤ x) {μ : ℂ} {z : Fin n → ℂ} (hz : z ≠ 0)
    (h : M.map Complex.ofReal *ᵥ z = μ • z) : ‖μ‖ ≤ x := by
  have hn : Nonempty (Fin n) := by
    by_contra hc
    exact hz (funext fun i => absurd ⟨i⟩ hc)
  obtain ⟨i, hi⟩ := Finite.exists_max fun i => ‖z i‖
  have hpos : 0 < ‖z i‖ := by
    by_contra hc
    refine hz (funext fun j => norm_eq_zero.1 (le_antisymm ((hi j).trans (not_lt.1 hc)) (norm_nonneg _)))
  have e := congrFun h i
  have e1 : ‖μ‖ * ‖z i‖ = ‖∑ j, (M i j : ℂ) * z j‖ := by
    rw [← norm_mul]; exact congrArg _ e.symm
  have e2 : ‖∑ j, (M i j : ℂ) * z j‖ ≤ (∑ j, |M i j|) * ‖z i‖ := by
    rw [Finset.sum_mul]
    refine (norm_sum_le _ _).trans (Finset.sum_le_sum fun j _ => ?_)
    rw [norm_mul, Complex.norm_real, Real.norm_eq_abs]
    exact mul_le_mul_of_nonneg_left (hi j) (abs_nonneg _)
  refine le_of_mul_le_mul_right (e1.le.trans (e2.trans ?_)) hpos
  exact mul_le_mul_of_nonneg_right (hx i) hpos.le

/-- The eigenvalue of a matrix with one entry. -/
theorem eig_one {M : Matrix (Fin 1) (Fin 1) ℝ} {μ : ℂ} {z : Fin 1 → ℂ} (hz : z ≠ 0) (h : M.map Complex.ofReal *ᵥ z = μ • z) : μ = (M 0 0 : ℂ) := by
  have h0 : z 0 ≠ 0 := fun h0 => hz (funext fun i => by rw [Subsingleton.elim i 0]; exact h0)
  have e := congrFun h 0
  simp only [Matrix.mulVec, dotProduct, Finset.univ_unique, Finset.sum_singleton, Fin.default_eq_zero, Matrix.map_apply, Pi.smul_apply, smul_eq_mul] at e
  exact (mul_right_cancel₀ h0 e).symm

section
variable {n m p : Nat} {A : Matrix (Fin n) (Fin n) ℝ}

/-- What is required of the eigenvalues of the continuous system: those of a system with one state are in the left half plane, those of a larger system are there and are
not too close to the imaginary axis, compared to their magnitude. -/
def WellDamped (A : Matrix (Fin n) (Fin n) ℝ) : Prop :=
  ∀ (μ : ℂ) (z : Fin n → ℂ), z ≠ 0 → A.map Complex.ofReal *ᵥ z = μ • z → (n = 1 ∧ μ.re < 0) ∨ 2 * tailFactor (n * n) * ‖μ‖ < -μ.re

theorem WellDamped.smul (h : WellDamped A) {dt : ℝ} (hdt : 0 < dt) : WellDamped (dt • A) := by
  intro μ z hz e
  have hc : (dt : ℂ) ≠ 0 := by exact_mod_cast hdt.ne'
  have e' : A.map Complex.ofReal *ᵥ z = ((dt : ℂ)⁻¹ * μ) • z := by
    have : (dt • A).map Complex.ofReal = (dt : ℂ) • A.map Complex.ofReal := by ext i j; simp
    rw [this, Matrix.smul_mulVec] at e
    rw [mul_smul, ← e, inv_smul_smul₀ hc]
  have hre : (((dt : ℂ)⁻¹ * μ)).re = dt⁻¹ * μ.re := by rw [← Complex.ofReal_inv, Complex.re_ofReal_mul]
  have hno : ‖(dt : ℂ)⁻¹ * μ‖ = dt⁻¹ * ‖μ‖ := by rw [norm_mul, norm_inv, Complex.norm_real, Real.norm_eq_abs, abs_of_pos hdt]
  have hi : 0 < dt⁻¹ := inv_pos.2 hdt
  rcases h _ z hz e' with ⟨h1, h2⟩ | h2
  · rw [hre] at h2
    exact .inl ⟨h1, by by_contra hc; exact absurd h2 (not_lt.2 (mul_nonneg hi.le (not_lt.1 hc)))⟩
  · rw [hre, hno] at h2
    refine .inr (lt_of_mul_lt_mul_left (a := dt⁻¹) ?_ hi.le)
    linarith

/-- C152 for `expm`: whenever it returns for a well damped matrix, all eigenvalues of the result are inside of the unit circle, whatever the accuracy that is asked for.
Missing: matrices with eigenvalues close to the imaginary axis; see `C152_stable_false`. -/
theorem C152_expm_partial {isz : ℝ → Bool} (hz : ∀ x, isz x = true ↔ x = 0) {sqrt : ℝ → ℝ} {Z : Mat ℝ} (hn : 0 < n) (hZ : Z.toMB.Is A) (hwf : Z.WF) (hA : WellDamped A)
    {accuracy : ℝ} {fuel : Nat} {R : Mat ℝ} (hr : expm isz (|·|) sqrt (1/2) Z.toMB accuracy fuel = .ok R) :
    ∃ E : Matrix (Fin n) (Fin n) ℝ, R.WF ∧ R.toMB.Is E ∧ ∀ (ν : ℂ) (z : Fin n → ℂ), z ≠ 0 → E.map Complex.ofReal *ᵥ z = ν • z → ‖ν‖ < 1 := by
  obtain ⟨k, t, hlog, ht, hwR, hR⟩ := C55_taylor hz hZ hr
  refine ⟨_, hwR, hR, fun ν z hz0 hν => ?_⟩
  obtain ⟨μ, w, hw, e1, rfl⟩ := taylor_eig hz0 hν
  obtain ⟨e, hrep, rfl⟩ := hZ
  obtain ⟨x, ⟨hxi, hx⟩, k', N, h1, h2, h3⟩ := C45_matrix_partial (fun x => abs_nonneg x) ⟨hwf, hrep⟩ hn hn
  have hkk : k = k' := by
    have a1 := h1 (max N fuel) (le_max_left _ _)
    have a2 := log2Ceil_mono hlog (le_max_right N fuel)
    rw [a1] at a2; injection a2 with a2; exact (Prod.mk.inj a2).1.symm
  subst hkk
  have hle : ‖μ‖ ≤ x := eig_le_rows (fun i => hx i i.2) hw e1
  have hs : (0 : ℝ) < (1/2) ^ k := by positivity
  have hno : ‖(((1/2 : ℝ) ^ k : ℝ) : ℂ) * μ‖ = (1/2) ^ k * ‖μ‖ := by rw [norm_mul, Complex.norm_real, Real.norm_eq_abs, abs_of_pos hs]
  have hno1 : ‖(((1/2 : ℝ) ^ k : ℝ) : ℂ) * μ‖ ≤ 1 := by
    rw [hno]; exact (mul_le_mul_of_nonneg_left hle hs.le).trans (by rw [mul_comm]; exact h2)
  rw [norm_pow]
  refine pow_lt_one₀ (norm_nonneg _) ?_ (by positivity)
  rcases hA μ w hw e1 with ⟨rfl, hneg⟩ | hd
  · have hμ := eig_one hw e1
    generalize toM 1 1 e 0 0 = r at hμ
    subst hμ
    rw [Complex.ofReal_re] at hneg
    have h4 : ((((1/2 : ℝ) ^ k : ℝ) : ℂ) * (r : ℂ)) = ((-(-((1/2) ^ k * r)) : ℝ) : ℂ) := by rw [neg_neg]; push_cast; ring
    rw [Complex.norm_mul, Complex.norm_real, Complex.norm_real, ← norm_mul, Real.norm_eq_abs] at hno1
    have h5 : (1/2 : ℝ) ^ k * r < 0 := mul_neg_of_pos_of_neg hs hneg
    have h6 := taylor_neg_lt (y := -((1/2) ^ k * r)) (by linarith) ((neg_le_abs _).trans hno1) (p := t * (1 * 1)) (by omega)
    rw [h4]
    have h7 : ∑ m ∈ Finset.range (t * (1 * 1) + 1), (((-(-((1/2) ^ k * r)) : ℝ) : ℂ)) ^ m / (m.factorial : ℂ) =
        ((∑ m ∈ Finset.range (t * (1 * 1) + 1), (-(-((1/2) ^ k * r))) ^ m / (m.factorial : ℝ) : ℝ) : ℂ) := by
      rw [Complex.ofReal_sum]
      exact Finset.sum_congr rfl fun m _ => by rw [Complex.ofReal_div, Complex.ofReal_pow, Complex.ofReal_natCast]
    rw [h7, Complex.norm_real, Real.norm_eq_abs]
    exact h6
  · refine taylor_left_lt hno1 (p := n * n) (Nat.le_mul_of_pos_left _ ht) ?_
    rw [hno, Complex.re_ofReal_mul]
    nlinarith

variable {sys : StateSpace ℝ} {B : Matrix (Fin n) (Fin m) ℝ} {C : Matrix (Fin p) (Fin n) ℝ} {D : Matrix (Fin p) (Fin m) ℝ}

theorem WellDamped.det_ne (h : WellDamped A) : A.det ≠ 0 := by
  intro hd
  have hd' : (A.map Complex.ofReal).det = 0 := by
    have := (Complex.ofRealHom.map_det A).symm
    rw [hd, map_zero] at this
    exact this
  obtain ⟨z, hz, h0⟩ := Matrix.exists_mulVec_eq_zero_iff.2 hd'
  rcases h 0 z hz (by rw [h0, zero_smul]) with ⟨-, h1⟩ | h1
  · simp at h1
  · simp at h1

/-- C152 for `c2d`: whenever it returns for a well damped system and a positive sample time, the discrete system is stable: all eigenvalues of its `A` are inside of the unit circle.
Missing: as in `C64_equations_partial`, and systems with eigenvalues close to the imaginary axis. -/
theorem C152_c2d_partial {tol : ℝ} (ht : tol < 1) {sqrt : ℝ → ℝ} {accuracy : ℝ} {fuel : Nat} (h : sys.Is A B C D) (hn : 0 < n) (hm : 0 < m) (hp : 0 < p) (hA : WellDamped A) {dt : ℝ} (hdt : 0 < dt)
    (hi : n ≤ 5 ∨ ∀ i j, A⁻¹ i j ≠ 0) {d : DiscreteStateSpace ℝ}
    (hd : c2d (isZ AbsoluteValue.abs tol) (fun X => expm (isZ AbsoluteValue.abs tol) (|·|) sqrt (1/2) X accuracy fuel) sys dt = .ok d) :
    ∃ (Ad : Matrix (Fin n) (Fin n) ℝ) (Bd : Matrix (Fin n) (Fin m) ℝ), d.toStateSpace.Is Ad Bd C D ∧ d.sampleTime = dt ∧ A * Bd = (Ad - 1) * B ∧
      ∀ (ν : ℂ) (z : Fin n → ℂ), z ≠ 0 → Ad.map Complex.ofReal *ᵥ z = ν • z → ‖ν‖ < 1 := by
  obtain ⟨X, eX, wX, iX⟩ := (C33_field h.a dt).1
  have hd' := hd
  unfold c2d at hd'
  rw [eX, Res.ok_bind] at hd'
  obtain ⟨E, eE, -⟩ := Res.bind_eq_ok.1 hd'
  obtain ⟨Ad, h2, h3, h4⟩ := C152_expm_partial (isZ_iff AbsoluteValue.abs ht) hn iX wX (hA.smul hdt) eE
  obtain ⟨d', Bd, e1, e2, e3, -, e5⟩ := C64_equations_partial AbsoluteValue.abs ht (dt := dt)
    (ex := fun X => expm (isZ AbsoluteValue.abs tol) (|·|) sqrt (1/2) X accuracy fuel) h hn hm hp (E := _)
    (by rw [eX, Res.ok_bind]; exact ⟨E, eE, h2, h3⟩) hA.det_ne hi
  rw [hd] at e1
  injection e1 with e1
  subst e1
  exact ⟨Ad, Bd, e2, e3, e5, h4⟩

/-- C152 for the whole way from the continuous system to its simulation: there are `c` and `ρ < 1` such that the states of every simulation of the discrete system are at most
`c (ρ^i M + β / (1 - ρ))`. Missing: as in `C152_c2d_partial`. -/
theorem C152_simulate_partial {tol : ℝ} (ht : tol < 1) {sqrt : ℝ → ℝ} {accuracy : ℝ} {fuel : Nat} (h : sys.Is A B C D) (hn : 0 < n) (hm : 0 < m) (hp : 0 < p) (hn' : n < allocMax) (hp' : p < allocMax)
    (hA : WellDamped A) {dt : ℝ} (hdt : 0 < dt) (hi : n ≤ 5 ∨ ∀ i j, A⁻¹ i j ≠ 0) {d : DiscreteStateSpace ℝ}
    (hd : c2d (isZ AbsoluteValue.abs tol) (fun X => expm (isZ AbsoluteValue.abs tol) (|·|) sqrt (1/2) X accuracy fuel) sys dt = .ok d) :
    ∃ (Bd : Matrix (Fin n) (Fin m) ℝ) (c ρ : ℝ), 0 ≤ ρ ∧ ρ < 1 ∧ d.B.toMB.Is Bd ∧ ∀ (toSize : ℝ → Res Nat) (us : List (Fin m → ℝ)) (x0 : Fin n → ℝ) (st : ℝ) (k : Nat)
      (_ : toSize (st / dt) = .ok k) (M β : ℝ) (_ : ∀ i, |x0 i| ≤ M) (_ : 0 ≤ β) (_ : ∀ w ∈ us, ∀ i, |(Bd *ᵥ w) i| ≤ β),
      ∃ t y, ∃ x : Nat → Fin n → ℝ, simulate toSize d (us.map List.ofFn) st (List.ofFn x0) = .ok (t, vtab (min us.length k + 1) fun i => List.ofFn (x i), y) ∧
        ∀ i, i ≤ min us.length k → ∀ l, |x i l| ≤ c * (ρ ^ i * M + β / (1 - ρ)) := by
  obtain ⟨Ad, Bd, h1, h2, -, h4⟩ := C152_c2d_partial ht h hn hm hp hA hdt hi hd
  obtain ⟨c, ρ, h5, h6, h7⟩ := C151_eigenvalues (m := m) (p := p) h4
  refine ⟨Bd, c, ρ, h5, h6, h1.b, fun toSize us x0 st k hk M β hM hβ hB => h7 toSize d Bd C D h1 hn' hp' us x0 st (st / dt) k ?_ hk M β hM hβ hB⟩
  rw [h2]
  exact cdiv_ok st hdt.ne'
end

theorem osc_eig {a b : ℝ} (hb : b ≠ 0) {μ : ℂ} {z : Fin 2 → ℂ} (hz : z ≠ 0) (h : (!![a, b; -b, a] : Matrix (Fin 2) (Fin 2) ℝ).map Complex.ofReal *ᵥ z = μ • z) : μ.re = a := by
  have e0 : (a : ℂ) * z 0 + b * z 1 = μ * z 0 := by simpa [Matrix.mulVec, dotProduct, Fin.sum_univ_two] using congrFun h 0
  have e1 : -(b : ℂ) * z 0 + a * z 1 = μ * z 1 := by simpa [Matrix.mulVec, dotProduct, Fin.sum_univ_two] using congrFun h 1
  have hw : (μ - a) ^ 2 = -(b : ℂ) ^ 2 := by
    by_contra hc
    have hc' : (μ - a) ^ 2 + (b : ℂ) ^ 2 ≠ 0 := fun h0 => hc (by linear_combination h0)
    refine hz (funext fun i => ?_)
    fin_cases i
    · exact (mul_eq_zero.1 (show ((μ - a) ^ 2 + (b : ℂ) ^ 2) * z 0 = 0 by linear_combination (-(μ - a)) * e0 - b * e1)).resolve_left hc'
    · exact (mul_eq_zero.1 (show ((μ - a) ^ 2 + (b : ℂ) ^ 2) * z 1 = 0 by linear_combination (-(μ - a)) * e1 + b * e0)).resolve_left hc'
  have hre := congrArg Complex.re hw
  have him := congrArg Complex.im hw
  simp [pow_two] at hre him
  have hb2 : 0 < b * b := mul_self_pos.2 hb
  have hi : μ.im ≠ 0 := fun h0 => by rw [h0] at hre; nlinarith [mul_self_nonneg (μ.re - a)]
  have h3 : (μ.re - a) * μ.im = 0 := by linarith
  linarith [(mul_eq_zero.1 h3).resolve_right hi]

theorem osc_grows {a b : ℝ} (h : 1 < a ^ 2 + b ^ 2) : ∃ (ν : ℂ) (z : Fin 2 → ℂ), z ≠ 0 ∧ (!![a, b; -b, a] : Matrix (Fin 2) (Fin 2) ℝ).map Complex.ofReal *ᵥ z = ν • z ∧ 1 < ‖ν‖ := by
  refine ⟨⟨a, b⟩, ![1, Complex.I], fun h0 => ?_, ?_, ?_⟩
  · simpa using congrFun h0 0
  · ext i
    fin_cases i
    · apply Complex.ext <;> simp [Matrix.mulVec, dotProduct, Fin.sum_univ_two]
    · apply Complex.ext <;> simp [Matrix.mulVec, dotProduct, Fin.sum_univ_two]
  · have e := Complex.sq_norm ⟨a, b⟩
    rw [Complex.normSq_mk] at e
    by_contra hc
    have := pow_le_one₀ (n := 2) (norm_nonneg _) (not_lt.1 hc)
    linarith

/-- With the accuracy of the library the discretisation returns and the result is stable. Missing: systems with eigenvalues close to the imaginary axis. -/
theorem C152_library_partial {n m p : Nat} {A : Matrix (Fin n) (Fin n) ℝ} {sys : StateSpace ℝ} {B : Matrix (Fin n) (Fin m) ℝ} {C : Matrix (Fin p) (Fin n) ℝ} {D : Matrix (Fin p) (Fin m) ℝ}
    {tol : ℝ} (ht : tol < 1) (h : sys.Is A B C D) (hn : 0 < n) (hm : 0 < m) (hp : 0 < p) (hA : WellDamped A) {dt : ℝ} (hdt : 0 < dt)
    (hi : n ≤ 5 ∨ n ≤ 5000 ∧ ∀ i j, A⁻¹ i j ≠ 0) :
    ∃ N, ∀ fuel, N ≤ fuel → ∃ d, c2d (isZ AbsoluteValue.abs tol) (fun X => expm (isZ AbsoluteValue.abs tol) (|·|) Real.sqrt (1/2) X (1/100000) fuel) sys dt = .ok d ∧
      ∃ (Ad : Matrix (Fin n) (Fin n) ℝ) (Bd : Matrix (Fin n) (Fin m) ℝ), d.toStateSpace.Is Ad Bd C D ∧ d.sampleTime = dt ∧ A * Bd = (Ad - 1) * B ∧
        ∀ (ν : ℂ) (z : Fin n → ℂ), z ≠ 0 → Ad.map Complex.ofReal *ᵥ z = ν • z → ‖ν‖ < 1 := by
  obtain ⟨X, eX, wX, iX⟩ := (C33_field h.a dt).1
  obtain ⟨e, rX, he⟩ := id iX
  obtain ⟨N, R, hN⟩ := C76_terminates_partial AbsoluteValue.abs ht hn ⟨wX, rX⟩ (accuracy := 1/100000) (by norm_num) (by
    have : (n : ℝ) ≤ 5000 := by exact_mod_cast (show n ≤ 5000 by omega)
    linarith)
  refine ⟨N, fun fuel hf => ?_⟩
  have hR := hN fuel hf
  obtain ⟨E, h2, h3, -⟩ := C152_expm_partial (isZ_iff AbsoluteValue.abs ht) hn iX wX (hA.smul hdt) hR
  obtain ⟨d, Bd, e1, -⟩ := C64_equations_partial AbsoluteValue.abs ht (dt := dt)
    (ex := fun X => expm (isZ AbsoluteValue.abs tol) (|·|) Real.sqrt (1/2) X (1/100000) fuel) h hn hm hp (E := E)
    (by rw [eX, Res.ok_bind]; exact ⟨R, hR, h2, h3⟩) hA.det_ne (hi.imp_right And.right)
  exact ⟨d, e1, C152_c2d_partial ht h hn hm hp hA hdt (hi.imp_right And.right) e1⟩

/-- A damped oscillation with the eigenvalues `-1 ± i`, sampled once per second. -/
example {sys : StateSpace ℝ} {B : Matrix (Fin 2) (Fin 1) ℝ} {C : Matrix (Fin 1) (Fin 2) ℝ} {D : Matrix (Fin 1) (Fin 1) ℝ} (h : sys.Is !![-1, 1; -1, -1] B C D) :
    ∃ N, ∀ fuel, N ≤ fuel → ∃ d, c2d (isZ AbsoluteValue.abs (1/1000)) (fun X => expm (isZ AbsoluteValue.abs (1/1000)) (|·|) Real.sqrt (1/2) X (1/100000) fuel) sys 1 = .ok d ∧
      ∃ (Ad : Matrix (Fin 2) (Fin 2) ℝ) (Bd : Matrix (Fin 2) (Fin 1) ℝ), d.toStateSpace.Is Ad Bd C D ∧ ∀ (ν : ℂ) (z : Fin 2 → ℂ), z ≠ 0 → Ad.map Complex.ofReal *ᵥ z = ν • z → ‖ν‖ < 1 := by
  have hA : WellDamped (!![-1, 1; -1, -1] : Matrix (Fin 2) (Fin 2) ℝ) := by
    intro μ z hz e
    right
    have h1 := osc_eig one_ne_zero hz e
    have h2 : ‖μ‖ ≤ 2 := eig_le_rows (fun i => by fin_cases i <;> norm_num [Fin.sum_univ_two]) hz e
    have h3 : tailFactor (2 * 2) = 1 / 100 := by unfold tailFactor; norm_num [Nat.factorial]
    rw [h1, h3]
    linarith
  obtain ⟨N, hN⟩ := C152_library_partial (tol := 1/1000) (by norm_num) h (by norm_num) (by norm_num) (by norm_num) hA one_pos (.inl (by norm_num))
  refine ⟨N, fun fuel hf => ?_⟩
  obtain ⟨d, h1, Ad, Bd, h2, -, -, h5⟩ := hN fuel hf
  exact ⟨d, h1, Ad, Bd, h2, h5⟩

/-- An oscillator with almost no damping. -/
def litS : StateSpace IDouble :=
  ⟨⟨2, 2, [dbl (-1 / 2 ^ 70), dbl (3 / 1024), dbl (-3 / 1024), dbl (-1 / 2 ^ 70)]⟩, ⟨2, 1, [0, 1]⟩, ⟨1, 2, [1, 0]⟩, ⟨1, 1, [0]⟩⟩

set_option maxRecDepth 100000 in
/-- C152 in `double` is false for systems close to the imaginary axis: the oscillator has the eigenvalues `-2^-70 ± 3i/1024`, so that it is stable, but the discrete system that `c2d` returns has one outside
of the unit circle, so that its oscillation grows. -/
theorem C152_c2d_false : ∃ a b : IDouble,
    (do let d ← c2d dIsZero ioscExp litS 1
        return d.A) = .ok ⟨2, 2, [a, b, -b, a]⟩ ∧ a.Finite ∧ b.Finite ∧
    (∀ (μ : ℂ) (z : Fin 2 → ℂ), z ≠ 0 → (!![-1 / 2 ^ 70, 3 / 1024; -(3 / 1024), -1 / 2 ^ 70] : Matrix (Fin 2) (Fin 2) ℝ).map Complex.ofReal *ᵥ z = μ • z → μ.re < 0) ∧
    ∃ (ν : ℂ) (z : Fin 2 → ℂ), z ≠ 0 ∧ (!![rval a, rval b; -rval b, rval a] : Matrix (Fin 2) (Fin 2) ℝ).map Complex.ofReal *ᵥ z = ν • z ∧ 1 < ‖ν‖ := by
  refine ⟨dbl (8796055273499 / 8796093022208), dbl (6755389777383475 / 2305843009213693952), by decide +kernel, by decide +kernel, by decide +kernel, fun μ z hz e => ?_, ?_⟩
  · rw [osc_eig (by norm_num) hz e]; norm_num
  · refine osc_grows ?_
    rw [rval, rval, show (dbl (8796055273499 / 8796093022208)).val = 8796055273499 / 8796093022208 by decide +kernel,
      show (dbl (6755389777383475 / 2305843009213693952)).val = 6755389777383475 / 2305843009213693952 by decide +kernel]
    norm_num

/-- The same for a Taylor sum that stops early. -/
def litM : Mat IDouble := ⟨3, 3, [dbl (-1 / 2 ^ 30), dbl (3 / 4), 0, dbl (-3 / 4), dbl (-1 / 2 ^ 30), 0, 0, 0, dbl (-1 / 8)]⟩

set_option maxRecDepth 100000 in
/-- C152 is false for `expm` with a coarse accuracy, for reasons other than rounding: for a matrix with the eigenvalues `-2^-30 ± 3i/4` and `-1/8` and the accuracy 1 the Taylor sum stops after the term with
`A^9`, and the result has the eigenvalues `a ± bi` with `a² + b² > 1 + 2·10^-8`. -/
theorem C152_expm_false : ∃ a b c : IDouble,
    expm dIsZero Ieee.abs Ieee.sqrt dhalf litM.toMB 1 1076 = .ok ⟨3, 3, [a, b, 0, -b, a, 0, 0, 0, c]⟩ ∧ a.Finite ∧ b.Finite ∧ c.Finite ∧
    (∀ (μ : ℂ) (z : Fin 3 → ℂ), z ≠ 0 → (!![-1 / 2 ^ 30, 3 / 4, 0; -(3 / 4), -1 / 2 ^ 30, 0; 0, 0, -1 / 8] : Matrix (Fin 3) (Fin 3) ℝ).map Complex.ofReal *ᵥ z = μ • z → μ.re < 0) ∧
    1 + 2 / 10 ^ 8 < rval a ^ 2 + rval b ^ 2 := by
  refine ⟨dbl (6590467567469075 / 9007199254740992), dbl (767457016882851 / 1125899906842624), dbl (248400795102225 / 281474976710656),
    by decide +kernel, by decide +kernel, by decide +kernel, by decide +kernel, fun μ z hz e => ?_, ?_⟩
  · by_cases h2 : (![z 0, z 1] : Fin 2 → ℂ) = 0
    · have h0 : z 0 = 0 := by simpa using congrFun h2 0
      have h1 : z 1 = 0 := by simpa using congrFun h2 1
      have h3 : z 2 ≠ 0 := fun h3 => hz (funext fun i => by fin_cases i <;> assumption)
      have e2 : (-1 / 8 : ℂ) * z 2 = μ * z 2 := by simpa [Matrix.mulVec, dotProduct, Fin.sum_univ_three] using congrFun e 2
      rw [← mul_right_cancel₀ h3 e2]
      norm_num
    · have e' : (!![-1 / 2 ^ 30, 3 / 4; -(3 / 4), -1 / 2 ^ 30] : Matrix (Fin 2) (Fin 2) ℝ).map Complex.ofReal *ᵥ ![z 0, z 1] = μ • ![z 0, z 1] := by
        ext i
        fin_cases i
        · simpa [Matrix.mulVec, dotProduct, Fin.sum_univ_three, Fin.sum_univ_two] using congrFun e 0
        · simpa [Matrix.mulVec, dotProduct, Fin.sum_univ_three, Fin.sum_univ_two] using congrFun e 1
      rw [osc_eig (by norm_num) h2 e']; norm_num
  · rw [rval, rval, show (dbl (6590467567469075 / 9007199254740992)).val = 6590467567469075 / 9007199254740992 by decide +kernel,
      show (dbl (767457016882851 / 1125899906842624)).val = 767457016882851 / 1125899906842624 by decide +kernel]
    norm_num

end Malg
