import Verif.Props.ExpmStop
import Verif.Props.DetMinor
import Verif.Lemmas.ExpBound
/-!
# Properties C75 and C76: distance between `expm` and the matrix exponential, and when `expm` returns
-/
namespace Malg
open Ops Lin Feq

section
open scoped Matrix.Norms.Operator

theorem taylor_partial {n : Nat} (S : Matrix (Fin n) (Fin n) ℝ) (p : Nat) : taylor S p = partialExp S (p + 1) := rfl

theorem row_sum_le_norm {n : Nat} (M : Matrix (Fin n) (Fin n) ℝ) (i : Fin n) : ∑ j, |M i j| ≤ ‖M‖ := by
  rw [Matrix.linfty_opNorm_def]
  have : (∑ j, ‖M i j‖₊ : NNReal) ≤ Finset.univ.sup fun i => ∑ j, ‖M i j‖₊ :=
    Finset.le_sup (f := fun i => ∑ j, ‖M i j‖₊) (Finset.mem_univ i)
  have := NNReal.coe_le_coe.2 this
  simpa using this

theorem norm_le_of_rows {n : Nat} {M : Matrix (Fin n) (Fin n) ℝ} {x : ℝ} (hx : 0 ≤ x) (h : ∀ i, ∑ j, |M i j| ≤ x) : ‖M‖ ≤ x := by
  rw [Matrix.linfty_opNorm_def]
  have : (Finset.univ.sup fun i => ∑ j, ‖M i j‖₊) ≤ (⟨x, hx⟩ : NNReal) := by
    refine Finset.sup_le fun i _ => ?_
    refine NNReal.coe_le_coe.1 ?_
    have h1 : ((∑ j, ‖M i j‖₊ : NNReal) : ℝ) = ∑ j, |M i j| := by simp
    exact h1.le.trans (h i)
  exact NNReal.coe_le_coe.2 this

set_option backward.isDefEq.respectTransparency false in
theorem taylor_bound {n : Nat} (hn : 0 < n) (M : Matrix (Fin n) (Fin n) ℝ) {x : ℝ} (hx : ∀ i, ∑ j, |M i j| ≤ x) (k p : Nat)
    (hk : x * (1/2) ^ k ≤ 1) (i : Fin n) :
    ∑ j, |(taylor ((1/2 : ℝ) ^ k • M) p ^ (2 ^ k)) i j - (NormedSpace.exp M) i j| ≤
      2 ^ k * Real.exp x * ((x * (1/2) ^ k) ^ (p + 1) * ((p + 2 : Nat) / (((p + 1).factorial : ℝ) * (p + 1 : Nat)))) := by
  have hx0 : 0 ≤ x := (Finset.sum_nonneg fun j _ => abs_nonneg (M ⟨0, hn⟩ j)).trans (hx ⟨0, hn⟩)
  have hM : ‖M‖ ≤ x := norm_le_of_rows hx0 hx
  have : Nonempty (Fin n) := ⟨⟨0, hn⟩⟩
  have h1 : ‖M‖ * (1/2) ^ k ≤ 1 := (mul_le_mul_of_nonneg_right hM (by positivity)).trans hk
  have hb := exp_scaled_bound M k p h1
  rw [taylor_partial]
  refine (row_sum_le_norm (partialExp ((1/2 : ℝ) ^ k • M) (p + 1) ^ (2 ^ k) - NormedSpace.exp M) i).trans (hb.trans ?_)
  have := Real.exp_le_exp.2 hM
  gcongr

end

/-- C75, the part that holds: over the real numbers, whenever `expm` returns, the result is near the exponential of the matrix: with `x` the
largest absolute row sum of `M` and `t * n²` the number of terms summed, every row of the difference has an absolute sum of
at most `x min(1, x)ᵖ eˣ (p + 2) / ((p + 1)! (p + 1))`, where `p = t n²` and `t ≥ 1`. Missing: a bound in terms of the
accuracy argument, see `C75_accuracy_false`. -/
theorem C75_error_partial {isz : ℝ → Bool} (hz : ∀ x, isz x = true ↔ x = 0) {sqrt : ℝ → ℝ} {A : Mat ℝ} {n : Nat}
    (hn : 0 < n) {e : Nat → Nat → ℝ} (h : A.Holds n n e) {accuracy : ℝ} {fuel : Nat} {R : Mat ℝ}
    (hr : expm isz (|·|) sqrt (1/2) A.toMB accuracy fuel = .ok R) :
    ∃ t, 0 < t ∧ ∃ E, R.Holds n n E ∧ ∃ x, (∃ i, i < n ∧ x = ∑ j : Fin n, |e i j|) ∧ (∀ i, i < n → ∑ j : Fin n, |e i j| ≤ x) ∧
      ∀ i : Fin n, ∑ j : Fin n, |E i j - (NormedSpace.exp (toM n n e)) i j| ≤
        x * min 1 x ^ (t * (n * n)) * Real.exp x * ((t * (n * n) + 2 : Nat) / (((t * (n * n) + 1).factorial : ℝ) * (t * (n * n) + 1 : Nat))) := by
  obtain ⟨k, t, hlog, ht, hwf, hR⟩ := C55_taylor hz ⟨e, h.rep, rfl⟩ hr
  obtain ⟨E, hE, hEM⟩ := hR
  obtain ⟨x, ⟨hxi, hx⟩, k', N, h1, h2, h3⟩ := C45_matrix_partial (fun x => abs_nonneg x) h hn hn
  have hkk : k = k' := by
    have a1 := h1 (max N fuel) (le_max_left _ _)
    have a2 := log2Ceil_mono hlog (le_max_right N fuel)
    rw [a1] at a2; injection a2 with a2; exact (Prod.mk.inj a2).1.symm
  subst hkk
  refine ⟨t, ht, E, ⟨hwf, hE⟩, x, hxi, hx, fun i => ?_⟩
  have hb := taylor_bound hn (toM n n e) (x := x) (fun i => hx i i.2) k (t * (n * n)) h2 i
  have e1 : ∀ j : Fin n, E i j = (taylor ((1/2 : ℝ) ^ k • toM n n e) (t * (n * n)) ^ (2 ^ k)) i j := fun j => by rw [← hEM]; rfl
  simp only [e1]
  refine hb.trans ?_
  have hx0 : 0 ≤ x := (Finset.sum_nonneg fun j _ => abs_nonneg _).trans (hx 0 hn)
  set y := x * (1/2 : ℝ) ^ k with hy
  have hy0 : 0 ≤ y := by positivity
  have hyx : y ≤ x := mul_le_of_le_one_right hx0 (pow_le_one₀ (by norm_num) (by norm_num))
  have h2k : 2 ^ k * y = x := by
    have : (2 : ℝ) ^ k * (1/2) ^ k = 1 := by rw [← mul_pow]; norm_num
    rw [hy, mul_left_comm, this, mul_one]
  have hp : y ^ (t * (n * n)) ≤ min 1 x ^ (t * (n * n)) := pow_le_pow_left₀ hy0 (le_min h2 hyx) _
  generalize t * (n * n) = q at hp ⊢
  calc 2 ^ k * Real.exp x * (y ^ (q + 1) * ((q + 2 : Nat) / (((q + 1).factorial : ℝ) * (q + 1 : Nat))))
      = (2 ^ k * y) * y ^ q * Real.exp x * ((q + 2 : Nat) / (((q + 1).factorial : ℝ) * (q + 1 : Nat))) := by rw [pow_succ]; ring
    _ ≤ _ := by rw [h2k]; gcongr

section
open scoped Matrix.Norms.Operator
open Filter

set_option backward.isDefEq.respectTransparency false in
theorem taylor_tendsto {n : Nat} (hn : 0 < n) (S : Matrix (Fin n) (Fin n) ℝ) (i j : Fin n) :
    Tendsto (fun p => taylor S p i j) atTop (nhds ((NormedSpace.exp S) i j)) := by
  have : Nonempty (Fin n) := ⟨⟨0, hn⟩⟩
  have h := (partialExp_tendsto S).comp (tendsto_add_atTop_nat 1)
  rw [tendsto_iff_norm_sub_tendsto_zero] at h ⊢
  refine squeeze_zero (fun _ => norm_nonneg _) (fun p => ?_) h
  have h1 := row_sum_le_norm (partialExp S (p + 1) - NormedSpace.exp S) i
  refine le_trans ?_ h1
  exact Finset.single_le_sum (f := fun j => |(partialExp S (p + 1) - NormedSpace.exp S) i j|) (fun j _ => abs_nonneg _) (Finset.mem_univ j)

set_option backward.isDefEq.respectTransparency false in
theorem ones_norm {n : Nat} {a : ℝ} (ha : 0 ≤ a) (hna : n * a ≤ 1/20) : ‖(Matrix.of fun _ _ => a : Matrix (Fin n) (Fin n) ℝ)‖ ≤ 1/20 := by
  refine norm_le_of_rows (by norm_num) fun i => ?_
  simpa only [Matrix.of_apply, abs_of_nonneg ha, Finset.sum_const, Finset.card_univ, Fintype.card_fin, nsmul_eq_mul] using hna

theorem one_det {y a : ℝ} (ha : 0 < a) {X : Matrix (Fin 1) (Fin 1) ℝ} (hX : X 0 0 = y) :
    (X ^ 2 + Matrix.of fun _ _ => a).det ≠ 0 := by
  rw [Matrix.det_unique]
  simp only [pow_two, Matrix.add_apply, Matrix.mul_apply, Matrix.of_apply, Finset.univ_unique, Finset.sum_singleton, Fin.default_eq_zero, hX]
  nlinarith [mul_self_nonneg y]

set_option backward.isDefEq.respectTransparency false in
theorem divisor_regular {n : Nat} (hn : 0 < n) {S : Matrix (Fin n) (Fin n) ℝ} (hS : ∀ i, ∑ j, |S i j| ≤ 1) {a : ℝ} (ha : 0 < a)
    (hna : n * a ≤ 1/20) {t : Nat} (ht : 0 < t) : (divisor S a t).det ≠ 0 := by
  by_cases h1 : n = 1
  · subst h1; exact one_det ha rfl
  have : Nonempty (Fin n) := ⟨⟨0, hn⟩⟩
  have hS1 : ‖S‖ ≤ 1 := norm_le_of_rows zero_le_one hS
  have h4 : 4 ≤ t * (n * n) := by nlinarith [Nat.mul_le_mul (show 2 ≤ n by omega) (show 2 ≤ n by omega)]
  have hu : IsUnit (taylor S (t * (n * n)) ^ 2 + Matrix.of fun _ _ => a) := by
    rw [taylor_partial]
    exact isUnit_sq_add hS1 ((norm_exp_sub_partial_le S hS1 _).trans (rem_small h4))
      ((norm_partialExp_le S _).trans (Real.exp_le_exp.2 hS1)) (ones_norm ha.le hna)
  exact ((Matrix.isUnit_iff_isUnit_det _).1 hu).ne_zero

set_option backward.isDefEq.respectTransparency false in
theorem limit_regular {n : Nat} (hn : 0 < n) {S : Matrix (Fin n) (Fin n) ℝ} (hS : ∀ i, ∑ j, |S i j| ≤ 1) {a : ℝ} (ha : 0 < a)
    (hna : n * a ≤ 1/20) : ((NormedSpace.exp S) ^ 2 + Matrix.of fun _ _ => a).det ≠ 0 := by
  by_cases h1 : n = 1
  · subst h1; exact one_det ha rfl
  have : Nonempty (Fin n) := ⟨⟨0, hn⟩⟩
  have hS1 : ‖S‖ ≤ 1 := norm_le_of_rows zero_le_one hS
  have hu : IsUnit ((NormedSpace.exp S) ^ 2 + Matrix.of fun _ _ => a) :=
    isUnit_sq_add hS1 (by rw [sub_self, norm_zero]; norm_num)
      ((norm_exp_le' S).trans (Real.exp_le_exp.2 hS1)) (ones_norm ha.le hna)
  exact ((Matrix.isUnit_iff_isUnit_det _).1 hu).ne_zero
end

section
open Filter
/-- A bound for the relative change after batch `t` that holds whichever matrix `inverse` returns. -/
noncomputable def changeBound {n : Nat} (S : Matrix (Fin n) (Fin n) ℝ) (a : ℝ) (t : Nat) : ℝ :=
  Real.sqrt (∑ i, ∑ _j : Fin n, ((∑ l, |(batchTerm S t ^ 2) i l|) *
    ((n - 1).factorial * (1 + ∑ i, ∑ j, |divisor S a t i j|) ^ (n - 1) / |(divisor S a t).det|)) ^ 2)

/-- The bound tends to zero when the limit divisor is regular. -/
theorem change_tendsto {n : Nat} (hn : 0 < n) {S : Matrix (Fin n) (Fin n) ℝ} {a : ℝ}
    (hd : ((NormedSpace.exp S) ^ 2 + Matrix.of fun _ _ => a).det ≠ 0) :
    Tendsto (fun t => changeBound S a t) atTop (nhds 0) := by
  have hT : Tendsto (fun p => taylor S p) atTop (nhds (NormedSpace.exp S)) :=
    tendsto_pi_nhds.2 fun i => tendsto_pi_nhds.2 fun j => taylor_tendsto hn S i j
  have hnn : 0 < n * n := Nat.mul_pos hn hn
  have hm : Tendsto (fun t : Nat => t * (n * n)) atTop atTop := tendsto_id.atTop_mul_const' hnn
  have hm' : Tendsto (fun t : Nat => (t - 1) * (n * n)) atTop atTop := hm.comp (tendsto_sub_atTop_nat 1)
  have h1 := hT.comp hm
  have h2 := hT.comp hm'
  have hb : Tendsto (fun t => batchTerm S t) atTop (nhds 0) := by
    have := h1.sub h2
    rw [sub_self] at this
    exact this
  have hb2 := hb.pow 2
  rw [zero_pow two_ne_zero] at hb2
  have hdv : Tendsto (fun t => divisor S a t) atTop (nhds ((NormedSpace.exp S) ^ 2 + Matrix.of fun _ _ => a)) :=
    (h1.pow 2).add_const _
  have hdet := ((continuous_id.matrix_det (R := ℝ) (n := Fin n)).tendsto _).comp hdv
  have hsum : Tendsto (fun t => 1 + ∑ i, ∑ j, |divisor S a t i j|) atTop
      (nhds (1 + ∑ i, ∑ j, |((NormedSpace.exp S) ^ 2 + Matrix.of fun _ _ => a : Matrix (Fin n) (Fin n) ℝ) i j|)) :=
    tendsto_const_nhds.add (tendsto_finsetSum _ fun i _ => tendsto_finsetSum _ fun j _ => (tendsto_pi_nhds.1 (tendsto_pi_nhds.1 hdv i) j).abs)
  have hρ := ((hsum.pow (n - 1)).const_mul (((n - 1).factorial : Nat) : ℝ)).div hdet.abs (abs_ne_zero.2 hd)
  have hi : ∀ i, Tendsto (fun t => ∑ l, |(batchTerm S t ^ 2) i l|) atTop (nhds 0) := fun i => by
    have := tendsto_finsetSum Finset.univ fun l _ => (tendsto_pi_nhds.1 (tendsto_pi_nhds.1 hb2 i) l).abs
    simpa using this
  have hs := tendsto_finsetSum Finset.univ fun i _ => tendsto_finsetSum (Finset.univ (α := Fin n)) fun _ _ => ((hi i).mul hρ).pow 2
  have := (Real.continuous_sqrt.tendsto _).comp hs
  simp only [zero_mul, ne_eq, OfNat.ofNat_ne_zero, not_false_eq_true, zero_pow, Finset.sum_const_zero, Real.sqrt_zero] at this
  exact this
end

section
variable (abs : AbsoluteValue ℝ ℝ) {tol : ℝ} (ht : tol < 1)
include ht

/-- One more batch, whichever matrix `inverse` returns. -/
theorem expmStep_bounded {n : Nat} (hf : Fits n n) {S : Matrix (Fin n) (Fin n) ℝ} {accuracy sqAcc : ℝ} {scaled : Mat ℝ} (hS : Stores scaled S)
    {t : Nat} {s : ExpmState ℝ} (h : Filled S t s) (hd : sqAcc < s.diff) (hdet : (divisor S accuracy (t + 1)).det ≠ 0) :
    ∃ s', expmStep (isZ abs tol) Real.sqrt n scaled accuracy sqAcc s = .ok (some s') ∧ Filled S (t + 1) s' ∧
      s'.diff ≤ changeBound S accuracy (t + 1) := by
  obtain ⟨m', a', r', q, d', hm, hr, hq, hd', -, e⟩ := expmStep_front abs ht hf hS h hd
  have hz : isZ abs tol = isZ (AbsoluteValue.abs (S := ℝ)) tol := by
    funext x
    rw [Bool.eq_iff_iff, isZ_iff abs ht, isZ_iff _ ht]
  have hle : ∀ i j, |divisor S accuracy (t + 1) i j| ≤ 1 + ∑ i, ∑ j, |divisor S accuracy (t + 1) i j| := fun i j => by
    have h1 : |divisor S accuracy (t + 1) i j| ≤ ∑ j, |divisor S accuracy (t + 1) i j| :=
      Finset.single_le_sum (f := fun j => |divisor S accuracy (t + 1) i j|) (fun _ _ => abs_nonneg _) (Finset.mem_univ j)
    have h2 : ∑ j, |divisor S accuracy (t + 1) i j| ≤ ∑ i, ∑ j, |divisor S accuracy (t + 1) i j| :=
      Finset.single_le_sum (f := fun i => ∑ j, |divisor S accuracy (t + 1) i j|) (fun _ _ => Finset.sum_nonneg fun _ _ => abs_nonneg _)
        (Finset.mem_univ i)
    linarith
  obtain ⟨R, hR, hRb⟩ := C142_inverse (AbsoluteValue.abs (S := ℝ)) ht (hd'.is hf) hdet
    (le_add_of_nonneg_right (Finset.sum_nonneg fun _ _ => Finset.sum_nonneg fun _ _ => abs_nonneg _)) hle
  rw [← hz] at hR
  obtain ⟨rel, e7, hrel⟩ := Stores.of_yields (C52_div (isZ abs tol) (hq.is hf) hR)
  have e8 : ∃ x, squareNorm Real.sqrt rel.toMB = .ok x ∧ x ≤ changeBound S accuracy (t + 1) := by
    obtain ⟨E, rfl, hE⟩ := hrel
    refine ⟨_, (C44_square_norm Real.sqrt (v := []) (p := 0) (f := fun _ => 0) ⟨allocMax_pos, rfl, fun _ h => absurd h (by omega)⟩
      (ofFn_rep hf E).toRepAt).2, Real.sqrt_le_sqrt (Finset.sum_le_sum fun i _ => Finset.sum_le_sum fun j _ => ?_)⟩
    have hij : E i j = (batchTerm S (t + 1) ^ 2 * R) i j := by rw [← hE]; rfl
    rw [← pow_two]
    refine sq_le_sq' ?_ ?_ <;> rw [hij] <;> [refine neg_le_of_abs_le ?_; refine le_of_abs_le ?_] <;>
    · rw [Matrix.mul_apply, Finset.sum_mul]
      refine (Finset.abs_sum_le_sum_abs _ _).trans (Finset.sum_le_sum fun l _ => ?_)
      rw [abs_mul]
      exact mul_le_mul_of_nonneg_left (hRb l j).2.2 (abs_nonneg _)
  obtain ⟨x, e8, hx⟩ := e8
  rw [e, e7, Res.ok_bind, e8, Res.ok_bind]
  exact ⟨_, rfl, ⟨rfl, rfl, hm, hr⟩, hx⟩

/-- C76, the part that holds: over the real numbers, for every non-empty square matrix and every accuracy above 0 and at most `1/(20 n)`,
`expm` returns, although beyond 5×5 the relative change is computed with a wrong inverse (C142). Missing: larger accuracies, see `C76_false`. -/
theorem C76_terminates_partial {A : Mat ℝ} {n : Nat} (hn : 0 < n) {e : Nat → Nat → ℝ}
    (h : A.Holds n n e) {accuracy : ℝ} (ha : 0 < accuracy) (hna : n * accuracy ≤ 1/20) :
    ∃ N R, ∀ fuel, N ≤ fuel → expm (isZ abs tol) (|·|) Real.sqrt (1/2) A.toMB accuracy fuel = .ok R := by
  obtain ⟨x, ⟨hxi, hx⟩, k, N, h1, h2, h3⟩ := C45_matrix_partial (fun x => abs_nonneg x) h hn hn
  have hf : Fits n n := h.rep.fits
  set S : Matrix (Fin n) (Fin n) ℝ := (1/2 : ℝ) ^ k • toM n n e with hSdef
  have hS : ∀ i, ∑ j, |S i j| ≤ 1 := by
    intro i
    have : ∑ j, |S i j| = (∑ j : Fin n, |e i j|) * (1/2) ^ k := by
      rw [Finset.sum_mul]
      refine Finset.sum_congr rfl fun j _ => ?_
      rw [hSdef, Matrix.smul_apply, smul_eq_mul, abs_mul, abs_of_nonneg (by positivity), mul_comm]; rfl
    rw [this]
    exact (mul_le_mul_of_nonneg_right (hx i i.2) (by positivity)).trans h2
  have hc := change_tendsto hn (limit_regular hn hS ha hna)
  have hpos : 0 < accuracy * accuracy * (1/2) ^ k * (1/2) ^ k := by positivity
  obtain ⟨T, hT1, hT0⟩ := ((hc.eventually (gt_mem_nhds hpos)).and (Filter.eventually_gt_atTop 0)).exists
  obtain ⟨sc, s0, hsc, hs0, e0⟩ := expm_unfold (isz := isZ abs tol) (sqrt := Real.sqrt) (accuracy := accuracy) hn ⟨e, h.rep, rfl⟩ (h1 N le_rfl)
  obtain ⟨s, j, hs, hw⟩ := whileFuel_within (step := expmStep (isZ abs tol) Real.sqrt n sc accuracy (accuracy * accuracy * (1/2) ^ k * (1/2) ^ k))
    (fun t s => Filled S t s ∧ (0 < t → s.diff ≤ changeBound S accuracy t)) T
    (fun i s _ hs => by
      by_cases hd : accuracy * accuracy * (1/2) ^ k * (1/2) ^ k < s.diff
      · obtain ⟨s', e1, e2, e3⟩ := expmStep_bounded abs ht hf hsc hs.1 hd (divisor_regular hn hS ha hna (Nat.succ_pos i))
        exact .inr ⟨s', e1, e2, fun _ => e3⟩
      · exact .inl (expmStep_stop abs hd))
    (fun s hs => expmStep_stop abs (not_lt.2 ((hs.2 hT0).trans hT1.le))) (Nat.zero_le T) (s := s0) ⟨hs0.toFilled, fun h => absurd h (lt_irrefl 0)⟩
  obtain ⟨B, e2, -⟩ := squarings hf hs.1.ret k
  refine ⟨max N (T + 1), B, fun fuel hfu => ?_⟩
  rw [e0 fuel (by omega), hw fuel (by omega)]
  exact e2
end

/-! ### Witnesses -/

/-- The 3×3 matrix of `C76_false`. -/
def nilp (r c : Nat) : ℝ := if c = 2 ∧ r < 2 then 1 else 0

theorem nilp_sq : toM 3 3 nilp ^ 2 = 0 := by
  funext i j
  fin_cases i <;> fin_cases j <;> simp [pow_two, Matrix.mul_apply, Fin.sum_univ_three, toM_apply, nilp]

theorem taylor_nilp {n : Nat} {S : Matrix (Fin n) (Fin n) ℝ} (h : S ^ 2 = 0) (p : Nat) : taylor S (p + 1) = 1 + S := by
  induction p with
  | zero => rw [taylor_succ, taylor_zero]; simp
  | succ p ih => rw [taylor_succ, ih, show p + 1 + 1 = 2 + p by omega, pow_add, h, zero_mul, smul_zero, add_zero]

/-- C76 fails: with accuracy 1 the call `expm([[0 0 1][0 0 1][0 0 0]], 1)` throws `invalid_argument`, although the matrix is
square and non-empty, because the divisor of the relative change is singular. -/
theorem C76_false (abs : AbsoluteValue ℝ ℝ) {tol : ℝ} (ht : tol < 1) {A : Mat ℝ} (h : A.Holds 3 3 nilp) :
    ∃ N, ∀ fuel, N ≤ fuel → expm (isZ abs tol) (|·|) Real.sqrt (1/2) A.toMB 1 fuel = .throw .invalidArgument := by
  obtain ⟨x, ⟨⟨i, hi, hxi⟩, hx⟩, k, N, h1, h2, h3⟩ := C45_matrix_partial (fun x => abs_nonneg x) h (by omega) (by omega)
  have hx1 : x ≤ 1 := by
    rw [hxi]
    obtain rfl | rfl | rfl : i = 0 ∨ i = 1 ∨ i = 2 := by omega
    all_goals simp [Fin.sum_univ_three, nilp]
  have hk : k = 0 := by
    by_contra hk
    have := h3 0 (by omega)
    rw [pow_zero, mul_one] at this
    linarith
  subst hk
  refine ⟨max N 1, fun fuel hfu => ?_⟩
  refine C76_singular_throws abs ht (t := 1) (by omega) ⟨nilp, h.rep, rfl⟩ (h1 N le_rfl) (by omega) (by omega) (fun s hs hs' => by omega)
    (fun s hs hs' => by omega) ?_ fuel (by omega) (by omega)
  rw [pow_zero, one_smul]
  have : divisor (toM 3 3 nilp) (1 : ℝ) 1 = 1 + (2 : ℝ) • toM 3 3 nilp + Matrix.of fun _ _ => 1 := by
    unfold divisor
    have h := nilp_sq
    rw [pow_two] at h
    rw [taylor_nilp nilp_sq 8, pow_two, add_mul, mul_add, mul_add, h, two_smul]
    simp only [Matrix.one_mul, Matrix.mul_one, add_zero, add_assoc]
  have e : ∀ i j : Fin 3, divisor (toM 3 3 nilp) (1 : ℝ) 1 i j = (if i.1 = j.1 then 1 else 0) + 2 * nilp i j + 1 := by
    intro i j
    rw [this, Matrix.add_apply, Matrix.add_apply, Matrix.one_apply, Matrix.smul_apply]
    simp [Fin.ext_iff, toM_apply]
  rw [Matrix.det_fin_three]
  simp only [e, nilp, Fin.val_zero, Fin.val_one, Fin.val_two]
  norm_num

/-- The matrix `x` of order one. -/
def sc (x : ℝ) : Matrix (Fin 1) (Fin 1) ℝ := Matrix.of fun _ _ => x
theorem sc_mul (x y : ℝ) : sc x * sc y = sc (x * y) := by funext i j; simp [sc, Matrix.mul_apply]
theorem sc_one : (1 : Matrix (Fin 1) (Fin 1) ℝ) = sc 1 := by funext i j; rw [Subsingleton.elim i j, Matrix.one_apply_eq]; rfl
theorem sc_pow (x : ℝ) (k : Nat) : sc x ^ k = sc (x ^ k) := by
  induction k with
  | zero => rw [pow_zero, pow_zero, sc_one]
  | succ k ih => rw [pow_succ, pow_succ, ih, sc_mul]
theorem sc_apply (x : ℝ) (i j) : sc x i j = x := rfl
/-- The scalar Taylor sum. -/
noncomputable def tay (x : ℝ) (p : Nat) : ℝ := ∑ j ∈ Finset.range (p + 1), ((j.factorial : ℝ)⁻¹) * x ^ j
theorem taylor_sc (x : ℝ) (p : Nat) : taylor (sc x) p = sc (tay x p) := by
  funext i j
  unfold taylor tay
  rw [Matrix.sum_apply]
  refine Finset.sum_congr rfl fun k _ => ?_
  rw [sc_pow]; rfl
theorem sc_inv {x : ℝ} (hx : x ≠ 0) : (sc x)⁻¹ = sc x⁻¹ := by
  refine Matrix.inv_eq_right_inv ?_
  rw [sc_mul, mul_inv_cancel₀ hx, sc_one]

theorem change_sc {x a : ℝ} (ha : 0 < a) (t : Nat) : change Real.sqrt (sc x) a (t + 1) =
    (((t + 1).factorial : ℝ)⁻¹ * x ^ (t + 1)) ^ 2 / (tay x (t + 1) ^ 2 + a) := by
  have hp : 0 < tay x (t + 1) ^ 2 + a := by positivity
  have h1 : batchTerm (sc x) (t + 1) = sc (((t + 1).factorial : ℝ)⁻¹ * x ^ (t + 1)) := by
    unfold batchTerm
    simp only [Nat.mul_one, Nat.add_sub_cancel, taylor_succ, add_sub_cancel_left, sc_pow]
    rfl
  have h2 : divisor (sc x) a (t + 1) = sc (tay x (t + 1) ^ 2 + a) := by
    unfold divisor
    rw [Nat.mul_one, taylor_sc, sc_pow]; rfl
  unfold change
  dsimp only
  rw [h1, h2, sc_inv hp.ne', sc_pow, sc_mul]
  simp only [sc_apply, Finset.univ_unique, Finset.sum_singleton]
  rw [Real.sqrt_mul_self (by positivity), div_eq_mul_inv]

set_option maxRecDepth 4000 in
/-- C75 fails: `expm([[32]], 1e-05)` returns a number that is more than ten million below `e³²`. -/
theorem C75_accuracy_false (abs : AbsoluteValue ℝ ℝ) {tol : ℝ} (ht : tol < 1) {A : Mat ℝ} (h : A.Holds 1 1 fun _ _ => 32) :
    ∃ y N, y + 10000000 < Real.exp 32 ∧ ∀ fuel, N ≤ fuel →
      Yields (expm (isZ abs tol) (|·|) Real.sqrt (1/2) A.toMB (1/100000) fuel) (sc y) := by
  obtain ⟨x, ⟨⟨i, hi, hxi⟩, hx⟩, k, N, h1, h2, h3⟩ := C45_matrix_partial (fun x => abs_nonneg x) h (by omega) (by omega)
  have hx1 : x = 32 := by rw [hxi]; simp
  subst hx1
  have hk : k = 5 := by
    rcases Nat.lt_trichotomy k 5 with hk | hk | hk
    · exfalso
      obtain rfl | rfl | rfl | rfl | rfl : k = 0 ∨ k = 1 ∨ k = 2 ∨ k = 3 ∨ k = 4 := by omega
      all_goals norm_num at h2
    · exact hk
    · have := h3 5 hk
      norm_num at this
  subst hk
  have hS : (1/2 : ℝ) ^ 5 • toM 1 1 (fun _ _ => (32 : ℝ)) = sc 1 := by
    funext i j; simp [sc, toM_apply]; norm_num
  have hr := C76_returns abs ht (sqrt := Real.sqrt) (accuracy := 1/100000) (t := 10) (by omega) ⟨_, h.rep, rfl⟩ (h1 N le_rfl) (by omega) (by omega)
    (by
      intro s hs0 hs
      rw [hS]
      obtain ⟨s, rfl⟩ : ∃ s', s = s' + 1 := ⟨s - 1, by omega⟩
      rw [change_sc (by norm_num)]
      have : s = 0 ∨ s = 1 ∨ s = 2 ∨ s = 3 ∨ s = 4 ∨ s = 5 ∨ s = 6 ∨ s = 7 ∨ s = 8 := by omega
      rcases this with rfl | rfl | rfl | rfl | rfl | rfl | rfl | rfl | rfl <;>
        norm_num [tay, Finset.sum_range_succ, Nat.factorial])
    (by
      intro s hs0 hs
      rw [hS]
      unfold divisor
      exact one_det (by norm_num) rfl)
    (by
      rw [hS, change_sc (by norm_num)]
      norm_num [tay, Finset.sum_range_succ, Nat.factorial])
  refine ⟨tay 1 10 ^ 32, max N 11, ?_, fun fuel hfu => ?_⟩
  · have h4 : tay 1 13 ≤ Real.exp 1 := by
      have := Real.sum_le_exp_of_nonneg (x := 1) zero_le_one 14
      unfold tay
      refine le_trans (le_of_eq ?_) this
      refine Finset.sum_congr rfl fun j _ => ?_
      rw [div_eq_inv_mul]
    have h5 : Real.exp 32 = Real.exp 1 ^ 32 := by rw [← Real.exp_nat_mul]; norm_num
    rw [h5]
    have h6 : 0 ≤ tay 1 13 := Finset.sum_nonneg fun _ _ => by positivity
    refine lt_of_lt_of_le ?_ (pow_le_pow_left₀ h6 h4 32)
    norm_num [tay, Finset.sum_range_succ, Nat.factorial]
  · have := hr fuel (by omega) (by omega)
    rw [hS, taylor_sc, sc_pow] at this
    exact this

/-- The hypotheses of `C75_error_partial` and `C76_terminates_partial` are met together: `[[0 1][1 0]]` with accuracy 1/100. -/
example : ∃ A : Mat ℝ, A.Holds 2 2 (fun r c => if r = c then 0 else 1) ∧
    ∃ N R, ∀ fuel, N ≤ fuel → expm (isZ (AbsoluteValue.abs (S := ℝ)) (1/1000)) (|·|) Real.sqrt (1/2) A.toMB (1/100) fuel = .ok R := by
  have hf : Fits 2 2 := by unfold Fits; rw [allocMax_eq, W_eq]; decide
  refine ⟨_, ofFn_holds hf _, ?_⟩
  exact C76_terminates_partial _ (by norm_num) (by omega) (ofFn_holds hf _) (by norm_num) (by norm_num)
/-- With a smaller accuracy the witness of `C76_false` returns. -/
example {A : Mat ℝ} (h : A.Holds 3 3 nilp) :
    ∃ N R, ∀ fuel, N ≤ fuel → expm (isZ (AbsoluteValue.abs (S := ℝ)) (1/1000)) (|·|) Real.sqrt (1/2) A.toMB (1/100) fuel = .ok R :=
  C76_terminates_partial _ (by norm_num) (by omega) h (by norm_num) (by norm_num)

/-- Beyond 5×5 as well: the 8×8 matrix of ones with the default accuracy. -/
example : ∃ A : Mat ℝ, A.Holds 8 8 (fun _ _ => 1) ∧
    ∃ N R, ∀ fuel, N ≤ fuel → expm (isZ (AbsoluteValue.abs (S := ℝ)) (1/1000)) (|·|) Real.sqrt (1/2) A.toMB (1/100000) fuel = .ok R := by
  have hf : Fits 8 8 := by unfold Fits; rw [allocMax_eq, W_eq]; decide
  exact ⟨_, ofFn_holds hf _, C76_terminates_partial _ (by norm_num) (by omega) (ofFn_holds hf _) (by norm_num) (by norm_num)⟩

end Malg
