import Verif.Props.Rounding
import Verif.Props.ExpmBound
/-!
# Rounding errors of matrix products and sums in the largest row sum
-/
namespace Malg
open Lin

section
variable {𝔸 : Type} [NormedRing 𝔸] [NormedAlgebra ℝ 𝔸] [NormOneClass 𝔸] [CompleteSpace 𝔸]

/-- The remainder of the exponential series. -/
theorem exp_tail_le {y : ℝ} (hy : 0 ≤ y) (m : Nat) :
    Real.exp y - ∑ j ∈ Finset.range m, y ^ j / j.factorial ≤ y ^ m / m.factorial * Real.exp y := by
  have h := real_exp_hasSum y
  have h1 := (hasSum_nat_add_iff' m).2 h
  have h2 := h.mul_left (y ^ m / m.factorial)
  refine hasSum_le (fun j => ?_) h1 h2
  have hf : ((m.factorial : ℝ) * j.factorial) ≤ ((j + m).factorial : ℝ) := by
    rw [mul_comm]
    exact_mod_cast Nat.le_of_dvd (Nat.factorial_pos _) (Nat.factorial_mul_factorial_dvd_factorial_add j m)
  rw [div_mul_div_comm, ← pow_add, Nat.add_comm m j]
  exact div_le_div_of_nonneg_left (by positivity) (by positivity) hf

/-- Scaling, truncating and squaring, for any scaling. -/
theorem exp_scaled_bound' (M : 𝔸) (k p : Nat) {x : ℝ} (hx : ‖M‖ ≤ x) :
    ‖partialExp (((1/2 : ℝ) ^ k) • M) (p + 1) ^ (2 ^ k) - NormedSpace.exp M‖ ≤
      2 ^ k * Real.exp x * ((x * (1/2) ^ k) ^ (p + 1) / (p + 1).factorial) := by
  set S := ((1/2 : ℝ) ^ k) • M with hS
  have hn : ‖S‖ = ‖M‖ * (1/2) ^ k := by rw [hS, norm_smul, Real.norm_of_nonneg (by positivity), mul_comm]
  have h2 : ((1/2 : ℝ) ^ k) * 2 ^ k = 1 := by rw [← mul_pow]; norm_num
  have hexp : NormedSpace.exp M = NormedSpace.exp S ^ (2 ^ k) := by
    let _ : NormedAlgebra ℚ 𝔸 := NormedAlgebra.restrictScalars ℚ ℝ 𝔸
    rw [← NormedSpace.exp_nsmul, hS, ← Nat.cast_smul_eq_nsmul ℝ, smul_smul]
    push_cast
    rw [mul_comm, h2, one_smul]
  rw [hexp]
  have hb := norm_pow_sub_pow_le (norm_partialExp_le S (p + 1)) (norm_exp_le' S) (2 ^ k)
  have ht := (norm_exp_sub_partial S (p + 1)).trans (exp_tail_le (norm_nonneg S) (p + 1))
  rw [norm_sub_rev] at ht
  have hk1 : 1 ≤ 2 ^ k := Nat.one_le_two_pow
  have hC : Real.exp ‖S‖ ^ (2 ^ k - 1) * Real.exp ‖S‖ ≤ Real.exp x := by
    rw [← pow_succ, Nat.sub_add_cancel hk1, ← Real.exp_nat_mul]
    apply Real.exp_le_exp.2
    push_cast
    calc (2 : ℝ) ^ k * ‖S‖ = ‖M‖ := by rw [hn, mul_comm, mul_assoc, h2, mul_one]
      _ ≤ x := hx
  have hSx : ‖S‖ ≤ x * (1/2) ^ k := by rw [hn]; exact mul_le_mul_of_nonneg_right hx (by positivity)
  refine hb.trans ((mul_le_mul_of_nonneg_left ht (by positivity)).trans ?_)
  push_cast
  calc (2 : ℝ) ^ k * Real.exp ‖S‖ ^ (2 ^ k - 1) * (‖S‖ ^ (p + 1) / (p + 1).factorial * Real.exp ‖S‖)
      = 2 ^ k * (Real.exp ‖S‖ ^ (2 ^ k - 1) * Real.exp ‖S‖) * (‖S‖ ^ (p + 1) / (p + 1).factorial) := by ring
    _ ≤ 2 ^ k * Real.exp x * ((x * (1/2) ^ k) ^ (p + 1) / (p + 1).factorial) := by gcongr
end

section
open scoped Matrix.Norms.Operator

/-- `X` is `Ξ` up to `c` roundings relative to `N`, and up to `ε`, in the largest row sum. -/
structure MNear {n : Nat} (u : ℝ) (c : Nat) (ε : ℝ) (X Ξ : Matrix (Fin n) (Fin n) ℝ) (N : ℝ) : Prop where
  err : ‖X - Ξ‖ ≤ ((1 + u) ^ c - 1) * N + ε
  size : ‖Ξ‖ ≤ N
  nonneg : 0 ≤ ε

theorem grow {x y dx dy ξ A B N L W h : ℝ} (hx : x ≤ A) (hy : y ≤ B) (hdx : dx ≤ A - N) (hdy : dy ≤ B - L) (hξ : ξ ≤ N) (x0 : 0 ≤ x) (y0 : 0 ≤ y)
    (dx0 : 0 ≤ dx) (dy0 : 0 ≤ dy) (ξ0 : 0 ≤ ξ) (hW : 1 ≤ W) :
    (W - 1) * (x * y) + h + (dx * y + ξ * dy) ≤ W * (A * B) - N * L + h := by
  have h1 : x * y ≤ A * B := mul_le_mul hx hy y0 (x0.trans hx)
  have h2 : dx * y ≤ (A - N) * B := mul_le_mul hdx hy y0 (dx0.trans hdx)
  have h3 : ξ * dy ≤ N * (B - L) := mul_le_mul hξ hdy dy0 (ξ0.trans hξ)
  have h4 := mul_le_mul_of_nonneg_left h1 (by linarith : 0 ≤ W - 1)
  nlinarith

variable {n : Nat} {u : ℝ} {X Y Ξ Υ P : Matrix (Fin n) (Fin n) ℝ} {N L ε δ : ℝ} {a b c : Nat}

theorem MNear.norm_le (h : MNear u a ε X Ξ N) : ‖X‖ ≤ (1 + u) ^ a * N + ε := by
  have e : X = (X - Ξ) + Ξ := by abel
  rw [e]
  refine (norm_add_le _ _).trans ((add_le_add h.err h.size).trans (le_of_eq (by ring)))

theorem MNear.mono (hu : 0 ≤ u) (h : MNear u a ε X Ξ N) (hab : a ≤ b) (hε : ε ≤ δ) : MNear u b δ X Ξ N := by
  have h1 : (1 : ℝ) ≤ 1 + u := by linarith
  have hN : 0 ≤ N := (norm_nonneg _).trans h.size
  refine ⟨h.err.trans (add_le_add (mul_le_mul_of_nonneg_right ?_ hN) hε), h.size, h.nonneg.trans hε⟩
  have := pow_le_pow_right₀ h1 hab; linarith

theorem MNear.mul (hu : 0 ≤ u) {W h : ℝ} {w : Nat} (hw : W = (1 + u) ^ w) (h0 : 0 ≤ h) (hX : MNear u a ε X Ξ N) (hY : MNear u b δ Y Υ L)
    (hP : ‖P - X * Y‖ ≤ (W - 1) * (‖X‖ * ‖Y‖) + h) :
    MNear u (a + b + w) ((1 + u) ^ w * ((1 + u) ^ a * N * δ + ε * ((1 + u) ^ b * L + δ)) + h) P (Ξ * Υ) (N * L) := by
  have h1 : (1 : ℝ) ≤ 1 + u := by linarith
  have hW : 1 ≤ W := hw ▸ one_le_pow₀ h1
  have hN : 0 ≤ N := (norm_nonneg _).trans hX.size
  have hL : 0 ≤ L := (norm_nonneg _).trans hY.size
  have := hX.nonneg
  have := hY.nonneg
  refine ⟨?_, (norm_mul_le _ _).trans (mul_le_mul hX.size hY.size (norm_nonneg _) hN), by positivity⟩
  have e : P - Ξ * Υ = (P - X * Y) + ((X - Ξ) * Y + Ξ * (Y - Υ)) := by noncomm_ring
  rw [e]
  have h2 : ‖(X - Ξ) * Y + Ξ * (Y - Υ)‖ ≤ ‖X - Ξ‖ * ‖Y‖ + ‖Ξ‖ * ‖Y - Υ‖ :=
    (norm_add_le _ _).trans (add_le_add (norm_mul_le _ _) (norm_mul_le _ _))
  refine (norm_add_le _ _).trans ((add_le_add hP h2).trans ((grow (L := L) hX.norm_le hY.norm_le (by linarith [hX.err]) (by linarith [hY.err]) hX.size
    (norm_nonneg _) (norm_nonneg _) (norm_nonneg _) (norm_nonneg _) (norm_nonneg _) hW).trans (le_of_eq ?_)))
  rw [hw, pow_add, pow_add]
  ring

theorem MNear.smul (hu : 0 ≤ u) {h f φ F : ℝ} (h0 : 0 ≤ h) (hX : MNear u a ε X Ξ N) (hf : |f - φ| ≤ ((1 + u) ^ b - 1) * F + δ) (hφ : |φ| ≤ F)
    (δ0 : 0 ≤ δ) (hP : ‖P - f • X‖ ≤ u * (‖X‖ * |f|) + h) :
    MNear u (a + b + 1) ((1 + u) * ((1 + u) ^ a * N * δ + ε * ((1 + u) ^ b * F + δ)) + h) P (φ • Ξ) (N * F) := by
  have h1 : (1 : ℝ) ≤ 1 + u := by linarith
  have hN : 0 ≤ N := (norm_nonneg _).trans hX.size
  have hF : 0 ≤ F := (abs_nonneg _).trans hφ
  have := hX.nonneg
  have hfB : |f| ≤ (1 + u) ^ b * F + δ := by
    have e : f = (f - φ) + φ := by ring
    rw [e]
    exact (abs_add_le _ _).trans ((add_le_add hf hφ).trans (le_of_eq (by ring)))
  refine ⟨?_, ?_, by positivity⟩
  · have e : P - φ • Ξ = (P - f • X) + (f • (X - Ξ) + (f - φ) • Ξ) := by rw [smul_sub, sub_smul]; abel
    rw [e]
    have h2 : ‖f • (X - Ξ) + (f - φ) • Ξ‖ ≤ ‖X - Ξ‖ * |f| + ‖Ξ‖ * |f - φ| := by
      refine (norm_add_le _ _).trans (add_le_add ?_ ?_)
      · exact (norm_smul_le _ _).trans (by rw [Real.norm_eq_abs, mul_comm])
      · exact (norm_smul_le _ _).trans (by rw [Real.norm_eq_abs, mul_comm])
    have hP' : ‖P - f • X‖ ≤ ((1 + u) - 1) * (‖X‖ * |f|) + h := by rwa [add_sub_cancel_left]
    refine (norm_add_le _ _).trans ((add_le_add hP' h2).trans ((grow (L := F) hX.norm_le hfB (by linarith [hX.err]) (by linarith [hf]) hX.size
      (norm_nonneg _) (abs_nonneg _) (norm_nonneg _) (abs_nonneg _) (norm_nonneg _) h1).trans (le_of_eq ?_)))
    rw [pow_add, pow_add, pow_one]
    ring
  · refine (norm_smul_le _ _).trans ?_
    rw [Real.norm_eq_abs, mul_comm]
    exact mul_le_mul hX.size hφ (abs_nonneg _) hN

theorem MNear.add (hu : 0 ≤ u) (hX : MNear u c ε X Ξ N) (hY : MNear u c δ Y Υ L) (hP : ‖P - (X + Y)‖ ≤ u * ‖X + Y‖) :
    MNear u (c + 1) ((1 + u) * (ε + δ)) P (Ξ + Υ) (N + L) := by
  have := hX.nonneg
  have := hY.nonneg
  refine ⟨?_, (norm_add_le _ _).trans (add_le_add hX.size hY.size), by positivity⟩
  have e : P - (Ξ + Υ) = (P - (X + Y)) + ((X - Ξ) + (Y - Υ)) := by abel
  rw [e]
  have h1 : ‖(X - Ξ) + (Y - Υ)‖ ≤ (((1 + u) ^ c - 1) * N + ε) + (((1 + u) ^ c - 1) * L + δ) :=
    (norm_add_le _ _).trans (add_le_add hX.err hY.err)
  have h2 : ‖X + Y‖ ≤ ((1 + u) ^ c * N + ε) + ((1 + u) ^ c * L + δ) := (norm_add_le _ _).trans (add_le_add hX.norm_le hY.norm_le)
  have h3 := mul_le_mul_of_nonneg_left h2 hu
  refine (norm_add_le _ _).trans ((add_le_add hP h1).trans ?_)
  rw [pow_succ]
  linarith

/-- Squaring, when the size is at least one: the underflow counts as another rounding. -/
theorem square_grow {Γ w h W : ℝ} (hΓ : 1 ≤ Γ) (hW : 1 ≤ W) (h0 : 0 ≤ h) (hw : w = W + h) (hN : 1 ≤ N) (hX : ‖X - Ξ‖ ≤ (Γ - 1) * N) (hΞ : ‖Ξ‖ ≤ N)
    (hP : ‖P - X * X‖ ≤ (W - 1) * (‖X‖ * ‖X‖) + h) : ‖P - Ξ ^ 2‖ ≤ (Γ ^ 2 * w - 1) * N ^ 2 := by
  have hXn : ‖X‖ ≤ Γ * N := by
    have e : X = (X - Ξ) + Ξ := by abel
    rw [e]
    exact (norm_add_le _ _).trans ((add_le_add hX hΞ).trans (le_of_eq (by ring)))
  have e : P - Ξ ^ 2 = (P - X * X) + ((X - Ξ) * X + Ξ * (X - Ξ)) := by rw [pow_two]; noncomm_ring
  rw [e]
  have h2 : ‖(X - Ξ) * X + Ξ * (X - Ξ)‖ ≤ ‖X - Ξ‖ * ‖X‖ + ‖Ξ‖ * ‖X - Ξ‖ :=
    (norm_add_le _ _).trans (add_le_add (norm_mul_le _ _) (norm_mul_le _ _))
  have h3 := grow (h := h) (L := N) (dx := ‖X - Ξ‖) (dy := ‖X - Ξ‖) hXn hXn (by linarith) (by linarith) hΞ (norm_nonneg _) (norm_nonneg _) (norm_nonneg _) (norm_nonneg _)
    (norm_nonneg _) hW
  refine (norm_add_le _ _).trans ((add_le_add hP h2).trans (h3.trans ?_))
  have h4 : 1 ≤ (Γ * N) * (Γ * N) := by
    have : 1 ≤ Γ * N := by nlinarith
    nlinarith
  have h5 := mul_le_mul_of_nonneg_left h4 h0
  rw [hw]
  nlinarith

end

section
open scoped Matrix.Norms.Operator
variable {T : Type} [Zero T] [Add T] [Sub T] [Mul T] [CDiv T] {val : T → ℝ} {u η : ℝ} (R : Rounds val u η) {n : Nat}
include R

/-- The computed product of two square matrices. -/
theorem prod_norm_err (E F : Nat → Nat → T) :
    ‖(toM n n fun i j => lsum n fun k => E i k * F k j).map val - (toM n n E).map val * (toM n n F).map val‖ ≤
      ((1 + u) ^ n - 1) * (‖(toM n n E).map val‖ * ‖(toM n n F).map val‖) + n * n * (1 + u) ^ (n - 1) * η := by
  have hu := R.u_nonneg
  have hη := R.η_nonneg
  have h1 : (1 : ℝ) ≤ 1 + u := by linarith
  have hg : 0 ≤ (1 + u) ^ n - 1 := by have := one_le_pow₀ (n := n) h1; linarith
  refine norm_le_of_rows (by positivity) fun i => ?_
  have h2 : ∀ j : Fin n, |((toM n n fun i j => lsum n fun k => E i k * F k j).map val - (toM n n E).map val * (toM n n F).map val) i j| ≤
      ((1 + u) ^ n - 1) * (∑ k : Fin n, |val (E i k)| * |val (F k j)|) + n * (1 + u) ^ (n - 1) * η := by
    intro j
    have := lsum_mul_err R (fun k => E i k) (fun k => F k j) n
    rw [Finset.sum_range, Finset.sum_range] at this
    exact this
  refine (Finset.sum_le_sum fun j _ => h2 j).trans ?_
  rw [Finset.sum_add_distrib, ← Finset.mul_sum, Finset.sum_comm, Finset.sum_const, Finset.card_univ, Fintype.card_fin, nsmul_eq_mul]
  refine add_le_add (mul_le_mul_of_nonneg_left ?_ hg) (le_of_eq (by ring))
  calc ∑ k : Fin n, ∑ j : Fin n, |val (E i k)| * |val (F k j)| = ∑ k : Fin n, |val (E i k)| * ∑ j : Fin n, |val (F k j)| := by
        simp only [Finset.mul_sum]
    _ ≤ ∑ k : Fin n, |val (E i k)| * ‖(toM n n F).map val‖ :=
        Finset.sum_le_sum fun k _ => mul_le_mul_of_nonneg_left (row_sum_le_norm ((toM n n F).map val) k) (abs_nonneg _)
    _ = (∑ k : Fin n, |val (E i k)|) * ‖(toM n n F).map val‖ := by rw [Finset.sum_mul]
    _ ≤ _ := mul_le_mul_of_nonneg_right (row_sum_le_norm ((toM n n E).map val) i) (norm_nonneg _)

/-- The computed multiple of a matrix. -/
theorem smul_norm_err (E : Nat → Nat → T) (f : T) :
    ‖(toM n n fun i j => E i j * f).map val - val f • (toM n n E).map val‖ ≤ u * (‖(toM n n E).map val‖ * |val f|) + n * η := by
  have hu := R.u_nonneg
  have hη := R.η_nonneg
  refine norm_le_of_rows (by positivity) fun i => ?_
  have h2 : ∀ j : Fin n, |((toM n n fun i j => E i j * f).map val - val f • (toM n n E).map val) i j| ≤ u * (|val (E i j)| * |val f|) + η := by
    intro j
    have := R.mul (E i j) f
    rw [abs_mul, mul_comm (val (E i j))] at this
    exact this
  refine (Finset.sum_le_sum fun j _ => h2 j).trans ?_
  rw [Finset.sum_add_distrib, ← Finset.mul_sum, ← Finset.sum_mul, Finset.sum_const, Finset.card_univ, Fintype.card_fin, nsmul_eq_mul]
  refine add_le_add (mul_le_mul_of_nonneg_left ?_ hu) le_rfl
  exact mul_le_mul_of_nonneg_right (row_sum_le_norm ((toM n n E).map val) i) (abs_nonneg _)

/-- The computed sum of two matrices. -/
theorem add_norm_err (E F : Nat → Nat → T) :
    ‖(toM n n fun i j => E i j + F i j).map val - ((toM n n E).map val + (toM n n F).map val)‖ ≤
      u * ‖(toM n n E).map val + (toM n n F).map val‖ := by
  have hu := R.u_nonneg
  refine norm_le_of_rows (by positivity) fun i => ?_
  have h2 : ∀ j : Fin n, |((toM n n fun i j => E i j + F i j).map val - ((toM n n E).map val + (toM n n F).map val)) i j| ≤
      u * |((toM n n E).map val + (toM n n F).map val) i j| := fun j => R.add (E i j) (F i j)
  refine (Finset.sum_le_sum fun j _ => h2 j).trans ?_
  rw [← Finset.mul_sum]
  exact mul_le_mul_of_nonneg_left (row_sum_le_norm _ i) hu

end
end Malg
