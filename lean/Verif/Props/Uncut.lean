import Verif.Props.ScaleNum
import Verif.Props.DominantDet
/-!
# Property C144: matrices whose elimination runs through all columns

Regular matrices of exact numbers, and matrices in floating point that are diagonally dominant by more than the rounding errors.
-/
namespace Malg
open Ops Lin Feq

/-- C144: the elimination of a regular matrix of exact numbers is not cut. -/
theorem C144_regular_exact {K : Type} [Field K] [DecidableEq K] {isz : K → Bool} (hz : ∀ x, isz x = true ↔ x = 0) {A : MB K} {n : Nat}
    {M : Matrix (Fin n) (Fin n) K} (hA : A.Is M) : (M.det ≠ 0 → Uncut isz A) := by
  obtain ⟨e, h, rfl⟩ := hA
  intro hd B hB s hs
  rw [Mat.ofMB_eq h id] at hB
  injection hB with hB
  subst hB
  change forRange 0 n _ (fun c s => elimStep isz n c s) = .ok s at hs
  obtain ⟨s', h1, h2⟩ := forRange_inv (Nat.zero_le n) (ElimInv (toM n n e)) (s := ⟨Mat.ofFn n n e, 1, false⟩)
    (body := fun c s => elimStep isz n c s)
    (.inr ⟨e, 1, rfl, fun i j _ hj _ => absurd hj (Nat.not_lt_zero j), one_ne_zero, one_mul _, by simp, one_ne_zero⟩)
    (fun c s _ hc h' => elim_inv hz h.fits _ hc s h')
  have e1 : (Mat.ofFn n n fun r c => id (e r c)) = Mat.ofFn n n e := rfl
  rw [← e1] at h1
  rw [h1] at hs
  injection hs with hs
  subst hs
  rcases h2 with ⟨-, h, -⟩ | ⟨E, g, h, -⟩
  · exact absurd h hd
  · rw [h]

section
variable {T K : Type} [Zero T] [One T] [Add T] [Sub T] [Mul T] [Neg T] [CDiv T] [Field K] [LinearOrder K] [IsStrictOrderedRing K]
  {val : T → K} {u η : K} {isz : T → Bool}

/-- C144: neither is that of a diagonally dominant matrix in floating point. -/
theorem C144_dominant (R : Rounds val u η) (hz : ∀ x, isz x = true ↔ val x = 0) {A : MB T} {n : Nat} {M : Matrix (Fin n) (Fin n) T}
    (hA : A.Is M) {G ε : K} (hG : ∀ i, 2 * ∑ j, |val (M i j)| ≤ G) (hε : ((1 + u) ^ 3 - 1) * G + (1 + u) ^ 2 * η * (n + G) ≤ ε)
    (hdom : ∀ i, ∑ j ∈ Finset.univ.erase i, |val (M i j)| + n * ε < |val (M i i)|) : Uncut isz A := by
  obtain ⟨a, h, rfl⟩ := hA
  intro B hB s hs
  rw [Mat.ofMB_eq h id] at hB
  injection hB with hB
  subst hB
  change forRange 0 n _ (fun c s => elimStep isz n c s) = .ok s at hs
  obtain ⟨e, d, h1, -⟩ := dominant_run R hz h.fits hG hε hdom le_rfl
  have e1 : (Mat.ofFn n n fun r c => id (a r c)) = Mat.ofFn n n a := rfl
  rw [← e1] at h1
  rw [h1] at hs
  injection hs with hs
  subst hs
  rfl
end

section
variable {K : Type} [Field K] [LinearOrder K] [IsStrictOrderedRing K] [FloorRing K] {p : ℕ}

theorem rndW_err (p : ℕ) (x : K) : |rndW p x - x| ≤ 2 ^ (-(p : ℤ)) * |x| := by
  by_cases hx : x = 0
  · subst hx; simp [rndW, rne]
  have hx' := abs_pos.2 hx
  have hl : (2 : K) ^ Int.log 2 |x| ≤ |x| := by exact_mod_cast Int.zpow_log_le_self (R := K) (b := 2) (by norm_num) hx'
  rw [rndW_eq (emin := Int.log 2 |x| + 1 - p) (.inr (by rw [show Int.log 2 |x| + 1 - (p : ℤ) + p - 1 = Int.log 2 |x| by ring]; exact hl))]
  refine (rnd_err_ulp p _ x).trans ?_
  unfold lastExp
  rw [max_self, show Int.log 2 |x| + 1 - (p : ℤ) = -(p : ℤ) + Int.log 2 |x| + 1 by ring, zpow_add_one₀ two_ne_zero, zpow_add₀ two_ne_zero,
    mul_div_cancel_right₀ _ two_ne_zero]
  exact mul_le_mul_of_nonneg_left hl (two_zpow_pos _).le

theorem rndW_exact (hp : 1 ≤ p) {x : K} (h : IsWide p x) : rndW p x = x := by
  obtain ⟨m, e, hm, he⟩ := h
  by_cases hx : x = 0
  · subst hx; simp [rndW, rne]
  have hx' := abs_pos.2 hx
  have hl : (2 : K) ^ Int.log 2 |x| ≤ |x| := by exact_mod_cast Int.zpow_log_le_self (R := K) (b := 2) (by norm_num) hx'
  rw [rndW_eq (emin := min (Int.log 2 |x| + 1 - p) e) (.inr ((zpow_le_zpow_right₀ one_le_two (by omega)).trans hl))]
  exact rnd_exact hp ⟨m, e, min_le_right _ _, hm, he⟩

/-- Floating point numbers without limits round without an absolute error. -/
theorem Wide.rounds (K : Type) [Field K] [LinearOrder K] [IsStrictOrderedRing K] [FloorRing K] {p : ℕ} (hp : 1 ≤ p) :
    Rounds (Wide.val : Wide K p → K) (2 ^ (-(p : ℤ))) 0 where
  u_nonneg := (two_zpow_pos _).le
  η_nonneg := le_rfl
  zero := rfl
  zero_add x := by
    show rndW p (0 + x.val) = x.val
    rw [_root_.zero_add, rndW_exact hp x.isWide]
  add x y := rndW_err p _
  sub x y := rndW_err p _
  mul x y := by rw [add_zero]; exact rndW_err p _
  div x y h := ⟨_, if_neg h, by rw [add_zero]; exact rndW_err p _⟩

/-- C144: determinants of badly scaled matrices. If a matrix is diagonally dominant in some units that are powers of two then its determinant is as good as in
these units: with a relative error of about `n δ / g`. Neither the sizes of its entries nor dominance in the units it is given in matter. -/
theorem C144_equilibrated (hp : 3 ≤ p) {t : Wide K p} (h0 : 0 < t.val) (h1 : t.val ≤ 1 / 4) {A : MB (Wide K p)} {n : Nat} (hn : 4 < n)
    {M : Matrix (Fin n) (Fin n) (Wide K p)} (hA : A.Is M) {r s : Nat → ℤ} {N : Matrix (Fin n) (Fin n) K}
    (hN : ∀ i j, (M i j).val = 2 ^ (r i - s j) * N i j) {G g δ : K} (hG : ∀ i, 2 * ∑ j, |N i j| ≤ G) (hδ : n ^ 2 * (4 * 2 ^ (-(p : ℤ)) * G) ≤ δ) (hδg : δ < g)
    (hdom : ∀ i, ∑ j ∈ Finset.univ.erase i, |N i j| + g ≤ |N i i|) :
    ∃ d, determinant (approxZero Wide.abs t) A = .ok d ∧
      |d.val - (M.map Wide.val).det| ≤ ((1 + 2 ^ (-(p : ℤ))) ^ n * (1 + δ / (g - δ)) ^ n - 1) * |(M.map Wide.val).det| := by
  have hu8 : (2 : K) ^ (-(p : ℤ)) ≤ 1 / 8 := by
    calc (2 : K) ^ (-(p : ℤ)) ≤ 2 ^ (-3 : ℤ) := zpow_le_zpow_right₀ (by norm_num) (by omega)
      _ = 1 / 8 := by norm_num
  have hz := Wide.approxZero_iff (K := K) (p := p) (by omega) h0 h1
  have R := Wide.rounds K (p := p) (by omega)
  have hN' : ∀ i j, N i j = 2 ^ (s j - r i) * (M i j).val := fun i j => by
    rw [hN, ← mul_assoc, ← zpow_add₀ two_ne_zero]; simp
  have hw : ∀ i j, IsWide p (N i j) := fun i j => by
    obtain ⟨m, e, hm, he⟩ := (M i j).isWide
    exact ⟨m, s j - r i + e, hm, by rw [hN', he, zpow_add₀ two_ne_zero]; ring⟩
  set W : Matrix (Fin n) (Fin n) (Wide K p) := Matrix.of fun i j => ⟨N i j, hw i j⟩ with hW
  have hWv : W.map Wide.val = N := rfl
  obtain ⟨B, hB⟩ : ∃ B : MB (Wide K p), B.Is W := by
    obtain ⟨a, h, -⟩ := hA
    refine ⟨_, _, ofFn_rep (e := fun i j => if h : i < n ∧ j < n then W ⟨i, h.1⟩ ⟨j, h.2⟩ else 0) h.fits, ?_⟩
    funext i j
    rw [toM_apply, dif_pos ⟨i.2, j.2⟩]
  have hone : (1 : Wide K p).val = 1 := rndW_exact (by omega) ⟨1, 0, by simpa using one_le_pow₀ (n := p) (one_le_two (α := ℤ)), by simp⟩
  obtain ⟨d, h2, h3⟩ := C137_relative R hone (fun x => by
    show rndW p (x.val * (-(1 : Wide K p).val)) = _
    rw [hone, mul_neg_one]
    exact rndW_exact (by omega) x.isWide.neg) hu8 hz hn hB (G := G) (g := g) (δ := δ) hG (by simpa using hδ) hδg hdom
  have hU : Uncut (approxZero Wide.abs t) B := by
    refine C144_dominant R hz hB (G := G) (ε := ((1 + 2 ^ (-(p : ℤ))) ^ 3 - 1) * G) hG (by simp) fun i => ?_
    have h4 : (n : K) * (((1 + 2 ^ (-(p : ℤ))) ^ 3 - 1) * G) ≤ n ^ 2 * (4 * 2 ^ (-(p : ℤ)) * G) := by
      have hu : (0 : K) ≤ 2 ^ (-(p : ℤ)) := (two_zpow_pos _).le
      have hG0 : 0 ≤ G := by
        have h1 := hG ⟨0, by omega⟩
        have : 0 ≤ ∑ j, |N ⟨0, by omega⟩ j| := Finset.sum_nonneg fun _ _ => abs_nonneg _
        linarith
      have hn1 : (1 : K) ≤ n := by exact_mod_cast (by omega : 1 ≤ n)
      have h2 : (1 + (2 : K) ^ (-(p : ℤ))) ^ 3 - 1 ≤ 4 * 2 ^ (-(p : ℤ)) := by nlinarith [mul_nonneg hu hu]
      have h5 := mul_le_mul_of_nonneg_right h2 hG0
      have h6 : (n : K) ≤ n ^ 2 := by nlinarith
      exact mul_le_mul h6 h5 (mul_nonneg (sub_nonneg.2 (one_le_pow₀ (by linarith))) hG0) (by positivity)
    have := hdom i
    show ∑ j ∈ Finset.univ.erase i, |N i j| + _ < |N i i|
    linarith
  obtain ⟨x, x', h4, h5, -, h6⟩ := C144_determinant (C144_wide hz) hB hA (r := fun i => ((1 : ℤˣ), Multiplicative.ofAdd (r i)))
    (s := fun i => ((1 : ℤˣ), Multiplicative.ofAdd (s i))) (fun i j => by
      show (M i j).val = _ * N i j
      rw [hN]
      simp)
  rw [h2] at h4
  injection h4 with h4
  subst h4
  have h6 := h6 (.inr hU)
  rw [← signPow_val, map_prod, Units.coe_prod] at h6
  have h7 : ∀ i, ((signPow K (((1 : ℤˣ), Multiplicative.ofAdd (r i)) / ((1 : ℤˣ), Multiplicative.ofAdd (s i))) : Kˣ) : K) = 2 ^ (r i) * (2 ^ (s i))⁻¹ := fun i => by
    rw [signPow_val]
    simp [div_eq_mul_inv, zpow_add₀]
  simp only [h7] at h6
  have h8 : (M.map Wide.val).det = (∏ i ∈ Finset.range n, (2 : K) ^ (r i) * (2 ^ (s i))⁻¹) * N.det := by
    have : M.map Wide.val = Matrix.diagonal (fun i : Fin n => (2 : K) ^ (r i)) * N * Matrix.diagonal fun i : Fin n => ((2 : K) ^ (s i))⁻¹ := by
      ext i j
      rw [Matrix.mul_diagonal, Matrix.diagonal_mul, Matrix.map_apply, hN, zpow_sub₀ two_ne_zero]
      ring
    rw [this, Matrix.det_mul, Matrix.det_mul, Matrix.det_diagonal, Matrix.det_diagonal, Finset.prod_mul_distrib, Finset.prod_range, Finset.prod_range]
    ring
  refine ⟨x', h5, ?_⟩
  rw [h6, h8, ← mul_sub, abs_mul, abs_mul]
  rw [hWv] at h3
  have := mul_le_mul_of_nonneg_left h3 (abs_nonneg (∏ i ∈ Finset.range n, (2 : K) ^ (r i) * (2 ^ (s i))⁻¹))
  simp only [mul_zero, add_zero] at this
  linarith
end

/-- A matrix with entries between `2 ^ -400` and `2 ^ 400`, far from diagonally dominant. In the right units it has 4 on the diagonal and 1/2 elsewhere. -/
def wild5 : Mat (Wide ℚ 53) := Mat.ofFn 5 5 fun i j => Wide.of 53 (2 ^ (100 * ((i : ℤ) - j)) * if i = j then 4 else 1 / 2)

set_option exponentiation.threshold 3000 in
example : ∃ d, determinant (approxZero Wide.abs (Wide.of 53 (1 / 2 ^ 20))) wild5.toMB = .ok d ∧ |d.val - 7203 / 8| ≤ 1 / 10 ^ 9 := by
  have hN : ∀ i j : Fin 5, (Wide.of 53 ((2 : ℚ) ^ (100 * ((i : ℤ) - j)) * if (i : ℕ) = j then 4 else 1 / 2)).val =
      2 ^ (100 * (i : ℤ) - 100 * (j : ℤ)) * (Matrix.of fun i j : Fin 5 => if i = j then (4 : ℚ) else 1 / 2) i j := by decide +kernel
  have hd : (Matrix.map (toM 5 5 fun i j => Wide.of 53 ((2 : ℚ) ^ (100 * ((i : ℤ) - j)) * if i = j then 4 else 1 / 2)) Wide.val).det = 7203 / 8 := by
    decide +kernel
  obtain ⟨d, h1, h2⟩ := C144_equilibrated (K := ℚ) (p := 53) (t := Wide.of 53 (1 / 2 ^ 20)) (by norm_num) (by decide +kernel) (by decide +kernel) (n := 5) (by norm_num)
    (A := wild5.toMB) (M := toM 5 5 fun i j => Wide.of 53 ((2 : ℚ) ^ (100 * ((i : ℤ) - j)) * if i = j then 4 else 1 / 2))
    ⟨_, ofFn_rep (by decide +kernel) _, rfl⟩ (r := fun i => 100 * i) (s := fun i => 100 * i) hN (G := 12) (g := 2) (δ := 1200 / 2 ^ 53)
    (by decide +kernel) (by norm_num) (by norm_num) (by decide +kernel)
  refine ⟨d, h1, ?_⟩
  rw [hd] at h2
  exact h2.trans (by norm_num [abs_of_nonneg])
end Malg
