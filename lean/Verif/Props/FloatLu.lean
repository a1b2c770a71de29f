import Verif.Lemmas.LuExec
import Verif.Props.FloatLaws
import Mathlib.Algebra.BigOperators.Field
/-!
# Property C84: `lu_decomposition` in floating point
-/
namespace Malg
open Ops Lin

section
variable {T K : Type} [Zero T] [One T] [Add T] [Sub T] [Mul T] [CDiv T] [Field K] [LinearOrder K] [IsStrictOrderedRing K]
  {val : T → K} {u η : K} (R : Rounds val u η)
include R

omit [One T] in
/-- Differences of terms that carry errors themselves. -/
theorem lsub_err {x : T} {ξ : K} {t : Nat → T} {τ : Nat → K} {a k : Nat} {ε : K} (hε : 0 ≤ ε)
    (hx : |val x - ξ| ≤ ((1 + u) ^ a - 1) * |ξ| + ε) (h : ∀ i, i < k → |val (t i) - τ i| ≤ ((1 + u) ^ a - 1) * |τ i| + ε) :
    |val (lsub x k t) - (ξ - ∑ i ∈ Finset.range k, τ i)| ≤
      ((1 + u) ^ (a + k) - 1) * (|ξ| + ∑ i ∈ Finset.range k, |τ i|) + (k + 1) * (1 + u) ^ k * ε := by
  have hu := R.u_nonneg
  have h1 : (1 : K) ≤ 1 + u := by linarith
  induction k with
  | zero => simpa [lsub] using hx
  | succ k ih =>
    have ih := ih fun i hi => h i (by omega)
    have hp := h k (by omega)
    rw [lsub, Finset.sum_range_succ, Finset.sum_range_succ]
    set s := val (lsub x k t)
    set S := ξ - ∑ i ∈ Finset.range k, τ i with hS
    set Q := |ξ| + ∑ i ∈ Finset.range k, |τ i| with hQd
    have hSQ : |S| ≤ Q := (abs_sub _ _).trans (add_le_add le_rfl (Finset.abs_sum_le_sum_abs _ _))
    have hsub := R.sub (lsub x k t) (t k)
    have hs : |s - val (t k)| ≤ |s - S| + |val (t k) - τ k| + (|S| + |τ k|) := by
      have e : s - val (t k) = ((s - S) - (val (t k) - τ k)) + (S - τ k) := by ring
      rw [e]
      exact (abs_add_le _ _).trans (add_le_add (abs_sub _ _) (abs_sub _ _))
    have e1 : val (lsub x k t - t k) - (ξ - (∑ i ∈ Finset.range k, τ i + τ k)) =
        (val (lsub x k t - t k) - (s - val (t k))) + ((s - S) - (val (t k) - τ k)) := by rw [hS]; ring
    have hmain : |val (lsub x k t - t k) - (ξ - (∑ i ∈ Finset.range k, τ i + τ k))| ≤
        (1 + u) * (|s - S| + |val (t k) - τ k|) + u * (Q + |τ k|) := by
      rw [e1]
      have := (abs_add_le (val (lsub x k t - t k) - (s - val (t k))) ((s - S) - (val (t k) - τ k))).trans
        (add_le_add hsub (abs_sub _ _))
      have h2 := mul_le_mul_of_nonneg_left (hs.trans (add_le_add le_rfl (add_le_add hSQ le_rfl))) hu
      linarith
    have hτ := abs_nonneg (τ k)
    have hpow : (1 + u) ^ a ≤ (1 + u) ^ (a + k) := pow_le_pow_right₀ h1 (by omega)
    have hone : 1 ≤ (1 + u) ^ k := one_le_pow₀ h1
    have h3 : (1 + u) * (|s - S| + |val (t k) - τ k|) ≤
        (1 + u) * ((((1 + u) ^ (a + k) - 1) * Q + (k + 1) * (1 + u) ^ k * ε) +
          (((1 + u) ^ (a + k) - 1) * |τ k| + (1 + u) ^ k * ε)) := by
      apply mul_le_mul_of_nonneg_left _ (by linarith)
      have := mul_le_mul_of_nonneg_right hpow hτ
      have := mul_le_mul_of_nonneg_right hone hε
      linarith
    rw [← add_assoc a, pow_succ, pow_succ]
    push_cast
    refine hmain.trans ((add_le_add_left h3 _).trans (le_of_eq ?_))
    rw [hQd]
    ring

omit [One T] in
/-- A product divided by a number. -/
theorem quo_mul_err {y z l : T} (hl : val l ≠ 0) :
    |val (quo (y * z) l) - val y * val z / val l| ≤ ((1 + u) ^ 2 - 1) * |val y * val z / val l| + ((1 + u) * η / |val l| + η) := by
  have hu := R.u_nonneg
  obtain ⟨q, h1, h2⟩ := R.div (y * z) l hl
  have e : quo (y * z) l = q := by unfold quo; rw [h1]
  rw [e]
  have hl' : 0 < |val l| := abs_pos.2 hl
  have hm := R.mul y z
  have h3 : |val (y * z) / val l - val y * val z / val l| ≤ u * |val y * val z / val l| + η / |val l| := by
    rw [← sub_div, abs_div, abs_div, ← mul_div_assoc, ← add_div]
    exact div_le_div_of_nonneg_right hm hl'.le
  have h4 : |val (y * z) / val l| ≤ |val (y * z) / val l - val y * val z / val l| + |val y * val z / val l| := by
    have := abs_add_le (val (y * z) / val l - val y * val z / val l) (val y * val z / val l)
    rwa [sub_add_cancel] at this
  have h5 := abs_add_le (val q - val (y * z) / val l) (val (y * z) / val l - val y * val z / val l)
  rw [sub_add_sub_cancel] at h5
  have h6 := mul_le_mul_of_nonneg_left h4 hu
  have h7 := mul_le_mul_of_nonneg_left h3 (by linarith : 0 ≤ 1 + u)
  have e : (1 + u) ^ 2 - 1 = u + u * (1 + u) := by ring
  rw [mul_div_assoc (1 + u), e, add_mul]
  linarith

/-- C84, the part that holds: for a returned pair, the product of the factors (in exact arithmetic) differs from `A` in every entry by at most
`(1 + u)^n - 1` times `|A| + |L| |U|`, plus a term for underflow; the factors are triangular. Missing: a bound by `|A|` alone. -/
theorem C84_backward_partial (one : val 1 = 1) (hz : ∀ y : T, val y = 0 → ∀ x, cdiv x y = .ub .divZero)
    {A : MB T} {n : Nat} {M : Matrix (Fin n) (Fin n) T} (hA : A.Is M) {L U : Mat T} (hr : lu A = .ok (L, U)) :
    ∃ ML MU : Matrix (Fin n) (Fin n) T, L.WF ∧ U.WF ∧ L.toMB.Is ML ∧ U.toMB.Is MU ∧ (∀ i j, i < j → ML i j = 0) ∧
      (∀ i j, j < i → MU i j = 0) ∧ (∀ i, MU i i = 1) ∧ ∀ i j,
        |(ML.map val * MU.map val) i j - val (M i j)| ≤
          ((1 + u) ^ n - 1) * (|val (M i j)| + (ML.map (|val ·|) * MU.map (|val ·|)) i j) +
            n * (1 + u) ^ n * (1 + |val (ML i i)|) * η := by
  have hu := R.u_nonneg
  have hη := R.η_nonneg
  have h1u : (1 : K) ≤ 1 + u := by linarith
  obtain ⟨a, h, rfl⟩ := hA
  have hdiv : ∀ y : T, Divisor y ∨ ∀ x, cdiv x y = .ub .divZero := by
    intro y
    by_cases hy : val y = 0
    · exact .inr (hz y hy)
    · left
      intro x
      obtain ⟨z, h1, -⟩ := R.div x y hy
      rw [h1]; unfold quo; rw [h1]
  rcases lu_exec h.toRepAt hdiv with ⟨l, v, e, h2⟩ | e
  swap
  · rw [e] at hr; cases hr
  rw [e] at hr
  injection hr with hr
  injection hr with e1 e2
  subst e1 e2
  refine ⟨toM n n l, toM n n v, (ofFn_holds h.fits l).wf, (ofFn_holds h.fits v).wf, (ofFn_rep h.fits l).is, (ofFn_rep h.fits v).is,
    fun i j hij => h2.l_up i j i.2 j.2 hij, fun i j hij => h2.u_low i j i.2 j.2 hij, fun i => h2.u_one i i.2, fun i j => ?_⟩
  rw [Matrix.mul_apply, Matrix.mul_apply]
  simp only [Matrix.map_apply, toM_apply]
  rw [← Finset.sum_range (fun k => val (l i k) * val (v k j)), ← Finset.sum_range (fun k => |val (l i k)| * |val (v k j)|)]
  obtain ⟨i, hi⟩ := i
  obtain ⟨j, hj⟩ := j
  dsimp only
  have hn : ((1 : K) + u) ^ n = (1 + u) ^ n := rfl
  have hpown : ∀ k, k ≤ n → (1 + u) ^ k ≤ (1 + u) ^ n := fun k hk => pow_le_pow_right₀ h1u hk
  have hcut : ∀ (m : Nat) (f : Nat → K), m < n → (∀ k, m < k → k < n → f k = 0) →
      ∑ k ∈ Finset.range n, f k = ∑ k ∈ Finset.range m, f k + f m := by
    intro m f hm h0
    rw [← Finset.sum_range_add_sum_Ico _ (show m + 1 ≤ n by omega), Finset.sum_range_succ,
      Finset.sum_eq_zero (s := Finset.Ico (m + 1) n), add_zero]
    intro k hk
    have := Finset.mem_Ico.1 hk
    exact h0 k (by omega) (by omega)
  by_cases hij : j ≤ i
  · have hv0 : ∀ k, j < k → k < n → val (v k j) = 0 := fun k h3 h4 => by rw [h2.u_low k j h4 hj h3, R.zero]
    rw [hcut j _ hj (fun k h3 h4 => by rw [hv0 k h3 h4, mul_zero]), hcut j _ hj (fun k h3 h4 => by rw [hv0 k h3 h4, abs_zero, mul_zero]),
      h2.u_one j hj, one, mul_one, abs_one, mul_one]
    have := lsub_err R (x := a i j) (ξ := val (a i j)) (t := fun k => l i k * v k j) (τ := fun k => val (l i k) * val (v k j))
      (a := 1) (k := j) hη (by rw [sub_self, abs_zero, pow_one, add_sub_cancel_left]; positivity)
      (fun k _ => by rw [pow_one, add_sub_cancel_left]; exact R.mul _ _)
    rw [← h2.l_low i j hi hj hij] at this
    simp only [abs_mul] at this
    have e : ∑ k ∈ Finset.range j, val (l i k) * val (v k j) + val (l i j) - val (a i j) =
      val (l i j) - (val (a i j) - ∑ k ∈ Finset.range j, val (l i k) * val (v k j)) := by ring
    rw [e]
    refine this.trans (add_le_add ?_ ?_)
    · apply mul_le_mul
      · have := hpown (1 + j) (by omega); linarith
      · have := abs_nonneg (val (l i j)); linarith
      · have : 0 ≤ ∑ k ∈ Finset.range j, |val (l i k)| * |val (v k j)| :=
          Finset.sum_nonneg fun k _ => mul_nonneg (abs_nonneg _) (abs_nonneg _)
        positivity
      · have := one_le_pow₀ (n := n) h1u; linarith
    · have h3 : ((j : K) + 1) ≤ n := by exact_mod_cast hj
      have h4 := hpown j hj.le
      have h5 : 1 ≤ 1 + |val (l i i)| := by have := abs_nonneg (val (l i i)); linarith
      apply mul_le_mul_of_nonneg_right _ hη
      calc ((j : K) + 1) * (1 + u) ^ j ≤ n * (1 + u) ^ n := mul_le_mul h3 h4 (by positivity) (Nat.cast_nonneg n)
        _ ≤ _ := le_mul_of_one_le_right (by positivity) h5
  · have hl0 : ∀ k, i < k → k < n → val (l i k) = 0 := fun k h3 h4 => by rw [h2.l_up i k hi h4 h3, R.zero]
    rw [hcut i _ hi (fun k h3 h4 => by rw [hl0 k h3 h4, zero_mul]), hcut i _ hi (fun k h3 h4 => by rw [hl0 k h3 h4, abs_zero, zero_mul])]
    have hp : val (l i i) ≠ 0 := fun h0 => by
      have := h2.piv i hi (by omega) 0
      rw [hz _ h0] at this; cases this
    have hp' := abs_pos.2 hp
    have hε : 0 ≤ (1 + u) * η / |val (l i i)| + η := by positivity
    obtain ⟨q, hq1, hq2⟩ := R.div (a i j) (l i i) hp
    have hq : quo (a i j) (l i i) = q := by unfold quo; rw [hq1]
    have := lsub_err R (x := quo (a i j) (l i i)) (ξ := val (a i j) / val (l i i)) (t := fun k => quo (l i k * v k j) (l i i))
      (τ := fun k => val (l i k) * val (v k j) / val (l i i)) (a := 2) (k := i) hε
      (by
        rw [hq]
        have h3 := abs_nonneg (val (a i j) / val (l i i))
        have h4 : 0 ≤ (1 + u) * η / |val (l i i)| := by positivity
        have h5 := mul_nonneg (mul_nonneg hu (by linarith : 0 ≤ 1 + u)) h3
        have e : (1 + u) ^ 2 - 1 = u + u * (1 + u) := by ring
        rw [e, add_mul]
        linarith)
      (fun k _ => quo_mul_err R hp)
    rw [← h2.u_up i j hi hj (by omega)] at this
    have h3 := mul_le_mul_of_nonneg_left this hp'.le
    rw [← abs_mul, mul_sub, mul_sub, mul_div_cancel₀ _ hp, ← Finset.sum_div, mul_div_cancel₀ _ hp] at h3
    simp only [abs_div, abs_mul] at h3
    rw [← Finset.sum_div, ← add_div, mul_add, ← mul_assoc, mul_comm |val (l i i)| ((1 + u) ^ (2 + i) - 1), mul_assoc,
      mul_div_cancel₀ _ hp'.ne'] at h3
    have e : ∑ k ∈ Finset.range i, val (l i k) * val (v k j) + val (l i i) * val (v i j) - val (a i j) =
      val (l i i) * val (v i j) - (val (a i j) - ∑ k ∈ Finset.range i, val (l i k) * val (v k j)) := by ring
    rw [e]
    refine h3.trans (add_le_add ?_ ?_)
    · apply mul_le_mul
      · have := hpown (2 + i) (by omega); linarith
      · have := mul_nonneg (abs_nonneg (val (l i i))) (abs_nonneg (val (v i j))); linarith
      · have : 0 ≤ ∑ k ∈ Finset.range i, |val (l i k)| * |val (v k j)| :=
          Finset.sum_nonneg fun k _ => mul_nonneg (abs_nonneg _) (abs_nonneg _)
        positivity
      · have := one_le_pow₀ (n := n) h1u; linarith
    · have h4 : ((i : K) + 1) ≤ n := by exact_mod_cast hi
      have h5 : (1 + u) ^ (i + 1) ≤ (1 + u) ^ n := hpown _ (by omega)
      have e : |val (l i i)| * ((i + 1) * (1 + u) ^ i * ((1 + u) * η / |val (l i i)| + η)) =
          (i + 1) * ((1 + u) ^ (i + 1) + (1 + u) ^ i * |val (l i i)|) * η := by
        rw [pow_succ]; field_simp
      rw [e]
      apply mul_le_mul_of_nonneg_right _ hη
      have h6 : (1 + u) ^ i ≤ (1 + u) ^ n := hpown _ hi.le
      calc ((i : K) + 1) * ((1 + u) ^ (i + 1) + (1 + u) ^ i * |val (l i i)|)
          ≤ n * ((1 + u) ^ n + (1 + u) ^ n * |val (l i i)|) :=
            mul_le_mul h4 (add_le_add h5 (mul_le_mul_of_nonneg_right h6 hp'.le)) (by positivity) (Nat.cast_nonneg n)
        _ = _ := by ring

end

/-- The hypotheses of `C84_backward_partial` hold for floating point numbers; a returned pair has no zero pivot, and otherwise the
code divides by zero. -/
theorem C84_float {K : Type} [Field K] [LinearOrder K] [IsStrictOrderedRing K] [FloorRing K] {p : ℕ} {emin : ℤ} (hp : 1 ≤ p) (he : emin ≤ 0) :
    (1 : Fl K p emin).val = 1 ∧ (∀ y : Fl K p emin, y.val = 0 → ∀ x, cdiv x y = .ub .divZero) := by
  refine ⟨?_, fun y hy x => if_pos hy⟩
  have := rnd_intCast (K := K) (p := p) (emin := emin) (z := 1) hp he (by rw [abs_one]; exact one_le_pow₀ (by norm_num))
  rw [Int.cast_one] at this
  exact this

/-- C84 for `double` (without overflow). -/
theorem C84_double_partial {A : MB Double} {n : Nat} {M : Matrix (Fin n) (Fin n) Double} (hA : A.Is M) (hn : n ≤ 2 ^ 52) :
    lu A = .ub .divZero ∨ ∃ L U, lu A = .ok (L, U) ∧
    ∃ ML MU : Matrix (Fin n) (Fin n) Double, L.WF ∧ U.WF ∧ L.toMB.Is ML ∧ U.toMB.Is MU ∧ (∀ i j, i < j → ML i j = 0) ∧
      (∀ i j, j < i → MU i j = 0) ∧ (∀ i, MU i i = 1) ∧ ∀ i j,
        |(ML.map Fl.val * MU.map Fl.val) i j - (M i j).val| ≤
          n / 2 ^ 52 * (|(M i j).val| + (ML.map (|Fl.val ·|) * MU.map (|Fl.val ·|)) i j) + n * (1 + |(ML i i).val|) / 2 ^ 1074 := by
  have hone := (C84_float (K := ℚ) (p := 53) (emin := -1074) (by norm_num) (by norm_num)).1
  have hz := (C84_float (K := ℚ) (p := 53) (emin := -1074) (by norm_num) (by norm_num)).2
  have R := Fl.rounds ℚ (p := 53) (by norm_num) (-1074)
  have hdiv : ∀ y : Double, Divisor y ∨ ∀ x, cdiv x y = .ub .divZero := by
    intro y
    by_cases hy : y.val = 0
    · exact .inr (hz y hy)
    · left
      intro x
      obtain ⟨z, h1, -⟩ := R.div x y hy
      rw [h1]; unfold quo; rw [h1]
  have hc : lu A = .ub .divZero ∨ ∃ L U, lu A = .ok (L, U) := by
    obtain ⟨a, h, rfl⟩ := hA
    rcases lu_exec h.toRepAt hdiv with ⟨l, v, e, -⟩ | e
    · exact .inr ⟨_, _, e⟩
    · exact .inl e
  rcases hc with e | ⟨L, U, e⟩
  · exact .inl e
  obtain ⟨ML, MU, h1, h2, h3, h4, h5, h6, h7, h8⟩ := C84_backward_partial R hone hz hA e
  refine .inr ⟨L, U, e, ML, MU, h1, h2, h3, h4, h5, h6, h7, fun i j => (h8 i j).trans ?_⟩
  have hu : (2 : ℚ) ^ (-((53 : ℕ) : ℤ)) = 1 / 2 ^ 53 := by norm_num
  rw [hu, two_zpow_emin]
  have hpos : 0 ≤ |(M i j).val| + (ML.map (|Fl.val ·|) * MU.map (|Fl.val ·|)) i j := by
    rw [Matrix.mul_apply]
    exact add_nonneg (abs_nonneg _) (Finset.sum_nonneg fun l _ => mul_nonneg (abs_nonneg _) (abs_nonneg _))
  apply add_le_add (mul_le_mul_of_nonneg_right (double_factor hn) hpos)
  have h9 := double_factor_le hn
  generalize hq : (1 : ℚ) / 2 ^ 1074 = q
  have hq0 : 0 ≤ q := by rw [← hq]; exact div_nonneg zero_le_one (pow_nonneg zero_le_two _)
  rw [div_eq_mul_one_div _ ((2 : ℚ) ^ 1074), hq]
  have hl := abs_nonneg (ML i i).val
  have hn0 : (0 : ℚ) ≤ n := Nat.cast_nonneg n
  have := mul_le_mul_of_nonneg_right h9 (mul_nonneg (mul_nonneg hn0 (by linarith : 0 ≤ 1 + |(ML i i).val|)) hq0)
  linarith

/-- C84 is false: there is no pivoting, so the error can be as large as the matrix. In `double`, the product of the factors of
`[2^-60 1; 1 1]` is `[2^-60 1; 1 0]`. -/
theorem C84_growth_false : ∃ L U : Mat Double, lu (⟨2, 2, doubles [1 / 2 ^ 60, 1, 1, 1]⟩ : Mat Double).toMB = .ok (L, U) ∧
    mul L.toMB U.toMB = .ok ⟨2, 2, doubles [1 / 2 ^ 60, 1, 1, 0]⟩ := by
  refine ⟨⟨2, 2, doubles [1 / 2 ^ 60, 0, 1, -2 ^ 60]⟩, ⟨2, 2, doubles [1, 2 ^ 60, 0, 1]⟩, ?_, ?_⟩ <;> decide +kernel

end Malg
