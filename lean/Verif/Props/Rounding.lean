import Verif.Lemmas.Float
import Verif.Props.Arith
import Verif.Props.VecOps
import Verif.Props.Reduce
import Mathlib.Algebra.Order.BigOperators.Group.Finset
import Mathlib.Algebra.Order.BigOperators.Ring.Finset
/-!
# Property C79: rounding errors of sums and products
-/
namespace Malg
open Ops

section
variable {T K : Type} [Zero T] [Add T] [Sub T] [Mul T] [CDiv T] [Field K] [LinearOrder K] [IsStrictOrderedRing K]
  {val : T → K} {u η : K} (R : Rounds val u η)
include R

/-- Summation of terms that carry errors themselves. -/
theorem lsum_err {t : Nat → T} {τ : Nat → K} {a k : Nat} {ε : K} (hε : 0 ≤ ε)
    (h : ∀ i, i < k → |val (t i) - τ i| ≤ ((1 + u) ^ a - 1) * |τ i| + ε) :
    |val (lsum k t) - ∑ i ∈ Finset.range k, τ i| ≤
      ((1 + u) ^ (a + (k - 1)) - 1) * ∑ i ∈ Finset.range k, |τ i| + k * (1 + u) ^ (k - 1) * ε := by
  have hu := R.u_nonneg
  have h1 : (1 : K) ≤ 1 + u := by linarith
  induction k with
  | zero => simp [lsum, R.zero]
  | succ k ih =>
    rw [lsum, Finset.sum_range_succ, Finset.sum_range_succ]
    by_cases hk : k = 0
    · subst hk
      rw [lsum, R.zero_add]
      simpa using h 0 (by omega)
    have ih := ih fun i hi => h i (by omega)
    have hp := h k (by omega)
    set s := val (lsum k t)
    set S := ∑ i ∈ Finset.range k, τ i
    set Q := ∑ i ∈ Finset.range k, |τ i|
    have hSQ : |S| ≤ Q := Finset.abs_sum_le_sum_abs _ _
    have hadd := R.add (lsum k t) (t k)
    have hs : |s + val (t k)| ≤ |s - S| + |val (t k) - τ k| + (|S| + |τ k|) := by
      have e : s + val (t k) = (s - S) + (val (t k) - τ k) + (S + τ k) := by ring
      rw [e]
      exact (abs_add_le _ _).trans (add_le_add (abs_add_le _ _) (abs_add_le _ _))
    have e1 : val (lsum k t + t k) - (S + τ k) = (val (lsum k t + t k) - (s + val (t k))) + ((s - S) + (val (t k) - τ k)) := by ring
    have hmain : |val (lsum k t + t k) - (S + τ k)| ≤ (1 + u) * (|s - S| + |val (t k) - τ k|) + u * (Q + |τ k|) := by
      rw [e1]
      have := (abs_add_le (val (lsum k t + t k) - (s + val (t k))) ((s - S) + (val (t k) - τ k))).trans
        (add_le_add hadd (abs_add_le _ _))
      have h2 := mul_le_mul_of_nonneg_left (hs.trans (add_le_add le_rfl (add_le_add hSQ le_rfl))) hu
      linarith
    have e2 : a + (k + 1 - 1) = (a + (k - 1)) + 1 := by omega
    have e3 : k + 1 - 1 = (k - 1) + 1 := by omega
    have hQ : 0 ≤ Q := (abs_nonneg _).trans hSQ
    have hτ := abs_nonneg (τ k)
    have hpow : (1 + u) ^ a ≤ (1 + u) ^ (a + (k - 1)) := pow_le_pow_right₀ h1 (by omega)
    have hone : 1 ≤ (1 + u) ^ (k - 1) := one_le_pow₀ h1
    have h3 : (1 + u) * (|s - S| + |val (t k) - τ k|) ≤
        (1 + u) * ((((1 + u) ^ (a + (k - 1)) - 1) * Q + k * (1 + u) ^ (k - 1) * ε) +
          (((1 + u) ^ (a + (k - 1)) - 1) * |τ k| + (1 + u) ^ (k - 1) * ε)) := by
      apply mul_le_mul_of_nonneg_left _ (by linarith)
      have := mul_le_mul_of_nonneg_right hpow hτ
      have := mul_le_mul_of_nonneg_right hone hε
      linarith
    rw [e2, e3, pow_succ, pow_succ]
    push_cast
    refine hmain.trans ((add_le_add_left h3 _).trans (le_of_eq ?_))
    ring

/-- Sums of products. -/
theorem lsum_mul_err (x y : Nat → T) (k : Nat) :
    |val (lsum k fun i => x i * y i) - ∑ i ∈ Finset.range k, val (x i) * val (y i)| ≤
      ((1 + u) ^ k - 1) * ∑ i ∈ Finset.range k, |val (x i)| * |val (y i)| + k * (1 + u) ^ (k - 1) * η := by
  rcases Nat.eq_zero_or_pos k with rfl | hk
  · simp [lsum, R.zero]
  have := lsum_err R (a := 1) (k := k) R.η_nonneg (t := fun i => x i * y i) (τ := fun i => val (x i) * val (y i))
    (fun i _ => by have := R.mul (x i) (y i); rw [pow_one, add_sub_cancel_left]; exact this)
  rw [show 1 + (k - 1) = k by omega] at this
  simpa only [abs_mul] using this

/-- C79: every entry of a product of an `n × k` and a `k × m` matrix has an error of at most `(1 + u)^k - 1` times the product of
the absolute values, and an underflow error. -/
theorem C79_product {A B : MB T} {n k m : Nat} {M : Matrix (Fin n) (Fin k) T} {N : Matrix (Fin k) (Fin m) T} (hA : A.Is M)
    (hB : B.Is N) (hf : Fits n m) :
    ∃ E : Matrix (Fin n) (Fin m) T, Yields (mul A B) E ∧ ∀ i j,
      |val (E i j) - (M.map val * N.map val) i j| ≤
        ((1 + u) ^ k - 1) * (M.map (|val ·|) * N.map (|val ·|)) i j + k * (1 + u) ^ (k - 1) * η := by
  obtain ⟨e, hA, rfl⟩ := hA
  obtain ⟨f, hB, rfl⟩ := hB
  refine ⟨_, (C35_entries hA.toRepAt hB.toRepAt hf).yields, fun i j => ?_⟩
  have := lsum_mul_err R (fun l => e i l) (fun l => f l j) k
  rw [Finset.sum_range, Finset.sum_range] at this
  exact this

/-- C79, matrix times vector. -/
theorem C79_mulVec {A : MB T} {b : List T} {n m : Nat} {e : Nat → Nat → T} {f : Nat → T} (hA : RepAt A n m e) (hb : VRep b m f)
    (hn : n < allocMax) :
    ∃ g : Nat → T, ReturnsVec (mulVec A b) n g ∧ ReturnsVec (dotMat A b) n g ∧ ∀ i, i < n →
      |val (g i) - ∑ j ∈ Finset.range m, val (e i j) * val (f j)| ≤
        ((1 + u) ^ m - 1) * ∑ j ∈ Finset.range m, |val (e i j)| * |val (f j)| + m * (1 + u) ^ (m - 1) * η :=
  have h := C37_entries_partial hA hb (Nat.le_refl m) hn
  ⟨_, h.1, h.2, fun i _ => lsum_mul_err R (fun j => e i j) f m⟩

/-- C79, scalar product of vectors. -/
theorem C79_dot {a b : List T} {n : Nat} {f g : Nat → T} (ha : VRep a n f) (hb : VRep b n g) :
    ∃ x, dot a b = .ok x ∧ |val x - ∑ i ∈ Finset.range n, val (f i) * val (g i)| ≤
        ((1 + u) ^ n - 1) * ∑ i ∈ Finset.range n, |val (f i)| * |val (g i)| + n * (1 + u) ^ (n - 1) * η :=
  ⟨_, C38_dot ha hb, lsum_mul_err R f g n⟩

/-- C79, sums: there is one rounding less than there are terms. -/
theorem C79_sum {v : List T} {n : Nat} {f : Nat → T} (hv : VRep v n f) :
    ∃ x, Ops.sum v = .ok x ∧ |val x - ∑ i ∈ Finset.range n, val (f i)| ≤ ((1 + u) ^ (n - 1) - 1) * ∑ i ∈ Finset.range n, |val (f i)| := by
  refine ⟨_, C41_sum hv, ?_⟩
  simpa using lsum_err R (t := f) (τ := fun i => val (f i)) (a := 0) (k := n) le_rfl (fun i _ => by simp)

/-- C79, traces. -/
theorem C79_trace {A : MB T} {n : Nat} {e} (hA : RepAt A n n e) :
    ∃ x, trace A = .ok x ∧ |val x - ∑ i ∈ Finset.range n, val (e i i)| ≤ ((1 + u) ^ (n - 1) - 1) * ∑ i ∈ Finset.range n, |val (e i i)| := by
  refine ⟨_, C41_trace_partial hA le_rfl, ?_⟩
  simpa using lsum_err R (t := fun i => e i i) (τ := fun i => val (e i i)) (a := 0) (k := n) le_rfl (fun i _ => by simp)

/-- C79, element-wise operations: one rounding each. -/
theorem C79_elementwise {A B : MB T} {n m : Nat} {e f} (hA : Rep A n m e) (hB : Rep B n m f) (s : T) :
    (∃ E, Returns (add A B) n m E ∧ ∀ i j, |val (E i j) - (val (e i j) + val (f i j))| ≤ u * |val (e i j) + val (f i j)|) ∧
    (∃ E, Returns (sub A B) n m E ∧ ∀ i j, |val (E i j) - (val (e i j) - val (f i j))| ≤ u * |val (e i j) - val (f i j)|) ∧
    (∃ E, Returns (mulS A s) n m E ∧ ∀ i j, |val (E i j) - val (e i j) * val s| ≤ u * |val (e i j) * val s| + η) ∧
    (val s ≠ 0 → ∃ E, Returns (divS A s) n m E ∧ ∀ i j, |val (E i j) - val (e i j) / val s| ≤ u * |val (e i j) / val s| + η) := by
  refine ⟨⟨_, Returns.of_eq hA.fits (zipMat_eq hA hB fun _ _ _ _ => rfl), fun i j => R.add _ _⟩,
    ⟨_, Returns.of_eq hA.fits (zipMat_eq hA hB fun _ _ _ _ => rfl), fun i j => R.sub _ _⟩,
    ⟨_, Returns.of_eq hA.fits (mapMat_eq hA fun _ _ _ _ => rfl), fun i j => R.mul _ _⟩, fun hs => ?_⟩
  choose z hz1 hz2 using fun x => R.div x s hs
  exact ⟨fun i j => z (e i j), Returns.of_eq hA.fits (mapMat_eq hA fun _ _ _ _ => hz1 _), fun i j => hz2 _⟩

end

/-- C79: the factor in the bounds is at most `k u / (1 - k u)`. -/
theorem C79_factor {K : Type} [Field K] [LinearOrder K] [IsStrictOrderedRing K] {u : K} (h0 : 0 ≤ u) {k : Nat} (h1 : k * u < 1) :
    (1 + u) ^ k - 1 ≤ k * u / (1 - k * u) := by
  rcases Nat.eq_zero_or_pos k with rfl | hk
  · simp
  have hd : 0 < 1 - k * u := by linarith
  have hu1 : u ≤ 1 := by
    have : (1 : K) ≤ k := by exact_mod_cast hk
    nlinarith
  have hb : 1 - k * u ≤ (1 - u) ^ k := by
    have := one_add_mul_le_pow (a := -u) (by linarith) k
    rw [← sub_eq_add_neg] at this
    linarith
  have hm : (1 + u) ^ k * (1 - k * u) ≤ 1 :=
    calc (1 + u) ^ k * (1 - k * u) ≤ (1 + u) ^ k * (1 - u) ^ k := mul_le_mul_of_nonneg_left hb (pow_nonneg (by linarith) k)
      _ = (1 - u ^ 2) ^ k := by rw [← mul_pow]; ring
      _ ≤ 1 := pow_le_one₀ (by nlinarith) (by nlinarith)
  rw [le_div_iff₀ hd]
  linarith

/-- The factor for `double`. -/
theorem double_factor {k : Nat} (hk : k ≤ 2 ^ 52) : (1 + 1 / 2 ^ 53 : ℚ) ^ k - 1 ≤ k / 2 ^ 52 := by
  have hk' : (k : ℚ) ≤ 2 ^ 52 := by exact_mod_cast hk
  have hk0 : (0 : ℚ) ≤ k := Nat.cast_nonneg k
  have hlt : (k : ℚ) * (1 / 2 ^ 53) ≤ 1 / 2 := by
    have : (2 : ℚ) ^ 53 = 2 * 2 ^ 52 := by norm_num
    rw [this]; rw [mul_one_div, div_le_div_iff₀ (by positivity) (by positivity)]; linarith
  refine (C79_factor (by positivity) (lt_of_le_of_lt hlt (by norm_num))).trans ?_
  rw [div_le_iff₀ (by linarith)]
  have e : (k : ℚ) / 2 ^ 52 = 2 * (k * (1 / 2 ^ 53)) := by norm_num; ring
  rw [e]
  have : 0 ≤ (k : ℚ) * (1 / 2 ^ 53) := by positivity
  nlinarith

theorem double_factor_le {k : Nat} (hk : k ≤ 2 ^ 52) : (1 + 1 / 2 ^ 53 : ℚ) ^ k ≤ 2 := by
  have hk' : (k : ℚ) ≤ 2 ^ 52 := by exact_mod_cast hk
  have : (k : ℚ) / 2 ^ 52 ≤ 1 := by rw [div_le_one (by positivity)]; exact hk'
  linarith [double_factor hk]

theorem two_zpow_emin : (2 : ℚ) ^ (-1074 : ℤ) = 1 / 2 ^ 1074 := by
  rw [zpow_neg, one_div]; exact congrArg _ (zpow_natCast (2 : ℚ) 1074)

/-- C79 for `double` (without overflow): the bound of `C79_product` with `u = 2^-53`. -/
theorem C79_double {A B : MB Double} {n k m : Nat} {M : Matrix (Fin n) (Fin k) Double} {N : Matrix (Fin k) (Fin m) Double}
    (hA : A.Is M) (hB : B.Is N) (hf : Fits n m) (hk : k ≤ 2 ^ 52) :
    ∃ E : Matrix (Fin n) (Fin m) Double, Yields (mul A B) E ∧ ∀ i j,
      |(E i j).val - (M.map Fl.val * N.map Fl.val) i j| ≤
        k / 2 ^ 52 * (M.map (|Fl.val ·|) * N.map (|Fl.val ·|)) i j + k / 2 ^ 1074 := by
  obtain ⟨E, h1, h2⟩ := C79_product (Fl.rounds ℚ (p := 53) (by norm_num) (-1074)) hA hB hf
  refine ⟨E, h1, fun i j => (h2 i j).trans ?_⟩
  have hk0 : (0 : ℚ) ≤ k := Nat.cast_nonneg k
  have hu : (2 : ℚ) ^ (-((53 : ℕ) : ℤ)) = 1 / 2 ^ 53 := by norm_num
  rw [hu]
  have hfac := double_factor hk
  have hpos : 0 ≤ (M.map (|Fl.val ·|) * N.map (|Fl.val ·|)) i j := by
    rw [Matrix.mul_apply]
    exact Finset.sum_nonneg fun l _ => mul_nonneg (abs_nonneg _) (abs_nonneg _)
  apply add_le_add (mul_le_mul_of_nonneg_right hfac hpos)
  have h3 : (1 + 1 / 2 ^ 53 : ℚ) ^ (k - 1) ≤ 2 := double_factor_le (by omega)
  rw [two_zpow_emin]
  generalize hq : (1 : ℚ) / 2 ^ 1074 = q
  have hq0 : 0 ≤ q := by rw [← hq]; exact div_nonneg zero_le_one (pow_nonneg zero_le_two _)
  rw [div_eq_mul_one_div (k : ℚ) (2 ^ 1074), hq]
  have := mul_le_mul_of_nonneg_right h3 (mul_nonneg hk0 hq0)
  linarith

/-- In `double`, `0.1 * 3 - 0.3` is not zero: the product of `[0.1 0.1 0.1]` and the column of ones misses `0.3` by `2^-54`. -/
example : (dot [Fl.of 53 (-1074) (1/10 : ℚ), Fl.of 53 (-1074) (1/10), Fl.of 53 (-1074) (1/10)] [1, 1, 1] >>= fun x =>
    .ok (x.val - (Fl.of 53 (-1074) (3/10 : ℚ)).val)) = .ok (1 / 2 ^ 54) := by decide +kernel

end Malg
