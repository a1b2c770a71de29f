import Verif.Model.Float
import Mathlib.Tactic.Positivity
/-!
# Rounding errors of the basic operations

`Rounds` is the standard model of floating point arithmetic with gradual underflow: every operation has a relative error of
at most `u`, multiplication and division also an absolute error of at most `η`. The numbers of `Model/Float.lean` satisfy it
with `u = 2^-p` and `η = 2^emin / 2`.
-/
namespace Malg

/-- `val` gives the value of a number; `u` is the unit roundoff, `η` half of the smallest positive number. -/
structure Rounds {T K : Type} [Zero T] [Add T] [Sub T] [Mul T] [CDiv T] [Field K] [LinearOrder K] [IsStrictOrderedRing K]
    (val : T → K) (u η : K) : Prop where
  u_nonneg : 0 ≤ u
  η_nonneg : 0 ≤ η
  zero : val 0 = 0
  zero_add : ∀ x, val (0 + x) = val x
  add : ∀ x y, |val (x + y) - (val x + val y)| ≤ u * |val x + val y|
  sub : ∀ x y, |val (x - y) - (val x - val y)| ≤ u * |val x - val y|
  mul : ∀ x y, |val (x * y) - val x * val y| ≤ u * |val x * val y| + η
  div : ∀ x y, val y ≠ 0 → ∃ z, cdiv x y = .ok z ∧ |val z - val x / val y| ≤ u * |val x / val y| + η

section
variable {K : Type} [Field K] [LinearOrder K] [IsStrictOrderedRing K] [FloorRing K] {p : ℕ} {emin : ℤ}

theorem rnd_err_ulp (p : ℕ) (emin : ℤ) (x : K) : |rnd p emin x - x| ≤ 2 ^ lastExp p emin x / 2 := by
  have h2 := two_zpow_pos (K := K) (lastExp p emin x)
  have h := rne_err (x / 2 ^ lastExp p emin x)
  have e : rnd p emin x - x = ((rne (x / 2 ^ lastExp p emin x) : K) - x / 2 ^ lastExp p emin x) * 2 ^ lastExp p emin x := by
    rw [sub_mul, div_mul_cancel₀ _ h2.ne']; rfl
  rw [e, abs_mul, abs_of_pos h2]
  calc _ ≤ 1 / 2 * 2 ^ lastExp p emin x := mul_le_mul_of_nonneg_right h h2.le
    _ = _ := by ring

/-- Half a unit in the last place, when the exponent is not at its lower end, is a relative error. -/
theorem ulp_le {x : K} (hx : x ≠ 0) : (2 : K) ^ (Int.log 2 |x| + 1 - p) / 2 ≤ 2 ^ (-(p : ℤ)) * |x| := by
  have h := Int.zpow_log_le_self (R := K) (b := 2) (by norm_num) (abs_pos.2 hx)
  rw [Nat.cast_ofNat] at h
  have e : (2 : K) ^ (Int.log 2 |x| + 1 - p) / 2 = 2 ^ (-(p : ℤ)) * 2 ^ (Int.log 2 |x|) := by
    rw [show Int.log 2 |x| + 1 - (p : ℤ) = -(p : ℤ) + Int.log 2 |x| + 1 by ring, zpow_add_one₀ two_ne_zero,
      zpow_add₀ two_ne_zero]
    ring
  rw [e]
  exact mul_le_mul_of_nonneg_left h (two_zpow_pos _).le

theorem rnd_err (p : ℕ) (emin : ℤ) (x : K) : |rnd p emin x - x| ≤ 2 ^ (-(p : ℤ)) * |x| + 2 ^ emin / 2 := by
  have hp : (0 : K) ≤ 2 ^ (-(p : ℤ)) * |x| := mul_nonneg (two_zpow_pos _).le (abs_nonneg _)
  have he : (0 : K) ≤ 2 ^ emin / 2 := div_nonneg (two_zpow_pos _).le zero_le_two
  by_cases hx : x = 0
  · rw [hx]
    simp only [rnd, zero_div, show rne (0 : K) = 0 by exact_mod_cast rne_int (K := K) 0]
    simpa using he
  have h := rnd_err_ulp p emin x
  rcases max_choice (Int.log 2 |x| + 1 - (p : ℤ)) emin with hc | hc
  · rw [lastExp, hc] at h
    linarith [ulp_le (p := p) hx]
  · rw [lastExp, hc] at h
    linarith

/-- Numbers of the format are not changed. -/
theorem rnd_exact (hp : 1 ≤ p) {x : K} (h : IsFl p emin x) : rnd p emin x = x := by
  have key : ∀ m e : ℤ, emin ≤ e → |m| < 2 ^ p → rnd p emin (m * 2 ^ e : K) = m * 2 ^ e := by
    intro m e h1 h2
    by_cases hm : m = 0
    · subst hm
      simp only [rnd, Int.cast_zero, zero_mul, zero_div, show rne (0 : K) = 0 by exact_mod_cast rne_int (K := K) 0]
    set x : K := m * 2 ^ e with hx
    have hx0 : x ≠ 0 := mul_ne_zero (Int.cast_ne_zero.2 hm) (two_zpow_pos e).ne'
    have hlog : Int.log 2 |x| < p + e := by
      rw [← Int.lt_zpow_iff_log_lt (by norm_num) (abs_pos.2 hx0), hx, abs_mul, abs_of_pos (two_zpow_pos (K := K) e), Nat.cast_ofNat,
        zpow_add₀ two_ne_zero, zpow_natCast]
      apply mul_lt_mul_of_pos_right _ (two_zpow_pos e)
      exact_mod_cast h2
    have hle : lastExp p emin x ≤ e := max_le (by omega) h1
    obtain ⟨d, hd⟩ : ∃ d : ℕ, e = lastExp p emin x + d := ⟨(e - lastExp p emin x).toNat, by omega⟩
    have hq : x / 2 ^ lastExp p emin x = ((m * 2 ^ d : ℤ) : K) := by
      rw [div_eq_iff (two_zpow_pos _).ne', hx]
      conv_lhs => rw [hd, zpow_add₀ two_ne_zero, zpow_natCast]
      push_cast; ring
    rw [rnd, hq, rne_int, ← hq, div_mul_cancel₀ _ (two_zpow_pos _).ne']
  obtain ⟨m, e, h1, h2, rfl⟩ := h
  rcases lt_or_eq_of_le h2 with h2 | h2
  · exact key m e h1 h2
  obtain ⟨p, rfl⟩ : ∃ q, p = q + 1 := ⟨p - 1, by omega⟩
  · have hm : ∃ s : ℤ, m = s * 2 ∧ |s| < 2 ^ (p + 1) := by
      rcases le_total 0 m with h0 | h0
      · rw [abs_of_nonneg h0] at h2
        exact ⟨2 ^ p, by rw [h2, pow_succ], by rw [abs_of_nonneg (by positivity), pow_succ]; have : (0 : ℤ) < 2 ^ p := by positivity
                                               omega⟩
      · rw [abs_of_nonpos h0] at h2
        exact ⟨-2 ^ p, by rw [pow_succ] at h2; omega, by rw [abs_neg, abs_of_nonneg (by positivity), pow_succ]; have : (0 : ℤ) < 2 ^ p := by positivity
                                                         omega⟩
    obtain ⟨s, rfl, hs⟩ := hm
    have e1 : ((s * 2 : ℤ) : K) * 2 ^ e = s * 2 ^ (e + 1) := by rw [zpow_add_one₀ two_ne_zero]; push_cast; ring
    rw [e1]
    exact key s (e + 1) (by omega) hs

theorem rnd_err_grid (hp : 1 ≤ p) {x : K} (h : ∃ z : ℤ, x = z * 2 ^ emin) : |rnd p emin x - x| ≤ 2 ^ (-(p : ℤ)) * |x| := by
  obtain ⟨z, hz⟩ := h
  by_cases hx : x = 0
  · rw [rnd_exact hp (hx ▸ isFl_zero p emin)]; simp [hx]
  rcases max_choice (Int.log 2 |x| + 1 - (p : ℤ)) emin with hc | hc
  · have h := rnd_err_ulp p emin x
    rw [lastExp, hc] at h
    linarith [ulp_le (p := p) hx]
  · have hq : x / 2 ^ lastExp p emin x = (z : K) := by
      rw [lastExp, hc, hz, mul_div_cancel_right₀ _ (two_zpow_pos _).ne']
    rw [rnd, hq, rne_int, ← hq, div_mul_cancel₀ _ (two_zpow_pos _).ne', sub_self, abs_zero]
    exact mul_nonneg (two_zpow_pos _).le (abs_nonneg _)

omit [FloorRing K] in
theorem IsFl.grid {x : K} (h : IsFl p emin x) : ∃ z : ℤ, x = z * 2 ^ emin := by
  obtain ⟨m, e, h1, -, rfl⟩ := h
  obtain ⟨d, rfl⟩ : ∃ d : ℕ, e = emin + d := ⟨(e - emin).toNat, by omega⟩
  exact ⟨m * 2 ^ d, by rw [zpow_add₀ two_ne_zero, zpow_natCast]; push_cast; ring⟩

/-- The floating point numbers follow the standard model. -/
theorem Fl.rounds (K : Type) [Field K] [LinearOrder K] [IsStrictOrderedRing K] [FloorRing K] {p : ℕ} (hp : 1 ≤ p) (emin : ℤ) :
    Rounds (Fl.val : Fl K p emin → K) (2 ^ (-(p : ℤ))) (2 ^ emin / 2) where
  u_nonneg := (two_zpow_pos _).le
  η_nonneg := div_nonneg (two_zpow_pos _).le zero_le_two
  zero := rfl
  zero_add x := by
    show rnd p emin (0 + x.val) = x.val
    rw [_root_.zero_add, rnd_exact hp x.isFl]
  add x y := rnd_err_grid hp (by
    obtain ⟨a, ha⟩ := x.isFl.grid
    obtain ⟨b, hb⟩ := y.isFl.grid
    exact ⟨a + b, by rw [ha, hb]; push_cast; ring⟩)
  sub x y := rnd_err_grid hp (by
    obtain ⟨a, ha⟩ := x.isFl.grid
    obtain ⟨b, hb⟩ := y.isFl.grid
    exact ⟨a - b, by rw [ha, hb]; push_cast; ring⟩)
  mul x y := rnd_err p emin _
  div x y h := ⟨_, if_neg h, rnd_err p emin _⟩

end
theorem rne_neg {K : Type} [Field K] [LinearOrder K] [IsStrictOrderedRing K] [FloorRing K] (x : K) : rne (-x) = -rne x := by
  by_cases hi : (⌊x⌋ : K) = x
  · rw [← hi, ← Int.cast_neg, rne_int, rne_int]
  · have h0 := Int.floor_le x
    have h1 := Int.lt_floor_add_one x
    have hlt : (⌊x⌋ : K) < x := lt_of_le_of_ne h0 hi
    have hf : ⌊-x⌋ = -⌊x⌋ - 1 := by
      rw [Int.floor_eq_iff]; push_cast; constructor <;> linarith
    unfold rne
    rw [hf]
    push_cast
    by_cases a : x - ⌊x⌋ < 1 / 2
    · rw [if_neg (by linarith), if_pos (by linarith), if_pos a]; ring
    · by_cases b : 1 / 2 < x - ⌊x⌋
      · rw [if_pos (by linarith), if_neg a, if_pos b]; ring
      · rw [if_neg (by linarith), if_neg (by linarith), if_neg a, if_neg b]
        by_cases c : ⌊x⌋ % 2 = 0
        · rw [if_neg (by omega), if_pos c]; ring
        · rw [if_pos (by omega), if_neg c]; ring

theorem rnd_neg {K : Type} [Field K] [LinearOrder K] [IsStrictOrderedRing K] [FloorRing K] (p : ℕ) (emin : ℤ) (x : K) :
    rnd p emin (-x) = -rnd p emin x := by
  unfold rnd lastExp
  rw [abs_neg, neg_div, rne_neg]; push_cast; ring

end Malg
