import Verif.Lemmas.Float
/-!
# Rounding to a number of digits in some base

A number with `p` digits in base `b` is what every number close enough to it is rounded to, in the same base.
-/
namespace Malg
variable {K : Type} [Field K] [LinearOrder K] [IsStrictOrderedRing K] [FloorRing K]

theorem rne_near {q : K} {z : ℤ} (h : |q - z| < 1 / 2) : rne q = z := by
  have h1 := abs_le.1 (rne_err q)
  have h2 := abs_lt.1 h
  have h3 : (rne q : K) < z + 1 := by linarith [h1.2, h2.2]
  have h4 : (z : K) < rne q + 1 := by linarith [h1.1, h2.1]
  have h5 : rne q < z + 1 := by exact_mod_cast h3
  have h6 : z < rne q + 1 := by exact_mod_cast h4
  omega

/-- No integer is nearer. -/
theorem rne_nearest (q : K) (z : ℤ) : |(rne q : K) - q| ≤ |(z : K) - q| := by
  by_cases h : rne q = z
  · rw [h]
  · by_contra hc
    push Not at hc
    have h1 := rne_err q
    apply h
    apply rne_near
    rw [abs_sub_comm]
    linarith

/-- The exponent of the last of `p` digits. -/
def lastExpB (b : ℕ) (p : ℕ) (emin : ℤ) (x : K) : ℤ := max (Int.log b |x| + 1 - p) emin

/-- Rounding to `p` digits in base `b`. -/
def rndB (b : ℕ) (p : ℕ) (emin : ℤ) (x : K) : K := rne (x / (b : K) ^ lastExpB b p emin x) * (b : K) ^ lastExpB b p emin x

theorem rndB_neg (b p : ℕ) (emin : ℤ) (x : K) : rndB b p emin (-x) = -rndB b p emin x := by
  unfold rndB lastExpB
  rw [abs_neg, neg_div, rne_neg]; push_cast; ring

omit [IsStrictOrderedRing K] in
theorem rnd_eq_rndB (p : ℕ) (emin : ℤ) (x : K) : rnd p emin x = rndB 2 p emin x := rfl

section
variable {b : ℕ} (hb : 2 ≤ b)
include hb

omit [FloorRing K] in
theorem base_ne : (b : K) ≠ 0 := by
  have : b ≠ 0 := by omega
  exact_mod_cast this

omit [FloorRing K] in
theorem base_pos (e : ℤ) : (0 : K) < (b : K) ^ e := by
  have : 0 < b := by omega
  exact zpow_pos (by exact_mod_cast this) e

omit [FloorRing K] in
theorem base_mono {e f : ℤ} (h : e ≤ f) : (b : K) ^ e ≤ (b : K) ^ f := by
  have : 1 ≤ b := by omega
  exact zpow_le_zpow_right₀ (by exact_mod_cast this) h

omit [FloorRing K] in
/-- A multiple of a power of the base is one of every smaller power. -/
theorem grid_mono {e f : ℤ} (h : e ≤ f) {x : K} (hx : ∃ z : ℤ, x = z * (b : K) ^ f) : ∃ z : ℤ, x = z * (b : K) ^ e := by
  obtain ⟨z, rfl⟩ := hx
  obtain ⟨d, rfl⟩ : ∃ d : ℕ, f = e + d := ⟨(f - e).toNat, by omega⟩
  exact ⟨z * b ^ d, by rw [zpow_add₀ (base_ne hb), zpow_natCast]; push_cast; ring⟩

omit [FloorRing K] in
/-- Two different multiples are at least one step apart. -/
theorem grid_gap {e : ℤ} {x y : K} (hx : ∃ z : ℤ, x = z * (b : K) ^ e) (hy : ∃ z : ℤ, y = z * (b : K) ^ e) (h : x < y) :
    x + (b : K) ^ e ≤ y := by
  obtain ⟨z, rfl⟩ := hx
  obtain ⟨w, rfl⟩ := hy
  have hp := base_pos (K := K) hb e
  have h1 : (z : K) < w := lt_of_mul_lt_mul_right h hp.le
  have h2 : z < w := by exact_mod_cast h1
  have h2 : ((z + 1 : ℤ) : K) ≤ w := by exact_mod_cast (show z + 1 ≤ w by omega)
  push_cast at h2
  nlinarith

theorem rndB_near_pos {p : ℕ} (hp : 1 ≤ p) {emin : ℤ} {x d : K} (hx : 0 < x) (hg : ∃ z : ℤ, x = z * (b : K) ^ lastExpB b p emin x)
    (h : |d - x| < (b : K) ^ (-(p : ℤ)) / 2 * x) : rndB b p emin d = x := by
  have hb1 : 1 < b := by omega
  have hpow := base_pos (K := K) hb (-(p : ℤ))
  have hple : (b : K) ^ (-(p : ℤ)) ≤ 1 := by
    have := base_mono (K := K) hb (e := -(p : ℤ)) (f := 0) (by omega)
    rwa [zpow_zero] at this
  obtain ⟨h1, h2⟩ := abs_lt.1 h
  have hbx : (b : K) ^ (-(p : ℤ)) * x ≤ x := by nlinarith
  have hd : 0 < d := by linarith
  set X := Int.log b x with hX
  set D := Int.log b d with hD
  have hx1 : (b : K) ^ X ≤ x := Int.zpow_log_le_self hb1 hx
  have hx2 : x < (b : K) ^ (X + 1) := Int.lt_zpow_succ_log_self hb1 x
  have hd1 : (b : K) ^ D ≤ d := Int.zpow_log_le_self hb1 hd
  have hd2 : d < (b : K) ^ (D + 1) := Int.lt_zpow_succ_log_self hb1 d
  have hlx : lastExpB b p emin x = max (X + 1 - p) emin := by rw [lastExpB, abs_of_pos hx]
  have hld : lastExpB b p emin d = max (D + 1 - p) emin := by rw [lastExpB, abs_of_pos hd]
  rw [hlx] at hg
  set lx := max (X + 1 - (p : ℤ)) emin with hlxd
  -- a step of the grid of `x` is more than the distance
  have hstep : (b : K) ^ (-(p : ℤ)) * x < (b : K) ^ lx := by
    calc (b : K) ^ (-(p : ℤ)) * x < (b : K) ^ (-(p : ℤ)) * (b : K) ^ (X + 1) := mul_lt_mul_of_pos_left hx2 hpow
      _ = (b : K) ^ (X + 1 - p) := by rw [← zpow_add₀ (base_ne hb)]; congr 1; ring
      _ ≤ _ := base_mono hb (le_max_left _ _)
  have hlow : lx ≤ X := by
    apply max_le (by omega)
    have : (b : K) ^ lx ≤ x := by
      have := grid_gap (K := K) hb (e := lx) (x := 0) ⟨0, by simp⟩ hg hx
      rwa [zero_add] at this
    have h3 : (b : K) ^ emin < (b : K) ^ (X + 1) := lt_of_le_of_lt ((base_mono hb (le_max_right _ _)).trans this) hx2
    have := (zpow_lt_zpow_iff_right₀ (by exact_mod_cast hb1 : (1 : K) < b)).1 h3
    omega
  have hpg : ∀ k, lx ≤ k → ∃ z : ℤ, (b : K) ^ k = z * (b : K) ^ lx := fun k hk => grid_mono hb hk ⟨1, by simp⟩
  -- `x` is on the grid of `d`
  have hA : ∃ z : ℤ, x = z * (b : K) ^ lastExpB b p emin d := by
    by_cases hle : lastExpB b p emin d ≤ lx
    · exact grid_mono hb hle hg
    · exfalso
      have hDX : X + 1 ≤ D := by
        rw [hld] at hle
        have := le_max_left (X + 1 - (p : ℤ)) emin
        have := le_max_right (X + 1 - (p : ℤ)) emin
        omega
      have h3 := grid_gap (K := K) hb hg (hpg (X + 1) (by omega)) hx2
      have h4 := (base_mono (K := K) hb hDX).trans hd1
      nlinarith
  -- and nearer than half a step
  have hB : x ≤ (b : K) ^ (D + 1) := by
    by_contra hc
    push Not at hc
    have hkX : D + 1 ≤ X := by
      by_contra hk
      exact absurd (hx2.trans_le (base_mono (K := K) hb (show X + 1 ≤ D + 1 by omega))) (not_lt.2 hc.le)
    rcases hkX.lt_or_eq with hk | hk
    · have h3 : (b : K) ^ (D + 1 + 1) ≤ x := (base_mono hb (by omega)).trans hx1
      rw [zpow_add_one₀ (base_ne hb)] at h3
      have h4 : (2 : K) ≤ b := by exact_mod_cast hb
      have h5 := base_pos (K := K) hb (D + 1)
      nlinarith
    · have h3 := grid_gap (K := K) hb (hpg (D + 1) (by omega)) hg hc
      nlinarith
  obtain ⟨z, hz⟩ := hA
  have hL := base_pos (K := K) hb (lastExpB b p emin d)
  have hfin : |d / (b : K) ^ lastExpB b p emin d - z| < 1 / 2 := by
    have e : d / (b : K) ^ lastExpB b p emin d - z = (d - x) / (b : K) ^ lastExpB b p emin d := by
      rw [eq_div_iff hL.ne', sub_mul, div_mul_cancel₀ _ hL.ne', ← hz]
    rw [e, abs_div, abs_of_pos hL, div_lt_iff₀ hL]
    refine h.trans_le ?_
    have : (b : K) ^ (-(p : ℤ)) * x ≤ (b : K) ^ lastExpB b p emin d := by
      calc (b : K) ^ (-(p : ℤ)) * x ≤ (b : K) ^ (-(p : ℤ)) * (b : K) ^ (D + 1) := mul_le_mul_of_nonneg_left hB hpow.le
        _ = (b : K) ^ (D + 1 - p) := by rw [← zpow_add₀ (base_ne hb)]; congr 1; ring
        _ ≤ _ := by rw [hld]; exact base_mono hb (le_max_left _ _)
    linarith
  rw [rndB, rne_near hfin, ← hz]

theorem rndB_near {p : ℕ} (hp : 1 ≤ p) {emin : ℤ} {x d : K} (hx : x ≠ 0) (hg : ∃ z : ℤ, x = z * (b : K) ^ lastExpB b p emin x)
    (h : |d - x| < (b : K) ^ (-(p : ℤ)) / 2 * |x|) : rndB b p emin d = x := by
  rcases lt_or_gt_of_ne hx with h0 | h0
  · have := rndB_near_pos hb hp (emin := emin) (x := -x) (d := -d) (by linarith) (by
      obtain ⟨z, hz⟩ := hg
      refine ⟨-z, ?_⟩
      rw [lastExpB, abs_neg]
      conv_lhs => rw [hz]
      rw [lastExpB]; push_cast; ring) (by
      rw [abs_of_neg h0] at h
      rwa [show -d - -x = -(d - x) by ring, abs_neg])
    rw [rndB_neg] at this
    exact neg_injective this
  · rw [abs_of_pos h0] at h
    exact rndB_near_pos hb hp h0 hg h

end

/-- A floating point number is what every number near it is rounded to. -/
theorem rnd_near {p : ℕ} (hp : 1 ≤ p) {emin : ℤ} {x d : K} (hf : IsFl p emin x) (hx : x ≠ 0)
    (h : |d - x| < 2 ^ (-(p : ℤ)) / 2 * |x|) : rnd p emin d = x := by
  rw [rnd_eq_rndB]
  apply rndB_near le_rfl hp hx _ (by exact_mod_cast h)
  have := rnd_exact hp hf
  exact ⟨_, this.symm⟩

/-! ## Decimal digits -/

/-- Rounding to `P` significant decimal digits. -/
def rndDec (P : ℕ) (x : K) : K := rne (x / 10 ^ (Int.log 10 |x| + 1 - P)) * 10 ^ (Int.log 10 |x| + 1 - P)

omit [FloorRing K] in
theorem ten_zpow_pos (e : ℤ) : (0 : K) < 10 ^ e := by exact_mod_cast base_pos (K := K) (b := 10) (by norm_num) e

omit [IsStrictOrderedRing K] in
theorem rndDec_eq (P : ℕ) {emin : ℤ} {x : K} (h : emin ≤ Int.log 10 |x| + 1 - P) : rndDec P x = rndB 10 P emin x := by
  have : lastExpB 10 P emin x = Int.log 10 |x| + 1 - P := max_eq_left h
  rw [rndDec, rndB, this]; norm_cast

theorem rndDec_neg (P : ℕ) (x : K) : rndDec P (-x) = -rndDec P x := by
  unfold rndDec
  rw [abs_neg, neg_div, rne_neg]; push_cast; ring

theorem rndDec_err (P : ℕ) (x : K) : |rndDec P x - x| ≤ 10 ^ (1 - (P : ℤ)) / 2 * |x| := by
  by_cases hx : x = 0
  · subst hx
    simp only [rndDec, zero_div, show rne (0 : K) = 0 by exact_mod_cast rne_int (K := K) 0]
    simp
  set E := Int.log 10 |x|
  have h10 := ten_zpow_pos (K := K) (E + 1 - P)
  have h := rne_err (x / 10 ^ (E + 1 - (P : ℤ)))
  have e : rndDec P x - x = ((rne (x / 10 ^ (E + 1 - (P : ℤ))) : K) - x / 10 ^ (E + 1 - (P : ℤ))) * 10 ^ (E + 1 - (P : ℤ)) := by
    rw [sub_mul, div_mul_cancel₀ _ h10.ne']; rfl
  have hE : (10 : K) ^ E ≤ |x| := by exact_mod_cast Int.zpow_log_le_self (R := K) (b := 10) (by norm_num) (abs_pos.2 hx)
  rw [e, abs_mul, abs_of_pos h10]
  calc _ ≤ 1 / 2 * 10 ^ (E + 1 - (P : ℤ)) := mul_le_mul_of_nonneg_right h h10.le
    _ = 10 ^ (1 - (P : ℤ)) / 2 * 10 ^ E := by
      rw [show E + 1 - (P : ℤ) = (1 - P) + E by ring, zpow_add₀ (by norm_num)]; ring
    _ ≤ _ := mul_le_mul_of_nonneg_left hE (div_nonneg (ten_zpow_pos _).le zero_le_two)

/-- The decimals with at most `P` significant digits. -/
def IsDec (P : ℕ) (x : K) : Prop := ∃ m e : ℤ, |m| < 10 ^ P ∧ x = m * 10 ^ e

/-- They are multiples of the last digit. -/
theorem IsDec.grid {P : ℕ} {x : K} (h : IsDec P x) {k : ℤ} (hk : (10 : K) ^ k ≤ |x|) : ∃ z : ℤ, x = z * 10 ^ (k + 1 - P) := by
  obtain ⟨m, e, hm, rfl⟩ := h
  have h1 : (|m| : K) < 10 ^ P := by exact_mod_cast hm
  have h2 : (10 : K) ^ k < 10 ^ (P + e) := by
    rw [abs_mul, abs_of_pos (ten_zpow_pos (K := K) e)] at hk
    rw [zpow_add₀ (by norm_num), zpow_natCast]
    refine hk.trans_lt ?_
    exact mul_lt_mul_of_pos_right (by exact_mod_cast h1) (ten_zpow_pos e)
  have h3 : k < P + e := (zpow_lt_zpow_iff_right₀ (by norm_num : (1 : K) < 10)).1 h2
  obtain ⟨z, hz⟩ := grid_mono (K := K) (b := 10) (by norm_num) (e := k + 1 - P) (f := e) (by omega) (x := m * 10 ^ e) ⟨m, by norm_cast⟩
  exact ⟨z, by exact_mod_cast hz⟩

theorem rndDec_isDec {P : ℕ} (hP : 1 ≤ P) (x : K) : IsDec P (rndDec P x) := by
  set E := Int.log 10 |x|
  have h10 := ten_zpow_pos (K := K) (E + 1 - P)
  set s := rne (x / 10 ^ (E + 1 - (P : ℤ)))
  have hlt : |x / 10 ^ (E + 1 - (P : ℤ))| < 10 ^ P := by
    rw [abs_div, abs_of_pos h10, div_lt_iff₀ h10, ← zpow_natCast, ← zpow_add₀ (by norm_num), show (P : ℤ) + (E + 1 - P) = E + 1 by ring]
    exact_mod_cast Int.lt_zpow_succ_log_self (R := K) (b := 10) (by norm_num) |x|
  have hs : |s| ≤ 10 ^ P := by
    have h := abs_lt.1 hlt
    rw [abs_le]
    constructor
    · apply le_rne; push_cast; exact h.1.le
    · apply rne_le; push_cast; exact h.2.le
  rcases hs.lt_or_eq with hs | hs
  · exact ⟨s, _, hs, rfl⟩
  · obtain ⟨Q, rfl⟩ : ∃ Q, P = Q + 1 := ⟨P - 1, by omega⟩
    have hpos : (0 : ℤ) < 10 ^ Q := by positivity
    have e1 : ∀ w : ℤ, s = w * 10 → rndDec (Q + 1) x = w * 10 ^ (E + 1 - ((Q + 1 : ℕ) : ℤ) + 1) := by
      intro w hw
      show (s : K) * _ = _
      rw [hw, zpow_add_one₀ (by norm_num)]; push_cast; ring
    rw [pow_succ] at hs
    rcases le_total 0 s with h0 | h0
    · rw [abs_of_nonneg h0] at hs
      exact ⟨10 ^ Q, _, by rw [abs_of_pos hpos, pow_succ]; omega, e1 _ hs⟩
    · rw [abs_of_nonpos h0] at hs
      exact ⟨-10 ^ Q, _, by rw [abs_neg, abs_of_pos hpos, pow_succ]; omega, e1 _ (by omega)⟩

/-- A decimal with `P` digits is what every number near it is rounded to. -/
theorem rndDec_near {P : ℕ} (hP : 1 ≤ P) {x d : K} (hd : IsDec P x) (hx : x ≠ 0)
    (h : |d - x| < 10 ^ (-(P : ℤ)) / 2 * |x|) : rndDec P d = x := by
  obtain ⟨emin, h1, h2⟩ : ∃ emin : ℤ, emin ≤ Int.log 10 |d| + 1 - P ∧ emin ≤ Int.log 10 |x| + 1 - P :=
    ⟨min (Int.log 10 |d| + 1 - P) (Int.log 10 |x| + 1 - P), min_le_left _ _, min_le_right _ _⟩
  rw [rndDec_eq P h1]
  apply rndB_near (by norm_num) hP hx _ (by exact_mod_cast h)
  have : lastExpB 10 P emin x = Int.log 10 |x| + 1 - P := max_eq_left h2
  rw [this]
  obtain ⟨z, hz⟩ := hd.grid (k := Int.log 10 |x|) (by exact_mod_cast Int.zpow_log_le_self (R := K) (b := 10) (by norm_num) (abs_pos.2 hx))
  exact ⟨z, by exact_mod_cast hz⟩

/-- No decimal with `P` digits is nearer. -/
theorem rndDec_nearest {P : ℕ} (hP : 1 ≤ P) (x : K) {d : K} (hd : IsDec P d) : |rndDec P x - x| ≤ |d - x| := by
  by_cases hx : x = 0
  · subst hx
    have := rndDec_err P (0 : K)
    rw [abs_zero, mul_zero] at this
    exact this.trans (abs_nonneg _)
  -- every multiple of the last digit is as far
  have key : ∀ y : K, (∃ z : ℤ, y = z * 10 ^ (Int.log 10 |x| + 1 - P)) → |rndDec P x - x| ≤ |y - x| := by
    rintro y ⟨z, rfl⟩
    have h10 := ten_zpow_pos (K := K) (Int.log 10 |x| + 1 - P)
    have h := mul_le_mul_of_nonneg_right (rne_nearest (x / 10 ^ (Int.log 10 |x| + 1 - P)) z) h10.le
    have e : ∀ w : K, |w - x / 10 ^ (Int.log 10 |x| + 1 - P)| * 10 ^ (Int.log 10 |x| + 1 - P) = |w * 10 ^ (Int.log 10 |x| + 1 - P) - x| := by
      intro w
      rw [← abs_of_pos h10, ← abs_mul, abs_of_pos h10, sub_mul, div_mul_cancel₀ _ h10.ne']
    rwa [e, e] at h
  by_cases hk : (10 : K) ^ Int.log 10 |x| ≤ |d|
  · exact key d (hd.grid hk)
  · push Not at hk
    have hE : (10 : K) ^ Int.log 10 |x| ≤ |x| := by exact_mod_cast Int.zpow_log_le_self (R := K) (b := 10) (by norm_num) (abs_pos.2 hx)
    obtain ⟨z, hz⟩ := grid_mono (K := K) (b := 10) (by norm_num) (e := Int.log 10 |x| + 1 - P) (f := Int.log 10 |x|) (by omega)
      (x := 10 ^ Int.log 10 |x|) ⟨1, by norm_cast; simp⟩
    have hz : (10 : K) ^ Int.log 10 |x| = z * 10 ^ (Int.log 10 |x| + 1 - P) := by exact_mod_cast hz
    have hd' := abs_lt.1 hk
    rcases lt_or_gt_of_ne hx with h0 | h0
    · refine (key (-10 ^ Int.log 10 |x|) ⟨-z, by rw [hz]; push_cast; ring⟩).trans ?_
      rw [abs_of_neg h0] at hE hd' ⊢
      rw [abs_of_nonneg (by linarith), abs_of_nonneg (by linarith)]; linarith
    · refine (key (10 ^ Int.log 10 |x|) ⟨z, hz⟩).trans ?_
      rw [abs_of_pos h0] at hE hd' ⊢
      rw [abs_of_nonpos (by linarith), abs_of_nonpos (by linarith)]; linarith

/-- The rounded value is the number of the format nearest to `x`. -/
theorem rnd_nearest {p : ℕ} (hp : 1 ≤ p) {emin : ℤ} (x : K) {y : K} (hy : IsFl p emin y) : |rnd p emin x - x| ≤ |y - x| := by
  have key : ∀ y : K, (∃ z : ℤ, y = z * 2 ^ lastExp p emin x) → |rnd p emin x - x| ≤ |y - x| := by
    rintro y ⟨z, rfl⟩
    have h2 := two_zpow_pos (K := K) (lastExp p emin x)
    have h := mul_le_mul_of_nonneg_right (rne_nearest (x / 2 ^ lastExp p emin x) z) h2.le
    have e : ∀ w : K, |w - x / 2 ^ lastExp p emin x| * 2 ^ lastExp p emin x = |w * 2 ^ lastExp p emin x - x| := by
      intro w
      rw [← abs_of_pos h2, ← abs_mul, abs_of_pos h2, sub_mul, div_mul_cancel₀ _ h2.ne']
    rwa [e, e] at h
  have hgrid : ∀ {f : ℤ} {y : K}, lastExp p emin x ≤ f → (∃ z : ℤ, y = z * 2 ^ f) → ∃ z : ℤ, y = z * 2 ^ lastExp p emin x := by
    intro f y hf h
    have h' : ∃ z : ℤ, y = z * ((2 : ℕ) : K) ^ f := by rw [Nat.cast_ofNat]; exact h
    have := grid_mono (K := K) (b := 2) le_rfl hf h'
    rwa [Nat.cast_ofNat] at this
  have hyg : ∃ z : ℤ, y = z * 2 ^ lastExp p emin y := ⟨_, (rnd_exact hp hy).symm⟩
  by_cases hx : x = 0
  · subst hx
    rw [rnd_exact hp (isFl_zero p emin), sub_self, abs_zero]
    exact abs_nonneg _
  by_cases hk : (2 : K) ^ Int.log 2 |x| ≤ |y|
  · refine key y (hgrid ?_ hyg)
    have hy0 : 0 < |y| := (two_zpow_pos _).trans_le hk
    have : Int.log 2 |x| ≤ Int.log 2 |y| := (Int.zpow_le_iff_le_log (by norm_num) hy0).1 (by exact_mod_cast hk)
    unfold lastExp
    omega
  · push Not at hk
    by_cases hs : lastExp p emin x = emin
    · exact key y (hgrid (by rw [hs]; exact le_max_right _ _) hyg)
    have hl : lastExp p emin x ≤ Int.log 2 |x| := by unfold lastExp at hs ⊢; omega
    have hE : (2 : K) ^ Int.log 2 |x| ≤ |x| := by exact_mod_cast Int.zpow_log_le_self (R := K) (b := 2) (by norm_num) (abs_pos.2 hx)
    obtain ⟨z, hz⟩ := hgrid hl (y := 2 ^ Int.log 2 |x|) ⟨1, by simp⟩
    have hd' := abs_lt.1 hk
    rcases lt_or_gt_of_ne hx with h0 | h0
    · refine (key (-2 ^ Int.log 2 |x|) ⟨-z, by rw [hz]; push_cast; ring⟩).trans ?_
      rw [abs_of_neg h0] at hE hd' ⊢
      rw [abs_of_nonneg (by linarith), abs_of_nonneg (by linarith)]; linarith
    · refine (key (2 ^ Int.log 2 |x|) ⟨z, hz⟩).trans ?_
      rw [abs_of_pos h0] at hE hd' ⊢
      rw [abs_of_nonpos (by linarith), abs_of_nonpos (by linarith)]; linarith

/-- Rounding keeps the order. -/
theorem rnd_mono {p : ℕ} (hp : 1 ≤ p) (emin : ℤ) {x y : K} (h : x ≤ y) : rnd p emin x ≤ rnd p emin y := by
  by_contra hc
  push Not at hc
  have h1 := rnd_nearest hp x (rnd_isFl p emin y)
  have h2 := rnd_nearest hp y (rnd_isFl p emin x)
  have m1 : rnd p emin y + rnd p emin x ≤ 2 * x := by
    rcases le_total (rnd p emin y) x with h3 | h3
    · rw [abs_of_nonpos (by linarith : rnd p emin y - x ≤ 0)] at h1
      have := (abs_le.1 h1).2
      linarith
    · rw [abs_of_pos (by linarith : 0 < rnd p emin x - x), abs_of_nonneg (by linarith : 0 ≤ rnd p emin y - x)] at h1
      linarith
  have m2 : 2 * y ≤ rnd p emin y + rnd p emin x := by
    rcases le_total (rnd p emin x) y with h3 | h3
    · rw [abs_of_neg (by linarith : rnd p emin y - y < 0), abs_of_nonpos (by linarith : rnd p emin x - y ≤ 0)] at h2
      linarith
    · rw [abs_of_nonneg (by linarith : 0 ≤ rnd p emin x - y)] at h2
      have := (abs_le.1 h2).1
      linarith
  have : x = y := by linarith
  rw [this] at hc
  exact lt_irrefl _ hc

end Malg
