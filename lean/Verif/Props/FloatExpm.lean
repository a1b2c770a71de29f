import Verif.Lemmas.ExpmTab
/-!
# Property C124: `expm` in floating point arithmetic
-/
namespace Malg
open Ops Lin

section
variable {T : Type} [Zero T] [One T] [Add T] [Sub T] [Mul T] [NatCast T] [CDiv T]

/-- The growth of the underflow errors in one multiplication by the scaled matrix, whose row sums are at most `y`. -/
noncomputable def expmRate (n : Nat) (u η y : ℝ) : ℝ := (1 + u) ^ n * (1 + u + n * η) * max 1 y

/-- The effect of underflow on the sum of `p` terms. -/
noncomputable def expmUnder (n p : Nat) (u η y : ℝ) : ℝ :=
  p * ((expmRate n u η y * (1 + u) ^ 2) ^ p * ((5 + n + 2 * p * (n + n * n)) * η))

/-- The first `p + 1` terms of the exponential series. -/
noncomputable def expSum (y : ℝ) (p : Nat) : ℝ := ∑ j ∈ Finset.range (p + 1), y ^ j / j.factorial

variable {val : T → ℝ} {u η : ℝ} (R : Rounds val u η)
include R

theorem quo_one_err {j : Nat} (one : val 1 = 1) (nat : val ((j + 1 : Nat) : T) = (j + 1 : Nat)) :
    cdiv (1 : T) ((j + 1 : Nat) : T) = .ok (quo 1 ((j + 1 : Nat) : T)) ∧
      |val (quo (1 : T) ((j + 1 : Nat) : T)) - 1 / (j + 1 : Nat)| ≤ u * (1 / (j + 1 : Nat)) + η := by
  have hpos : (0 : ℝ) < ((j + 1 : Nat) : ℝ) := by positivity
  obtain ⟨z, h1, h2⟩ := R.div 1 ((j + 1 : Nat) : T) (by rw [nat]; exact hpos.ne')
  have h3 : quo (1 : T) ((j + 1 : Nat) : T) = z := by unfold quo; rw [h1]
  rw [h3]
  refine ⟨h1, ?_⟩
  rw [one, nat] at h2
  rwa [abs_of_pos (show (0 : ℝ) < 1 / ((j + 1 : Nat) : ℝ) by positivity)] at h2

theorem invFac_err (one : val 1 = 1) (hη : η ≤ 1 / 20) {J : Nat} (nat : ∀ j, j < J → val ((j + 1 : Nat) : T) = (j + 1 : Nat)) (j : Nat) (hj : j ≤ J) :
    |val (invFac T j) - 1 / (j.factorial : ℝ)| ≤ ((1 + u) ^ (2 * j) - 1) * (1 / (j.factorial : ℝ)) + 5 * η * (1 + u) ^ (2 * j) := by
  have hu := R.u_nonneg
  have hη0 := R.η_nonneg
  have h1 : (1 : ℝ) ≤ 1 + u := by linarith
  have main : ∀ j, j ≤ J → |val (invFac T j) - 1 / (j.factorial : ℝ)| ≤
      ((1 + u) ^ (2 * j) - 1) * (1 / (j.factorial : ℝ)) + (if j = 0 then 0 else 5 * η * (1 + u) ^ (2 * j)) := by
    intro j hj
    induction j with
    | zero => simp [invFac, one]
    | succ j ih =>
      have ih := ih (by omega)
      obtain ⟨-, hq⟩ := quo_one_err R one (nat j (by omega))
      have hm := R.mul (invFac T j) (quo 1 ((j + 1 : Nat) : T))
      rw [show invFac T (j + 1) = invFac T j * quo 1 ((j + 1 : Nat) : T) from rfl]
      set f := val (invFac T j)
      set q := val (quo (1 : T) ((j + 1 : Nat) : T))
      set P := val (invFac T j * quo 1 ((j + 1 : Nat) : T))
      set ε : ℝ := if j = 0 then 0 else 5 * η * (1 + u) ^ (2 * j) with hε
      have ε0 : 0 ≤ ε := by rw [hε]; split <;> positivity
      have hF : (0 : ℝ) < 1 / (j.factorial : ℝ) := by positivity
      have hI : (0 : ℝ) < 1 / ((j + 1 : Nat) : ℝ) := by positivity
      have hfac : 1 / ((j + 1).factorial : ℝ) = 1 / (j.factorial : ℝ) * (1 / ((j + 1 : Nat) : ℝ)) := by
        rw [Nat.factorial_succ, Nat.cast_mul, one_div_mul_one_div, mul_comm]
      have hF1 : 1 / (j.factorial : ℝ) ≤ 1 := by
        rw [div_le_one (by positivity)]; exact_mod_cast Nat.factorial_pos j
      rw [hfac, if_neg (Nat.succ_ne_zero j)]
      set F : ℝ := 1 / (j.factorial : ℝ)
      set I : ℝ := 1 / ((j + 1 : Nat) : ℝ) with hIdef
      have hf : |f| ≤ (1 + u) ^ (2 * j) * F + ε := by
        have e : f = (f - F) + F := by ring
        rw [e]
        refine (abs_add_le _ _).trans ?_
        rw [abs_of_pos hF]; linarith
      have hqq : |q| ≤ (1 + u) * I + η := by
        have e : q = (q - I) + I := by ring
        rw [e]
        refine (abs_add_le _ _).trans ?_
        rw [abs_of_pos hI]; linarith
      have e : P - F * I = (P - f * q) + ((f - F) * q + F * (q - I)) := by ring
      have h2 : |(f - F) * q + F * (q - I)| ≤ |f - F| * |q| + F * |q - I| := by
        refine (abs_add_le _ _).trans ?_
        rw [abs_mul, abs_mul, abs_of_pos hF]
      have h3 : |P - f * q| ≤ ((1 + u) - 1) * (|f| * |q|) + η := by rw [add_sub_cancel_left, ← abs_mul]; exact hm
      have h4 := grow (h := η) (L := I) (dx := |f - F|) hf hqq (by linarith) (by linarith) le_rfl (abs_nonneg _) (abs_nonneg _) (abs_nonneg _) (abs_nonneg (q - I))
        hF.le h1
      rw [e]
      refine (abs_add_le _ _).trans ((add_le_add h3 h2).trans (h4.trans ?_))
      -- the underflow part
      have h5 : (1 + u) * (ε * ((1 + u) * I + η) + (1 + u) ^ (2 * j) * F * η) + η ≤ 5 * η * (1 + u) ^ (2 * (j + 1)) := by
        rw [show 2 * (j + 1) = 2 * j + 1 + 1 by ring, pow_succ, pow_succ]
        have hG : 1 ≤ (1 + u) ^ (2 * j) := one_le_pow₀ h1
        set G := (1 + u) ^ (2 * j)
        have hX0 : 0 ≤ G * (1 + u) * (1 + u) * η := by positivity
        have h7 : η ≤ G * (1 + u) * (1 + u) * η := by
          refine le_mul_of_one_le_left hη0 ?_
          calc (1 : ℝ) = 1 * 1 * 1 := by norm_num
            _ ≤ G * (1 + u) * (1 + u) := by gcongr
        rcases Nat.eq_zero_or_pos j with h0 | h0
        · rw [hε, if_pos h0, zero_mul, zero_add]
          have : G * F * η ≤ G * η := by
            have := mul_le_mul_of_nonneg_left hF1 (mul_nonneg (by linarith : 0 ≤ G) hη0)
            linarith
          have h6 : (1 + u) * (G * F * η) ≤ G * (1 + u) * (1 + u) * η := by
            calc (1 + u) * (G * F * η) ≤ (1 + u) * (G * η) := mul_le_mul_of_nonneg_left this (by linarith)
              _ = (1 + u) * (G * η) * 1 := by ring
              _ ≤ (1 + u) * (G * η) * (1 + u) := mul_le_mul_of_nonneg_left h1 (by positivity)
              _ = _ := by ring
          linarith
        · rw [hε, if_neg (by omega)]
          have hI2 : I ≤ 1 / 2 := by
            rw [hIdef]
            apply one_div_le_one_div_of_le two_pos
            have : (1 : ℝ) ≤ j := by exact_mod_cast h0
            push_cast; linarith
          have hX : 0 ≤ G * η := by positivity
          have h8 : (1 + u) * (5 * η * G * ((1 + u) * I + η)) ≤ 5 * (0.55 : ℝ) * (G * (1 + u) * (1 + u) * η) := by
            have : (1 + u) * I + η ≤ (1 + u) * 0.55 := by nlinarith
            calc (1 + u) * (5 * η * G * ((1 + u) * I + η)) ≤ (1 + u) * (5 * η * G * ((1 + u) * 0.55)) := by gcongr
              _ = _ := by ring
          have h6 : (1 + u) * (G * F * η) ≤ G * (1 + u) * (1 + u) * η := by
            calc (1 + u) * (G * F * η) ≤ (1 + u) * (G * 1 * η) := by gcongr
              _ = (1 + u) * (G * η) * 1 := by ring
              _ ≤ (1 + u) * (G * η) * (1 + u) := mul_le_mul_of_nonneg_left h1 (by positivity)
              _ = _ := by ring
          linarith
      have e2 : (1 + u) * (((1 + u) ^ (2 * j) * F + ε) * ((1 + u) * I + η)) =
          (1 + u) ^ (2 * (j + 1)) * (F * I) + (1 + u) * (ε * ((1 + u) * I + η) + (1 + u) ^ (2 * j) * F * η) := by
        rw [show 2 * (j + 1) = 2 * j + 1 + 1 by ring, pow_succ, pow_succ]; ring
      rw [e2]
      linarith
  refine (main j hj).trans (add_le_add le_rfl ?_)
  split
  · positivity
  · exact le_rfl

omit R in
theorem expSum_succ (y : ℝ) (p : Nat) : expSum y (p + 1) = expSum y p + y ^ (p + 1) / (p + 1).factorial := Finset.sum_range_succ _ _

omit R in
theorem expSum_one_le {y : ℝ} (hy : 0 ≤ y) (p : Nat) : 1 ≤ expSum y p := by
  induction p with
  | zero => simp [expSum]
  | succ p ih => rw [expSum_succ]; have : 0 ≤ y ^ (p + 1) / ((p + 1).factorial : ℝ) := by positivity
                 linarith

omit R in
theorem expSum_le {y : ℝ} (hy : 0 ≤ y) (p : Nat) : expSum y p ≤ Real.exp y :=
  sum_le_hasSum _ (fun j _ => by positivity) (real_exp_hasSum y)

open scoped Matrix.Norms.Operator

omit [One T] [NatCast T] in
theorem expmRate_one {n : Nat} {y : ℝ} : 1 ≤ expmRate n u η y := by
  have hu := R.u_nonneg
  have hη0 := R.η_nonneg
  unfold expmRate
  have h1 : 1 ≤ (1 + u) ^ n := one_le_pow₀ (by linarith)
  have h2 : 1 ≤ 1 + u + n * η := by have : 0 ≤ (n : ℝ) * η := by positivity
                                    linarith
  have h3 : 1 ≤ max 1 y := le_max_left _ _
  have : 1 ≤ (1 + u) ^ n * (1 + u + n * η) := by nlinarith
  nlinarith

omit [One T] [NatCast T] in
theorem pow_le_expmRate {n : Nat} {y : ℝ} (hy : 0 ≤ y) (j : Nat) : (1 + u) ^ ((n + 1) * j) * y ^ j ≤ expmRate n u η y ^ j := by
  have hu := R.u_nonneg
  have hη0 := R.η_nonneg
  rw [pow_mul, ← mul_pow]
  apply pow_le_pow_left₀ (by positivity)
  unfold expmRate
  rw [pow_succ]
  have h2 : 1 + u ≤ 1 + u + n * η := by have : 0 ≤ (n : ℝ) * η := by positivity
                                        linarith
  have h3 : y ≤ max 1 y := le_max_right _ _
  gcongr

omit [One T] [NatCast T] in
/-- One more power of the scaled matrix. -/
theorem power_near {n j : Nat} {y : ℝ} {m sc : Nat → Nat → T} {S : Matrix (Fin n) (Fin n) ℝ} (hy : 0 ≤ y)
    (hs : MNear u 1 (n * η) ((toM n n sc).map val) S y)
    (hm : MNear u ((n + 1) * j) (j * ((n + n * n) * η) * expmRate n u η y ^ j) ((toM n n m).map val) (S ^ j) (y ^ j)) :
    MNear u ((n + 1) * (j + 1)) ((j + 1 : Nat) * ((n + n * n) * η) * expmRate n u η y ^ (j + 1))
      ((toM n n fun r c => lsum n fun k => m r k * sc k c).map val) (S ^ (j + 1)) (y ^ (j + 1)) := by
  have hu := R.u_nonneg
  have hη0 := R.η_nonneg
  have h1 : (1 : ℝ) ≤ 1 + u := by linarith
  have := MNear.mul hu (w := n) rfl (by positivity) hm hs (prod_norm_err R m sc)
  rw [← pow_succ, ← pow_succ] at this
  refine this.mono hu (le_of_eq (by ring)) ?_
  have hg := pow_le_expmRate R (n := n) hy j
  have g1 := expmRate_one R (n := n) (y := y)
  have gj : 1 ≤ expmRate n u η y ^ j := one_le_pow₀ g1
  have hW : (1 + u) ^ n ≤ expmRate n u η y := by
    unfold expmRate
    have h2 : 1 ≤ 1 + u + n * η := by have : 0 ≤ (n : ℝ) * η := by positivity
                                      linarith
    calc (1 + u) ^ n = (1 + u) ^ n * 1 * 1 := by ring
      _ ≤ (1 + u) ^ n * (1 + u + n * η) * max 1 y := by gcongr; exact le_max_left _ _
  have hB : (1 + u) ^ n * ((1 + u) ^ 1 * y + n * η) ≤ expmRate n u η y := by
    unfold expmRate
    rw [pow_one, mul_assoc]
    refine mul_le_mul_of_nonneg_left ?_ (by positivity)
    have h2 : y ≤ max 1 y := le_max_right _ _
    have h3 : (1 : ℝ) ≤ max 1 y := le_max_left _ _
    have h4 : (n : ℝ) * η ≤ n * η * max 1 y := le_mul_of_one_le_right (by positivity) h3
    nlinarith
  have hpow : (1 + u) ^ (n - 1) ≤ (1 + u) ^ n := pow_le_pow_right₀ h1 (Nat.sub_le _ _)
  set g := expmRate n u η y
  calc (1 + u) ^ n * ((1 + u) ^ ((n + 1) * j) * y ^ j * (n * η) + j * ((n + n * n) * η) * g ^ j * ((1 + u) ^ 1 * y + n * η)) + n * n * (1 + u) ^ (n - 1) * η
      = (1 + u) ^ n * ((1 + u) ^ ((n + 1) * j) * y ^ j) * (n * η) + j * ((n + n * n) * η) * g ^ j * ((1 + u) ^ n * ((1 + u) ^ 1 * y + n * η)) +
          (1 + u) ^ (n - 1) * (n * n * η) := by ring
    _ ≤ g * g ^ j * (n * η) + j * ((n + n * n) * η) * g ^ j * g + g * g ^ j * (n * n * η) := by
        have h5 : (1 + u) ^ (n - 1) ≤ g * g ^ j := (hpow.trans hW).trans (le_mul_of_one_le_right (by linarith) gj)
        gcongr
    _ = (j + 1 : Nat) * ((n + n * n) * η) * g ^ (j + 1) := by push_cast; ring

omit [One T] [NatCast T] in
/-- One term of the series. -/
theorem term_near (hη : η ≤ 1 / 20) {n j : Nat} {y : ℝ} {m : Nat → Nat → T} {f : T} {S : Matrix (Fin n) (Fin n) ℝ} (hy : 0 ≤ y)
    (hm : MNear u ((n + 1) * j) (j * ((n + n * n) * η) * expmRate n u η y ^ j) ((toM n n m).map val) (S ^ j) (y ^ j))
    (hf : |val f - 1 / (j.factorial : ℝ)| ≤ ((1 + u) ^ (2 * j) - 1) * (1 / (j.factorial : ℝ)) + 5 * η * (1 + u) ^ (2 * j)) :
    MNear u ((n + 3) * j + 1) ((1 + u) * ((expmRate n u η y * (1 + u) ^ 2) ^ j * ((5 + n + 2 * j * (n + n * n)) * η)))
      ((toM n n fun r c => m r c * f).map val) ((j.factorial : ℝ)⁻¹ • S ^ j) (y ^ j / j.factorial) := by
  have hu := R.u_nonneg
  have hη0 := R.η_nonneg
  have h1 : (1 : ℝ) ≤ 1 + u := by linarith
  have hF : (0 : ℝ) < 1 / (j.factorial : ℝ) := by positivity
  have hF1 : 1 / (j.factorial : ℝ) ≤ 1 := by rw [div_le_one (by positivity)]; exact_mod_cast Nat.factorial_pos j
  have := MNear.smul hu (by positivity) hm hf (le_of_eq (abs_of_pos hF)) (by positivity) (smul_norm_err R m f)
  rw [← one_div, div_eq_mul_one_div (y ^ j)]
  refine this.mono hu (le_of_eq (by ring)) ?_
  have hg := pow_le_expmRate R (n := n) hy j
  have g1 := expmRate_one R (n := n) (y := y)
  have gj : 1 ≤ expmRate n u η y ^ j := one_le_pow₀ g1
  have hv : 1 ≤ (1 + u) ^ (2 * j) := one_le_pow₀ h1
  rw [mul_pow, ← pow_mul]
  set g := expmRate n u η y
  set V := (1 + u) ^ (2 * j)
  have hgV : 1 ≤ g ^ j * V := by nlinarith
  calc (1 + u) * ((1 + u) ^ ((n + 1) * j) * y ^ j * (5 * η * V) + j * ((n + n * n) * η) * g ^ j * (V * (1 / (j.factorial : ℝ)) + 5 * η * V)) + n * η
      ≤ (1 + u) * (g ^ j * (5 * η * V) + j * ((n + n * n) * η) * g ^ j * (V * 1 + 5 * (1 / 20) * V)) + (1 + u) * (g ^ j * V * (n * η)) := by
        have h5 : (n : ℝ) * η ≤ (1 + u) * (g ^ j * V * (n * η)) := by
          have : (n : ℝ) * η ≤ g ^ j * V * (n * η) := le_mul_of_one_le_left (by positivity) hgV
          exact this.trans (le_mul_of_one_le_left (by positivity) h1)
        gcongr
    _ ≤ (1 + u) * (g ^ j * (5 * η * V) + j * ((n + n * n) * η) * g ^ j * (2 * V)) + (1 + u) * (g ^ j * V * (n * η)) := by
        have : V * 1 + 5 * (1 / 20) * V ≤ 2 * V := by linarith
        gcongr
    _ = _ := by ring

omit R [Zero T] [One T] [Add T] [Sub T] [Mul T] [NatCast T] [CDiv T] in
theorem MNear.zero (u : ℝ) (c n : Nat) : MNear u c 0 (0 : Matrix (Fin n) (Fin n) ℝ) 0 0 := ⟨by simp, by simp, le_rfl⟩

omit [One T] [NatCast T] in
theorem under_mono {n p q : Nat} {y : ℝ} (h : p ≤ q) :
    (expmRate n u η y * (1 + u) ^ 2) ^ p * ((5 + n + 2 * p * (n + n * n)) * η) ≤
      (expmRate n u η y * (1 + u) ^ 2) ^ q * ((5 + n + 2 * q * (n + n * n)) * η) := by
  have hu := R.u_nonneg
  have hη0 := R.η_nonneg
  have g1 := expmRate_one R (n := n) (y := y)
  have h1 : 1 ≤ expmRate n u η y * (1 + u) ^ 2 := by
    have : 1 ≤ (1 + u) ^ 2 := one_le_pow₀ (by linarith)
    nlinarith
  have h2 : (p : ℝ) ≤ q := by exact_mod_cast h
  have := pow_le_pow_right₀ h1 h
  gcongr

omit [NatCast T] in
theorem eye_val (one : val 1 = 1) {n : Nat} : (toM n n fun r c => if r = c then (1 : T) else 0).map val = (1 : Matrix (Fin n) (Fin n) ℝ) := by
  funext i j
  rw [Matrix.map_apply, toM_apply, Matrix.one_apply]
  by_cases hij : i = j
  · rw [if_pos hij, if_pos (by rw [hij]), one]
  · rw [if_neg hij, if_neg (fun h' => hij (Fin.ext h')), R.zero]

omit R [Zero T] [One T] [Add T] [Sub T] [Mul T] [NatCast T] [CDiv T] in
theorem eye_norm {n : Nat} (_ : 0 < n) : ‖(1 : Matrix (Fin n) (Fin n) ℝ)‖ ≤ 1 := by
  refine norm_le_of_rows zero_le_one fun i => ?_
  simp only [Matrix.one_apply]
  rw [Finset.sum_eq_single i (fun j _ hj => by rw [if_neg (Ne.symm hj), abs_zero]) (fun h' => absurd (Finset.mem_univ i) h'), if_pos rfl, abs_one]

omit [NatCast T] in
/-- The computed powers. -/
theorem expPow_near (one : val 1 = 1) {n : Nat} (hn : 0 < n) {y : ℝ} (hy : 0 ≤ y) {S : Matrix (Fin n) (Fin n) ℝ} {sc : Nat → Nat → T}
    (hs : MNear u 1 (n * η) ((toM n n sc).map val) S y) (p : Nat) :
    MNear u ((n + 1) * p) (p * ((n + n * n) * η) * expmRate n u η y ^ p) ((toM n n (expPow n sc p)).map val) (S ^ p) (y ^ p) := by
  induction p with
  | zero =>
    rw [expPow, eye_val R one]
    refine ⟨by simp, ?_, by simp⟩
    rw [pow_zero, pow_zero]
    exact eye_norm hn
  | succ p ih => exact power_near R hy hs ih

/-- The computed sums of terms. -/
theorem expAcc_near (one : val 1 = 1) (hη : η ≤ 1 / 20) {J : Nat} (nat : ∀ j, j < J → val ((j + 1 : Nat) : T) = (j + 1 : Nat)) {n : Nat} (hn : 0 < n)
    {y : ℝ} (hy : 0 ≤ y) {S : Matrix (Fin n) (Fin n) ℝ} {sc : Nat → Nat → T} (hs : MNear u 1 (n * η) ((toM n n sc).map val) S y) {q i : Nat}
    (hi : q + i ≤ J) :
    MNear u ((n + 3) * (q + i) + 1 + i) ((1 + u) ^ (i + 1) *
      (i * ((expmRate n u η y * (1 + u) ^ 2) ^ (q + i) * ((5 + n + 2 * (q + i : Nat) * (n + n * n)) * η))))
      ((toM n n (expAcc n sc q i)).map val) (taylor S (q + i) - taylor S q) (expSum y (q + i) - expSum y q) := by
  have hu := R.u_nonneg
  have hη0 := R.η_nonneg
  have h1 : (1 : ℝ) ≤ 1 + u := by linarith
  induction i with
  | zero =>
    simp only [Nat.add_zero, sub_self]
    have e7 : (toM n n (expAcc n sc q 0)).map val = (0 : Matrix (Fin n) (Fin n) ℝ) := by
      funext i j
      rw [Matrix.map_apply, toM_apply, expAcc, R.zero, Matrix.zero_apply]
    rw [e7]
    exact (MNear.zero u _ n).mono hu le_rfl (by simp)
  | succ i ih =>
    have hea := ih (by omega)
    have hx := term_near R hη hy (expPow_near R one hn hy hs (q + i + 1)) (invFac_err R one hη nat (q + i + 1) (by omega))
    have e3 : taylor S (q + i + 1) - taylor S q = (taylor S (q + i) - taylor S q) + ((q + i + 1).factorial : ℝ)⁻¹ • S ^ (q + i + 1) := by
      rw [taylor_succ]; abel
    have e4 : expSum y (q + i + 1) - expSum y q = (expSum y (q + i) - expSum y q) + y ^ (q + i + 1) / (q + i + 1).factorial := by
      rw [expSum_succ]; ring
    rw [show q + (i + 1) = q + i + 1 by omega, e3, e4]
    have hadd := MNear.add hu (c := (n + 3) * (q + i + 1) + 1 + i) (hea.mono hu (by have := Nat.mul_le_mul_left (n + 3) (show q + i ≤ q + i + 1 by omega); omega) le_rfl)
      (hx.mono hu (Nat.le_add_right _ _) le_rfl) (add_norm_err R _ _)
    refine hadd.mono hu (by omega) ?_
    have hmono := under_mono R (n := n) (y := y) (show q + i ≤ q + i + 1 by omega)
    have hX0 : 0 ≤ (expmRate n u η y * (1 + u) ^ 2) ^ (q + i + 1) * ((5 + n + 2 * (q + i + 1 : Nat) * (n + n * n)) * η) := by
      have := expmRate_one R (n := n) (y := y)
      have : 0 ≤ expmRate n u η y := by linarith
      positivity
    set X := (expmRate n u η y * (1 + u) ^ 2) ^ (q + i + 1) * ((5 + n + 2 * (q + i + 1 : Nat) * (n + n * n)) * η)
    set Y := (expmRate n u η y * (1 + u) ^ 2) ^ (q + i) * ((5 + n + 2 * (q + i : Nat) * (n + n * n)) * η)
    have hone : 1 + u ≤ (1 + u) ^ (i + 1) := by
      calc 1 + u = (1 + u) ^ 1 := (pow_one _).symm
        _ ≤ (1 + u) ^ (i + 1) := pow_le_pow_right₀ h1 (by omega)
    calc (1 + u) * ((1 + u) ^ (i + 1) * (i * Y) + (1 + u) * X)
        ≤ (1 + u) * ((1 + u) ^ (i + 1) * (i * X) + (1 + u) ^ (i + 1) * X) := by gcongr
      _ = (1 + u) ^ (i + 1 + 1) * ((i + 1 : Nat) * X) := by push_cast; ring

omit [One T] [NatCast T] in
/-- Adding up: at least one term. -/
theorem expRet_step {n p i : Nat} {y : ℝ} {S : Matrix (Fin n) (Fin n) ℝ} {er ea : Nat → Nat → T}
    (hr1 : MNear u ((n + 5) * p + 1) ((1 + u) ^ (2 * p + 1) * expmUnder n p u η y) ((toM n n er).map val) (taylor S p) (expSum y p))
    (hea : MNear u ((n + 3) * (p + i) + 1 + i) ((1 + u) ^ (i + 1) *
      (i * ((expmRate n u η y * (1 + u) ^ 2) ^ (p + i) * ((5 + n + 2 * (p + i : Nat) * (n + n * n)) * η))))
      ((toM n n ea).map val) (taylor S (p + i) - taylor S p) (expSum y (p + i) - expSum y p)) :
    (0 < i → MNear u ((n + 5) * (p + i) + 1) ((1 + u) ^ (2 * (p + i) + 1) * expmUnder n (p + i) u η y)
      ((toM n n fun r c => er r c + ea r c).map val) (taylor S (p + i)) (expSum y (p + i))) ∧
    MNear u ((n + 5) * (p + i) + 2) ((1 + u) ^ (2 * (p + i) + 2) * expmUnder n (p + i) u η y)
      ((toM n n fun r c => er r c + ea r c).map val) (taylor S (p + i)) (expSum y (p + i)) := by
  have hu := R.u_nonneg
  have hη0 := R.η_nonneg
  have h1 : (1 : ℝ) ≤ 1 + u := by linarith
  have hXq := under_mono R (n := n) (y := y) (Nat.le_add_right p i)
  have hX0 : 0 ≤ (expmRate n u η y * (1 + u) ^ 2) ^ p * ((5 + n + 2 * p * (n + n * n)) * η) := by
    have := expmRate_one R (n := n) (y := y)
    have : 0 ≤ expmRate n u η y := by linarith
    positivity
  have e8 : taylor S (p + i) = taylor S p + (taylor S (p + i) - taylor S p) := by abel
  have e9 : expSum y (p + i) = expSum y p + (expSum y (p + i) - expSum y p) := by ring
  have hbig : 0 < i → MNear u ((n + 5) * (p + i) + 1) ((1 + u) ^ (2 * (p + i) + 1) * expmUnder n (p + i) u η y)
      ((toM n n fun r c => er r c + ea r c).map val) (taylor S (p + i)) (expSum y (p + i)) := by
    intro hpq
    obtain ⟨i, rfl⟩ : ∃ j, i = j + 1 := ⟨i - 1, by omega⟩
    have hadd := MNear.add hu (c := (n + 5) * (p + (i + 1))) (hr1.mono hu (by nlinarith) le_rfl) (hea.mono hu (by nlinarith) le_rfl)
      (add_norm_err R er ea)
    rw [← e8, ← e9] at hadd
    refine hadd.mono hu le_rfl ?_
    unfold expmUnder
    set Xp := (expmRate n u η y * (1 + u) ^ 2) ^ p * ((5 + n + 2 * p * (n + n * n)) * η)
    set Xq := (expmRate n u η y * (1 + u) ^ 2) ^ (p + (i + 1)) * ((5 + n + 2 * (p + (i + 1) : Nat) * (n + n * n)) * η)
    have hXq0 : 0 ≤ Xq := hX0.trans hXq
    calc (1 + u) * ((1 + u) ^ (2 * p + 1) * (p * Xp) + (1 + u) ^ (i + 1 + 1) * ((i + 1 : Nat) * Xq))
        = (1 + u) ^ (2 * p + 2) * (p * Xp) + (1 + u) ^ (i + 3) * ((i + 1 : Nat) * Xq) := by ring
      _ ≤ (1 + u) ^ (2 * (p + (i + 1)) + 1) * (p * Xq) + (1 + u) ^ (2 * (p + (i + 1)) + 1) * ((i + 1 : Nat) * Xq) := by
          have a1 : (1 + u) ^ (2 * p + 2) ≤ (1 + u) ^ (2 * (p + (i + 1)) + 1) := pow_le_pow_right₀ h1 (by omega)
          have a2 : (1 + u) ^ (i + 3) ≤ (1 + u) ^ (2 * (p + (i + 1)) + 1) := pow_le_pow_right₀ h1 (by omega)
          gcongr
      _ = (1 + u) ^ (2 * (p + (i + 1)) + 1) * ((p + (i + 1) : Nat) * Xq) := by push_cast; ring
  refine ⟨hbig, ?_⟩
  rcases Nat.eq_zero_or_pos i with rfl | hpq
  · have hadd := MNear.add hu (c := (n + 5) * p + 1) hr1 (hea.mono hu (by nlinarith) le_rfl) (add_norm_err R er ea)
    rw [← e8, ← e9] at hadd
    refine hadd.mono hu le_rfl (le_of_eq ?_)
    simp only [Nat.cast_zero, zero_mul, mul_zero, add_zero]
    ring
  · have hb := hbig hpq
    refine hb.mono hu (by omega) ?_
    rw [show 2 * (p + i) + 2 = 2 * (p + i) + 1 + 1 by omega, pow_succ _ (2 * (p + i) + 1), mul_right_comm]
    exact le_mul_of_one_le_right hb.nonneg h1

/-- The computed partial sums of the series. -/
theorem expRet_near (one : val 1 = 1) (hη : η ≤ 1 / 20) {J : Nat} (nat : ∀ j, j < J → val ((j + 1 : Nat) : T) = (j + 1 : Nat)) {n : Nat} (hn : 0 < n)
    {y : ℝ} (hy : 0 ≤ y) {S : Matrix (Fin n) (Fin n) ℝ} {sc : Nat → Nat → T} (hs : MNear u 1 (n * η) ((toM n n sc).map val) S y) {b : Nat}
    (hb : b * (n * n) ≤ J) :
    MNear u ((n + 5) * (b * (n * n)) + 1) ((1 + u) ^ (2 * (b * (n * n)) + 1) * expmUnder n (b * (n * n)) u η y) ((toM n n (expRet n sc b)).map val)
      (taylor S (b * (n * n))) (expSum y (b * (n * n))) := by
  have hu := R.u_nonneg
  induction b with
  | zero =>
    rw [expRet, Nat.zero_mul, eye_val R one, taylor_zero]
    exact ⟨by simp [expmUnder, expSum, hu], by simpa [expSum] using eye_norm hn, by simp [expmUnder]⟩
  | succ b ih =>
    have e : (b + 1) * (n * n) = b * (n * n) + n * n := Nat.succ_mul b (n * n)
    rw [e] at hb ⊢
    exact (expRet_step R (ih (by omega)) (expAcc_near R one hη nat hn hy hs hb)).1 (Nat.mul_pos hn hn)

omit [One T] [NatCast T] in
/-- Repeated squaring. -/
theorem squarings_near {n : Nat} {E : Nat → Nat → T} {Ξ : Matrix (Fin n) (Fin n) ℝ} {Γ N : ℝ} (hΓ : 1 ≤ Γ) (hN : 1 ≤ N)
    (h : ‖(toM n n E).map val - Ξ‖ ≤ (Γ - 1) * N) (hΞ : ‖Ξ‖ ≤ N) (k : Nat) :
    ‖(toM n n (expSq n E k)).map val - Ξ ^ (2 ^ k)‖ ≤ (Γ ^ (2 ^ k) * ((1 + u) ^ n + n * n * (1 + u) ^ (n - 1) * η) ^ (2 ^ k - 1) - 1) * N ^ (2 ^ k) := by
  have hu := R.u_nonneg
  have hη0 := R.η_nonneg
  have h1 : (1 : ℝ) ≤ (1 + u) ^ n := one_le_pow₀ (by linarith)
  have hw : 1 ≤ (1 + u) ^ n + n * n * (1 + u) ^ (n - 1) * η := by
    have : 0 ≤ n * n * (1 + u) ^ (n - 1) * η := by positivity
    linarith
  induction k with
  | zero => simpa [expSq] using h
  | succ k e2 =>
    have hE' : expSq n E (k + 1) = fun r c => lsum n fun l => expSq n E k r l * expSq n E k l c := rfl
    rw [hE']
    set E' := expSq n E k
    have hΞk : ‖Ξ ^ (2 ^ k)‖ ≤ N ^ (2 ^ k) := (norm_pow_le' Ξ (by positivity)).trans (pow_le_pow_left₀ (norm_nonneg _) hΞ _)
    have := square_grow (by
        have h2 : 1 ≤ Γ ^ 2 ^ k := one_le_pow₀ hΓ
        have h3 : 1 ≤ ((1 + u) ^ n + n * n * (1 + u) ^ (n - 1) * η) ^ (2 ^ k - 1) := one_le_pow₀ hw
        nlinarith) h1 (by positivity) rfl (one_le_pow₀ hN) e2 hΞk (prod_norm_err R E' E')
    rw [← pow_mul, ← pow_mul, ← pow_succ] at this
    refine this.trans (le_of_eq ?_)
    have e3 : 2 ^ (k + 1) - 1 = (2 ^ k - 1) * 2 + 1 := by
      have : 1 ≤ 2 ^ k := Nat.one_le_two_pow
      rw [pow_succ]; omega
    rw [e3, mul_pow, ← pow_mul, ← pow_mul, ← pow_succ, pow_succ _ ((2 ^ k - 1) * 2)]
    ring

omit [NatCast T] in
theorem sqAcc_lt (one : val 1 = 1) (hu8 : u ≤ 1 / 8) (hη : η ≤ 1 / 20) {a sc : T} (ha : |val a| ≤ 1) (hs : |val sc| ≤ 1) :
    val (a * a * sc * sc) < val (a * a * sc * sc + 1) := by
  have hu := R.u_nonneg
  have hη0 := R.η_nonneg
  have step : ∀ {x z : T} {B : ℝ}, |val x| ≤ B → |val z| ≤ 1 → |val (x * z)| ≤ 9 / 8 * B + 1 / 20 := by
    intro x z B hx hz
    have h := R.mul x z
    have h2 : |val x * val z| ≤ B := by
      rw [abs_mul]
      calc |val x| * |val z| ≤ B * 1 := mul_le_mul hx hz (abs_nonneg _) ((abs_nonneg _).trans hx)
        _ = B := mul_one B
    have e : val (x * z) = (val (x * z) - val x * val z) + val x * val z := by ring
    rw [e]
    refine (abs_add_le _ _).trans ?_
    have h3 : u * |val x * val z| ≤ 1 / 8 * B := mul_le_mul hu8 h2 (abs_nonneg _) (by norm_num)
    linarith
  have h3 := step (step (step ha ha) hs) hs
  norm_num at h3
  have h4 := R.add (a * a * sc * sc) 1
  rw [one] at h4
  set z := val (a * a * sc * sc)
  have h5 : |z + 1| ≤ 4 := (abs_add_le _ _).trans (by rw [abs_one]; linarith)
  have h6 : u * |z + 1| ≤ 1 / 8 * 4 := mul_le_mul hu8 h5 (abs_nonneg _) (by norm_num)
  have := (abs_le.1 (h4.trans h6)).1
  linarith

/-- How far rounding errors may grow in `expm`: `p` terms, `k` squarings. -/
noncomputable def expmGrow (n p k : Nat) (u η y : ℝ) : ℝ :=
  ((1 + u) ^ ((n + 5) * p + 2) + (1 + u) ^ (2 * p + 2) * expmUnder n p u η y) ^ (2 ^ k) *
    ((1 + u) ^ n + n * n * (1 + u) ^ (n - 1) * η) ^ (2 ^ k - 1)

omit [One T] [NatCast T] in
/-- The scaled matrix. -/
theorem scaled_near {n : Nat} {e : Nat → Nat → T} {k : Nat} {sc : T} (hsc : val sc = (1 / 2) ^ k) {x : ℝ} (hMx : ‖(toM n n e).map val‖ ≤ x) :
    MNear u 1 (n * η) ((toM n n fun r c => e r c * sc).map val) ((1 / 2 : ℝ) ^ k • (toM n n e).map val) (x * (1 / 2) ^ k) := by
  have hu := R.u_nonneg
  have hη0 := R.η_nonneg
  refine ⟨?_, ?_, by positivity⟩
  · have := smul_norm_err R (n := n) e sc
    rw [hsc] at this
    refine this.trans (add_le_add ?_ le_rfl)
    rw [pow_one, add_sub_cancel_left, abs_of_nonneg (by positivity)]
    refine mul_le_mul_of_nonneg_left ?_ hu
    exact mul_le_mul_of_nonneg_right hMx (by positivity)
  · refine (norm_smul_le _ _).trans ?_
    rw [Real.norm_of_nonneg (by positivity), mul_comm]
    exact mul_le_mul_of_nonneg_right hMx (by positivity)

/-- The computed partial sums of the series, and their squares. -/
theorem expSq_near (one : val 1 = 1) (hη : η ≤ 1 / 20) {J : Nat} (nat : ∀ j, j < J → val ((j + 1 : Nat) : T) = (j + 1 : Nat)) {n : Nat} (hn : 0 < n)
    {y : ℝ} (hy : 0 ≤ y) {S : Matrix (Fin n) (Fin n) ℝ} {sc : Nat → Nat → T} (hs : MNear u 1 (n * η) ((toM n n sc).map val) S y) {b i : Nat}
    (hJ : b * (n * n) + i ≤ J) (k : Nat) :
    1 ≤ expmGrow n (b * (n * n) + i) k u η y ∧
    ‖(toM n n (expSq n (expRetI n sc b i) k)).map val - taylor S (b * (n * n) + i) ^ (2 ^ k)‖ ≤
      (expmGrow n (b * (n * n) + i) k u η y - 1) * expSum y (b * (n * n) + i) ^ (2 ^ k) ∧
    ‖taylor S (b * (n * n) + i)‖ ≤ expSum y (b * (n * n) + i) := by
  have hu := R.u_nonneg
  have hη0 := R.η_nonneg
  have h1 : (1 : ℝ) ≤ 1 + u := by linarith
  have hret := (expRet_step R (expRet_near R one hη nat hn hy hs (show b * (n * n) ≤ J by omega)) (expAcc_near R one hη nat hn hy hs hJ)).2
  rw [show (fun r c => expRet n sc b r c + expAcc n sc (b * (n * n)) i r c) = expRetI n sc b i from rfl] at hret
  set p := b * (n * n) + i
  set er := expRetI n sc b i
  have hΓ : 1 ≤ (1 + u) ^ ((n + 5) * p + 2) + (1 + u) ^ (2 * p + 2) * expmUnder n p u η y := by
    have a1 : 1 ≤ (1 + u) ^ ((n + 5) * p + 2) := one_le_pow₀ h1
    have a2 := hret.nonneg
    linarith
  have hN1 := expSum_one_le hy p
  have hrr : ‖(toM n n er).map val - taylor S p‖ ≤
      ((1 + u) ^ ((n + 5) * p + 2) + (1 + u) ^ (2 * p + 2) * expmUnder n p u η y - 1) * expSum y p := by
    refine hret.err.trans ?_
    have := le_mul_of_one_le_right hret.nonneg hN1
    linarith
  refine ⟨?_, squarings_near R hΓ hN1 hrr hret.size k, hret.size⟩
  have hw : 1 ≤ (1 + u) ^ n + n * n * (1 + u) ^ (n - 1) * η := by
    have : 0 ≤ n * n * (1 + u) ^ (n - 1) * η := by positivity
    have : (1 : ℝ) ≤ (1 + u) ^ n := one_le_pow₀ h1
    linarith
  unfold expmGrow
  have a2 := one_le_pow₀ (n := 2 ^ k) hΓ
  have a3 := one_le_pow₀ (n := 2 ^ k - 1) hw
  nlinarith

/-- The error of what `expm` computes with `b` batches of terms and `i` more. -/
theorem expm_near (one : val 1 = 1) (hη : η ≤ 1 / 20) {J : Nat} (nat : ∀ j, j < J → val ((j + 1 : Nat) : T) = (j + 1 : Nat)) {n : Nat} (hn : 0 < n)
    {e : Nat → Nat → T} {k b i : Nat} (hJ : b * (n * n) + i ≤ J) {sc : T} (hsc : val sc = (1 / 2) ^ k) {x : ℝ}
    (hx : ∀ i : Fin n, ∑ j : Fin n, |val (e i j)| ≤ x) (r : Fin n) :
    ∑ c : Fin n, |val (expSq n (expRetI n (fun r c => e r c * sc) b i) k r c) - NormedSpace.exp ((toM n n e).map val) r c| ≤
      (expmGrow n (b * (n * n) + i) k u η (x * (1 / 2) ^ k) - 1) * Real.exp x +
        2 ^ k * Real.exp x * ((x * (1 / 2) ^ k) ^ (b * (n * n) + i + 1) / (b * (n * n) + i + 1).factorial) := by
  have hx0 : 0 ≤ x := (Finset.sum_nonneg fun j _ => abs_nonneg _).trans (hx ⟨0, hn⟩)
  have hMx : ‖(toM n n e).map val‖ ≤ x := norm_le_of_rows hx0 hx
  have hs := scaled_near R hsc hMx
  set M : Matrix (Fin n) (Fin n) ℝ := (toM n n e).map val with hM
  set y := x * (1 / 2 : ℝ) ^ k with hy
  have hy0 : 0 ≤ y := by positivity
  set S : Matrix (Fin n) (Fin n) ℝ := (1 / 2 : ℝ) ^ k • M with hS
  obtain ⟨hG, e5, -⟩ := expSq_near R one hη nat hn hy0 hs hJ k
  set p := b * (n * n) + i
  set er := expRetI n (fun r c => e r c * sc) b i
  have : Nonempty (Fin n) := ⟨⟨0, hn⟩⟩
  have ht := exp_scaled_bound' M k p hMx
  rw [← taylor_partial, ← hS, ← hy] at ht
  have hsum : ‖(toM n n (expSq n er k)).map val - NormedSpace.exp M‖ ≤ (expmGrow n p k u η y - 1) * Real.exp x +
      2 ^ k * Real.exp x * (y ^ (p + 1) / (p + 1).factorial) := by
    have e6 : (toM n n (expSq n er k)).map val - NormedSpace.exp M = ((toM n n (expSq n er k)).map val - taylor S p ^ (2 ^ k)) + (taylor S p ^ (2 ^ k) - NormedSpace.exp M) := by abel
    rw [e6]
    refine (norm_add_le _ _).trans (add_le_add (e5.trans ?_) ht)
    have hNk : expSum y p ^ (2 ^ k) ≤ Real.exp x := by
      refine (pow_le_pow_left₀ (by have := expSum_one_le hy0 p; linarith) (expSum_le hy0 p) _).trans (le_of_eq ?_)
      rw [← Real.exp_nat_mul, hy]
      congr 1
      push_cast
      have : (2 : ℝ) ^ k * (1 / 2) ^ k = 1 := by rw [← mul_pow]; norm_num
      rw [mul_left_comm, this, mul_one]
    exact mul_le_mul_of_nonneg_left hNk (by linarith)
  exact (row_sum_le_norm _ r).trans hsum

variable [Neg T] [Max T] [LT T] [DecidableRel (α := T) (· < ·)]

/-- C124: whenever `expm` returns, the result is near the exponential of the matrix: with `x` at least the largest absolute row sum, `k` the
number of halvings, and `p` the number of terms, the row sums of the difference are at most `2^k eˣ (x/2^k)^(p+1) / (p+1)!`, because the
series is cut off, and `expmGrow - 1` times `eˣ`, because of rounding. The number of terms is at least `n²` unless the inverse
factorials vanish. -/
theorem C124_error (one : val 1 = 1) (lt : ∀ x y : T, x < y ↔ val x < val y) (hu8 : u ≤ 1 / 8) (hη : η ≤ 1 / 20) {isz : T → Bool}
    (hone : isz 1 = false) {J : Nat} (nat : ∀ j, j < J → val ((j + 1 : Nat) : T) = (j + 1 : Nat)) (hJ : isz (invFac T J) = true)
    {absf sqrt : T → T} {half : T} {A : MB T} {n : Nat} {M : Matrix (Fin n) (Fin n) T} (hA : A.Is M) {accuracy : T} (hacc : |val accuracy| ≤ 1)
    {fuel k : Nat} {sc : T} (hlog : log2Ceil absf half A fuel = .ok (k, sc)) (hsc : val sc = (1 / 2) ^ k) {X : Mat T}
    (hr : expm isz absf sqrt half A accuracy fuel = .ok X) {x : ℝ} (hx : ∀ i, ∑ j, |val (M i j)| ≤ x) :
    ∃ (p : Nat) (E : Matrix (Fin n) (Fin n) T), X.WF ∧ X.toMB.Is E ∧ p < J ∧ (n * n ≤ p ∨ isz (invFac T (p + 1)) = true) ∧
      ∀ i, ∑ j, |val (E i j) - NormedSpace.exp (M.map val) i j| ≤
        (expmGrow n p k u η (x * (1 / 2) ^ k) - 1) * Real.exp x + 2 ^ k * Real.exp x * ((x * (1 / 2) ^ k) ^ (p + 1) / (p + 1).factorial) := by
  have hf := hA.fits
  obtain ⟨e, h, rfl⟩ := hA
  obtain ⟨hn, b, i, rfl, h2, h3, h4⟩ := expm_tab hone (fun j hj => (quo_one_err R one (nat j hj)).1) hJ h hlog (by
    rw [lt]
    refine sqAcc_lt R one hu8 hη hacc ?_
    rw [hsc, abs_of_nonneg (by positivity)]
    exact pow_le_one₀ (by norm_num) (by norm_num)) hr
  have hpJ : b * (n * n) + i < J := by
    by_contra hc
    have := h3 J (by omega)
    rw [hJ] at this; cases this
  exact ⟨b * (n * n) + i, _, (ofFn_holds hf _).wf, (ofFn_rep hf _).is, hpJ, h4.imp_left fun h => by omega,
    expm_near R one hη nat hn hpJ.le hsc hx⟩

end
end Malg
