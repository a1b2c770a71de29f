import Verif.Props.FloatExpm
import Verif.Props.FloatNorm
import Verif.Props.FloatLaws
import Verif.Lemmas.Radix
import Verif.Model.Sqrt
/-!
# Property C124: `expm` in `double`
-/
namespace Malg
open Ops Lin

/-- Rounding errors over the rationals, read as real numbers. -/
theorem Rounds.cast {T : Type} [Zero T] [Add T] [Sub T] [Mul T] [CDiv T] {val : T → ℚ} {u η : ℚ} (R : Rounds val u η) :
    Rounds (fun x => ((val x : ℚ) : ℝ)) (u : ℝ) (η : ℝ) where
  u_nonneg := by exact_mod_cast R.u_nonneg
  η_nonneg := by exact_mod_cast R.η_nonneg
  zero := by rw [R.zero]; norm_num
  zero_add x := by rw [R.zero_add]
  add x y := by exact_mod_cast R.add x y
  sub x y := by exact_mod_cast R.sub x y
  mul x y := by exact_mod_cast R.mul x y
  div x y h := by
    obtain ⟨z, h1, h2⟩ := R.div x y (by exact_mod_cast h)
    exact ⟨z, h1, by exact_mod_cast h2⟩

section
variable {K : Type} [Field K] [LinearOrder K] [IsStrictOrderedRing K] [FloorRing K] {p : ℕ} {emin : ℤ}

omit [LinearOrder K] [IsStrictOrderedRing K] [FloorRing K] in
theorem isFl_half_pow (p : ℕ) {k : ℕ} (h : emin ≤ -(k : ℤ)) : IsFl p emin ((1 / 2 : K) ^ k) := by
  refine ⟨1, -(k : ℤ), h, ?_, ?_⟩
  · rw [abs_one]; exact_mod_cast Nat.one_le_two_pow
  · rw [zpow_neg, zpow_natCast, Int.cast_one, one_mul, one_div, inv_pow]

theorem rnd_le_one (hp : 1 ≤ p) (he : emin ≤ 0) {x : K} (h : x ≤ 1) : rnd p emin x ≤ 1 := by
  have h1 : rnd p emin (1 : K) = 1 := rnd_exact hp (by simpa using isFl_half_pow (K := K) p (emin := emin) (k := 0) (by simpa using he))
  exact (rnd_mono hp emin h).trans_eq h1

/-- `log2_ceil` in floating point arithmetic: the halvings are exact, the norm is halved as long as it exceeds one, and the loop ends. -/
theorem log2Ceil_fl (hp : 1 ≤ p) {T : Type} {A : MB T} {absf : T → Fl K p emin} {N half : Fl K p emin} (hN : infNorm absf A = .ok N)
    (hh : half.val = 1 / 2) {E : ℕ} (hE : N.val ≤ 2 ^ E) (he : emin ≤ -(E : ℤ)) {fuel k : Nat} {sc : Fl K p emin}
    (h : log2Ceil absf half A fuel = .ok (k, sc)) :
    sc.val = (1 / 2) ^ k ∧ k ≤ E ∧ rnd p emin (N.val * (1 / 2) ^ k) ≤ 1 ∧ (0 < k → 1 < N.val * (1 / 2) ^ (k - 1)) := by
  unfold log2Ceil at h
  rw [hN, Res.ok_bind] at h
  have he0 : emin ≤ 0 := by omega
  have h1 : (1 : Fl K p emin).val = 1 := rnd_exact hp (by simpa using isFl_half_pow (K := K) p (emin := emin) (k := 0) (by simpa using he0))
  have lt_E : ∀ k : ℕ, 1 < N.val * (1 / 2) ^ k → k < E := by
    intro k hk
    by_contra hc
    have h2 : (1 / 2 : K) ^ k ≤ (1 / 2) ^ E := pow_le_pow_of_le_one (by norm_num) (by norm_num) (by omega)
    have h3 : N.val * (1 / 2) ^ k ≤ 2 ^ E * (1 / 2) ^ E :=
      (mul_le_mul_of_nonneg_right hE (by positivity)).trans (mul_le_mul_of_nonneg_left h2 (by positivity))
    rw [← mul_pow] at h3
    norm_num at h3
    norm_num at hk
    linarith
  have key := whileFuel_inv_ok (fun q : Nat × Fl K p emin => q.2.val = (1 / 2) ^ q.1 ∧ q.1 ≤ E ∧ (0 < q.1 → 1 < N.val * (1 / 2) ^ (q.1 - 1))) ?_ ?_ h
  · obtain ⟨⟨a, b, c⟩, d⟩ := key
    refine ⟨a, b, ?_, c⟩
    dsimp only at d a
    split at d
    · cases d
    · rename_i hc
      have : ¬ (1 : Fl K p emin).val < rnd p emin (N.val * sc.val) := hc
      rw [h1, a] at this
      exact not_lt.1 this
  · refine ⟨?_, Nat.zero_le _, fun h => absurd h (by simp)⟩
    rw [pow_zero]; exact h1
  · rintro ⟨k, sc⟩ ⟨k', sc'⟩ ⟨a, b, c⟩ hs
    dsimp only at hs a b c ⊢
    split at hs
    · rename_i hc
      have hc : (1 : Fl K p emin).val < rnd p emin (N.val * sc.val) := hc
      rw [h1, a] at hc
      have hgt : 1 < N.val * (1 / 2) ^ k := by
        by_contra hn
        exact absurd (rnd_le_one hp he0 (not_lt.1 hn)) (not_le.2 hc)
      have hkE := lt_E k hgt
      injection hs with hs
      injection hs with hs
      injection hs with hs1 hs2
      subst hs1 hs2
      refine ⟨?_, hkE, fun _ => by rwa [Nat.add_sub_cancel]⟩
      show rnd p emin (sc.val * half.val) = _
      rw [a, hh, ← pow_succ]
      exact rnd_exact hp (isFl_half_pow p (by push_cast; omega))
    · cases hs

/-- `log2_ceil` in floating point arithmetic returns. -/
theorem log2Ceil_fl_ok (hp : 1 ≤ p) {T : Type} {A : MB T} {absf : T → Fl K p emin} {N half : Fl K p emin} (hN : infNorm absf A = .ok N)
    (hh : half.val = 1 / 2) {E : ℕ} (hE : N.val ≤ 2 ^ E) (he : emin ≤ -(E : ℤ)) {fuel : Nat} (hf : E < fuel) :
    ∃ k sc, log2Ceil absf half A fuel = .ok (k, sc) := by
  unfold log2Ceil
  rw [hN, Res.ok_bind]
  have he0 : emin ≤ 0 := by omega
  have h1 : (1 : Fl K p emin).val = 1 := rnd_exact hp (by simpa using isFl_half_pow (K := K) p (emin := emin) (k := 0) (by simpa using he0))
  have key : ∀ (fuel k : ℕ) (sc : Fl K p emin), sc.val = (1 / 2) ^ k → k ≤ E → E < fuel + k → ∃ q, whileFuel (fun q : Nat × Fl K p emin =>
      if 1 < N * q.2 then Res.ok (some (q.1 + 1, q.2 * half)) else .ok none) fuel (k, sc) = .ok q := by
    intro fuel
    induction fuel with
    | zero => intro k sc _ h1 h2; omega
    | succ fuel ih =>
      intro k sc hsc hk hf
      rw [whileFuel]
      by_cases hc : 1 < N * sc
      · rw [if_pos hc, Res.ok_bind]
        have hc : (1 : Fl K p emin).val < rnd p emin (N.val * sc.val) := hc
        rw [h1, hsc] at hc
        have hkE : k < E := by
          by_contra hn
          obtain rfl : k = E := by omega
          refine absurd (rnd_le_one hp he0 ?_) (not_le.2 hc)
          have := mul_le_mul_of_nonneg_right hE (show (0 : K) ≤ (1 / 2) ^ k by positivity)
          rwa [← mul_pow, mul_one_div, div_self two_ne_zero, one_pow] at this
        refine ih (k + 1) (sc * half) ?_ hkE (by omega)
        show rnd p emin (sc.val * half.val) = _
        rw [hsc, hh, ← pow_succ]
        exact rnd_exact hp (isFl_half_pow p (by push_cast; omega))
      · rw [if_neg hc, Res.ok_bind]
        exact ⟨_, rfl⟩
  obtain ⟨⟨k, sc⟩, h⟩ := key fuel 0 1 (by rw [pow_zero]; exact h1) (Nat.zero_le _) (by omega)
  exact ⟨k, sc, h⟩

end

set_option exponentiation.threshold 3000

/-- The rounding errors of `double`, read as real numbers. -/
theorem double_rounds : Rounds (fun x : Double => ((x.val : ℚ) : ℝ)) (1 / 2 ^ 53) (1 / 2 ^ 1075) := by
  have h := (Fl.rounds ℚ (p := 53) (by norm_num) (-1074)).cast
  have h1 : (((2 : ℚ) ^ (-((53 : ℕ) : ℤ)) : ℚ) : ℝ) = 1 / 2 ^ 53 := by norm_num
  have h2 : (((2 : ℚ) ^ (-1074 : ℤ) / 2 : ℚ) : ℝ) = 1 / 2 ^ 1075 := by norm_num
  rwa [h1, h2] at h

theorem double_pow {k : Nat} (hk : k ≤ 2 ^ 52) : (1 + 1 / 2 ^ 53 : ℝ) ^ k - 1 ≤ k / 2 ^ 52 := by
  have h := double_factor_real hk
  rwa [show (2 : ℝ) ^ (-((53 : ℕ) : ℤ)) = 1 / 2 ^ 53 by norm_num] at h

theorem expmRate_double {n : Nat} {y : ℝ} (hn : n ≤ 2 ^ 10) (hy : y ≤ 1 + 1 / 2 ^ 40) :
    expmRate n (1 / 2 ^ 53) (1 / 2 ^ 1075) y * (1 + 1 / 2 ^ 53) ^ 2 ≤ 2 := by
  have hn' : (n : ℝ) ≤ 2 ^ 10 := by exact_mod_cast hn
  have hn0 : (0 : ℝ) ≤ n := Nat.cast_nonneg n
  have a1 : (1 + 1 / 2 ^ 53 : ℝ) ^ n ≤ 1 + 1 / 2 ^ 40 := by
    have := double_pow (k := n) (by omega)
    have : (n : ℝ) / 2 ^ 52 ≤ 2 ^ 10 / 2 ^ 52 := by gcongr
    have : (2 : ℝ) ^ 10 / 2 ^ 52 ≤ 1 / 2 ^ 40 := by norm_num
    linarith
  have a2 : (1 + 1 / 2 ^ 53 + n * (1 / 2 ^ 1075) : ℝ) ≤ 1 + 1 / 2 ^ 40 := by
    have : (n : ℝ) * (1 / 2 ^ 1075) ≤ 2 ^ 10 * (1 / 2 ^ 1075) := by gcongr
    have : (1 + 1 / 2 ^ 53 + 2 ^ 10 * (1 / 2 ^ 1075) : ℝ) ≤ 1 + 1 / 2 ^ 40 := by norm_num
    linarith
  have a3 : max 1 y ≤ 1 + 1 / 2 ^ 40 := max_le (by norm_num) hy
  unfold expmRate
  calc (1 + 1 / 2 ^ 53 : ℝ) ^ n * (1 + 1 / 2 ^ 53 + n * (1 / 2 ^ 1075)) * max 1 y * (1 + 1 / 2 ^ 53) ^ 2
      ≤ (1 + 1 / 2 ^ 40) * (1 + 1 / 2 ^ 40) * (1 + 1 / 2 ^ 40) * (1 + 1 / 2 ^ 53) ^ 2 := by gcongr
    _ ≤ 2 := by norm_num

theorem expmUnder_double {n p : Nat} {y : ℝ} (hn : n ≤ 2 ^ 10) (hp : p ≤ 177) (hy : y ≤ 1 + 1 / 2 ^ 40) :
    expmUnder n p (1 / 2 ^ 53) (1 / 2 ^ 1075) y ≤ 1 / 2 ^ 800 := by
  have hn' : (n : ℝ) ≤ 2 ^ 10 := by exact_mod_cast hn
  have hp' : (p : ℝ) ≤ 177 := by exact_mod_cast hp
  have hn0 : (0 : ℝ) ≤ n := Nat.cast_nonneg n
  have hp0 : (0 : ℝ) ≤ p := Nat.cast_nonneg p
  have hr := expmRate_double hn hy
  have hr0 : 0 ≤ expmRate n (1 / 2 ^ 53) (1 / 2 ^ 1075) y := by unfold expmRate; positivity
  have hpow : (expmRate n (1 / 2 ^ 53) (1 / 2 ^ 1075) y * (1 + 1 / 2 ^ 53) ^ 2) ^ p ≤ 2 ^ 177 :=
    (pow_le_pow_left₀ (by positivity) hr p).trans (pow_le_pow_right₀ (by norm_num) hp)
  unfold expmUnder
  calc _ ≤ (177 : ℝ) * (2 ^ 177 * ((5 + 2 ^ 10 + 2 * 177 * (2 ^ 10 + 2 ^ 10 * 2 ^ 10)) * (1 / 2 ^ 1075))) := by gcongr
    _ ≤ 1 / 2 ^ 800 := by norm_num

/-- What rounding and underflow add in `double`, in units of `2^-52`. -/
theorem expmGrow_double {n p k : Nat} {y : ℝ} (hn : n ≤ 2 ^ 10) (hp : p ≤ 177) (hy : y ≤ 1 + 1 / 2 ^ 40)
    (hk : ((n + 5) * p + n + 4) * 2 ^ k ≤ 2 ^ 52) :
    expmGrow n p k (1 / 2 ^ 53) (1 / 2 ^ 1075) y - 1 ≤ 2 ^ k * (((n + 5) * p + n + 4 : Nat) / 2 ^ 52) := by
  have hn' : (n : ℝ) ≤ 2 ^ 10 := by exact_mod_cast hn
  have h1 : (1 : ℝ) ≤ 1 + 1 / 2 ^ 53 := by norm_num
  have two : ∀ m : Nat, m ≤ 2 ^ 52 → (1 + 1 / 2 ^ 53 : ℝ) ^ m ≤ 2 := by
    intro m hm
    have h := double_pow hm
    have : (m : ℝ) / 2 ^ 52 ≤ 1 := by rw [div_le_one (by positivity)]; exact_mod_cast hm
    linarith
  have hU := expmUnder_double hn hp hy
  have hU0 : 0 ≤ expmUnder n p (1 / 2 ^ 53) (1 / 2 ^ 1075) y := by unfold expmUnder expmRate; positivity
  have b1 : (1 + 1 / 2 ^ 53 : ℝ) ^ ((n + 5) * p + 2) + (1 + 1 / 2 ^ 53) ^ (2 * p + 2) * expmUnder n p (1 / 2 ^ 53) (1 / 2 ^ 1075) y ≤
      (1 + 1 / 2 ^ 53) ^ ((n + 5) * p + 3) := by
    have c1 : (1 + 1 / 2 ^ 53 : ℝ) ^ (2 * p + 2) * expmUnder n p (1 / 2 ^ 53) (1 / 2 ^ 1075) y ≤ 2 * (1 / 2 ^ 800) :=
      mul_le_mul (two _ (by omega)) hU hU0 (by norm_num)
    have c2 : (1 : ℝ) ≤ (1 + 1 / 2 ^ 53) ^ ((n + 5) * p + 2) := one_le_pow₀ h1
    rw [pow_succ _ ((n + 5) * p + 2)]
    have c3 : (2 * (1 / 2 ^ 800) : ℝ) ≤ 1 / 2 ^ 53 := by norm_num
    nlinarith
  have b2 : (1 + 1 / 2 ^ 53 : ℝ) ^ n + n * n * (1 + 1 / 2 ^ 53) ^ (n - 1) * (1 / 2 ^ 1075) ≤ (1 + 1 / 2 ^ 53) ^ (n + 1) := by
    have c1 : (n : ℝ) * n * (1 + 1 / 2 ^ 53) ^ (n - 1) * (1 / 2 ^ 1075) ≤ 2 ^ 10 * 2 ^ 10 * 2 * (1 / 2 ^ 1075) := by
      have := two (n - 1) (by omega)
      gcongr
    have c2 : (1 : ℝ) ≤ (1 + 1 / 2 ^ 53) ^ n := one_le_pow₀ h1
    rw [pow_succ _ n]
    have c3 : (2 ^ 10 * 2 ^ 10 * 2 * (1 / 2 ^ 1075) : ℝ) ≤ 1 / 2 ^ 53 := by norm_num
    nlinarith
  have hG : expmGrow n p k (1 / 2 ^ 53) (1 / 2 ^ 1075) y ≤ (1 + 1 / 2 ^ 53) ^ (((n + 5) * p + n + 4) * 2 ^ k) := by
    unfold expmGrow
    calc _ ≤ ((1 + 1 / 2 ^ 53 : ℝ) ^ ((n + 5) * p + 3)) ^ (2 ^ k) * ((1 + 1 / 2 ^ 53) ^ (n + 1)) ^ (2 ^ k) := by
            refine mul_le_mul (pow_le_pow_left₀ (by positivity) b1 _) ?_ (by positivity) (by positivity)
            exact (pow_le_pow_left₀ (by positivity) b2 _).trans (pow_le_pow_right₀ (one_le_pow₀ h1) (Nat.sub_le _ _))
      _ = _ := by rw [← mul_pow, ← pow_add, ← pow_mul]; congr 1; ring
  have := double_pow hk
  have e : ((((n + 5) * p + n + 4) * 2 ^ k : Nat) : ℝ) / 2 ^ 52 = 2 ^ k * (((n + 5) * p + n + 4 : Nat) / 2 ^ 52) := by push_cast; ring
  rw [e] at this
  linarith

theorem invFac_zero {K : Type} [Field K] [LinearOrder K] [IsStrictOrderedRing K] [FloorRing K] {p : ℕ} {emin : ℤ} {i : Nat}
    (h : (invFac (Fl K p emin) i).val = 0) (j : Nat) : (invFac (Fl K p emin) (i + j)).val = 0 := by
  induction j with
  | zero => exact h
  | succ j ih =>
    show rnd p emin ((invFac (Fl K p emin) (i + j)).val * _) = 0
    rw [ih, zero_mul]
    simp [rnd, show rne (0 : K) = 0 by exact_mod_cast rne_int (K := K) 0]

set_option maxRecDepth 100000 in
/-- In `double` the inverse of `178!` underflows to zero, that of `177!` does not. -/
theorem invFac_double : (invFac Double 177).val ≠ 0 ∧ (invFac Double 178).val = 0 := by decide +kernel

/-- The numbers of halvings in `double`. -/
theorem halvings_double {N : Double} {k : Nat} {y : ℝ} (hx0 : 0 ≤ y) (hNx : |(N.val : ℝ) - y| ≤ 1 / 2 ^ 42 * y)
    (s3 : rnd 53 (-1074) (N.val * (1 / 2) ^ k) ≤ 1) (s4 : 0 < k → 1 < N.val * (1 / 2) ^ (k - 1)) :
    y * (1 / 2) ^ k ≤ 1 + 1 / 2 ^ 40 ∧ y ≤ 2 ^ k * (1 + 1 / 2 ^ 40) ∧ (0 < k → 2 ^ k < 2 * y * (1 + 1 / 2 ^ 40)) := by
  obtain ⟨hN1, hN2⟩ := abs_le.1 hNx
  have hpk : (2 : ℝ) ^ k * (1 / 2) ^ k = 1 := by rw [← mul_pow]; norm_num
  have hk0 : (0 : ℝ) < (1 / 2) ^ k := by positivity
  have hyk : y * (1 / 2) ^ k ≤ 1 + 1 / 2 ^ 40 := by
    have r2 : |rnd 53 (-1074) (N.val * (1 / 2) ^ k) - N.val * (1 / 2) ^ k| ≤ 2 ^ (-((53 : ℕ) : ℤ)) * |N.val * (1 / 2) ^ k| + 2 ^ (-1074 : ℤ) / 2 := rnd_err _ _ _
    have hNn : 0 ≤ N.val := by
      have : (0 : ℝ) ≤ N.val := by linarith
      exact_mod_cast this
    rw [abs_of_nonneg (mul_nonneg hNn (by positivity))] at r2
    have r3 := (abs_le.1 r2).1
    have r4 : N.val * (1 / 2) ^ k * (1 - 1 / 2 ^ 53) ≤ 1 + 1 / 2 ^ 1075 := by
      have q1 : (2 : ℚ) ^ (-((53 : ℕ) : ℤ)) = 1 / 2 ^ 53 := by norm_num
      have q2 : (2 : ℚ) ^ (-1074 : ℤ) / 2 = 1 / 2 ^ 1075 := by norm_num
      rw [q1, q2] at r3
      linarith
    have r5 : (N.val : ℝ) * (1 / 2) ^ k * (1 - 1 / 2 ^ 53) ≤ 1 + 1 / 2 ^ 1075 := by
      have := (Rat.cast_le (K := ℝ)).2 r4
      push_cast at this
      exact this
    by_contra hc
    have hc := not_le.1 hc
    have r6 : y * (1 / 2) ^ k * (1 - 1 / 2 ^ 42) ≤ (N.val : ℝ) * (1 / 2) ^ k := by
      have := mul_le_mul_of_nonneg_right (show y * (1 - 1 / 2 ^ 42) ≤ (N.val : ℝ) by linarith) hk0.le
      linarith
    have r7 : (1 + 1 / 2 ^ 40 : ℝ) * (1 - 1 / 2 ^ 42) ≤ (N.val : ℝ) * (1 / 2) ^ k := by
      refine le_trans ?_ r6
      exact mul_le_mul_of_nonneg_right hc.le (by norm_num)
    have r8 := (mul_le_mul_of_nonneg_right r7 (show (0 : ℝ) ≤ 1 - 1 / 2 ^ 53 by norm_num)).trans r5
    norm_num at r8
  refine ⟨hyk, ?_, ?_⟩
  · have := mul_le_mul_of_nonneg_left hyk (show (0 : ℝ) ≤ 2 ^ k by positivity)
    rwa [mul_left_comm, hpk, mul_one] at this
  · intro hk
    have t1 : (1 : ℝ) < N.val * (1 / 2) ^ (k - 1) := by
      have := (Rat.cast_lt (K := ℝ)).2 (s4 hk)
      push_cast at this
      exact this
    have t2 : (2 : ℝ) ^ k = 2 * 2 ^ (k - 1) := by rw [← pow_succ', Nat.sub_add_cancel hk]
    have t3 : (2 : ℝ) ^ (k - 1) * (1 / 2) ^ (k - 1) = 1 := by rw [← mul_pow]; norm_num
    have t4 : (2 : ℝ) ^ (k - 1) < N.val := by
      have := mul_lt_mul_of_pos_left t1 (show (0 : ℝ) < 2 ^ (k - 1) by positivity)
      rwa [mul_one, mul_left_comm, t3, mul_one] at this
    rw [t2]
    linarith

/-- The error bound of `expm`, with the constants of `double`. -/
theorem expm_bound_double {n p k : Nat} {y : ℝ} (hx0 : 0 ≤ y) (hn : n ≤ 2 ^ 10) (hp : p ≤ 177) (s2 : k ≤ 31) (hyk : y * (1 / 2) ^ k ≤ 1 + 1 / 2 ^ 40) :
    (expmGrow n p k (1 / 2 ^ 53) (1 / 2 ^ 1075) (y * (1 / 2) ^ k) - 1) * Real.exp y +
        2 ^ k * Real.exp y * ((y * (1 / 2) ^ k) ^ (p + 1) / (p + 1).factorial) ≤
      2 ^ k * Real.exp y * (((n + 5) * p + n + 4 : Nat) / 2 ^ 52 + ((1 + 1 / 2 ^ 40) * min 1 y) ^ (p + 1) / (p + 1).factorial) := by
  have hyk0 : 0 ≤ y * (1 / 2) ^ k := by positivity
  have hbig : ((n + 5) * p + n + 4) * 2 ^ k ≤ 2 ^ 52 := by
    have u1 : (n + 5) * p ≤ (2 ^ 10 + 5) * 177 := Nat.mul_le_mul (by omega) hp
    have u2 : 2 ^ k ≤ 2 ^ 31 := Nat.pow_le_pow_right (by norm_num) s2
    calc _ ≤ 2 ^ 18 * 2 ^ 31 := Nat.mul_le_mul (by omega) u2
      _ ≤ 2 ^ 52 := by norm_num
  have v1 := mul_le_mul_of_nonneg_right (expmGrow_double hn hp hyk hbig) (Real.exp_pos y).le
  have v0 : y * (1 / 2) ^ k ≤ (1 + 1 / 2 ^ 40) * min 1 y := by
    rcases le_total 1 y with h1 | h1
    · rwa [min_eq_left h1, mul_one]
    · rw [min_eq_right h1]
      have w1 : y * (1 / 2) ^ k ≤ y * 1 := mul_le_mul_of_nonneg_left (pow_le_one₀ (by norm_num) (by norm_num)) hx0
      have w2 : (0 : ℝ) ≤ 1 / 2 ^ 40 * y := by positivity
      linarith
  have v2 : (y * (1 / 2) ^ k) ^ (p + 1) / (p + 1).factorial ≤ ((1 + 1 / 2 ^ 40) * min 1 y) ^ (p + 1) / (p + 1).factorial := by gcongr
  have v3 := mul_le_mul_of_nonneg_left v2 (show (0 : ℝ) ≤ 2 ^ k * Real.exp y by positivity)
  calc _ ≤ 2 ^ k * (((n + 5) * p + n + 4 : Nat) / 2 ^ 52) * Real.exp y + 2 ^ k * Real.exp y * (((1 + 1 / 2 ^ 40) * min 1 y) ^ (p + 1) / (p + 1).factorial) :=
          add_le_add v1 v3
    _ = _ := by ring

/-- Small natural numbers in `double` are exact. -/
theorem double_nat (j : Nat) (hj : j < 178) : (((((j + 1 : Nat) : Double)).val : ℚ) : ℝ) = (j + 1 : Nat) := by
  have : (((j + 1 : Nat) : Double)).val = (j + 1 : Nat) := by
    show rnd 53 (-1074) ((j + 1 : Nat) : ℚ) = _
    have := rnd_intCast (K := ℚ) (p := 53) (emin := -1074) (by norm_num) (by norm_num) (z := (j + 1 : Nat)) (by rw [abs_of_nonneg (by omega)]; omega)
    exact_mod_cast this
  rw [this]
  push_cast
  rfl

theorem double_one : (((1 : Double).val : ℚ) : ℝ) = 1 := by
  have : (1 : Double).val = 1 := by decide +kernel
  rw [this]; norm_num

/-- C124: `expm` in `double`, with explicit constants: rounding costs at most `(n + 5)p + n + 4` units of `2^-52` for every one of the `2^k` factors, relative
to `e^x`, and the series is cut after `p` terms; `p` is at least the square of the order, or the inverse factorials have underflowed (`p = 177`). -/
theorem C124_double {A : Mat Double} {n : Nat} {M : Matrix (Fin n) (Fin n) Double} (hA : A.toMB.Is M) (hn : n ≤ 2 ^ 10) {tol : Double}
    (ht : |tol.val| ≤ 1 / 4) {sqrt : Double → Double} {half : Double} (hh : half.val = 1 / 2) {accuracy : Double} (hacc : |accuracy.val| ≤ 1)
    {fuel : Nat} {X : Mat Double} (hr : expm (Feq.approxZero Fl.abs tol) Fl.abs sqrt half A.toMB accuracy fuel = .ok X)
    {x : ℝ} (hx : ∀ i, ∑ j, |((M i j).val : ℝ)| ≤ x) (hx' : ∃ i, ∑ j, |((M i j).val : ℝ)| = x) (hx30 : x ≤ 2 ^ 30) :
    ∃ (k p : Nat) (E : Matrix (Fin n) (Fin n) Double), X.WF ∧ X.toMB.Is E ∧ (n * n ≤ p ∨ p = 177) ∧ p ≤ 177 ∧
      x ≤ 2 ^ k * (1 + 1 / 2 ^ 40) ∧ (0 < k → 2 ^ k < 2 * x * (1 + 1 / 2 ^ 40)) ∧
      ∀ i, ∑ j, |((E i j).val : ℝ) - NormedSpace.exp (M.map fun z => (z.val : ℝ)) i j| ≤
        2 ^ k * Real.exp x * (((n + 5) * p + n + 4 : Nat) / 2 ^ 52 + ((1 + 1 / 2 ^ 40) * min 1 x) ^ (p + 1) / (p + 1).factorial) := by
  have R := double_rounds
  obtain ⟨⟨k, sc⟩, hlog, -⟩ := Res.bind_eq_ok.1 hr
  have hf := hA.fits
  obtain ⟨i₀, hi₀⟩ := hx'
  have hx0 : 0 ≤ x := by rw [← hi₀]; exact Finset.sum_nonneg fun j _ => abs_nonneg _
  obtain ⟨e, h, rfl⟩ := id hA
  -- the norm
  obtain ⟨N, y, hN, hy, hNy⟩ := C107_infinity_partial R (abs := Fl.abs) (fun z => by rw [Fl.val_abs]; push_cast; rfl)
    (fun a b => by rw [Fl.val_max]; push_cast; rfl) (B := Mat.ofFn n n fun i j => ((e i j).val : ℝ)) (ofFn_holds hf _).wf hA (ofFn_rep hf _).is
  obtain ⟨y', hy', hy0, hy1, hy2⟩ := infNorm_is (ofFn_holds hf fun i j => ((e i j).val : ℝ)).wf (ofFn_rep hf _).is
  obtain rfl := Res.ok.inj (hy.symm.trans hy')
  obtain rfl : y = x := le_antisymm (hy2 x hx0 hx) (by rw [← hi₀]; exact hy1 i₀)
  have hNx : |(N.val : ℝ) - y| ≤ 1 / 2 ^ 42 * y := by
    refine hNy.trans (mul_le_mul_of_nonneg_right ?_ hx0)
    refine (double_pow (k := n - 1) (by omega)).trans ?_
    have : ((n - 1 : Nat) : ℝ) ≤ 2 ^ 10 := by exact_mod_cast (show n - 1 ≤ 2 ^ 10 by omega)
    calc ((n - 1 : Nat) : ℝ) / 2 ^ 52 ≤ 2 ^ 10 / 2 ^ 52 := by gcongr
      _ = 1 / 2 ^ 42 := by norm_num
  obtain ⟨hN1, hN2⟩ := abs_le.1 hNx
  have hN31 : N.val ≤ 2 ^ 31 := by
    have : (N.val : ℝ) ≤ 2 ^ 31 := by linarith
    exact_mod_cast this
  obtain ⟨s1, s2, s3, s4⟩ := log2Ceil_fl (by norm_num) hN hh hN31 (by norm_num) hlog
  obtain ⟨hyk, hk1, hk2⟩ := halvings_double hx0 hNx s3 s4
  have hiso := approxZero_fl (p := 53) (by norm_num) ht
  have hone : Feq.approxZero Fl.abs tol 1 = false := by
    rw [Bool.eq_false_iff, ne_eq, hiso]
    decide +kernel
  obtain ⟨p, E, g1, g2, g3, g4, g5⟩ := C124_error R double_one (fun a b => by
      show a.val < b.val ↔ _
      exact_mod_cast Iff.rfl) (by norm_num) (by norm_num) hone (J := 178) double_nat ((hiso _).2 invFac_double.2) hA (by exact_mod_cast hacc) hlog
      (by rw [s1]; push_cast; rfl) hr hx
  have hp : p ≤ 177 := by omega
  refine ⟨k, p, E, g1, g2, ?_, hp, hk1, hk2, fun i => (g5 i).trans (expm_bound_double hx0 hn hp s2 hyk)⟩
  · rcases g4 with g4 | g4
    · exact .inl g4
    · refine .inr ?_
      by_contra hc
      have := invFac_zero ((hiso _).1 g4) (177 - (p + 1))
      rw [show p + 1 + (177 - (p + 1)) = 177 by omega] at this
      exact invFac_double.1 this

/-- C124: from order 5 on the series is always long enough: the error of `expm` in `double` is that of rounding. -/
theorem C124_large {A : Mat Double} {n : Nat} {M : Matrix (Fin n) (Fin n) Double} (hA : A.toMB.Is M) (hn5 : 5 ≤ n) (hn : n ≤ 2 ^ 10) {tol : Double}
    (ht : |tol.val| ≤ 1 / 4) {sqrt : Double → Double} {half : Double} (hh : half.val = 1 / 2) {accuracy : Double} (hacc : |accuracy.val| ≤ 1)
    {fuel : Nat} {X : Mat Double} (hr : expm (Feq.approxZero Fl.abs tol) Fl.abs sqrt half A.toMB accuracy fuel = .ok X)
    {x : ℝ} (hx : ∀ i, ∑ j, |((M i j).val : ℝ)| ≤ x) (hx' : ∃ i, ∑ j, |((M i j).val : ℝ)| = x) (hx30 : x ≤ 2 ^ 30) :
    ∃ E : Matrix (Fin n) (Fin n) Double, X.WF ∧ X.toMB.Is E ∧
      ∀ i, ∑ j, |((E i j).val : ℝ) - NormedSpace.exp (M.map fun z => (z.val : ℝ)) i j| ≤
        max 1 (2.1 * x) * Real.exp x * (178 * (n + 5) / 2 ^ 52) := by
  obtain ⟨k, p, E, h1, h2, h3, h4, -, h6, h7⟩ := C124_double hA hn ht hh hacc hr hx hx' hx30
  refine ⟨E, h1, h2, fun i => (h7 i).trans ?_⟩
  have hp : 25 ≤ p := by
    rcases h3 with h3 | h3
    · exact (Nat.mul_le_mul hn5 hn5).trans h3
    · omega
  have hx0 : 0 ≤ x := by
    obtain ⟨i, hi⟩ := hx'
    rw [← hi]; exact Finset.sum_nonneg fun j _ => abs_nonneg _
  have a1 : (2 : ℝ) ^ k ≤ max 1 (2.1 * x) := by
    rcases Nat.eq_zero_or_pos k with rfl | hk
    · rw [pow_zero]; exact le_max_left _ _
    · refine (h6 hk).le.trans (le_trans ?_ (le_max_right _ _))
      have := mul_le_mul_of_nonneg_left (show (2 * (1 + 1 / 2 ^ 40) : ℝ) ≤ 2.1 by norm_num) hx0
      linarith
  have hm0 : 0 ≤ min 1 x := le_min zero_le_one hx0
  have a2 : ((1 + 1 / 2 ^ 40 : ℝ) * min 1 x) ^ (p + 1) / (p + 1).factorial ≤ 1 / 2 ^ 52 := by
    have b0 : ((1 + 1 / 2 ^ 40 : ℝ) * min 1 x) ^ (p + 1) ≤ (1 + 1 / 2 ^ 40 : ℝ) ^ (p + 1) :=
      pow_le_pow_left₀ (by positivity) (mul_le_of_le_one_right (by norm_num) (min_le_left _ _)) _
    have b1 : (1 + 1 / 2 ^ 40 : ℝ) ^ (p + 1) ≤ 2 := (pow_le_pow_right₀ (by norm_num) (show p + 1 ≤ 178 by omega)).trans (by norm_num)
    have b2 : ((26).factorial : ℝ) ≤ ((p + 1).factorial : ℝ) := by exact_mod_cast Nat.factorial_le (by omega)
    have b3 : ((26).factorial : ℝ) = 403291461126605635584000000 := by norm_num [Nat.factorial]
    rw [b3] at b2
    calc _ ≤ (2 : ℝ) / 403291461126605635584000000 := div_le_div₀ (by norm_num) (b0.trans b1) (by norm_num) b2
      _ ≤ _ := by norm_num
  have a3 : (((n + 5) * p + n + 4 : Nat) : ℝ) ≤ 178 * (n + 5) - 1 := by
    have c1 : (p : ℝ) ≤ 177 := by exact_mod_cast h4
    have c2 := mul_le_mul_of_nonneg_left c1 (show (0 : ℝ) ≤ n + 5 by positivity)
    push_cast
    linarith
  have a4 : (((n + 5) * p + n + 4 : Nat) : ℝ) / 2 ^ 52 + ((1 + 1 / 2 ^ 40) * min 1 x) ^ (p + 1) / (p + 1).factorial ≤ 178 * (n + 5) / 2 ^ 52 := by
    have := div_le_div_of_nonneg_right a3 (show (0 : ℝ) ≤ 2 ^ 52 by positivity)
    rw [sub_div] at this
    linarith
  have he := (Real.exp_pos x).le
  gcongr

/-- The generator of the rotations, its exponential in `double`, and the error bound for it. -/
def expEx : Mat Double := ⟨2, 2, doubles [0, 1, -1, 0]⟩

def expExT : Nat → Nat → Double := fun i j => Fl.of 53 (-1074) (if i = j then 0 else if i < j then 1 else -1)

set_option maxRecDepth 100000 in
theorem expEx_eq : expm (Feq.approxZero Fl.abs (Fl.of 53 (-1074) (1 / 1000000))) Fl.abs Fl.sqrtRat (Fl.of 53 (-1074) (1 / 2)) expEx.toMB
    (Fl.of 53 (-1074) (1 / 1000000000)) 200 = .ok ⟨2, 2, doubles [4866610526750349 / 9007199254740992, 7579296827247829 / 9007199254740992,
      -7579296827247829 / 9007199254740992, 4866610526750349 / 9007199254740992]⟩ := by decide +kernel

example : ∃ (k p : Nat) (E : Matrix (Fin 2) (Fin 2) Double), (4 ≤ p ∨ p = 177) ∧ (0 < k → 2 ^ k < (2 * 1 * (1 + 1 / 2 ^ 40) : ℝ)) ∧
    ∀ i, ∑ j, |((E i j).val : ℝ) - NormedSpace.exp ((toM 2 2 expExT).map fun z => (z.val : ℝ)) i j| ≤
      2 ^ k * Real.exp 1 * (((2 + 5) * p + 2 + 4 : Nat) / 2 ^ 52 + (1 + 1 / 2 ^ 40) ^ (p + 1) / (p + 1).factorial) := by
  have hA : expEx.toMB.Is (toM 2 2 expExT) := by
    rw [show expEx = Mat.ofFn 2 2 expExT by decide +kernel]
    exact (ofFn_rep (fits_small (by norm_num) (by norm_num)) _).is
  have hrow : ∀ i : Fin 2, ∑ j, |((toM 2 2 expExT i j).val : ℝ)| = 1 := by
    intro i
    have : ∀ i : Fin 2, ∑ j, |(toM 2 2 expExT i j).val| = 1 := by decide +kernel
    exact_mod_cast congrArg (fun q : ℚ => (q : ℝ)) (this i)
  obtain ⟨k, p, E, -, -, h1, -, -, h2, h3⟩ := C124_double hA (by norm_num) (tol := Fl.of 53 (-1074) (1 / 1000000)) (by decide +kernel) (by decide +kernel)
    (by decide +kernel) expEx_eq (x := 1) (fun i => (hrow i).le) ⟨0, hrow 0⟩ (by norm_num)
  rw [min_self, mul_one] at h3
  exact ⟨k, p, E, h1, h2, h3⟩

end Malg
