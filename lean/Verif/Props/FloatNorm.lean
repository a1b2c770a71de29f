import Verif.Props.Norms
import Verif.Props.FloatLaws
import Verif.Model.Ieee
import Mathlib.Analysis.Real.Sqrt
/-!
# C107: norms in floating point

`r` is the exact square root, `sqrt` the one of the element type, which rounds it once.
-/
namespace Malg
open Ops

/-- The accumulation over all rows and columns of a matrix. -/
theorem accum_rows {T : Type} [Zero T] [Add T] {n m : Nat} {g : Nat → Nat → T} {body : Nat → Nat → T → Res T}
    (h : ∀ i j acc, i < n → j < m → body i j acc = .ok (acc + g i j)) :
    forRange 0 n 0 (fun i acc => forRange 0 m acc (body i)) = .ok (lsum (n * m) fun k => g (k / m) (k % m)) := by
  rw [forRange_eq (Nat.zero_le n) (fun i => lsum (i * m) fun k => g (k / m) (k % m))]
  · simp [lsum]
  · intro i _ hi
    rw [forRange_eq (Nat.zero_le m) (fun j => lsum (i * m + j) fun k => g (k / m) (k % m))]
    · rw [Nat.succ_mul]
    · rfl
    · intro j _ hj
      rw [h i j _ hi hj, show i * m + (j + 1) = i * m + j + 1 from rfl, lsum, lin_div hj, lin_mod hj]

section
variable {T K : Type} [Zero T] [Add T] [Sub T] [Mul T] [CDiv T] [Field K] [LinearOrder K] [IsStrictOrderedRing K]
  {val : T → K} {u η : K} (R : Rounds val u η) {r : K → K} (hr : Sqrt r) {sqrt : T → T}
  (hq : ∀ a, 0 ≤ val a → |val (sqrt a) - r (val a)| ≤ u * r (val a)) (hsq : ∀ a, 0 ≤ val (a * a)) (hu : u ≤ 1)

include R hsq hu in
theorem lsum_sq_nonneg (f : Nat → T) (n : Nat) : 0 ≤ val (lsum n fun i => f i * f i) := by
  induction n with
  | zero => exact R.zero.ge
  | succ n ih =>
    have h := R.add (lsum n fun i => f i * f i) (f n * f n)
    have hp := add_nonneg ih (hsq (f n))
    rw [abs_of_nonneg hp] at h
    have := (abs_le.1 h).1
    show 0 ≤ val ((lsum n fun i => f i * f i) + f n * f n)
    nlinarith

include hr in
theorem sqrt_perturb {S a γ ε : K} (hS : 0 ≤ S) (ha : 0 ≤ a) (hγ : 0 ≤ γ) (hε : 0 ≤ ε) (h : |a - S| ≤ γ * S + ε) :
    |r a - r S| ≤ γ * r S + r ε := by
  obtain ⟨h1, h2⟩ := abs_le.1 h
  obtain ⟨s0, s1⟩ := hr S hS
  obtain ⟨e0, e1⟩ := hr ε hε
  obtain ⟨a0, a1⟩ := hr a ha
  rw [abs_le]
  constructor
  · by_cases hc : γ ≤ 1
    · have : (1 - γ) * r S ≤ r a + r ε := by
        have hn : 0 ≤ (1 - γ) * r S := mul_nonneg (by linarith) s0
        refine le_of_not_gt fun hlt => ?_
        have h3 := mul_self_lt_mul_self (add_nonneg a0 e0) hlt
        have h4 : (1 - γ) * r S * ((1 - γ) * r S) ≤ (1 - γ) * S := by
          rw [mul_mul_mul_comm, s1]
          exact mul_le_mul_of_nonneg_right (by nlinarith) hS
        have h5 : a + ε ≤ (r a + r ε) * (r a + r ε) := by nlinarith [mul_nonneg a0 e0]
        linarith
      linarith
    · have := mul_le_mul_of_nonneg_right (not_le.1 hc).le s0
      linarith
  · have : r a ≤ (1 + γ) * r S + r ε := by
      apply hr.le_of_sq ha (add_nonneg (mul_nonneg (by linarith) s0) e0)
      have h4 : (1 + γ) * S ≤ (1 + γ) * r S * ((1 + γ) * r S) := by
        rw [mul_mul_mul_comm, s1]
        exact mul_le_mul_of_nonneg_right (by nlinarith) hS
      have h5 : (1 + γ) * r S * ((1 + γ) * r S) + ε ≤ ((1 + γ) * r S + r ε) * ((1 + γ) * r S + r ε) := by
        have := mul_nonneg (mul_nonneg (by linarith : 0 ≤ 1 + γ) s0) e0
        nlinarith
      linarith
    linarith

include R hr hq hsq hu in
/-- The square root of a computed sum of squares. -/
theorem sqrt_lsum_err (f : Nat → T) (n : Nat) :
    |val (sqrt (lsum n fun i => f i * f i)) - r (∑ i ∈ Finset.range n, val (f i) * val (f i))| ≤
      ((1 + u) ^ (n + 1) - 1) * r (∑ i ∈ Finset.range n, val (f i) * val (f i)) + (1 + u) * r (n * (1 + u) ^ (n - 1) * η) := by
  have hu0 := R.u_nonneg
  have hη := R.η_nonneg
  have h1 : (1 : K) ≤ 1 + u := by linarith
  have hacc := lsum_sq_nonneg R hsq hu f n
  have hS : 0 ≤ ∑ i ∈ Finset.range n, val (f i) * val (f i) := Finset.sum_nonneg fun _ _ => mul_self_nonneg _
  have herr := lsum_mul_err R f f n
  simp only [abs_mul_abs_self] at herr
  set a := val (lsum n fun i => f i * f i)
  set S := ∑ i ∈ Finset.range n, val (f i) * val (f i)
  have hγ : 0 ≤ (1 + u) ^ n - 1 := by have := one_le_pow₀ (n := n) h1; linarith
  have hε : 0 ≤ (n : K) * (1 + u) ^ (n - 1) * η := mul_nonneg (mul_nonneg (Nat.cast_nonneg _) (pow_nonneg (by linarith) _)) hη
  have hp := sqrt_perturb hr hS hacc hγ hε herr
  have hs := hq _ hacc
  obtain ⟨s0, -⟩ := hr S hS
  set E := r (n * (1 + u) ^ (n - 1) * η)
  have h2 : r a ≤ r S + (((1 + u) ^ n - 1) * r S + E) := by have := (abs_le.1 hp).2; linarith
  calc |val (sqrt (lsum n fun i => f i * f i)) - r S| ≤ |val (sqrt (lsum n fun i => f i * f i)) - r a| + |r a - r S| := abs_sub_le _ _ _
    _ ≤ u * (r S + (((1 + u) ^ n - 1) * r S + E)) + (((1 + u) ^ n - 1) * r S + E) :=
        add_le_add (hs.trans (mul_le_mul_of_nonneg_left h2 hu0)) hp
    _ = _ := by rw [pow_succ]; ring

include R hr hq hsq hu in
/-- C107: the computed length of a vector with `n` elements has a relative error of at most `(1 + u)^(n + 1) - 1`, and an error due to
underflow of squares. -/
theorem C107_euclid {v : List T} {n : Nat} {f : Nat → T} (hv : VRep v n f) :
    ∃ x, squareNormVec sqrt v = .ok x ∧
      |val x - r (∑ i ∈ Finset.range n, val (f i) * val (f i))| ≤
        ((1 + u) ^ (n + 1) - 1) * r (∑ i ∈ Finset.range n, val (f i) * val (f i)) + (1 + u) * r (n * (1 + u) ^ (n - 1) * η) := by
  refine ⟨_, ?_, sqrt_lsum_err R hr hq hsq hu f n⟩
  unfold squareNormVec
  rw [hv.2.1, accum_eq (g := fun i => f i * f i) (fun i acc hi => by rw [hv.get hi]; rfl)]
  rfl

include R hr hq hsq hu in
/-- C107: the same for the Frobenius norm of an `n`×`m` matrix or view, with `n * m` for the number of elements. -/
theorem C107_frobenius {A : MB T} {n m : Nat} {M : Matrix (Fin n) (Fin m) T} (hA : A.Is M) :
    ∃ x, squareNorm sqrt A = .ok x ∧
      |val x - r (∑ i, ∑ j, val (M i j) * val (M i j))| ≤
        ((1 + u) ^ (n * m + 1) - 1) * r (∑ i, ∑ j, val (M i j) * val (M i j)) +
          (1 + u) * r ((n * m : ℕ) * (1 + u) ^ (n * m - 1) * η) := by
  obtain ⟨e, h, rfl⟩ := hA
  refine ⟨sqrt (lsum (n * m) fun k => e (k / m) (k % m) * e (k / m) (k % m)), ?_, ?_⟩
  · unfold squareNorm
    rw [h.rows, h.cols, accum_rows (g := fun i j => e i j * e i j) (fun i j acc hi hj => by rw [h.get i j hi hj]; rfl)]
    rfl
  · have hsum : ∑ i : Fin n, ∑ j : Fin m, val (toM n m e i j) * val (toM n m e i j) =
        ∑ k ∈ Finset.range (n * m), val (e (k / m) (k % m)) * val (e (k / m) (k % m)) := by
      have h1 := lsum_eq_range (T := K) (n * m) fun k => val (e (k / m) (k % m)) * val (e (k / m) (k % m))
      have h2 := accum_rows (T := K) (n := n) (m := m) (g := fun i j => val (e i j) * val (e i j))
        (body := fun i j acc => .ok (acc + val (e i j) * val (e i j))) fun _ _ _ _ _ => rfl
      have h3 := accum2_eq (K := K) (n := n) (hi := fun _ => m) (lo := 0) (g := fun i j => val (e i j) * val (e i j))
        (body := fun i j acc => .ok (acc + val (e i j) * val (e i j))) (Nat.zero_le _) fun _ _ _ _ _ _ => rfl
      rw [h2] at h3
      rw [← h1, Res.ok.inj h3, ← Finset.range_eq_Ico, Finset.sum_range]
      exact Finset.sum_congr rfl fun i _ => (Finset.sum_range fun j => val (e i j) * val (e i j)).symm
    rw [hsum]
    exact sqrt_lsum_err R hr hq hsq hu (fun k => e (k / m) (k % m)) (n * m)

omit [Add T] [Sub T] [Mul T] [CDiv T] [IsStrictOrderedRing K] in
/-- The value of an iterated maximum. -/
theorem val_max [Max T] (hz : val 0 = 0) (hmax : ∀ x y, val (max x y) = max (val x) (val y)) (s : Nat → T) (n : Nat) :
    let x := Nat.rec (motive := fun _ => T) 0 (fun i acc => max acc (s i)) n
    (val x = 0 ∨ ∃ i, i < n ∧ val x = val (s i)) ∧ ∀ i, i < n → val (s i) ≤ val x := by
  induction n with
  | zero => exact ⟨.inl hz, fun i hi => by omega⟩
  | succ n ih =>
    obtain ⟨h1, h2⟩ := ih
    dsimp only at h1 h2 ⊢
    rw [hmax]
    refine ⟨?_, fun i hi => ?_⟩
    · rcases max_choice (val (Nat.rec (motive := fun _ => T) 0 (fun i acc => max acc (s i)) n)) (val (s n)) with h | h
      · rw [h]
        exact h1.imp id fun ⟨i, hi, e⟩ => ⟨i, by omega, e⟩
      · exact .inr ⟨n, by omega, h⟩
    · rcases Nat.lt_succ_iff_lt_or_eq.1 hi with h | rfl
      · exact (h2 i h).trans (le_max_left _ _)
      · exact le_max_right _ _

include R in
/-- C107 (partial): `infinity_norm` of a `Matrix` with `m` columns has a relative error of at most `(1 + u)^(m - 1) - 1`, whatever the
number of rows. `B` holds the values of the elements. Missing: views, see `C106_view_false`. -/
theorem C107_infinity_partial [Max T] {abs : T → T} (habs : ∀ x, val (abs x) = |val x|)
    (hmax : ∀ x y, val (max x y) = max (val x) (val y)) {A : Mat T} {B : Mat K} (hwB : B.WF) {n m : Nat}
    {M : Matrix (Fin n) (Fin m) T} (hA : A.toMB.Is M) (hB : B.toMB.Is (M.map val)) :
    ∃ x y, infNorm abs A.toMB = .ok x ∧ infNorm (|·|) B.toMB = .ok y ∧ |val x - y| ≤ ((1 + u) ^ (m - 1) - 1) * y := by
  obtain ⟨e, h, rfl⟩ := hA
  obtain ⟨f, g, hfe⟩ := hB
  have hfe' : ∀ i j, i < n → j < m → f i j = val (e i j) := fun i j hi hj => congrFun (congrFun hfe ⟨i, hi⟩) ⟨j, hj⟩
  obtain ⟨h1, h2⟩ := C44_inf_matrix_partial (K := K) (abs := (|·|)) abs_nonneg (A := B) (n := n) (m := m) (e := f) ⟨hwB, g⟩
  by_cases h0 : n = 0 ∨ m = 0
  · refine ⟨0, 0, ?_, h1 h0, by rw [R.zero]; simp⟩
    have hem : A.toMB.empty = true := by
      show A.isEmpty = true
      rw [Mat.isEmpty, show A.rows = n from h.rows, show A.cols = m from h.cols]
      rcases h0 with h0 | h0 <;> simp [h0]
    unfold infNorm
    rw [if_pos hem]
  · obtain ⟨y, hy, ⟨k, hk, hyk⟩, h3⟩ := h2 (by omega) (by omega)
    set s : Nat → T := fun i => lsum m fun j => abs (e i j)
    have hrow : ∀ i, i < n → |val (s i) - (∑ j : Fin m, |f i j|)| ≤ ((1 + u) ^ (m - 1) - 1) * ∑ j : Fin m, |f i j| := by
      intro i hi
      have := lsum_err R (t := fun j => abs (e i j)) (τ := fun j => |val (e i j)|) (a := 0) (k := m) (ε := 0) le_rfl
        (fun j _ => by rw [habs]; simp)
      simp only [abs_abs, Nat.zero_add, mul_zero, add_zero] at this
      have e1 : ∑ j : Fin m, |f i j| = ∑ j ∈ Finset.range m, |val (e i j)| := by
        rw [Finset.sum_range]
        exact Finset.sum_congr rfl fun j _ => by rw [hfe' i j hi j.2]
      rw [e1]; exact this
    obtain ⟨v1, v2⟩ := val_max R.zero hmax s n
    refine ⟨Nat.rec (motive := fun _ => T) 0 (fun i acc => max acc (s i)) n, y, ?_, hy, ?_⟩
    · have hem : A.toMB.empty = false := by
        show A.isEmpty = false
        rw [Mat.isEmpty, show A.rows = n from h.rows, show A.cols = m from h.cols]
        simp; omega
      unfold infNorm
      rw [hem, if_neg Bool.false_ne_true, h.rows, h.cols]
      refine forRange_eq (Nat.zero_le n) (fun k => Nat.rec (motive := fun _ => T) 0 (fun i acc => max acc (s i)) k) rfl ?_
      intro i _ hi
      rw [accum_eq (g := fun j => abs (e i j)) (fun j acc hj => by rw [h.get i j hi hj]; rfl)]
      rfl
    · set x := val (Nat.rec (motive := fun _ => T) 0 (fun i acc => max acc (s i)) n)
      have hγ : 0 ≤ (1 + u) ^ (m - 1) - 1 := by
        have := one_le_pow₀ (n := m - 1) (show (1 : K) ≤ 1 + u by linarith [R.u_nonneg]); linarith
      have hk1 := (abs_le.1 (hrow k hk)).1
      have hk2 := v2 k hk
      have hy0 : 0 ≤ y := hyk ▸ Finset.sum_nonneg fun _ _ => abs_nonneg _
      rw [← hyk] at hk1
      rw [abs_le]
      refine ⟨by linarith, ?_⟩
      rcases v1 with h | ⟨i, hi, h⟩
      · have := mul_nonneg hγ hy0; linarith
      · have hi1 := (abs_le.1 (hrow i hi)).2
        have hi2 := h3 i hi
        have := mul_le_mul_of_nonneg_left hi2 hγ
        linarith

end

section
variable {K : Type} [Field K] [LinearOrder K] [IsStrictOrderedRing K] [FloorRing K] {p : ℕ} {emin : ℤ}

theorem rnd_nonneg {x : K} (h : 0 ≤ x) : 0 ≤ rnd p emin x := by
  have h2 := two_zpow_pos (K := K) (lastExp p emin x)
  have : (0 : ℤ) ≤ rne (x / 2 ^ lastExp p emin x) := le_rne (by push_cast; exact div_nonneg h h2.le)
  exact mul_nonneg (by exact_mod_cast this) h2.le

theorem Fl.val_abs (x : Fl K p emin) : (Fl.abs x).val = |x.val| := by
  unfold Fl.abs
  by_cases h : x < 0
  · rw [if_pos h]; exact (abs_of_neg (show x.val < 0 from h)).symm
  · rw [if_neg h]; exact (abs_of_nonneg (not_lt.1 (show ¬ x.val < 0 from h))).symm

theorem Fl.val_max (x y : Fl K p emin) : (max x y).val = max x.val y.val := by
  show (if x.val ≤ y.val then y else x).val = _
  split
  · rename_i h; rw [max_eq_right h]
  · rename_i h; rw [max_eq_left (not_le.1 h).le]

/-- `std::sqrt`: the exact square root, rounded. -/
noncomputable def Fl.sqrt (x : Fl ℝ p emin) : Fl ℝ p emin := Fl.of p emin (Real.sqrt x.val)

theorem Sqrt.real : Sqrt Real.sqrt := fun _ h => ⟨Real.sqrt_nonneg _, Real.mul_self_sqrt h⟩

/-- The square root never underflows. -/
theorem Fl.sqrt_err (he : emin + 2 * p ≤ 2) (x : Fl ℝ p emin) (h : 0 ≤ x.val) :
    |x.sqrt.val - Real.sqrt x.val| ≤ 2 ^ (-(p : ℤ)) * Real.sqrt x.val := by
  rcases h.eq_or_lt with h0 | h0
  · show |rnd p emin (Real.sqrt x.val) - _| ≤ _
    rw [← h0, Real.sqrt_zero, rnd]; simp [rne]
  · have hs := Real.sqrt_pos.2 h0
    obtain ⟨z, hz⟩ := x.isFl.grid
    have h2 := two_zpow_pos (K := ℝ) emin
    have hz1 : (1 : ℤ) ≤ z := by
      have : (0 : ℝ) < z := by
        by_contra hc
        have := mul_nonpos_of_nonpos_of_nonneg (not_lt.1 hc) h2.le
        rw [← hz] at this; linarith
      have : 0 < z := by exact_mod_cast this
      omega
    have hx : (2 : ℝ) ^ emin ≤ x.val := by
      rw [hz]
      have : (1 : ℝ) ≤ z := by exact_mod_cast hz1
      nlinarith
    have hlog : emin + p - 1 ≤ Int.log 2 |Real.sqrt x.val| := by
      rw [abs_of_pos hs]
      refine (Int.zpow_le_iff_le_log (by norm_num) hs).1 ?_
      apply Real.le_sqrt_of_sq_le
      refine le_trans ?_ hx
      rw [Nat.cast_ofNat, ← zpow_natCast, ← zpow_mul]
      exact zpow_le_zpow_right₀ one_le_two (by push_cast; omega)
    have h3 := rnd_err_ulp p emin (Real.sqrt x.val)
    rw [lastExp, max_eq_left (by omega)] at h3
    have h4 := ulp_le (p := p) hs.ne'
    rw [abs_of_pos hs] at h4
    rw [abs_of_pos hs] at h3
    exact h3.trans h4

end

/-- `double` with values in the reals. -/
abbrev RDouble := Fl ℝ 53 (-1074)

theorem double_factor_real {k : Nat} (hk : k ≤ 2 ^ 52) : (1 + 2 ^ (-((53 : ℕ) : ℤ)) : ℝ) ^ k - 1 ≤ k / 2 ^ 52 := by
  have hu : (2 : ℝ) ^ (-((53 : ℕ) : ℤ)) = 1 / 2 ^ 53 := by norm_num
  rw [hu]
  have h := double_factor hk
  have : (((1 + 1 / 2 ^ 53 : ℚ) ^ k - 1 : ℚ) : ℝ) ≤ ((k / 2 ^ 52 : ℚ) : ℝ) := by exact_mod_cast h
  push_cast at this
  exact this

theorem underflow_le {n : Nat} (hn : n ≤ 2 ^ 52) :
    (1 + 2 ^ (-((53 : ℕ) : ℤ)) : ℝ) * Real.sqrt (n * (1 + 2 ^ (-((53 : ℕ) : ℤ))) ^ (n - 1) * (2 ^ (-1074 : ℤ) / 2)) ≤
      Real.sqrt n / 2 ^ 536 := by
  have h1 : (1 + 2 ^ (-((53 : ℕ) : ℤ)) : ℝ) ^ (n - 1) ≤ 2 := by
    have := double_factor_real (k := n - 1) (by omega)
    have h2 : ((n - 1 : ℕ) : ℝ) / 2 ^ 52 ≤ 1 := by
      rw [div_le_one (by positivity)]
      exact_mod_cast (by omega : n - 1 ≤ 2 ^ 52)
    generalize (1 + 2 ^ (-((53 : ℕ) : ℤ)) : ℝ) ^ (n - 1) = c at *
    linarith
  have h2 : (1 + 2 ^ (-((53 : ℕ) : ℤ)) : ℝ) ≤ 2 := by norm_num
  have e : ((2 : ℝ) ^ (-537 : ℤ)) ^ 2 = 2 ^ (-1074 : ℤ) := by rw [← zpow_natCast, ← zpow_mul]; norm_num
  have hq := two_zpow_pos (K := ℝ) (-537)
  have hq2 := two_zpow_pos (K := ℝ) (-1074)
  have h3 : Real.sqrt (n * (1 + 2 ^ (-((53 : ℕ) : ℤ))) ^ (n - 1) * (2 ^ (-1074 : ℤ) / 2)) ≤ Real.sqrt n * 2 ^ (-537 : ℤ) := by
    apply Real.sqrt_le_iff.2
    refine ⟨mul_nonneg (Real.sqrt_nonneg _) hq.le, ?_⟩
    rw [mul_pow, Real.sq_sqrt (Nat.cast_nonneg n), e, mul_assoc]
    apply mul_le_mul_of_nonneg_left _ (Nat.cast_nonneg n)
    generalize (2 : ℝ) ^ (-1074 : ℤ) = q at *
    generalize (1 + 2 ^ (-((53 : ℕ) : ℤ)) : ℝ) ^ (n - 1) = c at *
    have := mul_le_mul_of_nonneg_right h1 (by linarith : 0 ≤ q / 2)
    linarith
  have e2 : Real.sqrt n / 2 ^ 536 = 2 * (Real.sqrt n * 2 ^ (-537 : ℤ)) := by
    rw [show (-537 : ℤ) = -(536 : ℕ) - 1 by norm_num, zpow_sub₀ two_ne_zero, zpow_neg, zpow_natCast, zpow_one, div_eq_mul_inv]
    generalize ((2 : ℝ) ^ 536)⁻¹ = q
    ring
  rw [e2]
  exact mul_le_mul h2 h3 (Real.sqrt_nonneg _) zero_le_two

/-- C107 for `double`, vectors: a relative error of at most `(n + 1) * 2^-52`, and underflow contributes at most `sqrt(n) * 2^-536`. -/
theorem C107_euclid_double {v : List RDouble} {n : Nat} {f : Nat → RDouble} (hv : VRep v n f) (hn : n < 2 ^ 52) :
    ∃ x, squareNormVec Fl.sqrt v = .ok x ∧
      |x.val - Real.sqrt (∑ i ∈ Finset.range n, (f i).val ^ 2)| ≤
        (n + 1) / 2 ^ 52 * Real.sqrt (∑ i ∈ Finset.range n, (f i).val ^ 2) + Real.sqrt n / 2 ^ 536 := by
  obtain ⟨x, h1, h2⟩ := C107_euclid (Fl.rounds ℝ (p := 53) (by norm_num) (-1074)) Sqrt.real
    (fun a ha => Fl.sqrt_err (by norm_num) a ha) (fun a => rnd_nonneg (mul_self_nonneg a.val)) (by norm_num) hv
  simp only [← sq] at h2
  refine ⟨x, h1, h2.trans (add_le_add (mul_le_mul_of_nonneg_right ?_ (Real.sqrt_nonneg _)) (underflow_le hn.le))⟩
  have := double_factor_real (k := n + 1) (by omega)
  push_cast at this
  exact this

/-- C107 for `double`, matrices and views: the same with the number of elements. -/
theorem C107_frobenius_double {A : MB RDouble} {n m : Nat} {M : Matrix (Fin n) (Fin m) RDouble} (hA : A.Is M) (hn : n * m < 2 ^ 52) :
    ∃ x, squareNorm Fl.sqrt A = .ok x ∧
      |x.val - Real.sqrt (∑ i, ∑ j, (M i j).val ^ 2)| ≤
        (n * m + 1) / 2 ^ 52 * Real.sqrt (∑ i, ∑ j, (M i j).val ^ 2) + Real.sqrt (n * m) / 2 ^ 536 := by
  obtain ⟨x, h1, h2⟩ := C107_frobenius (Fl.rounds ℝ (p := 53) (by norm_num) (-1074)) Sqrt.real
    (fun a ha => Fl.sqrt_err (by norm_num) a ha) (fun a => rnd_nonneg (mul_self_nonneg a.val)) (by norm_num) hA
  simp only [← sq] at h2
  have hu := underflow_le hn.le
  rw [Nat.cast_mul] at hu
  rw [Nat.cast_mul] at h2
  refine ⟨x, h1, h2.trans (add_le_add (mul_le_mul_of_nonneg_right ?_ (Real.sqrt_nonneg _)) hu)⟩
  have := double_factor_real (k := n * m + 1) (by omega)
  push_cast at this
  exact this

/-- C107 for `double`, `infinity_norm` of a matrix (partial: `Matrix` objects only). -/
theorem C107_infinity_double_partial {A : Mat RDouble} {B : Mat ℝ} (hwB : B.WF) {n m : Nat}
    {M : Matrix (Fin n) (Fin m) RDouble} (hA : A.toMB.Is M) (hB : B.toMB.Is (M.map Fl.val)) (hm : m ≤ 2 ^ 52) :
    ∃ x y, infNorm Fl.abs A.toMB = .ok x ∧ infNorm (|·|) B.toMB = .ok y ∧ |x.val - y| ≤ m / 2 ^ 52 * y := by
  obtain ⟨x, y, h1, h2, h3⟩ := C107_infinity_partial (Fl.rounds ℝ (p := 53) (by norm_num) (-1074)) Fl.val_abs Fl.val_max hwB hA hB
  obtain ⟨y', h4, h5, -⟩ := infNorm_is hwB hB
  obtain rfl := Res.ok.inj (h2.symm.trans h4)
  refine ⟨x, y, h1, h2, h3.trans (mul_le_mul_of_nonneg_right ?_ h5)⟩
  refine (double_factor_real (k := m - 1) (by omega)).trans (div_le_div_of_nonneg_right ?_ (by positivity))
  exact_mod_cast Nat.sub_le m 1

/-- C107: `infinity_norm` of a vector does not round. -/
theorem C107_infinity_vector {K : Type} [Field K] [LinearOrder K] [IsStrictOrderedRing K] [FloorRing K] {p : ℕ} {emin : ℤ}
    {v : List (Fl K p emin)} {n : Nat} {f} (hv : VRep v n f) (hn : 0 < n) :
    ∃ x, infNormVec Fl.abs v = .ok x ∧ (∃ i, i < n ∧ x.val = |(f i).val|) ∧ ∀ i, i < n → |(f i).val| ≤ x.val := by
  unfold infNormVec
  rw [hv.2.1, if_neg (by omega), hv.get hn, Res.ok_bind]
  obtain ⟨x, hx, hinv⟩ := forRange_inv (lo := 1) (hi := n) (by omega)
    (fun k (x : Fl K p emin) => (∃ i, i < k ∧ x.val = |(f i).val|) ∧ ∀ i, i < k → |(f i).val| ≤ x.val) (s := Fl.abs (f 0))
    (body := fun i max => do let x ← vget v i; let tmp := Fl.abs x; return (if max < tmp then tmp else max))
    ⟨⟨0, by omega, Fl.val_abs _⟩, fun i hi => by rw [show i = 0 by omega, Fl.val_abs]⟩ (by
      rintro i x hi hi' ⟨⟨k, hk, hxk⟩, h⟩
      rw [hv.get hi']
      refine ⟨_, rfl, ?_, ?_⟩
      · split
        · exact ⟨i, by omega, Fl.val_abs _⟩
        · exact ⟨k, by omega, hxk⟩
      · intro j hj
        split
        · rename_i hlt
          have hlt : x.val < (Fl.abs (f i)).val := hlt
          rcases Nat.lt_succ_iff_lt_or_eq.1 hj with hj | rfl
          · exact (h j hj).trans hlt.le
          · rw [Fl.val_abs]
        · rename_i hlt
          have hlt : ¬ x.val < (Fl.abs (f i)).val := hlt
          rcases Nat.lt_succ_iff_lt_or_eq.1 hj with hj | rfl
          · exact h j hj
          · rw [← Fl.val_abs]; exact not_lt.1 hlt)
  exact ⟨x, hx, hinv⟩

/-- C107 is false of very short vectors: in `double`, the length of the vector with the single element `2^-540` comes out as 0, whatever
`std::sqrt` does (`std::sqrt(0)` is 0), although `2^-540` is a `double`. -/
theorem C107_underflow_false (sqrt : Double → Double) (h : sqrt 0 = 0) :
    ∃ x : Double, x.val = 1 / 2 ^ 540 ∧ squareNormVec sqrt [x] = .ok 0 := by
  refine ⟨Fl.of 53 (-1074) (1 / 2 ^ 540), by decide +kernel, ?_⟩
  have : forRange 0 1 0 (fun i acc => do let x ← vget [Fl.of 53 (-1074) (1 / 2 ^ 540 : ℚ)] i; return acc + x * x) = .ok 0 := by
    decide +kernel
  unfold squareNormVec
  show (forRange 0 1 0 _ >>= fun accum => Res.ok (sqrt accum)) = _
  rw [this, Res.ok_bind, h]

/-- C107 is false of very long vectors: the length of the vector with the single element `2^520` comes out as infinity. -/
theorem C107_overflow_false (sqrt : IDouble → IDouble) (h : sqrt (.inf false) = .inf false) :
    squareNormVec sqrt [Ieee.mk false (2 ^ 520)] = .ok (.inf false) ∧
      (Ieee.mk false (2 ^ 520) : IDouble).fl = some (Fl.of 53 (-1074) (2 ^ 520)) := by
  refine ⟨?_, by decide +kernel⟩
  have : forRange 0 1 0 (fun i acc => do let x ← vget [(Ieee.mk false (2 ^ 520) : IDouble)] i; return acc + x * x) =
      .ok (.inf false) := by decide +kernel
  unfold squareNormVec
  show (forRange 0 1 0 _ >>= fun accum => Res.ok (sqrt accum)) = _
  rw [this, Res.ok_bind, h]

/-- In `double` the sum of the squares of `0.3` and `0.4` is `0.25` exactly, and the length is `0.5`. -/
example : (forRange 0 2 0 (fun i acc => do let x ← vget (doubles [3/10, 4/10]) i; return acc + x * x) >>= fun x => .ok x.val) =
    .ok (1 / 4) := by decide +kernel

/-- The largest sum of a row of `[[0.1, -0.2], [0.1, 0.1]]` in `double`. -/
example : (infNorm Fl.abs (⟨2, 2, doubles [1/10, -2/10, 1/10, 1/10]⟩ : Mat Double).toMB >>= fun x => .ok (x.val - 3/10)) =
    .ok (1351079888211149 / 4503599627370496 - 3/10) := by decide +kernel

end Malg
