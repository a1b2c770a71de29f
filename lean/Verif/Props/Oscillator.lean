import Verif.Props.FloatC2d
import Verif.Props.FloatSim
import Mathlib.Analysis.SpecialFunctions.Trigonometric.Deriv
/-!
# Property C126: an oscillator, from the differential equation to the numbers

The undamped oscillator, discretised by `c2d` and simulated by `simulate` in `double`: a thousand steps follow sine and cosine to nine digits.
-/
namespace Malg
open Ops Control Lin Matrix

/-- The undamped oscillator, observed at its position. -/
def oscS : StateSpace Double := ⟨⟨2, 2, doubles [0, 1, -1, 0]⟩, ⟨2, 1, doubles [0, 1]⟩, ⟨1, 2, doubles [1, 0]⟩, ⟨1, 1, doubles [0]⟩⟩

def oscB : Nat → Nat → Double := fun i _ => if i = 0 then 0 else 1
def oscC : Nat → Nat → Double := fun _ j => if j = 0 then 1 else 0
def oscV : Nat → Nat → Double := fun i j => Fl.of 53 (-1074) (if i = j then 0 else if i < j then -1 else 1)
def oscDt : Double := Fl.of 53 (-1074) (1 / 1024)

/-- The matrix exponential as `c2d` uses it. -/
def oscExp : MB Double → Res (Mat Double) := fun Z => expm (Feq.approxZero Fl.abs (Fl.of 53 (-1074) (1 / 1000000))) Fl.abs Fl.sqrtRat (Fl.of 53 (-1074) (1 / 2)) Z
    (Fl.of 53 (-1074) (1 / 100000)) 200

set_option maxRecDepth 100000 in
theorem oscExp_ok : (match mulS oscS.A.toMB oscDt >>= fun Z => oscExp Z.toMB with | .ok _ => true | _ => false) = true := by decide +kernel

set_option maxRecDepth 100000 in
theorem oscInv_ok : Lin.inverse (Feq.approxZero Fl.abs (Fl.of 53 (-1074) (1 / 1000000))) oscS.A.toMB = .ok (Mat.ofFn 2 2 oscV) := by decide +kernel

theorem row_bound_exists {n m : Nat} (M : Matrix (Fin n) (Fin m) ℝ) : ∃ a, ∀ i, ∑ j, |M i j| ≤ a :=
  ⟨∑ i, ∑ j, |M i j|, fun i => Finset.single_le_sum (f := fun i => ∑ j, |M i j|) (fun _ _ => Finset.sum_nonneg fun _ _ => abs_nonneg _) (Finset.mem_univ i)⟩

theorem exp_small {y : ℝ} (h0 : 0 ≤ y) (h : y ≤ 1 / 1000) : Real.exp y ≤ 1.0011 := by
  refine (Real.exp_bound_div_one_sub_of_interval h0 (by linarith)).trans ?_
  rw [div_le_iff₀ (by linarith)]
  linarith

set_option exponentiation.threshold 3000 in
theorem osc_bound {ε ω β : ℝ} (hε : ε ≤ 2.8 / 10 ^ 13) (hε0 : 0 ≤ ε) {k : Nat} (hk : k ≤ 1024) :
    stateErr (1 / 2 ^ 53) (1 / 2 ^ 1075) 2 1 ε ω (1.00098 + ε) β 1 0 k ≤ 1 / 10 ^ 9 := by
  have θ1 : 1.00098 + ε ≤ 1.000981 := by
    have : (2.8 / 10 ^ 13 : ℝ) ≤ 0.000001 := by norm_num
    linarith
  have hpow : ∀ l, l ≤ 1024 → (1.00098 + ε) ^ l ≤ 2.8 := fun l hl => by
    calc (1.00098 + ε) ^ l ≤ 1.000981 ^ l := pow_le_pow_left₀ (by positivity) θ1 l
      _ ≤ 1.000981 ^ 1024 := pow_le_pow_right₀ (by norm_num) hl
      _ ≤ 2.8 := by norm_num
  have hS : ∑ j ∈ Finset.range k, (1.00098 + ε) ^ j ≤ 1024 * 2.8 := by
    calc ∑ j ∈ Finset.range k, (1.00098 + ε) ^ j ≤ ∑ j ∈ Finset.range k, (2.8 : ℝ) := Finset.sum_le_sum fun j hj => hpow j (by have := Finset.mem_range.1 hj; omega)
      _ = k * 2.8 := by rw [Finset.sum_const, Finset.card_range, nsmul_eq_mul]
      _ ≤ 1024 * 2.8 := by
        have : (k : ℝ) ≤ 1024 := by exact_mod_cast hk
        gcongr
  have two : ∀ q : Nat, q ≤ 2 ^ 52 → (1 + 1 / 2 ^ 53 : ℝ) ^ q ≤ 2 := by
    intro q hq
    have h := double_pow hq
    have : (q : ℝ) / 2 ^ 52 ≤ 1 := by rw [div_le_one (by positivity)]; exact_mod_cast hq
    linarith
  have hU : underSum (1 / 2 ^ 53) (1 / 2 ^ 1075) 2 1 (1.00098 + ε) k ≤ 1 / 10 ^ 12 := by
    unfold underSum
    calc _ ≤ ∑ l ∈ Finset.range k, (2 * (2 * (((2 : Nat) * 2 + (1 : Nat) * 2) * (1 / 2 ^ 1075))) * 2.8 : ℝ) := by
          refine Finset.sum_le_sum fun l hl => ?_
          have hl := Finset.mem_range.1 hl
          have g1 := two ((2 + 1) * l) (by omega)
          have g2 := two (2 - 1) (by norm_num)
          have g3 := two (1 - 1) (by norm_num)
          have g4 := hpow l (by omega)
          have g5 : (1 + 1 / 2 ^ 53 : ℝ) ≤ 2 := by norm_num
          gcongr
      _ = k * (2 * (2 * (((2 : Nat) * 2 + (1 : Nat) * 2) * (1 / 2 ^ 1075))) * 2.8) := by rw [Finset.sum_const, Finset.card_range, nsmul_eq_mul]
      _ ≤ 1024 * (2 * (2 * (((2 : Nat) * 2 + (1 : Nat) * 2) * (1 / 2 ^ 1075))) * 2.8) := by
        have : (k : ℝ) ≤ 1024 := by exact_mod_cast hk
        gcongr
      _ ≤ _ := by norm_num
  have hR : (1 + 1 / 2 ^ 53 : ℝ) ^ (k * (max 2 1 + 1)) - 1 ≤ 3072 / 2 ^ 52 := by
    refine (double_pow (by rw [show max 2 1 + 1 = 3 from rfl]; omega)).trans ?_
    have : ((k * (max 2 1 + 1) : Nat) : ℝ) ≤ 3072 := by exact_mod_cast (show k * (max 2 1 + 1) ≤ 3072 by rw [show max 2 1 + 1 = 3 from rfl]; omega)
    gcongr
  have hR0 : (0 : ℝ) ≤ (1 + 1 / 2 ^ 53 : ℝ) ^ (k * (max 2 1 + 1)) - 1 := by
    have : (1 : ℝ) ≤ (1 + 1 / 2 ^ 53) ^ (k * (max 2 1 + 1)) := one_le_pow₀ (by norm_num)
    linarith
  unfold stateErr
  rw [mul_zero, mul_zero, zero_mul, add_zero, add_zero, mul_one, mul_one]
  have t1 : ε * ∑ j ∈ Finset.range k, (1.00098 + ε) ^ j ≤ 2.8 / 10 ^ 13 * (1024 * 2.8) := mul_le_mul hε hS (by positivity) (by norm_num)
  have t2 := mul_le_mul hR (hpow k hk) (by positivity) (by norm_num)
  have t3 : (2.8 / 10 ^ 13 * (1024 * 2.8) + 3072 / 2 ^ 52 * 2.8 + 1 / 10 ^ 12 : ℝ) ≤ 1 / 10 ^ 9 := by norm_num
  linarith

set_option exponentiation.threshold 3000 in
theorem osc_exp_bound {p : Nat} {y : ℝ} (hp4 : 4 ≤ p) (hp2 : p ≤ 177) (hy0 : 0 ≤ y) (hy1 : y ≤ 1 / 1000) : expFlErr 2 0 p y ≤ 2.8 / 10 ^ 13 := by
  have a1 : (((2 + 5) * p + 2 + 4 : Nat) : ℝ) ≤ 1245 := by exact_mod_cast (show (2 + 5) * p + 2 + 4 ≤ 1245 by omega)
  have a2 : ((1 + 1 / 2 ^ 40) * min 1 y : ℝ) ≤ 1 / 999 := by
    rw [min_eq_right (by linarith)]
    calc (1 + 1 / 2 ^ 40) * y ≤ (1 + 1 / 2 ^ 40) * (1 / 1000) := by gcongr
      _ ≤ 1 / 999 := by norm_num
  have hm0 : 0 ≤ min 1 y := le_min zero_le_one hy0
  have a3 : ((1 + 1 / 2 ^ 40) * min 1 y : ℝ) ^ (p + 1) ≤ (1 / 999) ^ 5 :=
    (pow_le_pow_left₀ (by positivity) a2 _).trans (pow_le_pow_of_le_one (by norm_num) (by norm_num) (by omega))
  have a4 : (1 : ℝ) ≤ (p + 1).factorial := by exact_mod_cast Nat.factorial_pos _
  unfold expFlErr
  calc _ ≤ ((2 : ℝ) ^ 0 * (1245 / 2 ^ 52 + (1 / 999) ^ 5 / 1) + (1 / 1000 / 2 ^ 53 + (2 : Nat) / 2 ^ 1075)) * 1.0011 := by
        have := exp_small hy0 hy1
        gcongr
    _ ≤ 2.8 / 10 ^ 13 := by norm_num

open scoped Matrix.Norms.Operator in
theorem osc_exp_rows {A : Matrix (Fin 2) (Fin 2) ℝ} (hA : A = !![0, 1; -1, 0]) (i : Fin 2) : ∑ j, |NormedSpace.exp ((1 / 1024 : ℝ) • A) i j| ≤ 1.00098 := by
  have hn : ‖(1 / 1024 : ℝ) • A‖ ≤ 1 / 1024 := by
    refine norm_le_of_rows (by norm_num) fun i => le_of_eq ?_
    rw [hA]
    fin_cases i <;> simp
  refine (row_sum_le_norm _ i).trans ?_
  have h1 := exp_perturb (P := (1 / 1024 : ℝ) • A) (Q := 0) hn (by rw [norm_zero]; norm_num)
  rw [NormedSpace.exp_zero, sub_zero] at h1
  have h2 := norm_add_le (NormedSpace.exp ((1 / 1024 : ℝ) • A) - 1) 1
  rw [sub_add_cancel, norm_one] at h2
  have h3 := exp_small (y := 1 / 1024) (by norm_num) (by norm_num)
  have h4 : ‖(1 / 1024 : ℝ) • A‖ * Real.exp (1 / 1024) ≤ 1 / 1024 * 1.0011 := mul_le_mul hn h3 (Real.exp_pos _).le (by norm_num)
  have h5 : (1 / 1024 * 1.0011 + 1 : ℝ) ≤ 1.00098 := by norm_num
  exact h2.trans ((add_le_add (h1.trans h4) le_rfl).trans h5)

/-- Cosine and sine solve the differential equation of the oscillator. -/
theorem osc_solves {A : Matrix (Fin 2) (Fin 2) ℝ} (hA : A = !![0, 1; -1, 0]) (B : Matrix (Fin 2) (Fin 1) ℝ) {z : ℝ} (hzero : z = 0) :
    Solves A B (vtab 1024 fun _ _ => z) (1 / 1024) (fun t => ![Real.cos t, -Real.sin t]) := by
  have hu : ∀ k, (vtab 1024 fun _ (_ : Fin 1) => z).getD k 0 = 0 := by
    intro k
    rw [List.getD_eq_getElem?_getD, vtab, List.getElem?_map]
    rcases h : (List.range 1024)[k]? with - | a
    · rfl
    · funext j
      simp [hzero]
  have hd : ∀ t : ℝ, HasDerivAt (fun t => ![Real.cos t, -Real.sin t]) (A *ᵥ ![Real.cos t, -Real.sin t]) t := by
    intro t
    rw [hasDerivAt_pi]
    intro i
    fin_cases i
    · simpa [hA, Matrix.mulVec, dotProduct, Fin.sum_univ_two] using Real.hasDerivAt_cos t
    · simpa [hA, Matrix.mulVec, dotProduct, Fin.sum_univ_two] using (Real.hasDerivAt_sin t).fun_neg
  refine ⟨fun t _ => (hd t).continuousAt.continuousWithinAt, fun k t _ => ?_⟩
  rw [hu, Matrix.mulVec_zero, add_zero]
  exact (hd t).hasDerivWithinAt

open scoped Matrix.Norms.Operator in
set_option exponentiation.threshold 3000 in
/-- C126 for the oscillator: a thousand steps of `simulate` in `double`, after `c2d` in `double`, follow cosine and sine to nine digits. -/
theorem C126_oscillator : ∃ (d : DiscreteStateSpace Double) (t : List Double) (X Y : Nat → Nat → Double),
    c2d (Feq.approxZero Fl.abs (Fl.of 53 (-1074) (1 / 1000000))) oscExp oscS oscDt = .ok d ∧
    simulate doubleSize d (vtab 1024 fun _ => vtab 1 fun _ => 0) 1 (vtab 2 fun i => if i = 0 then 1 else 0) =
      .ok (t, vtab 1025 fun k => vtab 2 (X k), vtab 1024 fun k => vtab 1 (Y k)) ∧
    ∀ k : Nat, k ≤ 1024 → |((X k 0).val : ℝ) - Real.cos (k / 1024)| ≤ 1 / 10 ^ 9 ∧ |((X k 1).val : ℝ) + Real.sin (k / 1024)| ≤ 1 / 10 ^ 9 := by
  have f22 : Fits 2 2 := fits_small (by norm_num) (by norm_num)
  have h : oscS.Is (toM 2 2 expExT) (toM 2 1 oscB) (toM 1 2 oscC) (toM 1 1 fun _ _ => (0 : Double)) := by
    refine ⟨?_, ?_, ?_, ?_⟩
    · rw [show oscS.A = Mat.ofFn 2 2 expExT by decide +kernel]; exact (ofFn_rep f22 _).is
    · rw [show oscS.B = Mat.ofFn 2 1 oscB by decide +kernel]; exact (ofFn_rep (fits_small (by norm_num) (by norm_num)) _).is
    · rw [show oscS.C = Mat.ofFn 1 2 oscC by decide +kernel]; exact (ofFn_rep (fits_small (by norm_num) (by norm_num)) _).is
    · rw [show oscS.D = Mat.ofFn 1 1 fun _ _ => (0 : Double) by decide +kernel]; exact (ofFn_rep (fits_small (by norm_num) (by norm_num)) _).is
  obtain ⟨X, hX⟩ : ∃ X, (mulS oscS.A.toMB oscDt >>= fun Z => oscExp Z.toMB) = .ok X := by
    have := oscExp_ok
    split at this
    · exact ⟨_, ‹_›⟩
    · cases this
  have hdt : ((oscDt.val : ℚ) : ℝ) = 1 / 1024 := by
    rw [show oscDt.val = 1 / 1024 by decide +kernel]; norm_num
  have hone : (((1 : Double).val : ℚ) : ℝ) = 1 := by
    rw [show (1 : Double).val = 1 by decide +kernel]; norm_num
  have hzero : (((0 : Double).val : ℚ) : ℝ) = 0 := double_rounds.zero
  have hrow : ∀ i : Fin 2, ∑ j, |((toM 2 2 expExT i j).val : ℝ)| = 1 := by
    intro i
    have : ∀ i : Fin 2, ∑ j, |(toM 2 2 expExT i j).val| = 1 := by decide +kernel
    exact_mod_cast congrArg (fun q : ℚ => (q : ℝ)) (this i)
  set A : Matrix (Fin 2) (Fin 2) ℝ := (toM 2 2 expExT).map fun z => ((z.val : ℚ) : ℝ) with hAdef
  have hA : A = !![0, 1; -1, 0] := by
    have e : (toM 2 2 expExT 0 0).val = 0 ∧ (toM 2 2 expExT 0 1).val = 1 ∧ (toM 2 2 expExT 1 0).val = -1 ∧ (toM 2 2 expExT 1 1).val = 0 := by decide +kernel
    obtain ⟨e1, e2, e3, e4⟩ := e
    rw [hAdef, Matrix.eta_fin_two ((toM 2 2 expExT).map _)]
    simp only [Matrix.map_apply, e1, e2, e3, e4]
    norm_num
  -- the exponential
  obtain ⟨k, p, E, wX, iX, hp1, hp2, hk, hE⟩ := C126_exponential h.a (by norm_num) (by norm_num) (tol := Fl.of 53 (-1074) (1 / 1000000)) (by decide +kernel)
    (by decide +kernel) (by decide +kernel) hX (x := 1 / 1024) (fun i => by rw [← Finset.sum_mul, hrow, one_mul, hdt]; norm_num) rfl (by norm_num)
  rw [hdt] at hE
  set y : ℝ := (1 + 1 / 2 ^ 53) * (1 / 1024) + (2 : Nat) / 2 ^ 1075 with hy
  have hy0 : 0 ≤ y := by positivity
  have hy1 : y ≤ 1 / 1000 := by rw [hy]; norm_num
  clear_value y
  clear hy
  have hk0 : k = 0 := by
    by_contra hc
    have h1 := hk (Nat.pos_of_ne_zero hc)
    have h2 : (1 : ℝ) ≤ 2 ^ k := one_le_pow₀ (by norm_num)
    have h3 : 2 * y * (1 + 1 / 2 ^ 40) ≤ 2 * (1 / 1000) * (1 + 1 / 2 ^ 40) := by gcongr
    have h4 : (2 * (1 / 1000) * (1 + 1 / 2 ^ 40) : ℝ) < 1 := by norm_num
    linarith
  subst hk0
  have hp4 : 4 ≤ p := by omega
  have hε : expFlErr 2 0 p y ≤ 2.8 / 10 ^ 13 := osc_exp_bound hp4 hp2 hy0 hy1
  have hε0 : 0 ≤ expFlErr 2 0 p y := by
    have hm0 : 0 ≤ min 1 y := le_min zero_le_one hy0
    unfold expFlErr
    positivity
  generalize hεd : expFlErr 2 0 p y = ε at hE hε hε0
  -- the exact exponential
  have hφ : ∀ i, ∑ j, |NormedSpace.exp ((1 / 1024 : ℝ) • A) i j| ≤ 1.00098 := osc_exp_rows hA
  have hdet : A.det ≠ 0 := by rw [hA, Matrix.det_fin_two_of]; norm_num
  have hsol : Solves A ((toM 2 1 oscB).map fun z => ((z.val : ℚ) : ℝ)) (vtab 1024 fun _ _ => (((0 : Double).val : ℚ) : ℝ)) (1 / 1024)
      (fun t => ![Real.cos t, -Real.sin t]) := osc_solves hA _ hzero
  obtain ⟨ψ, hψ⟩ := row_bound_exists (NormedSpace.exp ((1 / 1024 : ℝ) • A) - 1)
  obtain ⟨α, hα⟩ := row_bound_exists A⁻¹
  obtain ⟨ρ, hρ⟩ := row_bound_exists ((toM 2 2 oscV).map (fun z => ((z.val : ℚ) : ℝ)) - A⁻¹)
  obtain ⟨b, hb⟩ := row_bound_exists ((toM 2 1 oscB).map fun z => ((z.val : ℚ) : ℝ))
  obtain ⟨γ, hγ⟩ := row_bound_exists ((toM 1 2 oscC).map fun z => ((z.val : ℚ) : ℝ))
  obtain ⟨δ, hδ⟩ := row_bound_exists ((toM 1 1 fun _ _ => (0 : Double)).map fun z => ((z.val : ℚ) : ℝ))
  obtain ⟨d, t, X', Y', e1, e2, e3, -⟩ := C126_simulate double_rounds hone (Feq.approxZero Fl.abs (Fl.of 53 (-1074) (1 / 1000000))) (ex := oscExp) h (by norm_num)
    (by norm_num) (by norm_num) (by rw [allocMax_eq]; norm_num) (by rw [allocMax_eq]; norm_num) (by rw [allocMax_eq]; norm_num) (dt := oscDt)
    (by rw [hdt]; norm_num) ⟨X, hX, wX, iX⟩ (Yields.of_eq f22 oscInv_ok) hdet (N := 1024) (K := 1024) (fun _ _ => 0) (fun i => if i = 0 then 1 else 0)
    (toSize := doubleSize) (r := Fl.of 53 (-1074) 1024) (st := 1) (by decide +kernel) (by decide +kernel)
    (x := fun t => ![Real.cos t, -Real.sin t]) (by rw [hdt]; exact hsol)
    (fun i => by fin_cases i <;> simp [hone, hzero]) (ε := ε) (φ := 1.00098) (ψ := ψ) (α := α) (ρ := ρ) (b := b) (ξ := 1) (υ := 0) (γ := γ) (δ := δ)
    (by rw [hdt]; exact hE) (by rw [hdt]; exact hφ) (by rw [hdt]; exact hψ) hα hρ hb
    (fun k _ i => by
      fin_cases i
      · exact Real.abs_cos_le_one _
      · exact (abs_neg _).trans_le (Real.abs_sin_le_one _))
    (fun _ _ _ _ => by rw [hzero, abs_zero]) hγ hδ rfl rfl rfl
  refine ⟨d, t, X', Y', e1, e2, fun k hk => ?_⟩
  have hx := fun i => (e3 k hk i).trans (osc_bound hε hε0 hk)
  rw [hdt, mul_one_div] at hx
  refine ⟨hx 0, ?_⟩
  have := hx 1
  rwa [show (![Real.cos (k / 1024), -Real.sin (k / 1024)] : Fin 2 → ℝ) 1 = -Real.sin (k / 1024) from rfl, sub_neg_eq_add] at this

end Malg
