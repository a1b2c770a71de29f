import Verif.Props.Control
import Verif.Props.Matrix
import Verif.Props.View
import Verif.Lemmas.MatHist
import Verif.Model.Examples
import Mathlib.Analysis.SpecialFunctions.ExpDeriv
import Mathlib.Analysis.SpecialFunctions.Sqrt
import Mathlib.Analysis.Calculus.Deriv.MeanValue
import Mathlib.LinearAlgebra.Matrix.Notation
/-!
# Property C121: energy in the systems of the example programs
-/
namespace Malg
open Ops Control Matrix Examples MatHist

section
variable {K : Type}

theorem nested_yields [Zero K] {n m : Nat} (hn : 0 < n) (hm : 0 < m) (hf : Fits n m) (M : Matrix (Fin n) (Fin m) K) :
    Yields (Mat.empty0.assignNested (List.ofFn fun i => List.ofFn (M i))) M := by
  have h0 : ¬ ((List.ofFn fun i => List.ofFn (M i)) = [] ∨ width (List.ofFn fun i => List.ofFn (M i)) = 0) := by
    obtain ⟨n, rfl⟩ : ∃ k, n = k + 1 := ⟨n - 1, by omega⟩
    simp [width, List.ofFn_succ]
    omega
  rw [assignNested_eq h0]
  have hr : Returns (Mat.ofNested (List.ofFn fun i => List.ofFn (M i))) n m (fun r c => if h : r < n ∧ c < m then M ⟨r, h.1⟩ ⟨c, h.2⟩ else 0) := by
    refine C07_nested hn hm hf (by simp) ⟨List.ofFn (M ⟨0, hn⟩), by simp [hn], by simp⟩ fun r hr => ⟨List.ofFn (M ⟨r, hr⟩), by simp [hr], fun c hc => ?_⟩
    simp [hr, hc]
  obtain ⟨A, e, h⟩ := hr
  refine ⟨A, e, h.wf, _, h.rep, ?_⟩
  ext i j
  simp [toM]

theorem build_is [Zero K] {A B C D : List (List K)} {n m p : Nat} (hn : 0 < n) (hm : 0 < m) (hp : 0 < p) (fa : Fits n n) (fb : Fits n m) (fc : Fits p n)
    (fd : Fits p m) {a : Matrix (Fin n) (Fin n) K} {b : Matrix (Fin n) (Fin m) K} {c : Matrix (Fin p) (Fin n) K} {d : Matrix (Fin p) (Fin m) K}
    (ha : A = List.ofFn fun i => List.ofFn (a i)) (hb : B = List.ofFn fun i => List.ofFn (b i)) (hc : C = List.ofFn fun i => List.ofFn (c i))
    (hd : D = List.ofFn fun i => List.ofFn (d i)) : ∃ sys, build A B C D = .ok sys ∧ sys.Is a b c d := by
  obtain ⟨A', ea, -, ia⟩ := nested_yields hn hn fa a
  obtain ⟨B', eb, -, ib⟩ := nested_yields hn hm fb b
  obtain ⟨C', ec, -, ic⟩ := nested_yields hp hn fc c
  obtain ⟨D', ed, -, id⟩ := nested_yields hp hm fd d
  refine ⟨⟨A', B', C', D'⟩, ?_, ⟨ia, ib, ic, id⟩⟩
  subst ha hb hc hd
  simp only [build, ea, eb, ec, ed, Res.ok_bind, Res.pure_eq]

end

section
variable {K : Type} [Field K] [DecidableEq K]

theorem rlcCt_is {R L C : K} (hL : L ≠ 0) (hC : C ≠ 0) :
    ∃ sys, rlcCt R L C = .ok sys ∧ sys.Is !![-R / L, 1 / L; 1 / C, 0] !![1 / L; 0] !![1, 0] !![0] := by
  unfold rlcCt
  rw [cdiv_ok _ hL, Res.ok_bind, cdiv_ok _ hL, Res.ok_bind, cdiv_ok _ hC, Res.ok_bind]
  exact build_is two_pos one_pos one_pos (fits_small (by norm_num) (by norm_num)) (fits_small (by norm_num) (by norm_num)) (fits_small (by norm_num) (by norm_num))
    (fits_small (by norm_num) (by norm_num)) (by simp [List.ofFn_succ]) (by simp [List.ofFn_succ]) (by simp [List.ofFn_succ]) (by simp [List.ofFn_succ])

theorem rlcDt_is {R L C : K} (hL : L ≠ 0) (hC : C ≠ 0) :
    ∃ sys, rlcDt R L C = .ok sys ∧ sys.Is !![-R / L, -1 / L; 1 / C, 0] !![1 / L; 0] !![0, 1] !![0] := by
  unfold rlcDt
  rw [cdiv_ok _ hL, Res.ok_bind, cdiv_ok _ hL, Res.ok_bind, cdiv_ok _ hC, Res.ok_bind, cdiv_ok _ hL, Res.ok_bind]
  exact build_is two_pos one_pos one_pos (fits_small (by norm_num) (by norm_num)) (fits_small (by norm_num) (by norm_num)) (fits_small (by norm_num) (by norm_num))
    (fits_small (by norm_num) (by norm_num)) (by simp [List.ofFn_succ]) (by simp [List.ofFn_succ]) (by simp [List.ofFn_succ]) (by simp [List.ofFn_succ])

theorem pendulum_is {m l b g : K} (hm : m ≠ 0) (hl : l ≠ 0) :
    ∃ sys, pendulum m l b g = .ok sys ∧ sys.Is !![0, 1; -g / l, -b / (m * l * l)] !![0; 1 / (m * l * l)] !![0, 1] !![0] := by
  unfold pendulum
  have h : m * l * l ≠ 0 := mul_ne_zero (mul_ne_zero hm hl) hl
  rw [cdiv_ok _ hl, Res.ok_bind, cdiv_ok _ h, Res.ok_bind, cdiv_ok _ h, Res.ok_bind]
  exact build_is two_pos one_pos one_pos (fits_small (by norm_num) (by norm_num)) (fits_small (by norm_num) (by norm_num)) (fits_small (by norm_num) (by norm_num))
    (fits_small (by norm_num) (by norm_num)) (by simp [List.ofFn_succ]) (by simp [List.ofFn_succ]) (by simp [List.ofFn_succ]) (by simp [List.ofFn_succ])

omit [DecidableEq K] in
theorem rate_eq {sys : StateSpace K} {A : Matrix (Fin 2) (Fin 2) K} {B : Matrix (Fin 2) (Fin 1) K} {C : Matrix (Fin 1) (Fin 2) K}
    {D : Matrix (Fin 1) (Fin 1) K} (h : sys.Is A B C D) (u p q : K) :
    rate sys u [p, q] = .ok [A 0 0 * p + A 0 1 * q + B 0 0 * u, A 1 0 * p + A 1 1 * q + B 1 0 * u] := by
  have h2 : 2 < allocMax := by rw [allocMax_eq]; norm_num
  have e1 : [p, q] = List.ofFn ![p, q] := by simp [List.ofFn_succ]
  have e2 : [u] = List.ofFn ![u] := by simp [List.ofFn_succ]
  unfold rate
  rw [e1, e2, dotMat_ofFn h.a h2, Res.ok_bind, dotMat_ofFn h.b h2, Res.ok_bind, vadd_ofFn h2]
  simp [List.ofFn_succ, Matrix.mulVec, dotProduct, Fin.sum_univ_two]
end

/-- The pair `(p, q)` of functions of time is a solution of the differential equation whose right side is `operator()` of the model,
with the input `u`. -/
def Moves (sys : StateSpace ℝ) (u p q : ℝ → ℝ) : Prop :=
  ∀ t, ∃ dp dq, rate sys (u t) [p t, q t] = .ok [dp, dq] ∧ HasDerivAt p dp t ∧ HasDerivAt q dq t

theorem Moves.deriv {sys : StateSpace ℝ} {A : Matrix (Fin 2) (Fin 2) ℝ} {B : Matrix (Fin 2) (Fin 1) ℝ} {C : Matrix (Fin 1) (Fin 2) ℝ}
    {D : Matrix (Fin 1) (Fin 1) ℝ} (h : sys.Is A B C D) {u p q : ℝ → ℝ} :
    Moves sys u p q ↔ ∀ t, HasDerivAt p (A 0 0 * p t + A 0 1 * q t + B 0 0 * u t) t ∧ HasDerivAt q (A 1 0 * p t + A 1 1 * q t + B 1 0 * u t) t := by
  refine ⟨fun hm t => ?_, fun hm t => ⟨_, _, rate_eq h _ _ _, hm t⟩⟩
  obtain ⟨dp, dq, h1, h2, h3⟩ := hm t
  rw [rate_eq h] at h1
  have := List.cons.inj (Res.ok.inj h1)
  have h4 := (List.cons.inj this.2).1
  rw [this.1, h4]
  exact ⟨h2, h3⟩

/-- C121, the circuit of `sim_rlc_dt.cpp`: along every solution, for every input, the energy stored in the coil and the capacitor changes by the
power `u i` that comes in less the power `R i²` that the resistor turns into heat. Missing: the same for `sim_rlc_ct.cpp`, where
it is false, see `C121_rlc_ct_false`. -/
theorem C121_rlc_dt_partial {R L C : ℝ} (hL : L ≠ 0) (hC : C ≠ 0) :
    ∃ sys, rlcDt R L C = .ok sys ∧ ∀ u i v, Moves sys u i v → ∀ t,
      HasDerivAt (fun t => L * i t ^ 2 / 2 + C * v t ^ 2 / 2) (u t * i t - R * i t ^ 2) t := by
  obtain ⟨sys, e, h⟩ := rlcDt_is (R := R) hL hC
  refine ⟨sys, e, fun u i v hm t => ?_⟩
  obtain ⟨h1, h2⟩ := (Moves.deriv h).1 hm t
  have := (((h1.pow 2).const_mul L).div_const 2).add (((h2.pow 2).const_mul C).div_const 2)
  refine this.congr_deriv ?_
  simp
  field_simp
  ring

/-- C121, the pendulum: the energy changes by the power `u ω` of the torque less the power `b ω²` of the friction. -/
theorem C121_pendulum_partial {m l b g : ℝ} (hm : m ≠ 0) (hl : l ≠ 0) :
    ∃ sys, pendulum m l b g = .ok sys ∧ ∀ u θ ω, Moves sys u θ ω → ∀ t,
      HasDerivAt (fun t => m * l ^ 2 * ω t ^ 2 / 2 + m * g * l * θ t ^ 2 / 2) (u t * ω t - b * ω t ^ 2) t := by
  obtain ⟨sys, e, h⟩ := pendulum_is (b := b) (g := g) hm hl
  refine ⟨sys, e, fun u θ ω hmv t => ?_⟩
  obtain ⟨h1, h2⟩ := (Moves.deriv h).1 hmv t
  have := (((h2.pow 2).const_mul (m * l ^ 2)).div_const 2).add (((h1.pow 2).const_mul (m * g * l)).div_const 2)
  refine this.congr_deriv ?_
  simp
  field_simp
  ring

/-- C121: without input the energy of the circuit of `sim_rlc_dt.cpp` never grows, so that current and voltage stay bounded. -/
theorem C121_rlc_dt_decay_partial {R L C : ℝ} (hR : 0 ≤ R) (hL : 0 < L) (hC : 0 < C) :
    ∃ sys, rlcDt R L C = .ok sys ∧ ∀ i v, Moves sys 0 i v → ∀ s t, s ≤ t →
      L * i t ^ 2 + C * v t ^ 2 ≤ L * i s ^ 2 + C * v s ^ 2 := by
  obtain ⟨sys, e, h⟩ := C121_rlc_dt_partial (R := R) hL.ne' hC.ne'
  refine ⟨sys, e, fun i v hm s t hst => ?_⟩
  have hd := h 0 i v hm
  have ha : Antitone fun t => L * i t ^ 2 / 2 + C * v t ^ 2 / 2 := by
    refine antitone_of_deriv_nonpos (fun t => (hd t).differentiableAt) fun t => ?_
    rw [(hd t).deriv]
    have := mul_nonneg hR (sq_nonneg (i t))
    simp; linarith
  have := ha hst
  dsimp only at this
  linarith

/-- C121: without torque the energy of the pendulum never grows. -/
theorem C121_pendulum_decay_partial {m l b g : ℝ} (hm : 0 < m) (hl : 0 < l) (hb : 0 ≤ b) :
    ∃ sys, pendulum m l b g = .ok sys ∧ ∀ θ ω, Moves sys 0 θ ω → ∀ s t, s ≤ t →
      l * ω t ^ 2 + g * θ t ^ 2 ≤ l * ω s ^ 2 + g * θ s ^ 2 := by
  obtain ⟨sys, e, h⟩ := C121_pendulum_partial (b := b) (g := g) hm.ne' hl.ne'
  refine ⟨sys, e, fun i v hmv s t hst => ?_⟩
  have hd := h 0 i v hmv
  have ha : Antitone fun t => m * l ^ 2 * v t ^ 2 / 2 + m * g * l * i t ^ 2 / 2 := by
    refine antitone_of_deriv_nonpos (fun t => (hd t).differentiableAt) fun t => ?_
    rw [(hd t).deriv]
    have := mul_nonneg hb (sq_nonneg (v t))
    simp; linarith
  have := ha hst
  dsimp only at this
  have hml : 0 < m * l / 2 := by positivity
  refine le_of_mul_le_mul_left ?_ hml
  linarith

/-- C121 violated: the circuit of `sim_rlc_ct.cpp`, whatever its resistance, inductance and capacitance. With one sign wrong, a deviation in the direction
`(C λ, 1)` grows like `e^{λ t}` with a positive `λ`, whatever the input and the solution it is added to. -/
theorem C121_rlc_ct_false {R L C : ℝ} (hL : 0 < L) (hC : 0 < C) :
    ∃ sys lam, rlcCt R L C = .ok sys ∧ 0 < lam ∧ ∀ u i v, Moves sys u i v → ∀ c,
      Moves sys u (fun t => i t + c * C * lam * Real.exp (lam * t)) (fun t => v t + c * Real.exp (lam * t)) := by
  obtain ⟨sys, e, h⟩ := rlcCt_is (R := R) hL.ne' hC.ne'
  set D := (R / L) ^ 2 + 4 / (L * C) with hD
  have hD0 : (R / L) ^ 2 < D := by rw [hD]; have : 0 < 4 / (L * C) := by positivity
                                   linarith
  have hs : R / L < √D := (le_abs_self _).trans_lt (by rw [← Real.sqrt_sq_eq_abs]; exact Real.sqrt_lt_sqrt (sq_nonneg _) hD0)
  have hsq : √D ^ 2 = D := Real.sq_sqrt ((sq_nonneg _).trans hD0.le)
  set lam := (√D - R / L) / 2 with hlam
  have hl0 : 0 < lam := by rw [hlam]; linarith
  have hroot : C * lam * lam = -R / L * (C * lam) + 1 / L := by
    have h1 : (2 * lam + R / L) ^ 2 = D := by rw [← hsq, hlam]; ring
    rw [hD] at h1
    have h2 : lam ^ 2 + R / L * lam = 1 / (L * C) := by
      have : 4 / (L * C) = 4 * (1 / (L * C)) := by ring
      rw [this] at h1; linarith
    have h3 : C * (1 / (L * C)) = 1 / L := by field_simp
    rw [← h3, ← h2]; ring
  refine ⟨sys, lam, e, hl0, fun u i v hm c => (Moves.deriv h).2 fun t => ?_⟩
  obtain ⟨h1, h2⟩ := (Moves.deriv h).1 hm t
  have he : HasDerivAt (fun t => Real.exp (lam * t)) (Real.exp (lam * t) * lam) t := by
    have := ((hasDerivAt_id t).const_mul lam).exp
    simpa using this
  constructor
  · refine (h1.add (he.const_mul (c * C * lam))).congr_deriv ?_
    simp
    have : c * C * lam * (Real.exp (lam * t) * lam) = c * Real.exp (lam * t) * (C * lam * lam) := by ring
    rw [this, hroot]
    ring
  · refine (h2.add (he.const_mul c)).congr_deriv ?_
    simp
    field_simp

/-- C121 violated: in `sim_rlc_ct.cpp` there is, for all values of the parts, a solution without input whose energy grows beyond all bounds; with the
values of the program (1, 0.5, 0.5) it starts with 1 V. -/
theorem C121_rlc_ct_energy_false {R L C : ℝ} (hL : 0 < L) (hC : 0 < C) :
    ∃ sys i v, rlcCt R L C = .ok sys ∧ Moves sys 0 i v ∧ v 0 = 1 ∧
      Filter.Tendsto (fun t => L * i t ^ 2 + C * v t ^ 2) Filter.atTop Filter.atTop := by
  obtain ⟨sys, lam, e, hl, h⟩ := C121_rlc_ct_false (R := R) hL hC
  have h0 : Moves sys 0 (fun _ => 0) (fun _ => 0) := by
    obtain ⟨sys', e', h'⟩ := rlcCt_is (R := R) hL.ne' hC.ne'
    obtain rfl : sys = sys' := Res.ok.inj (e.symm.trans e')
    refine (Moves.deriv h').2 fun t => ⟨?_, ?_⟩
    · exact (hasDerivAt_const t (0 : ℝ)).congr_deriv (by simp)
    · exact (hasDerivAt_const t (0 : ℝ)).congr_deriv (by simp)
  refine ⟨sys, _, _, e, h 0 _ _ h0 1, by simp, ?_⟩
  refine Filter.tendsto_atTop_mono (f := fun t => C * (2 * lam * t)) (fun t => ?_) ?_
  · have h1 := Real.add_one_le_exp (2 * lam * t)
    have h2 : Real.exp (lam * t) ^ 2 = Real.exp (2 * lam * t) := by rw [← Real.exp_nat_mul]; congr 1; push_cast; ring
    have h3 : (0 : ℝ) ≤ L * (0 + 1 * C * lam * Real.exp (lam * t)) ^ 2 := by positivity
    have h4 : C * (2 * lam * t) ≤ C * (0 + 1 * Real.exp (lam * t)) ^ 2 := by
      refine mul_le_mul_of_nonneg_left ?_ hC.le
      rw [zero_add, one_mul, h2]; linarith
    linarith
  · refine Filter.Tendsto.const_mul_atTop hC (Filter.Tendsto.const_mul_atTop (by positivity) Filter.tendsto_id)

/-- The matrices of the programs, with the values they use. -/
example : (rlcDt (1 : ℚ) (1/2) (1/2)) = .ok ⟨⟨2, 2, [-2, -2, 2, 0]⟩, ⟨2, 1, [2, 0]⟩, ⟨1, 2, [0, 1]⟩, ⟨1, 1, [0]⟩⟩ := by decide +kernel
example : (rlcCt (1 : ℚ) (1/2) (1/2)) = .ok ⟨⟨2, 2, [-2, 2, 2, 0]⟩, ⟨2, 1, [2, 0]⟩, ⟨1, 2, [1, 0]⟩, ⟨1, 1, [0]⟩⟩ := by decide +kernel
example : rate ⟨⟨2, 2, [-2, -2, 2, 0]⟩, ⟨2, 1, [2, 0]⟩, ⟨1, 2, [0, 1]⟩, ⟨1, 1, [0]⟩⟩ 3 [5, 7] = .ok ([-18, 10] : List ℚ) := by decide +kernel

end Malg
