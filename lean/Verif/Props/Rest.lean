import Verif.Props.StableC2d
import Verif.Props.SampleErr
/-!
# Property C156: discretising keeps the points of rest
-/
namespace Malg
open Ops Lin Control Feq Ieee
open scoped Matrix

section
variable {n m p : Nat} {sys : StateSpace ℝ} {A : Matrix (Fin n) (Fin n) ℝ} {B : Matrix (Fin n) (Fin m) ℝ} {C : Matrix (Fin p) (Fin n) ℝ} {D : Matrix (Fin p) (Fin m) ℝ}

theorem MB.Is.inj {T : Type} {n m : Nat} {b : MB T} {M N : Matrix (Fin n) (Fin m) T} (h : b.Is M) (h' : b.Is N) : M = N := by
  obtain ⟨e, he, rfl⟩ := h
  obtain ⟨f, hf, rfl⟩ := h'
  exact toM_inj.2 fun i j hi hj => (he.toRepAt.unique hf.toRepAt).2.2 i j hi hj

theorem taylor_commute (c : ℝ) (q : Nat) : Commute A (taylor (c • A) q) := by
  unfold taylor
  exact Commute.sum_right _ _ _ fun j _ => (((Commute.refl A).smul_right c).pow_right j).smul_right _

/-- What `c2d` returns, for any accuracy of the exponential. -/
theorem c2d_commute {tol : ℝ} (ht : tol < 1) {sqrt : ℝ → ℝ} {accuracy : ℝ} {fuel : Nat} (h : sys.Is A B C D) (hn : 0 < n) (hm : 0 < m) (hp : 0 < p) {dt : ℝ}
    (hd0 : A.det ≠ 0) (hi : n ≤ 5 ∨ ∀ i j, A⁻¹ i j ≠ 0) {d : DiscreteStateSpace ℝ}
    (hd : c2d (isZ AbsoluteValue.abs tol) (fun X => expm (isZ AbsoluteValue.abs tol) (|·|) sqrt (1/2) X accuracy fuel) sys dt = .ok d) :
    ∃ (Ad : Matrix (Fin n) (Fin n) ℝ) (Bd : Matrix (Fin n) (Fin m) ℝ), d.toStateSpace.Is Ad Bd C D ∧ d.sampleTime = dt ∧ Commute A Ad ∧ Bd = A⁻¹ * (Ad - 1) * B ∧ A * Bd = (Ad - 1) * B := by
  obtain ⟨X, eX, wX, iX⟩ := (C33_field h.a dt).1
  have hd' := hd
  unfold c2d at hd'
  rw [eX, Res.ok_bind] at hd'
  obtain ⟨E, eE, -⟩ := Res.bind_eq_ok.1 hd'
  obtain ⟨k, t, -, -, h2, h3⟩ := C55_taylor (isZ_iff AbsoluteValue.abs ht) iX eE
  obtain ⟨d', Bd, e1, e2, e3, e4, e5⟩ := C64_equations_partial AbsoluteValue.abs ht (dt := dt)
    (ex := fun X => expm (isZ AbsoluteValue.abs tol) (|·|) sqrt (1/2) X accuracy fuel) h hn hm hp (E := _)
    (by rw [eX, Res.ok_bind]; exact ⟨E, eE, h2, h3⟩) hd0 hi
  rw [hd] at e1
  injection e1 with e1
  subst e1
  refine ⟨_, Bd, e2, e3, Commute.pow_right ?_ _, e4, e5⟩
  rw [smul_smul]
  exact taylor_commute _ _

/-- C156: a state at which the continuous system rests with a constant input is one at which the discrete system rests, exactly, whatever the accuracy of the exponential and the sample time. Missing: as in `C64_equations_partial`. -/
theorem C156_rest_partial {tol : ℝ} (ht : tol < 1) {sqrt : ℝ → ℝ} {accuracy : ℝ} {fuel : Nat} (h : sys.Is A B C D) (hn : 0 < n) (hm : 0 < m) (hp : 0 < p) {dt : ℝ}
    (hd0 : A.det ≠ 0) (hi : n ≤ 5 ∨ ∀ i j, A⁻¹ i j ≠ 0) {d : DiscreteStateSpace ℝ}
    (hd : c2d (isZ AbsoluteValue.abs tol) (fun X => expm (isZ AbsoluteValue.abs tol) (|·|) sqrt (1/2) X accuracy fuel) sys dt = .ok d) :
    ∃ (Ad : Matrix (Fin n) (Fin n) ℝ) (Bd : Matrix (Fin n) (Fin m) ℝ), d.toStateSpace.Is Ad Bd C D ∧ d.sampleTime = dt ∧ ∀ x u, A *ᵥ x + B *ᵥ u = 0 → Ad *ᵥ x + Bd *ᵥ u = x := by
  obtain ⟨Ad, Bd, h1, h2, h3, h4, -⟩ := c2d_commute ht h hn hm hp hd0 hi hd
  refine ⟨Ad, Bd, h1, h2, fun x u hx => ?_⟩
  have hu : IsUnit A.det := IsUnit.mk0 _ hd0
  have hb : B *ᵥ u = -(A *ᵥ x) := by rw [eq_neg_iff_add_eq_zero, add_comm]; exact hx
  have h5 : (Ad - 1) * A = A * (Ad - 1) := by rw [sub_mul, mul_sub, one_mul, mul_one, h3.eq]
  rw [h4, ← Matrix.mulVec_mulVec, hb, Matrix.mulVec_neg, Matrix.mulVec_mulVec, Matrix.mul_assoc, h5, ← Matrix.mul_assoc, Matrix.nonsing_inv_mul _ hu, Matrix.one_mul, Matrix.sub_mulVec, Matrix.one_mulVec]
  abel

/-- The simulation of a system at rest. -/
theorem traj_rest {A : Matrix (Fin n) (Fin n) ℝ} {B : Matrix (Fin n) (Fin m) ℝ} {x : Fin n → ℝ} {u : Fin m → ℝ} (h : A *ᵥ x + B *ᵥ u = x) (x0 : Fin n → ℝ) {w : Nat → Fin m → ℝ} (k : Nat)
    (hw : ∀ j, j < k → w j = u) : traj A B x0 w k = x + A ^ k *ᵥ (x0 - x) := by
  induction k with
  | zero => simp [traj]
  | succ k ih =>
    rw [traj, ih fun j hj => hw j (by omega), hw k (by omega), Matrix.mulVec_add, Matrix.mulVec_mulVec, ← pow_succ', add_right_comm, h]

theorem getD_replicate {α : Type} [Zero α] {N j : Nat} (u : α) (h : j < N) : (List.replicate N u).getD j 0 = u := by
  rw [List.getD_eq_getElem?_getD, List.getElem?_replicate, if_pos h, Option.getD_some]

/-- C156 for simulations: started at rest, with the input that keeps the continuous system there, the simulation stays. Missing: as in `C156_rest_partial`. -/
theorem C156_simulate_partial {tol : ℝ} (ht : tol < 1) {sqrt : ℝ → ℝ} {accuracy : ℝ} {fuel : Nat} (h : sys.Is A B C D) (hn : 0 < n) (hm : 0 < m) (hp : 0 < p) (hna : n < allocMax) (hpa : p < allocMax) {dt : ℝ} (hdt : dt ≠ 0)
    (hd0 : A.det ≠ 0) (hi : n ≤ 5 ∨ ∀ i j, A⁻¹ i j ≠ 0) {d : DiscreteStateSpace ℝ}
    (hd : c2d (isZ AbsoluteValue.abs tol) (fun X => expm (isZ AbsoluteValue.abs tol) (|·|) sqrt (1/2) X accuracy fuel) sys dt = .ok d)
    {toSize : ℝ → Res Nat} {x : Fin n → ℝ} {u : Fin m → ℝ} (hx : A *ᵥ x + B *ᵥ u = 0) (N : Nat) {st : ℝ} {k : Nat} (hk : toSize (st / dt) = .ok k) :
    simulate toSize d ((List.replicate N u).map List.ofFn) st (List.ofFn x) =
      .ok (vtab (min N k + 1) (fun i => if i < min N k then (i : ℝ) * dt else 0), List.replicate (min N k + 1) (List.ofFn x), List.replicate (min N k) (List.ofFn (C *ᵥ x + D *ᵥ u))) := by
  obtain ⟨Ad, Bd, h1, h2, h3⟩ := C156_rest_partial ht h hn hm hp hd0 hi hd
  have e : ∀ i, i ≤ min N k → traj Ad Bd x (fun j => (List.replicate N u).getD j 0) i = x := fun i hi' => by
    rw [traj_rest (h3 x u hx) x i fun j hj => getD_replicate u (by omega), sub_self, Matrix.mulVec_zero, add_zero]
  have hs := simulate_eq h1 hna hpa (List.replicate N u) x (q := st / dt) (by rw [h2]; exact cdiv_ok st hdt) hk
  rw [List.length_replicate] at hs
  rw [h2] at hs
  refine hs.trans ?_
  congr 3
  · refine List.ext_getElem (by simp [vtab]) fun i h5 h6 => ?_
    simp only [vtab, List.getElem_map, List.getElem_range, List.getElem_replicate]
    rw [e i (by simp at h6; omega)]
  · refine List.ext_getElem (by simp [vtab]) fun i h5 h6 => ?_
    have hi' : i < min N k := by simpa using h6
    simp only [vtab, List.getElem_map, List.getElem_range, List.getElem_replicate]
    rw [e i hi'.le, getD_replicate u (by omega)]

/-- C156 for well damped systems: the discrete system rests where the continuous one does and nowhere else. Missing: as in `C152_c2d_partial`. -/
theorem C156_only_partial {tol : ℝ} (ht : tol < 1) {sqrt : ℝ → ℝ} {accuracy : ℝ} {fuel : Nat} (h : sys.Is A B C D) (hn : 0 < n) (hm : 0 < m) (hp : 0 < p) (hA : WellDamped A) {dt : ℝ} (hdt : 0 < dt)
    (hi : n ≤ 5 ∨ ∀ i j, A⁻¹ i j ≠ 0) {d : DiscreteStateSpace ℝ}
    (hd : c2d (isZ AbsoluteValue.abs tol) (fun X => expm (isZ AbsoluteValue.abs tol) (|·|) sqrt (1/2) X accuracy fuel) sys dt = .ok d) :
    ∃ (Ad : Matrix (Fin n) (Fin n) ℝ) (Bd : Matrix (Fin n) (Fin m) ℝ), d.toStateSpace.Is Ad Bd C D ∧ ∀ x u, Ad *ᵥ x + Bd *ᵥ u = x ↔ A *ᵥ x + B *ᵥ u = 0 := by
  obtain ⟨Ad, Bd, h1, -, h3, h4, h5⟩ := c2d_commute ht h hn hm hp hA.det_ne hi hd
  obtain ⟨Ad', Bd', g1, g2, -, g4⟩ := C152_c2d_partial ht h hn hm hp hA hdt hi hd
  obtain ⟨Ad'', Bd'', f1, -, f3⟩ := C156_rest_partial ht h hn hm hp hA.det_ne hi hd
  obtain rfl := MB.Is.inj g1.a h1.a
  obtain rfl := MB.Is.inj f1.a h1.a
  obtain rfl := MB.Is.inj f1.b h1.b
  refine ⟨_, _, h1, fun x u => ⟨fun hx => ?_, f3 x u⟩⟩
  have e1 : Ad'' *ᵥ (A *ᵥ x + B *ᵥ u) = A *ᵥ x + B *ᵥ u := by
    have e2 : A *ᵥ (Ad'' *ᵥ x + Bd'' *ᵥ u) = A *ᵥ x := by rw [hx]
    rw [Matrix.mulVec_add, Matrix.mulVec_mulVec, Matrix.mulVec_mulVec, h5, h3.eq, ← Matrix.mulVec_mulVec, ← Matrix.mulVec_mulVec, Matrix.sub_mulVec, Matrix.one_mulVec] at e2
    rw [Matrix.mulVec_add]
    linear_combination e2
  by_contra hne
  have := g4 1 (fun i => ((A *ᵥ x + B *ᵥ u) i : ℂ)) (fun h0 => hne (funext fun i => Complex.ofReal_eq_zero.1 (congrFun h0 i))) (by
    rw [one_smul]
    ext i
    have := congrFun e1 i
    rw [Matrix.mulVec, dotProduct] at this
    rw [Matrix.mulVec, dotProduct, ← this]
    push_cast
    rfl)
  simp at this

/-- C156, how the simulation gets there: with a constant input the simulation of a well damped system approaches the state where the continuous system rests, exponentially. Missing: as in `C152_c2d_partial`. -/
theorem C156_settles_partial {tol : ℝ} (ht : tol < 1) {sqrt : ℝ → ℝ} {accuracy : ℝ} {fuel : Nat} (h : sys.Is A B C D) (hn : 0 < n) (hm : 0 < m) (hp : 0 < p) (hna : n < allocMax) (hpa : p < allocMax) (hA : WellDamped A)
    {dt : ℝ} (hdt : 0 < dt) (hi : n ≤ 5 ∨ ∀ i j, A⁻¹ i j ≠ 0) {d : DiscreteStateSpace ℝ}
    (hd : c2d (isZ AbsoluteValue.abs tol) (fun X => expm (isZ AbsoluteValue.abs tol) (|·|) sqrt (1/2) X accuracy fuel) sys dt = .ok d) :
    ∃ c ρ : ℝ, 0 ≤ ρ ∧ ρ < 1 ∧ ∀ (toSize : ℝ → Res Nat) (u : Fin m → ℝ) (x0 x : Fin n → ℝ) (_ : A *ᵥ x + B *ᵥ u = 0) (N : Nat) (st : ℝ) (k : Nat) (_ : toSize (st / dt) = .ok k) (M : ℝ) (_ : ∀ i, |x0 i - x i| ≤ M),
      ∃ t y, ∃ z : Nat → Fin n → ℝ, simulate toSize d ((List.replicate N u).map List.ofFn) st (List.ofFn x0) = .ok (t, vtab (min N k + 1) fun i => List.ofFn (z i), y) ∧
        ∀ i, i ≤ min N k → ∀ l, |z i l - x l| ≤ c * ρ ^ i * M := by
  obtain ⟨Ad, Bd, g1, g2, -, g4⟩ := C152_c2d_partial ht h hn hm hp hA hdt hi hd
  obtain ⟨Ad', Bd', f1, -, f3⟩ := C156_rest_partial ht h hn hm hp hA.det_ne hi hd
  obtain rfl := MB.Is.inj f1.a g1.a
  obtain rfl := MB.Is.inj f1.b g1.b
  obtain ⟨c, ρ, h1, h2, h3, h4⟩ := real_pow_decay _ g4
  refine ⟨c, ρ, h2, h3, fun toSize u x0 x hx N st k hk M hM => ⟨_, _, _, (simulate_eq g1 hna hpa (List.replicate N u) x0 (q := st / dt) (by rw [g2]; exact cdiv_ok st hdt.ne') hk).trans (by rw [List.length_replicate]), fun i hi' l => ?_⟩⟩
  rw [traj_rest (f3 x u hx) x0 i fun j hj => getD_replicate u (by omega), Pi.add_apply, add_sub_cancel_left]
  exact mulVec_bound (h4 i) hM ((abs_nonneg _).trans (hM l)) l

/-- C156, what can be measured: the outputs of a well damped system with a constant input approach `(D - C A⁻¹ B) u`, the gain of the continuous system for constant inputs, from every initial state, exponentially.
Missing: as in `C152_c2d_partial`. -/
theorem C156_gain_partial {tol : ℝ} (ht : tol < 1) {sqrt : ℝ → ℝ} {accuracy : ℝ} {fuel : Nat} (h : sys.Is A B C D) (hn : 0 < n) (hm : 0 < m) (hp : 0 < p) (hna : n < allocMax) (hpa : p < allocMax) (hA : WellDamped A)
    {dt : ℝ} (hdt : 0 < dt) (hi : n ≤ 5 ∨ ∀ i j, A⁻¹ i j ≠ 0) {d : DiscreteStateSpace ℝ}
    (hd : c2d (isZ AbsoluteValue.abs tol) (fun X => expm (isZ AbsoluteValue.abs tol) (|·|) sqrt (1/2) X accuracy fuel) sys dt = .ok d) (u : Fin m → ℝ) (x0 : Fin n → ℝ) :
    ∃ c ρ : ℝ, 0 ≤ ρ ∧ ρ < 1 ∧ ∀ (toSize : ℝ → Res Nat) (N : Nat) (st : ℝ) (k : Nat) (_ : toSize (st / dt) = .ok k),
      ∃ t x, ∃ y : Nat → Fin p → ℝ, simulate toSize d ((List.replicate N u).map List.ofFn) st (List.ofFn x0) = .ok (t, x, vtab (min N k) fun i => List.ofFn (y i)) ∧
        ∀ i, i < min N k → ∀ l, |y i l - ((D - C * A⁻¹ * B) *ᵥ u) l| ≤ c * ρ ^ i := by
  obtain ⟨Ad, Bd, g1, g2, -, g4⟩ := C152_c2d_partial ht h hn hm hp hA hdt hi hd
  obtain ⟨Ad', Bd', f1, -, f3⟩ := C156_rest_partial ht h hn hm hp hA.det_ne hi hd
  obtain rfl := MB.Is.inj f1.a g1.a
  obtain rfl := MB.Is.inj f1.b g1.b
  obtain ⟨c, ρ, h1, h2, h3, h4⟩ := real_pow_decay _ g4
  have hu : IsUnit A.det := IsUnit.mk0 _ hA.det_ne
  obtain ⟨x, hx⟩ : ∃ x, x = -(A⁻¹ *ᵥ (B *ᵥ u)) := ⟨_, rfl⟩
  have hr : A *ᵥ x + B *ᵥ u = 0 := by
    rw [hx, Matrix.mulVec_neg, Matrix.mulVec_mulVec (B *ᵥ u) A, Matrix.mul_nonsing_inv _ hu, Matrix.one_mulVec, neg_add_cancel]
  have hg : (D - C * A⁻¹ * B) *ᵥ u = C *ᵥ x + D *ᵥ u := by
    rw [Matrix.sub_mulVec, hx, Matrix.mulVec_neg, ← Matrix.mulVec_mulVec, ← Matrix.mulVec_mulVec]
    abel
  have hM : ∀ j, |(x0 - x) j| ≤ ∑ l, |(x0 - x) l| := fun j => Finset.single_le_sum (f := fun l => |(x0 - x) l|) (fun _ _ => abs_nonneg _) (Finset.mem_univ j)
  have hM0 : 0 ≤ ∑ l, |(x0 - x) l| := Finset.sum_nonneg fun _ _ => abs_nonneg _
  have hC : ∀ l, ∑ j, |C l j| ≤ ∑ r, ∑ j, |C r j| := fun l => Finset.single_le_sum (f := fun r => ∑ j, |C r j|) (fun _ _ => Finset.sum_nonneg fun _ _ => abs_nonneg _) (Finset.mem_univ l)
  refine ⟨(∑ r, ∑ j, |C r j|) * (c * ∑ l, |(x0 - x) l|), ρ, h2, h3, fun toSize N st k hk => ⟨_, _, _, (simulate_eq g1 hna hpa (List.replicate N u) x0 (q := st / dt) (by rw [g2]; exact cdiv_ok st hdt.ne') hk).trans (by rw [List.length_replicate]), fun i hi' l => ?_⟩⟩
  have e : C *ᵥ (x + Ad' ^ i *ᵥ (x0 - x)) + D *ᵥ u - (C *ᵥ x + D *ᵥ u) = C *ᵥ (Ad' ^ i *ᵥ (x0 - x)) := by
    rw [Matrix.mulVec_add]
    abel
  rw [hg, traj_rest (f3 x u hr) x0 i fun j hj => getD_replicate u (by omega), getD_replicate u (by omega), ← Pi.sub_apply, e]
  refine (mulVec_bound hC (mulVec_bound (h4 i) hM hM0) (mul_nonneg (mul_nonneg h1 (pow_nonneg h2 i)) hM0) l).trans (le_of_eq (by ring))
end

/-- A damped oscillation with the eigenvalues `-1 ± i` that rests at `(1, 0)` with the input 1. -/
example {sys : StateSpace ℝ} {C : Matrix (Fin 1) (Fin 2) ℝ} {D : Matrix (Fin 1) (Fin 1) ℝ} (h : sys.Is !![-1, 1; -1, -1] !![1; 1] C D) {toSize : ℝ → Res Nat} (hk : toSize (3 / 1) = .ok 3) :
    ∃ N, ∀ fuel, N ≤ fuel → ∃ d, c2d (isZ AbsoluteValue.abs (1/1000)) (fun X => expm (isZ AbsoluteValue.abs (1/1000)) (|·|) Real.sqrt (1/2) X (1/100000) fuel) sys 1 = .ok d ∧
      (∃ t y, simulate toSize d [[1], [1], [1]] 3 [1, 0] = .ok (t, [[1, 0], [1, 0], [1, 0], [1, 0]], y)) ∧
      ∃ (Ad : Matrix (Fin 2) (Fin 2) ℝ) (Bd : Matrix (Fin 2) (Fin 1) ℝ), d.toStateSpace.Is Ad Bd C D ∧ ∀ x : Fin 2 → ℝ, Ad *ᵥ x + Bd *ᵥ ![1] = x → x = ![1, 0] := by
  have hA : WellDamped (!![-1, 1; -1, -1] : Matrix (Fin 2) (Fin 2) ℝ) := by
    intro μ z hz e
    right
    have h1 := osc_eig one_ne_zero hz e
    have h2 : ‖μ‖ ≤ 2 := eig_le_rows (fun i => by fin_cases i <;> norm_num [Fin.sum_univ_two]) hz e
    have h3 : tailFactor (2 * 2) = 1 / 100 := by unfold tailFactor; norm_num [Nat.factorial]
    rw [h1, h3]
    linarith
  obtain ⟨N, hN⟩ := C152_library_partial (tol := 1/1000) (by norm_num) h (by norm_num) (by norm_num) (by norm_num) hA one_pos (.inl (by norm_num))
  refine ⟨N, fun fuel hf => ?_⟩
  obtain ⟨d, h1, -⟩ := hN fuel hf
  refine ⟨d, h1, ?_, ?_⟩
  · have h2 := C156_simulate_partial (by norm_num) h (by norm_num) (by norm_num) (by norm_num) (by rw [allocMax_eq]; norm_num) (by rw [allocMax_eq]; norm_num) one_ne_zero hA.det_ne (.inl (by norm_num)) h1 (x := ![1, 0]) (u := ![1])
      (by ext i; fin_cases i <;> simp) 3 hk
    exact ⟨_, _, (by simpa [List.replicate, List.ofFn_succ] using h2)⟩
  · obtain ⟨Ad, Bd, h2, h3⟩ := C156_only_partial (by norm_num) h (by norm_num) (by norm_num) (by norm_num) hA one_pos (.inl (by norm_num)) h1
    refine ⟨Ad, Bd, h2, fun x hx => ?_⟩
    have h4 := (h3 _ _).1 hx
    have e0 := congrFun h4 0
    have e1 := congrFun h4 1
    simp [dotProduct, Fin.sum_univ_two] at e0 e1
    ext i
    fin_cases i
    · show x 0 = 1; linarith
    · show x 1 = 0; linarith

/-- A damped oscillator that rests at `(1, 0)` with the input 1: the numbers are doubles, and `A x + B u` is 0 exactly. -/
def restS : StateSpace IDouble :=
  ⟨⟨2, 2, [dbl (-1 / 8), dbl (3 / 4), dbl (-3 / 4), dbl (-1 / 8)]⟩, ⟨2, 1, [dbl (1 / 8), dbl (3 / 4)]⟩, ⟨1, 2, [1, 0]⟩, ⟨1, 1, [0]⟩⟩

set_option maxRecDepth 100000 in
/-- C156 in `double` is false: the simulation leaves the point of rest in its first step. -/
theorem C156_simulate_false : (!![-1 / 8, 3 / 4; -3 / 4, -1 / 8] : Matrix (Fin 2) (Fin 2) ℝ) *ᵥ ![1, 0] + (!![1 / 8; 3 / 4] : Matrix (Fin 2) (Fin 1) ℝ) *ᵥ ![1] = 0 ∧
    (do let d ← c2d dIsZero ioscExp restS 1
        let r ← simulate Ieee.toSize d [[1]] 1 [1, 0]
        return r.2.1) = .ok [[1, 0], [1, dbl (1 / 2 ^ 53)]] ∧ dbl (1 / 2 ^ 53) ≠ 0 := by
  refine ⟨?_, by decide +kernel, by decide +kernel⟩
  ext i
  fin_cases i <;> norm_num
end Malg
