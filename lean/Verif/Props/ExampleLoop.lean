import Verif.Props.Examples
import Verif.Props.ExpmStop
import Verif.Props.FloatSim
import Verif.Props.Sampling
import Verif.Props.Solutions
/-!
# Property C122: the loop of `examples/sim_rlc_dt.cpp`
-/
namespace Malg
open Ops Control Matrix Examples Feq

/-- The value of the loop variable after `k` additions `t += dt`. -/
def tick {T : Type} [Add T] (t0 dt : T) : Nat → T
  | 0 => t0
  | k + 1 => tick t0 dt k + dt

section exec
variable {T : Type} [Zero T] [Add T] [Mul T] {lt : T → T → Bool} {input : T → T} {dsys : StateSpace T} {a b c d : Nat → Nat → T}
  (hA : RepAt dsys.A.toMB 2 2 a) (hB : RepAt dsys.B.toMB 2 1 b) (hC : RepAt dsys.C.toMB 1 2 c) (hD : RepAt dsys.D.toMB 1 1 d)
  (t0 te dt : T)

/-- The variables of the loop after `k` rounds. -/
def loopAt (input : T → T) (a b c d : Nat → Nat → T) (t0 dt : T) (k : Nat) : Loop T :=
  ⟨tick t0 dt k, k, vtab 2 (stateSeq 2 1 a b (fun _ => 0) (fun k _ => input (tick t0 dt k)) k),
    vtab k fun k => (tick t0 dt k, input (tick t0 dt k),
      (lsum 2 fun j => c 0 j * stateSeq 2 1 a b (fun _ => 0) (fun k _ => input (tick t0 dt k)) (k + 1) j) + lsum 1 fun j => d 0 j * input (tick t0 dt k))⟩

include hA hB hC hD in
theorem loopStep_go {k : Nat} (h : lt (tick t0 dt k) te = true) :
    loopStep lt input dsys te dt (loopAt input a b c d t0 dt k) = .ok (some (loopAt input a b c d t0 dt (k + 1))) := by
  have h2 : 2 < allocMax := by rw [allocMax_eq]; norm_num
  have h1 : 1 < allocMax := by rw [allocMax_eq]; norm_num
  unfold loopStep
  rw [if_pos (by exact h)]
  dsimp only
  have e1 : ([input (loopAt input a b c d t0 dt k).t] : List T) = vtab 1 fun _ => input (tick t0 dt k) := rfl
  have e2 : (loopAt input a b c d t0 dt k).x = vtab 2 (stateSeq 2 1 a b (fun _ => 0) (fun k _ => input (tick t0 dt k)) k) := rfl
  rw [e1, e2, (C37_entries_partial hA (vtab_vrep h2 _) le_rfl h2).2.eq, Res.ok_bind, (C37_entries_partial hB (vtab_vrep h1 _) le_rfl h2).2.eq, Res.ok_bind]
  unfold vadd
  rw [zipVec_eq (vtab_vrep h2 _) (vtab_vrep h2 _) fun _ _ => rfl, Res.ok_bind, (C37_entries_partial hC (vtab_vrep h2 _) le_rfl h1).2.eq, Res.ok_bind,
    (C37_entries_partial hD (vtab_vrep h1 _) le_rfl h1).2.eq, Res.ok_bind, zipVec_eq (vtab_vrep h1 _) (vtab_vrep h1 _) fun _ _ => rfl, Res.ok_bind,
    vget_vtab one_pos, Res.ok_bind, Res.pure_eq]
  congr 2
  simp only [loopAt]
  rw [vtab_succ k]
  rfl

theorem loopStep_stop {k : Nat} (h : lt (tick t0 dt k) te = false) :
    loopStep lt input dsys te dt (loopAt input a b c d t0 dt k) = .ok none := by
  unfold loopStep
  rw [if_neg (by show ¬ lt (tick t0 dt k) te = true; simp [h])]
  rfl

include hA hB hC hD in
/-- The loop, whatever the arithmetic: it makes `N` rounds if `N` is the first number of additions after which `t < time_end` does not hold. -/
theorem loop_exec {N fuel : Nat} (h : ∀ k, k < N → lt (tick t0 dt k) te = true) (hN : lt (tick t0 dt N) te = false) (hf : N < fuel) :
    loop lt input dsys t0 te dt fuel = .ok (loopAt input a b c d t0 dt N) := by
  obtain ⟨s, rfl, e⟩ := whileFuel_rounds (step := loopStep lt input dsys te dt) (fun k s => s = loopAt input a b c d t0 dt k)
    (s := ⟨t0, 0, [0, 0], []⟩) rfl N fun i s hi hs => ⟨_, by rw [hs]; exact loopStep_go hA hB hC hD t0 te dt (h i hi), rfl⟩
  obtain ⟨f, rfl⟩ : ∃ f, fuel = f + 1 + N := ⟨fuel - N - 1, by omega⟩
  unfold loop
  rw [e, whileFuel_none (loopStep_stop t0 te dt hN)]

include hA hB hC hD in
/-- C122, in every arithmetic: an end that the loop variable never reaches is an endless loop. -/
theorem C122_diverges (h : ∀ k, lt (tick t0 dt k) te = true) (fuel : Nat) : loop lt input dsys t0 te dt fuel = .diverge := by
  obtain ⟨s, rfl, e⟩ := whileFuel_rounds (step := loopStep lt input dsys te dt) (fun k s => s = loopAt input a b c d t0 dt k)
    (s := ⟨t0, 0, [0, 0], []⟩) rfl fuel fun i s hi hs => ⟨_, by rw [hs]; exact loopStep_go hA hB hC hD t0 te dt (h i), rfl⟩
  unfold loop
  have := e 0
  rw [Nat.zero_add] at this
  rw [this]; rfl

end exec

theorem tick_eq {K : Type} [Semiring K] (t0 dt : K) (k : Nat) : tick t0 dt k = t0 + k * dt := by
  induction k with
  | zero => simp [tick]
  | succ k ih => rw [tick, ih]; push_cast; rw [add_mul, one_mul, add_assoc]

section exact
variable {K : Type} [Field K] [LinearOrder K] [IsStrictOrderedRing K] [FloorRing K]

omit [LinearOrder K] [IsStrictOrderedRing K] [FloorRing K] in
theorem stateSeq_traj {n m : Nat} (A : Matrix (Fin n) (Fin n) K) (B : Matrix (Fin n) (Fin m) K) {a b : Nat → Nat → K}
    (ha : toM n n a = A) (hb : toM n m b = B) (x0 : Nat → K) (w : Nat → Nat → K) (k : Nat) (i : Fin n) :
    stateSeq n m a b x0 w k i = traj A B (fun i => x0 i) (fun k j => w k j) k i := by
  induction k generalizing i with
  | zero => rfl
  | succ k ih =>
    rw [stateSeq, traj, Pi.add_apply]
    dsimp only
    rw [lsum_eq_range, lsum_eq_range, ← Fin.sum_univ_eq_sum_range (fun j => a i j * stateSeq n m a b x0 w k j),
      ← Fin.sum_univ_eq_sum_range (fun j => b i j * w k j)]
    congr 1
    · simp only [ih, Matrix.mulVec, dotProduct]
      rw [← ha]; rfl
    · rw [← hb]; rfl

/-- C122, in exact arithmetic: the loop makes `⌈(te - ts)/dt⌉` rounds; round `k` prints the time `ts + k dt`, the input at that time and the output that
belongs to the state *after* the step. -/
theorem C122_lines {input : K → K} {dsys : StateSpace K} {A : Matrix (Fin 2) (Fin 2) K} {B : Matrix (Fin 2) (Fin 1) K} {C : Matrix (Fin 1) (Fin 2) K}
    {D : Matrix (Fin 1) (Fin 1) K} (h : dsys.Is A B C D) (ts te : K) {dt : K} (hdt : 0 < dt) {fuel : Nat} (hf : ⌈(te - ts) / dt⌉₊ < fuel) :
    ∃ s, loop (fun x y => decide (x < y)) input dsys ts te dt fuel = .ok s ∧ s.steps = ⌈(te - ts) / dt⌉₊ ∧
      s.lines = vtab ⌈(te - ts) / dt⌉₊ fun k => (ts + k * dt, input (ts + k * dt),
        (C *ᵥ traj A B 0 (fun k _ => input (ts + k * dt)) (k + 1) + D *ᵥ fun _ => input (ts + k * dt)) 0) := by
  obtain ⟨⟨a, ra, ha⟩, ⟨b, rb, hb⟩, ⟨c, rc, hc⟩, ⟨d, rd, hd⟩⟩ := h
  refine ⟨_, loop_exec ra.toRepAt rb.toRepAt rc.toRepAt rd.toRepAt ts te dt (fun k hk => ?_) ?_ hf, rfl, ?_⟩
  · have := Nat.lt_ceil.1 hk
    rw [lt_div_iff₀ hdt] at this
    simp only [tick_eq, decide_eq_true_eq]; linarith
  · have := Nat.le_ceil ((te - ts) / dt)
    rw [div_le_iff₀ hdt] at this
    simp only [tick_eq, decide_eq_false_iff_not, not_lt]; linarith
  · simp only [loopAt, tick_eq]
    apply vtab_congr; intro k hk
    congr 2
    rw [lsum_eq_range, lsum_eq_range, ← Fin.sum_univ_eq_sum_range (fun j => c 0 j * stateSeq 2 1 a b (fun _ => 0) (fun k _ => input (ts + k * dt)) (k + 1) j),
      ← Fin.sum_univ_eq_sum_range (fun j => d 0 j * input (ts + k * dt))]
    simp only [stateSeq_traj A B ha hb]
    rw [← hc, ← hd]
    rfl

/-- C122, in exact arithmetic: the announced number of samples is `⌊(te - ts)/dt⌋`; it is the number of rounds if the duration is a multiple of the step. -/
theorem C122_announced_partial {input : K → K} {dsys : StateSpace K} {A : Matrix (Fin 2) (Fin 2) K} {B : Matrix (Fin 2) (Fin 1) K} {C : Matrix (Fin 1) (Fin 2) K}
    {D : Matrix (Fin 1) (Fin 1) K} (h : dsys.Is A B C D) (ts : K) {te dt : K} (hdt : 0 < dt) {N : Nat} (hN : te = ts + N * dt) (hW : N < W)
    {fuel : Nat} (hf : N < fuel) :
    computeSamples floorSize ts te dt 1 = .ok N ∧ ∃ s, loop (fun x y => decide (x < y)) input dsys ts te dt fuel = .ok s ∧ s.steps = N := by
  have e : (te - ts) / dt = N := by rw [hN, add_sub_cancel_left, mul_div_cancel_right₀ _ hdt.ne']
  constructor
  · unfold computeSamples
    have : (0 : K) ≤ N := Nat.cast_nonneg N
    rw [cdiv_ok _ hdt.ne', Res.ok_bind, mul_one, e, floorSize, Nat.floor_natCast, if_pos ⟨by linarith, hW⟩]
  · obtain ⟨s, h1, h2, -⟩ := C122_lines (input := input) h ts te hdt (fuel := fuel) (by rw [e, Nat.ceil_natCast]; exact hf)
    exact ⟨s, h1, by rw [h2, e, Nat.ceil_natCast]⟩

/-- C122: otherwise there is one round more than announced. -/
theorem C122_one_more_false {input : K → K} {dsys : StateSpace K} {A : Matrix (Fin 2) (Fin 2) K} {B : Matrix (Fin 2) (Fin 1) K} {C : Matrix (Fin 1) (Fin 2) K}
    {D : Matrix (Fin 1) (Fin 1) K} (h : dsys.Is A B C D) (ts : K) {te dt : K} (hdt : 0 < dt) {N : Nat} (h1 : ts + N * dt < te) (h2 : te < ts + (N + 1) * dt)
    (hW : N < W) {fuel : Nat} (hf : N + 1 < fuel) :
    computeSamples floorSize ts te dt 1 = .ok N ∧ ∃ s, loop (fun x y => decide (x < y)) input dsys ts te dt fuel = .ok s ∧ s.steps = N + 1 := by
  have l : (N : K) < (te - ts) / dt := by rw [lt_div_iff₀ hdt]; linarith
  have u : (te - ts) / dt < N + 1 := by rw [div_lt_iff₀ hdt]; linarith
  have h0 : (0 : K) ≤ N := Nat.cast_nonneg N
  have ef : ⌊(te - ts) / dt⌋₊ = N := (Nat.floor_eq_iff (h0.trans l.le)).2 ⟨l.le, u⟩
  have ec : ⌈(te - ts) / dt⌉₊ = N + 1 := (Nat.ceil_eq_iff (Nat.succ_ne_zero N)).2 ⟨by simpa using l, by push_cast; exact u.le⟩
  constructor
  · unfold computeSamples
    rw [cdiv_ok _ hdt.ne', Res.ok_bind, mul_one, floorSize, ef, if_pos ⟨by linarith, hW⟩]
  · obtain ⟨s, h1, h2, -⟩ := C122_lines (input := input) h ts te hdt (fuel := fuel) (by rw [ec]; exact hf)
    exact ⟨s, h1, by rw [h2, ec]⟩

end exact

section double

/-- Checks that `N` is the first number of additions after which `t < te` does not hold. -/
def firstEnd {T : Type} [Add T] (lt : T → T → Bool) (te dt : T) : Nat → T → Bool
  | 0, t => !lt t te
  | k + 1, t => lt t te && firstEnd lt te dt k (t + dt)

theorem tick_shift {T : Type} [Add T] (t0 dt : T) (k : Nat) : tick (t0 + dt) dt k = tick t0 dt (k + 1) := by
  induction k with
  | zero => rfl
  | succ k ih => rw [tick, ih]; rfl

theorem firstEnd_spec {T : Type} [Add T] {lt : T → T → Bool} {te dt : T} {N : Nat} {t0 : T} (h : firstEnd lt te dt N t0 = true) :
    (∀ k, k < N → lt (tick t0 dt k) te = true) ∧ lt (tick t0 dt N) te = false := by
  induction N generalizing t0 with
  | zero => exact ⟨fun k hk => absurd hk (Nat.not_lt_zero k), by simpa [firstEnd, tick] using h⟩
  | succ N ih =>
    simp only [firstEnd, Bool.and_eq_true] at h
    obtain ⟨h1, h2⟩ := ih h.2
    refine ⟨fun k hk => ?_, by rw [← tick_shift]; exact h2⟩
    cases k with
    | zero => exact h.1
    | succ k => rw [← tick_shift]; exact h1 k (by omega)

/-- C122 violated: with the constants of the program, in `double`, 2000 samples are announced and 2001 rounds are made, for every input and every
discretised system. -/
theorem C122_count_false {input : Double → Double} {dsys : StateSpace Double} {a b c d : Nat → Nat → Double}
    (hA : RepAt dsys.A.toMB 2 2 a) (hB : RepAt dsys.B.toMB 2 1 b) (hC : RepAt dsys.C.toMB 1 2 c) (hD : RepAt dsys.D.toMB 1 1 d) {fuel : Nat} (hf : 2001 < fuel) :
    computeSamples doubleSize 0 (Fl.of 53 (-1074) 2) (Fl.of 53 (-1074) (1/1000)) 1 = .ok 2000 ∧
      ∃ s, loop (fun x y => decide (x < y)) input dsys 0 (Fl.of 53 (-1074) 2) (Fl.of 53 (-1074) (1/1000)) fuel = .ok s ∧ s.steps = 2001 := by
  constructor
  · decide +kernel
  · have h : firstEnd (fun x y : Double => decide (x < y)) (Fl.of 53 (-1074) 2) (Fl.of 53 (-1074) (1/1000)) 2001 0 = true := by decide +kernel
    obtain ⟨h1, h2⟩ := firstEnd_spec h
    exact ⟨_, loop_exec hA hB hC hD _ _ _ h1 h2 hf, rfl⟩

end double

section real
variable (abs : AbsoluteValue ℝ ℝ) {tol : ℝ} (ht : tol < 1)
variable {sys : StateSpace ℝ} {A : Matrix (Fin 2) (Fin 2) ℝ} {B : Matrix (Fin 2) (Fin 1) ℝ} {C : Matrix (Fin 1) (Fin 2) ℝ}
  {D : Matrix (Fin 1) (Fin 1) ℝ}

theorem vtab_getD {T : Type} {N : Nat} (f : Nat → T) {k : Nat} (hk : k < N) (z : T) : (vtab N f).getD k z = f k := by
  rw [List.getD_eq_getElem?_getD, (vget_ok_iff ..).1 (vget_vtab hk), Option.getD_some]

include ht in
/-- C122, what the program prints, over the real numbers with an exact exponential: the line of the time `ts + k dt` has the input at that time and the output
of the continuous circuit *one step later*. `x` is the state of the circuit, which is at rest at first, when the input is held between the samples.
Missing: the output at the time that is printed, see `C122_late_false`. -/
theorem C122_output_partial {ex : MB ℝ → Res (Mat ℝ)} (h : sys.Is A B C D) {dt : ℝ} (hdt : 0 < dt)
    (hE : Yields (mulS sys.A.toMB dt >>= fun X => ex X.toMB) (NormedSpace.exp (dt • A))) (hA : A.det ≠ 0) (input : ℝ → ℝ) (ts te : ℝ)
    {x : ℝ → Fin 2 → ℝ} (x0 : x 0 = 0) (hx : Solves A B (vtab ⌈(te - ts) / dt⌉₊ fun k _ => input (ts + k * dt)) dt x) {fuel : Nat} (hf : ⌈(te - ts) / dt⌉₊ < fuel) :
    ∃ d s, c2d (isZ abs tol) ex sys dt = .ok d ∧ loop (fun x y => decide (x < y)) input d.toStateSpace ts te dt fuel = .ok s ∧
      s.lines = vtab ⌈(te - ts) / dt⌉₊ fun k => (ts + k * dt, input (ts + k * dt),
        (C *ᵥ x ((k + 1 : Nat) * dt) + D *ᵥ fun _ => input (ts + k * dt)) 0) := by
  obtain ⟨d, Bd, h1, h2, h3, h4, -⟩ := C64_equations_partial abs ht h two_pos one_pos one_pos hE hA (.inl (by norm_num))
  obtain ⟨s, h5, -, h6⟩ := C122_lines (input := input) h2 ts te hdt hf
  refine ⟨d, s, h1, h5, h6.trans (vtab_congr fun k hk => ?_)⟩
  rw [solves_traj hA hdt hx, x0, h4]
  have e : traj (NormedSpace.exp (dt • A)) (A⁻¹ * (NormedSpace.exp (dt • A) - 1) * B) 0 (fun j => (vtab ⌈(te - ts) / dt⌉₊ fun k _ => input (ts + k * dt)).getD j 0) (k + 1) =
      traj (NormedSpace.exp (dt • A)) (A⁻¹ * (NormedSpace.exp (dt • A) - 1) * B) 0 (fun k _ => input (ts + k * dt)) (k + 1) :=
    traj_congr _ _ _ fun j hj => by rw [vtab_getD _ (by omega)]
  rw [e]

include ht in
/-- C122, what the program prints with the `expm` of the library: the output one step later, up to the error of C117. -/
theorem C122_library_partial (h : sys.Is A B C D) {dt : ℝ} (hdt : 0 < dt) (hA : A.det ≠ 0) (input : ℝ → ℝ) (ts te : ℝ)
    {x : ℝ → Fin 2 → ℝ} (x0 : x 0 = 0) (hx : Solves A B (vtab ⌈(te - ts) / dt⌉₊ fun k _ => input (ts + k * dt)) dt x)
    {a φ α ξ β γ : ℝ} (ha : ∀ i, ∑ j, |dt * A i j| ≤ a) (hφ : ∀ i, ∑ j, |NormedSpace.exp (dt • A) i j| ≤ φ) (hα : ∀ i, ∑ j, |A⁻¹ i j| ≤ α)
    (hξ : ∀ k, k < ⌈(te - ts) / dt⌉₊ → ∀ i, |x (k * dt) i| ≤ ξ) (hβ : ∀ k, k < ⌈(te - ts) / dt⌉₊ → ∀ i, |B i 0 * input (ts + k * dt)| ≤ β)
    (hγ : ∑ j, |C 0 j| ≤ γ) :
    ∃ N, ∀ fuel, N ≤ fuel → ∃ (d : DiscreteStateSpace ℝ) (s : Loop ℝ) (y : Nat → ℝ), c2d (isZ abs tol) (fun X => Lin.expm (isZ abs tol) (|·|) Real.sqrt (1/2) X (1/100000) fuel) sys dt = .ok d ∧
      loop (fun x y => decide (x < y)) input d.toStateSpace ts te dt fuel = .ok s ∧
      s.lines = (vtab ⌈(te - ts) / dt⌉₊ fun k => (ts + k * dt, input (ts + k * dt), y k)) ∧
      ∀ k, k < ⌈(te - ts) / dt⌉₊ → |y k - (C *ᵥ x ((k + 1 : Nat) * dt) + D *ᵥ fun _ => input (ts + k * dt)) 0| ≤
        γ * (expErr 2 a * (ξ + α * β) * ∑ j ∈ Finset.range (k + 1), (φ + expErr 2 a) ^ j) := by
  obtain ⟨X, eX, wX, iX⟩ := (C33_field h.a dt).1
  obtain ⟨e, rX, he⟩ := id iX
  obtain ⟨N, R, hN⟩ := C76_terminates_partial abs ht two_pos ⟨wX, rX⟩ (accuracy := 1/100000) (by norm_num) (by norm_num)
  refine ⟨max N (⌈(te - ts) / dt⌉₊ + 1), fun fuel hf => ?_⟩
  obtain ⟨E, wE, iE, hE⟩ := expm_expErr (isZ_iff abs ht) two_pos wX iX (hN fuel ((le_max_left _ _).trans hf)) (a := a) ha
  obtain ⟨d, Bd, h1, h2, h3, h4, -⟩ := C64_equations_partial abs ht h two_pos one_pos one_pos
    (ex := fun X => Lin.expm (isZ abs tol) (|·|) Real.sqrt (1/2) X (1/100000) fuel) (E := E)
    (by rw [eX, Res.ok_bind]; exact ⟨R, hN fuel ((le_max_left _ _).trans hf), wE, iE⟩) hA (.inl (by norm_num))
  obtain ⟨s, h5, -, h6⟩ := C122_lines (input := input) h2 ts te hdt (fuel := fuel) (lt_of_lt_of_le (Nat.lt_succ_self _) ((le_max_right _ _).trans hf))
  refine ⟨d, s, _, h1, h5, h6, fun k hk => ?_⟩
  have hS : ∀ k, k ≤ ⌈(te - ts) / dt⌉₊ → x (k * dt) = traj (NormedSpace.exp (dt • A)) (A⁻¹ * (NormedSpace.exp (dt • A) - 1) * B) 0 (fun k _ => input (ts + k * dt)) k := by
    intro k hk
    rw [solves_traj hA hdt hx, x0]
    refine traj_congr _ _ _ fun j hj => ?_
    rw [vtab_getD _ (by omega)]
  have ε0 : 0 ≤ expErr 2 a := (Finset.sum_nonneg fun j _ => abs_nonneg _).trans (hE 0)
  have φ0 : 0 ≤ φ := (Finset.sum_nonneg fun j _ => abs_nonneg _).trans (hφ 0)
  have α0 : 0 ≤ α := (Finset.sum_nonneg fun j _ => abs_nonneg _).trans (hα 0)
  have ξ0 : 0 ≤ ξ := (abs_nonneg _).trans (hξ k hk 0)
  have β0 : 0 ≤ β := (abs_nonneg _).trans (hβ k hk 0)
  have hd := traj_drift (B := B) (x0 := 0) (u := fun k _ => input (ts + k * dt)) hE hφ hα (N := ⌈(te - ts) / dt⌉₊)
    (fun j hj i => by rw [← hS j hj.le]; exact hξ j hj i) (fun j hj i => by simpa [Matrix.mulVec, dotProduct] using hβ j hj i) ε0 ξ0 β0 φ0 (k + 1) hk
  rw [h4, hS (k + 1) hk, Pi.add_apply, Pi.add_apply, add_sub_add_right_eq_sub, ← Pi.sub_apply, ← mulVec_sub]
  refine mulVec_bound (fun i => by rw [Subsingleton.elim i 0]; exact hγ) (fun j => hd j) ?_ 0
  positivity

open scoped Matrix.Norms.Operator in
/-- The response of the circuit of the program to one sample, its second component. -/
theorem rlc_response_pos : 0 < ((!![-2, -2; 2, 0] : Matrix (Fin 2) (Fin 2) ℝ)⁻¹ * (NormedSpace.exp ((1/1000 : ℝ) • (!![-2, -2; 2, 0] : Matrix (Fin 2) (Fin 2) ℝ)) - 1) *
    (!![2; 0] : Matrix (Fin 2) (Fin 1) ℝ) : Matrix (Fin 2) (Fin 1) ℝ) 1 0 := by
  set M : Matrix (Fin 2) (Fin 2) ℝ := (1/1000 : ℝ) • !![-2, -2; 2, 0] with hM
  have hinv : (!![-2, -2; 2, 0] : Matrix (Fin 2) (Fin 2) ℝ)⁻¹ = !![0, 1/2; -1/2, -1/2] := by
    refine Matrix.inv_eq_left_inv ?_
    ext i j
    fin_cases i <;> fin_cases j <;> norm_num [Matrix.mul_apply, Fin.sum_univ_two]
  have hn : ‖M‖ ≤ 1/250 := norm_le_of_rows (by norm_num) fun i => by
    fin_cases i <;> norm_num [hM, Fin.sum_univ_two, abs_of_pos, abs_of_neg]
  have hb := norm_exp_sub_partial_pow M (hn.trans (by norm_num)) 2
  have hb2 : ‖NormedSpace.exp M - partialExp M 3‖ ≤ 1/10000000 := by
    refine hb.trans ?_
    have : ‖M‖ ^ 3 ≤ (1/250) ^ 3 := pow_le_pow_left₀ (norm_nonneg _) hn 3
    norm_num [Nat.factorial] at this ⊢
    linarith
  have h0 := (row_sum_le_norm (NormedSpace.exp M - partialExp M 3) 0).trans hb2
  have h1 := (row_sum_le_norm (NormedSpace.exp M - partialExp M 3) 1).trans hb2
  rw [Fin.sum_univ_two] at h0 h1
  have h00 := (abs_le.1 ((le_add_of_nonneg_right (abs_nonneg _)).trans h0)).2
  have h10 := (abs_le.1 ((le_add_of_nonneg_right (abs_nonneg _)).trans h1)).2
  have p00 : partialExp M 3 0 0 = 1 - 2/1000 := by
    simp [partialExp, Finset.sum_range_succ, hM, pow_two, Nat.factorial]; norm_num
  have p10 : partialExp M 3 1 0 = 2/1000 - 2/1000000 := by
    simp [partialExp, Finset.sum_range_succ, hM, pow_two, Nat.factorial]; norm_num
  rw [Matrix.sub_apply, p00] at h00
  rw [Matrix.sub_apply, p10] at h10
  rw [hinv]
  rw [Matrix.mul_apply, Fin.sum_univ_two, Matrix.mul_apply, Fin.sum_univ_two]
  simp
  linarith


include ht in
/-- C122 violated: the program, over the real numbers, with an exact exponential. The second line it prints, for 1 ms, shows a voltage above zero; the voltage of
the circuit is still zero then, because the first sample of the input is zero. -/
theorem C122_late_false : ∃ sys x, rlcDt (1 : ℝ) (1/2) (1/2) = .ok sys ∧ x 0 = 0 ∧
    Solves !![-2, -2; 2, 0] !![2; 0] (vtab 2000 fun k _ => 33/10 * Real.sin (2 * Real.pi * (k * (1/1000)))) (1/1000) x ∧ x (1/1000) 1 = 0 ∧
    ∀ ex : MB ℝ → Res (Mat ℝ), Yields (mulS sys.A.toMB (1/1000) >>= fun X => ex X.toMB) (NormedSpace.exp ((1/1000 : ℝ) • !![-2, -2; 2, 0])) → ∀ fuel, 2000 < fuel →
      ∃ d s y, c2d (isZ abs tol) ex sys (1/1000) = .ok d ∧
        loop (fun x y => decide (x < y)) (fun t => 33/10 * Real.sin (2 * Real.pi * t)) d.toStateSpace 0 2 (1/1000) fuel = .ok s ∧
        s.lines[1]? = some (1/1000, 33/10 * Real.sin (2 * Real.pi * (1/1000)), y) ∧ 0 < y := by
  obtain ⟨sys, e, h⟩ := rlcDt_is (R := (1 : ℝ)) (L := 1/2) (C := 1/2) (by norm_num) (by norm_num)
  have hA : (!![-2, -2; 2, 0] : Matrix (Fin 2) (Fin 2) ℝ).det ≠ 0 := by rw [Matrix.det_fin_two_of]; norm_num
  have h' : sys.Is (!![-2, -2; 2, 0] : Matrix (Fin 2) (Fin 2) ℝ) !![2; 0] !![0, 1] !![0] := by
    have e1 : (!![-1 / (1/2), -1 / (1/2); 1 / (1/2), 0] : Matrix (Fin 2) (Fin 2) ℝ) = !![-2, -2; 2, 0] := by norm_num
    have e2 : (!![1 / (1/2); 0] : Matrix (Fin 2) (Fin 1) ℝ) = !![2; 0] := by norm_num
    rw [e1, e2] at h; exact h
  have hdt : (0 : ℝ) < 1/1000 := by norm_num
  obtain ⟨x, x0, hx⟩ := solves_exists hA !![2; 0] (vtab 2000 fun k _ => 33/10 * Real.sin (2 * Real.pi * (k * (1/1000)))) hdt 0
  have hc : ⌈((2 : ℝ) - 0) / (1/1000)⌉₊ = 2000 := by
    have : ((2 : ℝ) - 0) / (1/1000) = (2000 : Nat) := by norm_num
    rw [this, Nat.ceil_natCast]
  have hs := solves_traj hA hdt hx
  have u0 : (vtab 2000 fun (k : Nat) (_ : Fin 1) => 33/10 * Real.sin (2 * Real.pi * (k * (1/1000)))).getD 0 0 = 0 := by
    rw [vtab_getD _ (by norm_num)]; funext _; simp
  have u1 : (vtab 2000 fun (k : Nat) (_ : Fin 1) => 33/10 * Real.sin (2 * Real.pi * (k * (1/1000)))).getD 1 0 = fun _ => 33/10 * Real.sin (2 * Real.pi * (1/1000)) := by
    rw [vtab_getD _ (by norm_num)]; funext _; simp
  have hx1 : x (1/1000) = 0 := by
    have := hs 1
    rw [traj, traj, x0, u0, mulVec_zero, mulVec_zero, add_zero, Nat.cast_one, one_mul] at this
    exact this
  refine ⟨sys, x, e, x0, hx, by rw [hx1]; rfl, fun ex hE fuel hf => ?_⟩
  obtain ⟨d, s, h1, h2, h3⟩ := C122_output_partial abs ht h' hdt hE hA (fun t => 33/10 * Real.sin (2 * Real.pi * t)) 0 2 x0
    (by rw [hc]; simpa only [zero_add] using hx) (by rw [hc]; exact hf)
  rw [hc] at h3
  have hy : ((!![0, 1] : Matrix (Fin 1) (Fin 2) ℝ) *ᵥ x ((1 + 1 : Nat) * (1/1000)) + !![0] *ᵥ fun _ => 33/10 * Real.sin (2 * Real.pi * (0 + (1 : Nat) * (1/1000)))) 0 =
      x ((2 : Nat) * (1/1000)) 1 := by
    simp [dotProduct, Fin.sum_univ_two]
  refine ⟨d, s, x ((2 : Nat) * (1/1000)) 1, h1, h2, ?_, ?_⟩
  · rw [h3, (vget_ok_iff ..).1 (vget_vtab (by norm_num)), hy]
    simp only [Nat.cast_one, one_mul, zero_add]
  · have hx2 := hs 2
    rw [traj, ← hs 1, Nat.cast_one, one_mul, hx1, mulVec_zero, zero_add, u1] at hx2
    have hpos : 0 < Real.sin (2 * Real.pi * (1/1000)) :=
      Real.sin_pos_of_pos_of_lt_pi (by positivity) (by have := Real.pi_pos; linarith)
    have hr := rlc_response_pos
    have : x ((2 : Nat) * (1/1000)) 1 = _ := congrFun hx2 1
    rw [this, Matrix.mulVec, dotProduct, Fin.sum_univ_one]
    positivity

end real

/-- Three steps of the loop with `x⁺ = x + u` in both components: the third line has the time 2 and the output after the third step. -/
example : loop (fun x y : ℚ => decide (x < y)) (fun t => t + 1) ⟨⟨2, 2, [1, 0, 0, 1]⟩, ⟨2, 1, [1, 1]⟩, ⟨1, 2, [0, 1]⟩, ⟨1, 1, [0]⟩⟩ 0 (5/2) 1 10 =
    .ok ⟨3, 3, [6, 6], [(0, 1, 1), (1, 2, 3), (2, 3, 6)]⟩ := by decide +kernel
example : computeSamples floorSize (0 : ℚ) (5/2) 1 1 = .ok 2 := by decide +kernel

end Malg
