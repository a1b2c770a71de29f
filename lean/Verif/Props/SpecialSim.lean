import Verif.Props.Special
import Verif.Props.FloatSim
/-!
# Property C96, continued: `simulate` with infinities and NaNs
-/
namespace Malg
open Ops Control Ieee

section
variable {p : ℕ} {emin : ℤ} {emax : ℕ}

/-- The value of a quotient is used as the number of steps exactly if it is finite, above -1 and below `2^64`. -/
theorem toSize_eq (q : Ieee ℚ p emin emax) :
    (q.Finite ∧ -1 < q.val ∧ q.val < 2 ^ 64 → toSize q = .ok ⌊q.val⌋₊) ∧
    (¬ (q.Finite ∧ -1 < q.val ∧ q.val < 2 ^ 64) → toSize q = .ub .badCast) := by
  have hW : ∀ x : ℚ, ⌊x⌋₊ < W ↔ x < 2 ^ 64 := fun x => by
    rw [W_eq, Nat.floor_lt' (by norm_num)]; norm_num
  cases q with
  | nan => exact ⟨fun h => absurd h.1 Bool.false_ne_true, fun _ => rfl⟩
  | inf s => exact ⟨fun h => absurd h.1 Bool.false_ne_true, fun _ => rfl⟩
  | fin x s h1 h2 =>
    have e : toSize (fin x s h1 h2 : Ieee ℚ p emin emax) = if -1 < x.val ∧ ⌊x.val⌋₊ < W then .ok ⌊x.val⌋₊ else .ub .badCast := rfl
    rw [e]
    exact ⟨fun h => if_pos ⟨h.2.1, (hW _).2 h.2.2⟩, fun h => if_neg fun hc => h ⟨rfl, hc.1, (hW _).1 hc.2⟩⟩

variable {n m k : Nat} {sys : DiscreteStateSpace (Ieee ℚ p emin emax)} {a b c d : Nat → Nat → Ieee ℚ p emin emax}
  (hA : RepAt sys.A.toMB n n a) (hB : RepAt sys.B.toMB n m b)
  (hC : RepAt sys.C.toMB k n c) (hD : RepAt sys.D.toMB k m d) (hn : n < allocMax) (hm : m < allocMax) (hk : k < allocMax)
include hA hB hC hD hn hm hk

/-- C96 for `simulate`: if the quotient of duration and sample time, as computed, is finite, above -1 and below `2^64`, the simulation has
as many steps as its integer part says, but no more than there are inputs; otherwise it is undefined. -/
theorem C96_simulate_steps_partial {N : Nat} (w : Nat → Nat → Ieee ℚ p emin emax) (x0 : Nat → Ieee ℚ p emin emax) (st : Ieee ℚ p emin emax) :
    ((Ieee.div st sys.sampleTime).Finite ∧ -1 < (Ieee.div st sys.sampleTime).val ∧ (Ieee.div st sys.sampleTime).val < 2 ^ 64 →
      ∃ t x y, simulate toSize sys (vtab N fun j => vtab m (w j)) st (vtab n x0) = .ok (t, x, y) ∧
        y.length = min N ⌊(Ieee.div st sys.sampleTime).val⌋₊ ∧ x.length = y.length + 1 ∧ t.length = y.length + 1) ∧
    (¬ ((Ieee.div st sys.sampleTime).Finite ∧ -1 < (Ieee.div st sys.sampleTime).val ∧ (Ieee.div st sys.sampleTime).val < 2 ^ 64) →
      ∀ u init, simulate toSize sys u st init = .ub .badCast) := by
  obtain ⟨h1, h2⟩ := toSize_eq (Ieee.div st sys.sampleTime)
  refine ⟨fun h => ⟨_, _, _, simulate_exec hA hB hC hD hn hm hk w x0 rfl (h1 h), ?_, ?_, ?_⟩, fun h u init => ?_⟩
  · rw [vtab_length]
  · rw [vtab_length, vtab_length]
  · rw [vtab_length, vtab_length]
  · unfold simulate
    rw [show (cdiv st sys.sampleTime : Res (Ieee ℚ p emin emax)) = .ok (Ieee.div st sys.sampleTime) from rfl, Res.ok_bind, h2 h]
    rfl

/-- C96 for `simulate`: a NaN in the initial state is in every entry of every later state and of every output, also where the system
does not connect them. -/
theorem C96_simulate_nan {N : Nat} (w : Nat → Nat → Ieee ℚ p emin emax) (x0 : Nat → Ieee ℚ p emin emax) (st : Ieee ℚ p emin emax)
    {i : Nat} (hi : i < n) (h0 : x0 i = nan)
    (hq : (Ieee.div st sys.sampleTime).Finite ∧ -1 < (Ieee.div st sys.sampleTime).val ∧ (Ieee.div st sys.sampleTime).val < 2 ^ 64) :
    ∃ t x y, simulate toSize sys (vtab N fun j => vtab m (w j)) st (vtab n x0) = .ok (t, vtab n x0 :: x, y) ∧
      (∀ v ∈ x, v = List.replicate n nan) ∧ ∀ v ∈ y, v = List.replicate k nan := by
  have hx : ∀ s, ∃ i, i < n ∧ stateSeq n m a b x0 w s i = nan := by
    intro s
    induction s with
    | zero => exact ⟨i, hi, h0⟩
    | succ s ih =>
      obtain ⟨j, hj, e⟩ := ih
      refine ⟨i, hi, ?_⟩
      show (lsum n fun j => a i j * stateSeq n m a b x0 w s j) + _ = nan
      rw [lsum_nan hj (by rw [e]; exact mul_nan _), nan_add]
  have hx' : ∀ s i, stateSeq n m a b x0 w (s + 1) i = nan := by
    intro s i
    obtain ⟨j, hj, e⟩ := hx s
    show (lsum n fun j => a i j * stateSeq n m a b x0 w s j) + _ = nan
    rw [lsum_nan hj (by rw [e]; exact mul_nan _), nan_add]
  have e := simulate_exec hA hB hC hD hn hm hk (N := N) w x0 rfl ((toSize_eq (Ieee.div st sys.sampleTime)).1 hq)
  have ht : ∀ (s : Nat) (g : Nat → List (Ieee ℚ p emin emax)), vtab (s + 1) g = g 0 :: (vtab (s + 1) g).tail := fun s g => by
    unfold vtab
    rw [List.range_succ_eq_map]
    rfl
  rw [ht] at e
  refine ⟨_, _, _, e, ?_, ?_⟩
  · intro v hv
    unfold vtab at hv
    rw [List.range_succ_eq_map, List.map_cons, List.tail_cons, List.map_map, List.mem_map] at hv
    obtain ⟨s, -, rfl⟩ := hv
    rw [replicate_eq_vtab]
    exact vtab_congr fun i _ => hx' s i
  · intro v hv
    unfold vtab at hv
    rw [List.mem_map] at hv
    obtain ⟨s, -, rfl⟩ := hv
    rw [replicate_eq_vtab]
    refine vtab_congr fun i _ => ?_
    obtain ⟨j, hj, e⟩ := hx s
    show (lsum n fun j => c i j * stateSeq n m a b x0 w s j) + _ = nan
    rw [lsum_nan hj (by rw [e]; exact mul_nan _), nan_add]

end

/-- Two independent states, the second one starts as a NaN. -/
example : simulate toSize (⟨⟨⟨2, 2, [dbl 1, dbl 0, dbl 0, dbl 1]⟩, ⟨2, 1, [dbl 1, dbl 0]⟩, ⟨1, 2, [dbl 1, dbl 0]⟩, ⟨1, 1, [dbl 0]⟩⟩, dbl 1⟩ :
      DiscreteStateSpace IDouble) [[dbl 1], [dbl 1]] (dbl 2) [dbl 0, nan] =
    .ok ([0, dbl 1, 0], [[dbl 0, nan], [nan, nan], [nan, nan]], [[nan], [nan]]) := by decide +kernel
/-- A duration of `2^64` sample times is undefined, also without any input; the largest number below it is not. -/
example : simulate toSize (⟨⟨⟨1, 1, [dbl 1]⟩, ⟨1, 1, [dbl 1]⟩, ⟨1, 1, [dbl 1]⟩, ⟨1, 1, [dbl 0]⟩⟩, dbl 1⟩ : DiscreteStateSpace IDouble) []
      (dbl (2 ^ 64)) [dbl 0] = .ub .badCast ∧
    simulate toSize (⟨⟨⟨1, 1, [dbl 1]⟩, ⟨1, 1, [dbl 1]⟩, ⟨1, 1, [dbl 1]⟩, ⟨1, 1, [dbl 0]⟩⟩, dbl 1⟩ : DiscreteStateSpace IDouble) []
      (dbl (2 ^ 64 - 2048)) [dbl 0] = .ok ([0], [[dbl 0]], []) := by decide +kernel

end Malg
