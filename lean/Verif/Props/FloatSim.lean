import Verif.Props.FloatSeq
import Verif.Props.Control
import Verif.Model.Cast
/-!
# Property C83: `simulate` in floating point arithmetic
-/
namespace Malg
open Ops Control

section exec
variable {T : Type} [Zero T] [Add T] [Mul T] [CDiv T] {n m p : Nat}

/-- The state after `k` steps as it is computed: sums from left to right. -/
def stateSeq (n m : Nat) (a b : Nat → Nat → T) (x0 : Nat → T) (w : Nat → Nat → T) : Nat → Nat → T
  | 0 => x0
  | k + 1 => fun i => (lsum n fun j => a i j * stateSeq n m a b x0 w k j) + lsum m fun j => b i j * w k j

variable {sys : DiscreteStateSpace T} {a b c d : Nat → Nat → T} (hA : RepAt sys.A.toMB n n a) (hB : RepAt sys.B.toMB n m b)
  (hC : RepAt sys.C.toMB p n c) (hD : RepAt sys.D.toMB p m d) (hn : n < allocMax) (hm : m < allocMax) (hp : p < allocMax)
include hA hB hC hD hn hm hp

omit [CDiv T] in
theorem simulateStep_eq (x w : Nat → T) : simulateStep sys (vtab n x) (vtab m w) =
    .ok (vtab n (fun i => (lsum n fun j => a i j * x j) + lsum m fun j => b i j * w j),
      vtab p (fun i => (lsum n fun j => c i j * x j) + lsum m fun j => d i j * w j)) := by
  have hx := vtab_vrep hn x
  have hw := vtab_vrep hm w
  unfold simulateStep
  rw [(C37_entries_partial hA hx le_rfl hn).2.eq, Res.ok_bind, (C37_entries_partial hB hw le_rfl hn).2.eq, Res.ok_bind]
  unfold vadd
  rw [zipVec_eq (vtab_vrep hn _) (vtab_vrep hn _) fun _ _ => rfl, Res.ok_bind, (C37_entries_partial hC hx le_rfl hp).2.eq, Res.ok_bind,
    (C37_entries_partial hD hw le_rfl hp).2.eq, Res.ok_bind, zipVec_eq (vtab_vrep hp _) (vtab_vrep hp _) fun _ _ => rfl]
  rfl

theorem simulate_exec {toSize : T → Res Nat} {N k : Nat} {q st : T} (w : Nat → Nat → T) (x0 : Nat → T)
    (hq : cdiv st sys.sampleTime = .ok q) (hk : toSize q = .ok k) :
    simulate toSize sys (vtab N fun j => vtab m (w j)) st (vtab n x0) =
      .ok (vtab (min N k + 1) (fun i => if i < min N k then lsum i fun _ => sys.sampleTime else 0),
        vtab (min N k + 1) (fun i => vtab n (stateSeq n m a b x0 w i)),
        vtab (min N k) fun i => vtab p fun r => (lsum n fun j => c r j * stateSeq n m a b x0 w i j) + lsum m fun j => d r j * w i j) := by
  unfold simulate
  rw [hq, Res.ok_bind, hk, Res.ok_bind, vtab_length]
  dsimp only
  generalize hs : min N k = s
  have hsl : s ≤ N := by omega
  rw [forRange_eq (Nat.zero_le s) (fun i => (⟨lsum i fun _ => sys.sampleTime,
    vtab (s + 1) (fun j => if j < i then lsum j fun _ => sys.sampleTime else 0),
    vtab (i + 1) (fun i => vtab n (stateSeq n m a b x0 w i)),
    vtab i fun i => vtab p fun r => (lsum n fun j => c r j * stateSeq n m a b x0 w i j) + lsum m fun j => d r j * w i j⟩ : SimState T))]
  · rw [Res.ok_bind]; rfl
  · congr 1
    rw [replicate_eq_vtab]; rfl
  · intro i _ hi
    dsimp only
    rw [vset_vtab (by omega), Res.ok_bind, vtab_length, Nat.add_sub_cancel, vget_vtab (Nat.lt_succ_self i), Res.ok_bind,
      vget_vtab (by omega), Res.ok_bind, simulateStep_eq hA hB hC hD hn hm hp, Res.ok_bind]
    show Res.ok _ = Res.ok _
    congr 2
    · apply vtab_congr; intro j hj
      by_cases h1 : j = i
      · subst h1; simp
      · rw [Function.update_of_ne h1]
        exact if_congr (by omega) rfl rfl
    · rw [vtab_succ (i + 1)]; rfl
    · rw [vtab_succ i]

end exec

section error
variable {T K : Type} [Zero T] [Add T] [Sub T] [Mul T] [CDiv T] [Field K] [LinearOrder K] [IsStrictOrderedRing K]
  {val : T → K} {u η : K} (R : Rounds val u η)
include R

/-- A sum of two scalar products. -/
theorem two_sums_err (x y z w : Nat → T) (n m : Nat) :
    |val ((lsum n fun j => x j * y j) + lsum m fun j => z j * w j) -
        (∑ j ∈ Finset.range n, val (x j) * val (y j) + ∑ j ∈ Finset.range m, val (z j) * val (w j))| ≤
      ((1 + u) ^ (max n m + 1) - 1) *
        (∑ j ∈ Finset.range n, |val (x j)| * |val (y j)| + ∑ j ∈ Finset.range m, |val (z j)| * |val (w j)|) +
      (1 + u) * ((n * (1 + u) ^ (n - 1) + m * (1 + u) ^ (m - 1)) * η) := by
  have hu := R.u_nonneg
  have h1 : (1 : K) ≤ 1 + u := by linarith
  have hα := lsum_mul_err R x y n
  have hβ := lsum_mul_err R z w m
  have hQ1 : |∑ j ∈ Finset.range n, val (x j) * val (y j)| ≤ ∑ j ∈ Finset.range n, |val (x j)| * |val (y j)| := by
    simpa only [abs_mul] using Finset.abs_sum_le_sum_abs (fun j => val (x j) * val (y j)) (Finset.range n)
  have hQ2 : |∑ j ∈ Finset.range m, val (z j) * val (w j)| ≤ ∑ j ∈ Finset.range m, |val (z j)| * |val (w j)| := by
    simpa only [abs_mul] using Finset.abs_sum_le_sum_abs (fun j => val (z j) * val (w j)) (Finset.range m)
  have hadd := R.add (lsum n fun j => x j * y j) (lsum m fun j => z j * w j)
  generalize ∑ j ∈ Finset.range n, val (x j) * val (y j) = α at *
  generalize ∑ j ∈ Finset.range m, val (z j) * val (w j) = β at *
  generalize ∑ j ∈ Finset.range n, |val (x j)| * |val (y j)| = Q1 at *
  generalize ∑ j ∈ Finset.range m, |val (z j)| * |val (w j)| = Q2 at *
  have p1 : (1 + u) ^ n ≤ (1 + u) ^ max n m := pow_le_pow_right₀ h1 (le_max_left _ _)
  have p2 : (1 + u) ^ m ≤ (1 + u) ^ max n m := pow_le_pow_right₀ h1 (le_max_right _ _)
  have q1 : 0 ≤ Q1 := (abs_nonneg _).trans hQ1
  have q2 : 0 ≤ Q2 := (abs_nonneg _).trans hQ2
  have hB : |val (lsum n fun j => x j * y j) + val (lsum m fun j => z j * w j) - (α + β)| ≤
      ((1 + u) ^ max n m - 1) * (Q1 + Q2) + (n * (1 + u) ^ (n - 1) + m * (1 + u) ^ (m - 1)) * η := by
    rw [add_sub_add_comm]
    refine (abs_add_le _ _).trans ?_
    have := mul_le_mul_of_nonneg_right p1 q1
    have := mul_le_mul_of_nonneg_right p2 q2
    linarith
  have h := shift_err hu _ hB hadd
  have h2 : |α + β| ≤ Q1 + Q2 := (abs_add_le _ _).trans (add_le_add hQ1 hQ2)
  have h3 := mul_le_mul_of_nonneg_left h2 hu
  refine h.trans ((add_le_add_left h3 _).trans (le_of_eq ?_))
  rw [pow_succ]
  ring

variable {n m p : Nat} {sys : DiscreteStateSpace T} {a b c d : Nat → Nat → T} (hA : RepAt sys.A.toMB n n a) (hB : RepAt sys.B.toMB n m b)
  (hC : RepAt sys.C.toMB p n c) (hD : RepAt sys.D.toMB p m d) (hn : n < allocMax) (hm : m < allocMax) (hp : p < allocMax)
include hA hB hC hD hn hm hp

/-- C83, the part about values: every state that is computed differs from `A x + B w`, for the preceding state as computed, by at most
`(1 + u)^(max n m + 1) - 1` times `|A| |x| + |B| |w|` (and an underflow term), every output from `C x + D w` by the same kind of bound, and
time stamp `i` differs from `i dt` by at most `(1 + u)^(i-1) - 1` times `i |dt|`. Missing: the number of steps, see `C83_steps_false`, and the
last time stamp, which is wrong also without rounding (`C58_last_false`). -/
theorem C83_values_partial {toSize : T → Res Nat} {N k : Nat} {q st : T} (w : Nat → Nat → T) (x0 : Nat → T)
    (hq : cdiv st sys.sampleTime = .ok q) (hk : toSize q = .ok k) :
    ∃ (t : List T) (x y : Nat → Nat → T),
      simulate toSize sys (vtab N fun j => vtab m (w j)) st (vtab n x0) =
        .ok (t, vtab (min N k + 1) fun i => vtab n (x i), vtab (min N k) fun i => vtab p (y i)) ∧
      x 0 = x0 ∧
      (∀ i, i < min N k → ∃ s, t[i]? = some s ∧
        |val s - i * val sys.sampleTime| ≤ ((1 + u) ^ (i - 1) - 1) * (i * |val sys.sampleTime|)) ∧
      (∀ i, i < min N k → ∀ r,
        |val (x (i + 1) r) - (∑ j ∈ Finset.range n, val (a r j) * val (x i j) + ∑ j ∈ Finset.range m, val (b r j) * val (w i j))| ≤
          ((1 + u) ^ (max n m + 1) - 1) *
            (∑ j ∈ Finset.range n, |val (a r j)| * |val (x i j)| + ∑ j ∈ Finset.range m, |val (b r j)| * |val (w i j)|) +
          (1 + u) * ((n * (1 + u) ^ (n - 1) + m * (1 + u) ^ (m - 1)) * η)) ∧
      (∀ i, i < min N k → ∀ r,
        |val (y i r) - (∑ j ∈ Finset.range n, val (c r j) * val (x i j) + ∑ j ∈ Finset.range m, val (d r j) * val (w i j))| ≤
          ((1 + u) ^ (max n m + 1) - 1) *
            (∑ j ∈ Finset.range n, |val (c r j)| * |val (x i j)| + ∑ j ∈ Finset.range m, |val (d r j)| * |val (w i j)|) +
          (1 + u) * ((n * (1 + u) ^ (n - 1) + m * (1 + u) ^ (m - 1)) * η)) := by
  refine ⟨_, _, _, simulate_exec hA hB hC hD hn hm hp w x0 hq hk, rfl, fun i hi => ?_, fun i _ r => ?_, fun i _ r => ?_⟩
  · refine ⟨lsum i fun _ => sys.sampleTime, ?_, ?_⟩
    · rw [← vget_ok_iff, vget_vtab (by omega), if_pos hi]
    · simpa using lsum_err R (t := fun _ => sys.sampleTime) (τ := fun _ => val sys.sampleTime) (a := 0) (k := i) le_rfl (fun i _ => by simp)
  · exact two_sums_err R (fun j => a r j) (stateSeq n m a b x0 w i) (fun j => b r j) (w i) n m
  · exact two_sums_err R (fun j => c r j) (stateSeq n m a b x0 w i) (fun j => d r j) (w i) n m

omit hA hB hC hD hn hm hp in
/-- C83, the part about the number of steps that holds: if the duration is `N dt`, correctly rounded, the number of steps is `N` or
`N - 1`. Missing: it is `N`, see `C83_steps_false`. -/
theorem C83_steps_partial [FloorRing K] {st dt : T} {N : Nat} (h0 : val dt ≠ 0) (hT : |val st - N * val dt| ≤ u * |N * val dt|)
    (hb : ((1 + u) ^ 2 - 1) * N + η < 1) (hW : N + 1 < W) :
    ∃ q k, cdiv st dt = .ok q ∧ floorSize (val q) = .ok k ∧ (k = N ∨ k + 1 = N) := by
  have hu := R.u_nonneg
  have hη := R.η_nonneg
  obtain ⟨q, hq, hq2⟩ := R.div st dt h0
  have hN : (0 : K) ≤ N := Nat.cast_nonneg N
  have hd : |val st / val dt - N| ≤ u * N := by
    have : val st / val dt - N = (val st - N * val dt) / val dt := by field_simp
    rw [this, abs_div, div_le_iff₀ (abs_pos.2 h0)]
    rw [abs_mul, abs_of_nonneg hN] at hT
    linarith
  have hq3 := prod_err hu (x := val st / val dt) (y := N) (z := val q) (i := 1) (c := u) (ε := 0) (by rw [abs_of_nonneg hN]; linarith)
    (by rw [mul_one]; exact hq2)
  rw [mul_one, abs_one, mul_one, abs_of_nonneg hN] at hq3
  have hlt : |val q - N| < 1 := lt_of_le_of_lt (hq3.trans (le_of_eq (by ring))) hb
  obtain ⟨h1, h2⟩ := abs_lt.1 hlt
  have hup : ⌊val q⌋₊ < N + 1 := by
    rw [Nat.floor_lt']
    · push_cast; linarith
    · omega
  refine ⟨q, ⌊val q⌋₊, hq, if_pos ⟨by linarith, by omega⟩, ?_⟩
  rcases Nat.eq_zero_or_pos N with h | h
  · left; omega
  have hlo : N - 1 ≤ ⌊val q⌋₊ := by
    apply Nat.le_floor
    rw [Nat.cast_sub h, Nat.cast_one]; linarith
  omega

end error

/-- The conversion of a `double` to `std::size_t`. -/
def doubleSize (x : Double) : Res Nat := floorSize x.val

/-- C83 is false: in `double`, `simulate` for `0.3` seconds with a sample time of `0.1` seconds and three inputs does two steps only. -/
theorem C83_steps_false :
    (simulate doubleSize (⟨⟨⟨1, 1, doubles [1]⟩, ⟨1, 1, doubles [1]⟩, ⟨1, 1, doubles [1]⟩, ⟨1, 1, doubles [0]⟩⟩, Fl.of 53 (-1074) (1/10)⟩ : DiscreteStateSpace Double)
        [doubles [1], doubles [1], doubles [1]] (Fl.of 53 (-1074) (3/10)) (doubles [0])) =
      .ok (doubles [0, 1/10, 0], [doubles [0], doubles [1], doubles [2]], [doubles [0], doubles [1]]) := by decide +kernel

/-- With the sample time `0.125`, which is a binary fraction, the three steps are done. -/
example :
    (simulate doubleSize (⟨⟨⟨1, 1, doubles [1]⟩, ⟨1, 1, doubles [1]⟩, ⟨1, 1, doubles [1]⟩, ⟨1, 1, doubles [0]⟩⟩, Fl.of 53 (-1074) (1/8)⟩ : DiscreteStateSpace Double)
        [doubles [1], doubles [1], doubles [1]] (Fl.of 53 (-1074) (3/8)) (doubles [0])) =
      .ok (doubles [0, 1/8, 2/8, 0], [doubles [0], doubles [1], doubles [2], doubles [3]], [doubles [0], doubles [1], doubles [2]]) := by decide +kernel

end Malg
