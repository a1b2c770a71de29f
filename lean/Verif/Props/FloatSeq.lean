import Verif.Props.FloatLaws
import Verif.Props.Utility
/-!
# Property C82: `linspace` in floating point arithmetic
-/
namespace Malg
open Util

section
variable {T K : Type} [Zero T] [Add T] [Sub T] [Mul T] [CDiv T] [Field K] [LinearOrder K] [IsStrictOrderedRing K]
  {val : T → K} {u η : K}

/-- Errors of a product with an exact factor. -/
theorem prod_err (hu : 0 ≤ u) {x y z i c ε : K} (h1 : |x - y| ≤ c * |y| + ε) (h2 : |z - x * i| ≤ u * |x * i| + η) :
    |z - y * i| ≤ ((1 + u) * (1 + c) - 1) * (|y| * |i|) + ((1 + u) * (|i| * ε) + η) := by
  have hx : |x * i - y * i| ≤ c * (|y| * |i|) + |i| * ε := by
    rw [← sub_mul, abs_mul]
    have := mul_le_mul_of_nonneg_right h1 (abs_nonneg i)
    linarith
  have hxi : |x * i| ≤ |x * i - y * i| + |y| * |i| := by
    have := abs_add_le (x * i - y * i) (y * i)
    rwa [sub_add_cancel, abs_mul y i] at this
  have e : z - y * i = (z - x * i) + (x * i - y * i) := by ring
  rw [e]
  have h3 := abs_add_le (z - x * i) (x * i - y * i)
  have h4 := mul_le_mul_of_nonneg_left hxi hu
  have h5 := mul_le_mul_of_nonneg_left hx (by linarith : 0 ≤ 1 + u)
  linarith

/-- Errors of a sum or difference (`w` is the exact sum with the exact second operand). -/
theorem shift_err (hu : 0 ≤ u) {z w w' : K} (B : K) (h1 : |w' - w| ≤ B) (h2 : |z - w'| ≤ u * |w'|) : |z - w| ≤ u * |w| + (1 + u) * B := by
  have h3 : |w'| ≤ |w' - w| + |w| := by
    have := abs_add_le (w' - w) w
    rwa [sub_add_cancel] at this
  have e : z - w = (z - w') + (w' - w) := by ring
  rw [e]
  have h4 := abs_add_le (z - w') (w' - w)
  have h5 := mul_le_mul_of_nonneg_left h3 hu
  have h6 := mul_le_mul_of_nonneg_left h1 (by linarith : 0 ≤ 1 + u)
  linarith
end

variable {K : Type} [Field K] [LinearOrder K] [IsStrictOrderedRing K] [FloorRing K] {p : ℕ} {emin : ℤ}

theorem natCast_val (hp : 1 ≤ p) (he : emin ≤ 0) {n : Nat} (h : n ≤ 2 ^ p) : ((n : Fl K p emin)).val = n := by
  have := rnd_intCast (K := K) hp he (z := n) (by rw [abs_of_nonneg (Int.natCast_nonneg n)]; exact_mod_cast h)
  exact_mod_cast this

/-- C82, the part that holds: point `i` of `linspace(a, b, n)` is near `a + (b - a) i / (n - 1)`, and the first point is `a`. Missing: the
last point need not be `b`, see `C82_end_false`. -/
theorem C82_points_partial (hp : 1 ≤ p) (he : emin ≤ 0) {same : Fl K p emin → Fl K p emin → Bool} {a b : Fl K p emin}
    (hs : same a b = false) {n : Nat} (hn : 2 ≤ n) (ha : n < allocMax) (hb : n ≤ 2 ^ p) {u η : K} (hu : u = 2 ^ (-(p : ℤ)))
    (hη : η = 2 ^ emin / 2) :
    ∃ f : Nat → Fl K p emin, ReturnsVec (linspace same a b n) n f ∧ f 0 = a ∧ ∀ i, i < n →
      |(f i).val - (a.val + (b.val - a.val) * (i / (n - 1 : Nat)))| ≤
        u * |a.val + (b.val - a.val) * (i / (n - 1 : Nat))| + ((1 + u) ^ 4 - (1 + u)) * |b.val - a.val| + n * (1 + u) ^ 2 * η := by
  have R := Fl.rounds K hp emin
  rw [← hu, ← hη] at R
  have hu0 := R.u_nonneg
  have hη0 := R.η_nonneg
  have hN : ((n - 1 : Nat) : Fl K p emin).val = (n - 1 : Nat) := natCast_val hp he (by omega)
  have hN0 : ((n - 1 : Nat) : K) ≠ 0 := natCast_pred_ne_zero hn
  have hNpos : (0 : K) < ((n - 1 : Nat) : K) := Nat.cast_pos.2 (by omega)
  obtain ⟨s, hs1, hs2⟩ := R.div (b - a) ((n - 1 : Nat) : Fl K p emin) (by rw [hN]; exact hN0)
  obtain ⟨s', hs1', hs2'⟩ := R.div (a - b) ((n - 1 : Nat) : Fl K p emin) (by rw [hN]; exact hN0)
  have hc : ¬ (n = 1 ∨ same a b = true) := by simp [hs]; omega
  rw [hN] at hs2 hs2'
  -- the step
  have step : ∀ {d d' s : K}, |d' - d| ≤ u * |d| → |s - d' / (n - 1 : Nat)| ≤ u * |d' / (n - 1 : Nat)| + η →
      |s - d / (n - 1 : Nat)| ≤ ((1 + u) ^ 2 - 1) * |d / (n - 1 : Nat)| + η := by
    intro d d' s h1 h2
    have := prod_err (x := d') (y := d) (z := s) (i := 1 / ((n - 1 : Nat) : K)) (c := u) (ε := 0) hu0 (by linarith)
      (by rw [mul_one_div]; exact h2)
    rw [mul_one_div, ← abs_mul, mul_one_div] at this
    calc _ ≤ _ := this
      _ = _ := by ring
  have point : ∀ {d s q i : K}, 0 ≤ i → i ≤ (n - 1 : Nat) → |s - d / (n - 1 : Nat)| ≤ ((1 + u) ^ 2 - 1) * |d / (n - 1 : Nat)| + η →
      |q - s * i| ≤ u * |s * i| + η → |q - d * (i / (n - 1 : Nat))| ≤ ((1 + u) ^ 3 - 1) * |d| + ((1 + u) * ((n - 1 : Nat) * η) + η) := by
    intro d s q i hi0 hi h1 h2
    have := prod_err hu0 h1 h2
    have e1 : d / (n - 1 : Nat) * i = d * (i / (n - 1 : Nat)) := by ring
    have e2 : (1 + u) * (1 + ((1 + u) ^ 2 - 1)) - 1 = (1 + u) ^ 3 - 1 := by ring
    rw [e1, e2, ← abs_mul, e1, abs_mul, abs_of_nonneg (div_nonneg hi0 hNpos.le), abs_of_nonneg hi0] at this
    have h3 : i / ((n - 1 : Nat) : K) ≤ 1 := (div_le_one hNpos).2 hi
    have hp3 : 0 ≤ (1 + u) ^ 3 - 1 := by
      have : (1 : K) ≤ (1 + u) ^ 3 := one_le_pow₀ (by linarith)
      linarith
    have h4 : ((1 + u) ^ 3 - 1) * (|d| * (i / (n - 1 : Nat))) ≤ ((1 + u) ^ 3 - 1) * |d| :=
      mul_le_mul_of_nonneg_left (by have := mul_le_mul_of_nonneg_left h3 (abs_nonneg d); linarith) hp3
    have h5 : (1 + u) * (i * η) ≤ (1 + u) * ((n - 1 : Nat) * η) :=
      mul_le_mul_of_nonneg_left (mul_le_mul_of_nonneg_right hi hη0) (by linarith)
    linarith
  have fin : ∀ {d : K}, (1 + u) * (((1 + u) ^ 3 - 1) * |d| + ((1 + u) * ((n - 1 : Nat) * η) + η)) ≤
      ((1 + u) ^ 4 - (1 + u)) * |d| + n * (1 + u) ^ 2 * η := by
    intro d
    have e : (n : K) = (n - 1 : Nat) + 1 := by
      have : n = (n - 1) + 1 := by omega
      exact_mod_cast congrArg (Nat.cast (R := K)) this
    rw [e]
    have : (1 + u) * η ≤ (1 + u) ^ 2 * η := by
      apply mul_le_mul_of_nonneg_right _ hη0
      nlinarith
    nlinarith
  refine ⟨_, ReturnsVec.of_eq (spaced_eq ha (fun _ => hs1) (fun _ => hs1')), ?_, ?_⟩
  · simp only [id, if_neg hc]
    have hz : ∀ x : Fl K p emin, x * ((0 : Nat) : Fl K p emin) = 0 := by
      intro x
      apply Fl.ext
      show rnd p emin (x.val * ((0 : Nat) : Fl K p emin).val) = 0
      rw [natCast_val hp he (Nat.zero_le _), Nat.cast_zero, mul_zero, rnd_exact hp (isFl_zero p emin)]
    split
    · apply Fl.ext
      rw [hz]
      show rnd p emin (a.val + 0) = _
      rw [add_zero, rnd_exact hp a.isFl]
    · apply Fl.ext
      rw [hz]
      show rnd p emin (a.val - 0) = _
      rw [sub_zero, rnd_exact hp a.isFl]
  · intro i hi
    have hiv : ((i : Fl K p emin)).val = i := natCast_val hp he (by omega)
    have hi0 : (0 : K) ≤ i := Nat.cast_nonneg i
    have hi1 : (i : K) ≤ (n - 1 : Nat) := Nat.cast_le.2 (by omega)
    simp only [id, if_neg hc]
    split
    · have h3 := R.mul s (i : Fl K p emin)
      rw [hiv] at h3
      have h4 := point hi0 hi1 (step (R.sub b a) hs2) h3
      have h5 := shift_err hu0 (((1 + u) ^ 3 - 1) * |b.val - a.val| + ((1 + u) * ((n - 1 : Nat) * η) + η)) (w := a.val + (b.val - a.val) * (i / (n - 1 : Nat))) (w' := a.val + (s * (i : Fl K p emin)).val)
        (by rwa [add_sub_add_left_eq_sub]) (R.add a (s * (i : Fl K p emin)))
      linarith [fin (d := b.val - a.val)]
    · have h3 := R.mul s' (i : Fl K p emin)
      rw [hiv] at h3
      have h4 := point hi0 hi1 (step (R.sub a b) hs2') h3
      have h5 := shift_err hu0 (((1 + u) ^ 3 - 1) * |a.val - b.val| + ((1 + u) * ((n - 1 : Nat) * η) + η)) (w := a.val - (a.val - b.val) * (i / (n - 1 : Nat))) (w' := a.val - (s' * (i : Fl K p emin)).val)
        (by rw [sub_sub_sub_cancel_left, abs_sub_comm]; exact h4) (R.sub a (s' * (i : Fl K p emin)))
      have e : a.val - (a.val - b.val) * (i / (n - 1 : Nat)) = a.val + (b.val - a.val) * (i / (n - 1 : Nat)) := by ring
      rw [e, abs_sub_comm a.val b.val] at h5
      linarith [fin (d := b.val - a.val)]

/-- The comparison of `linspace` for floating point types, with the tolerance `tol`. -/
def closeTo (tol : Double) : Double → Double → Bool := Feq.approxEq Fl.abs tol

/-- C82 is false: `linspace(0.0, 1.0, 50)` ends at `1 - 2^-53`, not at `1`. -/
theorem C82_end_false :
    (linspace (closeTo (Fl.of 53 (-1074) (1/10^6))) 0 1 50 >>= fun v => .ok (v.length, v[0]?, v[49]?)) =
      .ok (50, some (0 : Double), some (Fl.of 53 (-1074) (1 - 1 / 2 ^ 53))) ∧ Fl.of 53 (-1074) (1 - 1 / 2 ^ 53) ≠ (1 : Double) := by
  decide +kernel

/-- With 49 intervals replaced by 4 the end is hit. -/
example : linspace (closeTo (Fl.of 53 (-1074) (1/10^6))) 0 1 5 = .ok (doubles [0, 1/4, 1/2, 3/4, 1]) := by decide +kernel

end Malg
