import Verif.Props.ExpmDouble
import Verif.Model.EigenQr
import Verif.Props.FloatChar
import Verif.Props.FloatLaws
/-!
# Property C140: complex matrices in floating point
-/
namespace Malg
open Ops Lin Matrix

section
variable {T : Type} [Zero T] [Add T]

theorem lsum_re (k : Nat) (t : Nat → Cpx T) : (lsum k t).re = lsum k fun i => (t i).re := by
  induction k with
  | zero => rfl
  | succ k ih => rw [lsum, lsum, ← ih]; rfl

theorem lsum_im (k : Nat) (t : Nat → Cpx T) : (lsum k t).im = lsum k fun i => (t i).im := by
  induction k with
  | zero => rfl
  | succ k ih => rw [lsum, lsum, ← ih]; rfl

end

section
variable {T K : Type} [Zero T] [Add T] [Sub T] [Mul T] [CDiv T] [Field K] [LinearOrder K] [IsStrictOrderedRing K]
  {val : T → K} {u η : K} (R : Rounds val u η)
include R

theorem cmul_re (x y : Cpx T) : Near val u 2 ((1 + u) * (η + η)) (x * y).re (val x.re * val y.re - val x.im * val y.im)
    (|val x.re| * |val y.re| + |val x.im| * |val y.im|) :=
  (Near.two R x.re y.re).sub R (Near.two R x.im y.im)

theorem cmul_im (x y : Cpx T) : Near val u 2 ((1 + u) * (η + η)) (x * y).im (val x.re * val y.im + val x.im * val y.re)
    (|val x.re| * |val y.im| + |val x.im| * |val y.re|) :=
  (Near.two R x.re y.im).add R (Near.two R x.im y.re)

theorem clsum_re (k : Nat) (x y : Nat → Cpx T) :
    |val (lsum k fun i => x i * y i).re - ∑ i ∈ Finset.range k, (val (x i).re * val (y i).re - val (x i).im * val (y i).im)| ≤
      ((1 + u) ^ (k + 2) - 1) * ∑ i ∈ Finset.range k, (|val (x i).re| * |val (y i).re| + |val (x i).im| * |val (y i).im|) +
        2 * k * (1 + u) ^ (k + 1) * η := by
  have hu := R.u_nonneg
  have h := (Near.lsum R (mul_nonneg (by linarith) (add_nonneg R.η_nonneg R.η_nonneg)) fun i (_ : i < k) => cmul_re R (x i) (y i)).err
  rw [lsum_re]
  refine h.trans (le_of_eq ?_)
  rw [add_comm 2 k, pow_succ (1 + u) k]; ring

theorem clsum_im (k : Nat) (x y : Nat → Cpx T) :
    |val (lsum k fun i => x i * y i).im - ∑ i ∈ Finset.range k, (val (x i).re * val (y i).im + val (x i).im * val (y i).re)| ≤
      ((1 + u) ^ (k + 2) - 1) * ∑ i ∈ Finset.range k, (|val (x i).re| * |val (y i).im| + |val (x i).im| * |val (y i).re|) +
        2 * k * (1 + u) ^ (k + 1) * η := by
  have hu := R.u_nonneg
  have h := (Near.lsum R (mul_nonneg (by linarith) (add_nonneg R.η_nonneg R.η_nonneg)) fun i (_ : i < k) => cmul_im R (x i) (y i)).err
  rw [lsum_im]
  refine h.trans (le_of_eq ?_)
  rw [add_comm 2 k, pow_succ (1 + u) k]; ring

/-- C140, the part that holds: the parts of the entries of a product of complex matrices differ from the parts of the exact product by at
most `k + 2` roundings relative to the products of the absolute values of the parts. Missing: the result need not be close to the exact
product relative to the parts of the latter. -/
theorem C140_product_partial {A B : MB (Cpx T)} {n k m : Nat} {M : Matrix (Fin n) (Fin k) (Cpx T)} {N : Matrix (Fin k) (Fin m) (Cpx T)}
    (hA : A.Is M) (hB : B.Is N) (hf : Fits n m) : ∃ E : Matrix (Fin n) (Fin m) (Cpx T), Yields (mul A B) E ∧ ∀ i j,
      |val (E i j).re - (M.map (val ·.re) * N.map (val ·.re) - M.map (val ·.im) * N.map (val ·.im)) i j| ≤
        ((1 + u) ^ (k + 2) - 1) * (M.map (|val ·.re|) * N.map (|val ·.re|) + M.map (|val ·.im|) * N.map (|val ·.im|)) i j +
          2 * k * (1 + u) ^ (k + 1) * η ∧
      |val (E i j).im - (M.map (val ·.re) * N.map (val ·.im) + M.map (val ·.im) * N.map (val ·.re)) i j| ≤
        ((1 + u) ^ (k + 2) - 1) * (M.map (|val ·.re|) * N.map (|val ·.im|) + M.map (|val ·.im|) * N.map (|val ·.re|)) i j +
          2 * k * (1 + u) ^ (k + 1) * η := by
  obtain ⟨e, hA, rfl⟩ := hA
  obtain ⟨f, hB, rfl⟩ := hB
  refine ⟨_, (C35_entries hA.toRepAt hB.toRepAt hf).yields, fun i j => ⟨?_, ?_⟩⟩
  · have := clsum_re R k (fun l => e i l) (fun l => f l j)
    simp only [Matrix.sub_apply, Matrix.add_apply, Matrix.mul_apply, Matrix.map_apply, toM_apply, ← Finset.sum_sub_distrib,
      ← Finset.sum_add_distrib]
    simpa only [Finset.sum_range] using this
  · have := clsum_im R k (fun l => e i l) (fun l => f l j)
    simp only [Matrix.add_apply, Matrix.mul_apply, Matrix.map_apply, toM_apply, ← Finset.sum_add_distrib]
    simpa only [Finset.sum_range] using this

end

/-! In terms of complex numbers. -/

/-- The complex number that a pair stands for. -/
def toCx {T : Type} (val : T → ℝ) (z : Cpx T) : ℂ := ⟨val z.re, val z.im⟩

section
variable {T : Type} [Zero T] [Add T] [Sub T] [Mul T] [CDiv T] {val : T → ℝ} {u η : ℝ} (R : Rounds val u η)
include R

omit [Zero T] [Add T] [Sub T] [Mul T] [CDiv T] R in
/-- The parts of a product are bounded by the moduli. -/
theorem cparts_le (x y : Cpx T) : (|val x.re| * |val y.re| + |val x.im| * |val y.im|) + (|val x.re| * |val y.im| + |val x.im| * |val y.re|) ≤
    2 * (‖toCx val x‖ * ‖toCx val y‖) := by
  have h : ∀ z : Cpx T, |val z.re| + |val z.im| ≤ √2 * ‖toCx val z‖ := fun z => by
    rw [Complex.norm_eq_sqrt_sq_add_sq, ← Real.sqrt_mul (by norm_num)]
    refine Real.le_sqrt_of_sq_le ?_
    show _ ≤ 2 * (val z.re ^ 2 + val z.im ^ 2)
    rw [← sq_abs (val z.re), ← sq_abs (val z.im)]
    linarith [sq_nonneg (|val z.re| - |val z.im|)]
  have := mul_le_mul (h x) (h y) (by positivity) (by positivity)
  have h2 : √2 * √2 = (2 : ℝ) := Real.mul_self_sqrt (by norm_num)
  calc _ = (|val x.re| + |val x.im|) * (|val y.re| + |val y.im|) := by ring
    _ ≤ _ := this
    _ = √2 * √2 * (‖toCx val x‖ * ‖toCx val y‖) := by ring
    _ = _ := by rw [h2]

theorem clsum_norm (k : Nat) (x y : Nat → Cpx T) :
    ‖toCx val (lsum k fun i => x i * y i) - ∑ i ∈ Finset.range k, toCx val (x i) * toCx val (y i)‖ ≤
      2 * ((1 + u) ^ (k + 2) - 1) * ∑ i ∈ Finset.range k, ‖toCx val (x i)‖ * ‖toCx val (y i)‖ + 4 * k * (1 + u) ^ (k + 1) * η := by
  have hu := R.u_nonneg
  have h1 := clsum_re R k x y
  have h2 := clsum_im R k x y
  refine (Complex.norm_le_abs_re_add_abs_im _).trans ?_
  have e1 : (toCx val (lsum k fun i => x i * y i) - ∑ i ∈ Finset.range k, toCx val (x i) * toCx val (y i)).re =
      val (lsum k fun i => x i * y i).re - ∑ i ∈ Finset.range k, (val (x i).re * val (y i).re - val (x i).im * val (y i).im) := by
    simp [toCx]
  have e2 : (toCx val (lsum k fun i => x i * y i) - ∑ i ∈ Finset.range k, toCx val (x i) * toCx val (y i)).im =
      val (lsum k fun i => x i * y i).im - ∑ i ∈ Finset.range k, (val (x i).re * val (y i).im + val (x i).im * val (y i).re) := by
    simp [toCx]
  rw [e1, e2]
  have h3 : 0 ≤ (1 + u) ^ (k + 2) - 1 := by linarith [one_le_pow₀ (n := k + 2) (by linarith : 1 ≤ 1 + u)]
  have h4 : ∑ i ∈ Finset.range k, ((|val (x i).re| * |val (y i).re| + |val (x i).im| * |val (y i).im|) +
      (|val (x i).re| * |val (y i).im| + |val (x i).im| * |val (y i).re|)) ≤ ∑ i ∈ Finset.range k, 2 * (‖toCx val (x i)‖ * ‖toCx val (y i)‖) :=
    Finset.sum_le_sum fun i _ => cparts_le _ _
  rw [Finset.sum_add_distrib, ← Finset.mul_sum] at h4
  have h5 := mul_le_mul_of_nonneg_left h4 h3
  linarith

/-- C140, the part that holds: the modulus of the error of an entry of a product of complex matrices is at most `2 ((1 + u)^(k+2) - 1)` times the
entry of the product of the moduli, up to underflow. -/
theorem C140_modulus_partial {A B : MB (Cpx T)} {n k m : Nat} {M : Matrix (Fin n) (Fin k) (Cpx T)} {N : Matrix (Fin k) (Fin m) (Cpx T)}
    (hA : A.Is M) (hB : B.Is N) (hf : Fits n m) : ∃ E : Matrix (Fin n) (Fin m) (Cpx T), Yields (mul A B) E ∧ ∀ i j,
      ‖toCx val (E i j) - (M.map (toCx val) * N.map (toCx val)) i j‖ ≤
        2 * ((1 + u) ^ (k + 2) - 1) * (M.map (‖toCx val ·‖) * N.map (‖toCx val ·‖)) i j + 4 * k * (1 + u) ^ (k + 1) * η := by
  obtain ⟨e, hA, rfl⟩ := hA
  obtain ⟨f, hB, rfl⟩ := hB
  refine ⟨_, (C35_entries hA.toRepAt hB.toRepAt hf).yields, fun i j => ?_⟩
  have := clsum_norm R k (fun l => e i l) (fun l => f l j)
  simp only [Matrix.mul_apply, Matrix.map_apply, toM_apply]
  simpa only [Finset.sum_range] using this

/-- C140, the part that holds: the same for matrix times vector and for scalar products (which do not conjugate). -/
theorem C140_vector_partial {A : MB (Cpx T)} {a b : List (Cpx T)} {n m : Nat} {e} {f g : Nat → Cpx T} (hA : RepAt A n m e) (ha : VRep a m f)
    (hb : VRep b m g) (hn : n < allocMax) :
    (∃ h, ReturnsVec (mulVec A a) n h ∧ ∀ i, i < n → ‖toCx val (h i) - ∑ j ∈ Finset.range m, toCx val (e i j) * toCx val (f j)‖ ≤
        2 * ((1 + u) ^ (m + 2) - 1) * ∑ j ∈ Finset.range m, ‖toCx val (e i j)‖ * ‖toCx val (f j)‖ + 4 * m * (1 + u) ^ (m + 1) * η) ∧
    ∃ s, dot a b = .ok s ∧ ‖toCx val s - ∑ j ∈ Finset.range m, toCx val (f j) * toCx val (g j)‖ ≤
        2 * ((1 + u) ^ (m + 2) - 1) * ∑ j ∈ Finset.range m, ‖toCx val (f j)‖ * ‖toCx val (g j)‖ + 4 * m * (1 + u) ^ (m + 1) * η :=
  ⟨⟨_, (C37_entries_partial hA ha le_rfl hn).1, fun i _ => clsum_norm R m (fun j => e i j) f⟩, _, C38_dot ha hb, clsum_norm R m f g⟩

omit [Zero T] [Add T] [Sub T] [Mul T] [CDiv T] R in
theorem cround {x : Cpx T} {z : ℂ} (hu : 0 ≤ u) (h1 : |val x.re - z.re| ≤ u * |z.re|) (h2 : |val x.im - z.im| ≤ u * |z.im|) :
    ‖toCx val x - z‖ ≤ u * ‖z‖ := by
  rw [Complex.norm_eq_sqrt_sq_add_sq, Complex.norm_eq_sqrt_sq_add_sq]
  refine Real.sqrt_le_iff.2 ⟨by positivity, ?_⟩
  rw [mul_pow, Real.sq_sqrt (by positivity), mul_add]
  have a1 := pow_le_pow_left₀ (abs_nonneg _) h1 2
  have a2 := pow_le_pow_left₀ (abs_nonneg _) h2 2
  rw [sq_abs, mul_pow, sq_abs] at a1 a2
  exact add_le_add a1 a2

/-- C140, the part that holds: sums and differences of complex matrices have one rounding relative to the modulus of the exact result. -/
theorem C140_elementwise {A B : MB (Cpx T)} {n m : Nat} {M N : Matrix (Fin n) (Fin m) (Cpx T)} (hA : A.Is M) (hB : B.Is N) :
    (∃ E : Matrix (Fin n) (Fin m) (Cpx T), Yields (add A B) E ∧ ∀ i j,
      ‖toCx val (E i j) - (toCx val (M i j) + toCx val (N i j))‖ ≤ u * ‖toCx val (M i j) + toCx val (N i j)‖) ∧
    ∃ E : Matrix (Fin n) (Fin m) (Cpx T), Yields (sub A B) E ∧ ∀ i j,
      ‖toCx val (E i j) - (toCx val (M i j) - toCx val (N i j))‖ ≤ u * ‖toCx val (M i j) - toCx val (N i j)‖ := by
  obtain ⟨e, hA, rfl⟩ := hA
  obtain ⟨f, hB, rfl⟩ := hB
  refine ⟨⟨_, (Returns.of_eq hA.fits (zipMat_eq hA hB fun _ _ _ _ => rfl)).yields, fun i j => ?_⟩,
    ⟨_, (Returns.of_eq hA.fits (zipMat_eq hA hB fun _ _ _ _ => rfl)).yields, fun i j => ?_⟩⟩
  · exact cround R.u_nonneg (R.add _ _) (R.add _ _)
  · exact cround R.u_nonneg (R.sub _ _) (R.sub _ _)

end

section
variable {K : Type} [Field K] [LinearOrder K] [IsStrictOrderedRing K] [FloorRing K] {p : ℕ} {emin : ℤ}

/-- C140: products of matrices of Gaussian integers are exact as long as the products of the absolute values of the parts stay within `2^p`. -/
theorem C140_gaussian (hp : 1 ≤ p) (he : emin ≤ 0) {A B : MB (Cpx (Fl K p emin))} {n k m : Nat} {M : Matrix (Fin n) (Fin k) (Cpx (Fl K p emin))}
    {N : Matrix (Fin k) (Fin m) (Cpx (Fl K p emin))} {P P' : Matrix (Fin n) (Fin k) ℤ} {Q Q' : Matrix (Fin k) (Fin m) ℤ} (hA : A.Is M)
    (hB : B.Is N) (hf : Fits n m) (hM : ∀ i j, (M i j).re.val = P i j ∧ (M i j).im.val = P' i j)
    (hN : ∀ i j, (N i j).re.val = Q i j ∧ (N i j).im.val = Q' i j)
    (hb : ∀ i j, ((P.map (|·|) + P'.map (|·|)) * (Q.map (|·|) + Q'.map (|·|))) i j ≤ 2 ^ p) :
    ∃ E : Matrix (Fin n) (Fin m) (Cpx (Fl K p emin)), Yields (mul A B) E ∧ ∀ i j,
      (E i j).re.val = ((P * Q - P' * Q') i j : ℤ) ∧ (E i j).im.val = ((P * Q' + P' * Q) i j : ℤ) := by
  obtain ⟨e, hA, rfl⟩ := hA
  obtain ⟨f, hB, rfl⟩ := hB
  refine ⟨_, (C35_entries hA.toRepAt hB.toRepAt hf).yields, fun i j => ?_⟩
  have hs := hb i j
  simp only [Matrix.mul_apply, Matrix.add_apply, Matrix.map_apply] at hs
  have hle : ∀ l : Fin k, |P i l| * |Q l j| + |P' i l| * |Q' l j| ≤ (|P i l| + |P' i l|) * (|Q l j| + |Q' l j|) ∧
      |P i l| * |Q' l j| + |P' i l| * |Q l j| ≤ (|P i l| + |P' i l|) * (|Q l j| + |Q' l j|) := fun l => by
    have h1 := mul_nonneg (abs_nonneg (P i l)) (abs_nonneg (Q' l j))
    have h2 := mul_nonneg (abs_nonneg (P' i l)) (abs_nonneg (Q l j))
    have h3 := mul_nonneg (abs_nonneg (P i l)) (abs_nonneg (Q l j))
    have h4 := mul_nonneg (abs_nonneg (P' i l)) (abs_nonneg (Q' l j))
    constructor <;> linarith
  have hone : ∀ l : Fin k, (|P i l| + |P' i l|) * (|Q l j| + |Q' l j|) ≤ 2 ^ p := fun l =>
    (Finset.single_le_sum (f := fun l : Fin k => (|P i l| + |P' i l|) * (|Q l j| + |Q' l j|)) (fun l _ => by positivity) (Finset.mem_univ l)).trans hs
  have hsmall : ∀ {a b : ℤ} {x y : Fl K p emin}, x.val = a → y.val = b → |a| * |b| ≤ 2 ^ p → (x * y).val = ((a * b : ℤ) : K) := by
    intro a b x y hx hy h
    show rnd p emin (x.val * y.val) = _
    rw [hx, hy, ← Int.cast_mul]
    exact rnd_intCast hp he (by rwa [abs_mul])
  have hM' : ∀ l : Fin k, (e i l).re.val = P i l ∧ (e i l).im.val = P' i l := fun l => hM i l
  have hN' : ∀ l : Fin k, (f l j).re.val = Q l j ∧ (f l j).im.val = Q' l j := fun l => hN l j
  constructor
  · show (lsum k fun l => e i l * f l j).re.val = _
    rw [lsum_re, lsum_exact hp he (z := fun l => if h : l < k then P i ⟨l, h⟩ * Q ⟨l, h⟩ j - P' i ⟨l, h⟩ * Q' ⟨l, h⟩ j else 0)]
    · simp [Finset.sum_range, Matrix.mul_apply, Finset.sum_sub_distrib]
    · intro l hl
      rw [dif_pos hl]
      have := hle ⟨l, hl⟩
      have h0 := hone ⟨l, hl⟩
      show rnd p emin ((((e i l).re * (f l j).re).val) - ((e i l).im * (f l j).im).val) = _
      have a1 := mul_nonneg (abs_nonneg (P i ⟨l, hl⟩)) (abs_nonneg (Q ⟨l, hl⟩ j))
      have a2 := mul_nonneg (abs_nonneg (P' i ⟨l, hl⟩)) (abs_nonneg (Q' ⟨l, hl⟩ j))
      rw [hsmall (hM' ⟨l, hl⟩).1 (hN' ⟨l, hl⟩).1 (by linarith [this.1]), hsmall (hM' ⟨l, hl⟩).2 (hN' ⟨l, hl⟩).2 (by linarith [this.1]),
        ← Int.cast_sub]
      refine rnd_intCast hp he ((abs_sub _ _).trans ?_)
      rw [abs_mul, abs_mul]; linarith [this.1]
    · rw [Finset.sum_range]
      refine (Finset.sum_le_sum fun l _ => ?_).trans hs
      rw [dif_pos l.2]
      refine ((abs_sub _ _).trans ?_).trans (hle l).1
      rw [abs_mul, abs_mul]
  · show (lsum k fun l => e i l * f l j).im.val = _
    rw [lsum_im, lsum_exact hp he (z := fun l => if h : l < k then P i ⟨l, h⟩ * Q' ⟨l, h⟩ j + P' i ⟨l, h⟩ * Q ⟨l, h⟩ j else 0)]
    · simp [Finset.sum_range, Matrix.mul_apply, Finset.sum_add_distrib]
    · intro l hl
      rw [dif_pos hl]
      have := hle ⟨l, hl⟩
      have h0 := hone ⟨l, hl⟩
      show rnd p emin ((((e i l).re * (f l j).im).val) + ((e i l).im * (f l j).re).val) = _
      have a1 := mul_nonneg (abs_nonneg (P i ⟨l, hl⟩)) (abs_nonneg (Q' ⟨l, hl⟩ j))
      have a2 := mul_nonneg (abs_nonneg (P' i ⟨l, hl⟩)) (abs_nonneg (Q ⟨l, hl⟩ j))
      rw [hsmall (hM' ⟨l, hl⟩).1 (hN' ⟨l, hl⟩).2 (by linarith [this.2]), hsmall (hM' ⟨l, hl⟩).2 (hN' ⟨l, hl⟩).1 (by linarith [this.2]),
        ← Int.cast_add]
      refine rnd_intCast hp he ((abs_add_le _ _).trans ?_)
      rw [abs_mul, abs_mul]; linarith [this.2]
    · rw [Finset.sum_range]
      refine (Finset.sum_le_sum fun l _ => ?_).trans hs
      rw [dif_pos l.2]
      refine ((abs_add_le _ _).trans ?_).trans (hle l).2
      rw [abs_mul, abs_mul]

theorem conj_lsum (k : Nat) (t : Nat → Cpx (Fl K p emin)) : Cpx.conj (lsum k t) = lsum k fun i => Cpx.conj (t i) := by
  induction k with
  | zero =>
    have : (-0 : Fl K p emin) = 0 := Fl.ext (neg_zero (G := K))
    exact congrArg (Cpx.mk 0) this
  | succ k ih =>
    rw [lsum, lsum, ← ih]
    refine congrArg (Cpx.mk _) (Fl.ext ?_)
    show -rnd p emin ((lsum k t).im.val + (t k).im.val) = rnd p emin (-(lsum k t).im.val + -(t k).im.val)
    rw [← neg_add, rnd_neg]

theorem conj_mul_rev (x y : Cpx (Fl K p emin)) : Cpx.conj (x * y) = Cpx.conj y * Cpx.conj x := by
  have h : ∀ a b : K, rnd p emin (a * -b) = -rnd p emin (a * b) := fun a b => by rw [mul_neg, rnd_neg]
  have h' : ∀ a b : K, rnd p emin (-a * b) = -rnd p emin (a * b) := fun a b => by rw [neg_mul, rnd_neg]
  show Cpx.mk _ _ = Cpx.mk _ _
  congr 1
  · refine Fl.ext ?_
    show rnd p emin (rnd p emin (x.re.val * y.re.val) - rnd p emin (x.im.val * y.im.val)) =
      rnd p emin (rnd p emin (y.re.val * x.re.val) - rnd p emin (-y.im.val * -x.im.val))
    rw [neg_mul_neg, mul_comm y.re.val, mul_comm y.im.val]
  · refine Fl.ext ?_
    show -rnd p emin (rnd p emin (x.re.val * y.im.val) + rnd p emin (x.im.val * y.re.val)) =
      rnd p emin (rnd p emin (y.re.val * -x.im.val) + rnd p emin (-y.im.val * x.re.val))
    rw [h, h', ← neg_add, rnd_neg, mul_comm y.re.val, mul_comm y.im.val, add_comm]

/-- C140: the conjugate transpose of a product is the product of the conjugate transposes in reverse order, bit for bit. -/
theorem C140_conjugate_transpose {A B : MB (Cpx (Fl K p emin))} {n k m : Nat} {e f} (hA : RepAt A n k e) (hB : RepAt B k m f) (hf : Fits n m) :
    (mul A B >>= fun X => conjTranspose Cpx.conj X.toMB) =
      (conjTranspose Cpx.conj B >>= fun X => conjTranspose Cpx.conj A >>= fun Y => mul X.toMB Y.toMB) := by
  obtain ⟨X, h1, h2⟩ := C35_entries hA hB hf
  obtain ⟨X', h3, h4⟩ := Returns.of_eq hB.fits.swap (conjTranspose_eq (conj := Cpx.conj) hB)
  obtain ⟨Y', h5, h6⟩ := Returns.of_eq hA.fits.swap (conjTranspose_eq (conj := Cpx.conj) hA)
  rw [h1, Res.ok_bind, h3, Res.ok_bind, h5, Res.ok_bind, conjTranspose_eq h2.rep.toRepAt,
    (C35_entries h4.rep.toRepAt h6.rep.toRepAt hf.swap).eq]
  refine congrArg _ (ofFn_congr fun i j _ _ => ?_)
  rw [conj_lsum]
  exact lsum_congr fun l _ => conj_mul_rev _ _

end

/-- The numbers of `std::complex<double>`. -/
def cdouble (a b : ℚ) : Cpx Double := ⟨Fl.of 53 (-1074) a, Fl.of 53 (-1074) b⟩

/-- C140 is false of the parts: `(1 + 2^-30 + i)(1 - 2^-30 + i)` has the real part zero in `double`, and not zero exactly. -/
theorem C140_parts_false : ∃ A B : Mat (Cpx Double), A.WF ∧ B.WF ∧ ∃ E : Mat (Cpx Double), mul A.toMB B.toMB = .ok E ∧
    ∃ a b c : Cpx Double, A.data = [a] ∧ B.data = [b] ∧ E.data = [c] ∧ c.re.val = 0 ∧
      a.re.val * b.re.val - a.im.val * b.im.val = -(1 / 2 ^ 60) :=
  ⟨⟨1, 1, [cdouble (1 + 1 / 2 ^ 30) 1]⟩, ⟨1, 1, [cdouble (1 - 1 / 2 ^ 30) 1]⟩, ⟨rfl, by decide +kernel, by decide +kernel, by decide +kernel⟩,
    ⟨rfl, by decide +kernel, by decide +kernel, by decide +kernel⟩, ⟨1, 1, [cdouble 0 2]⟩, by decide +kernel, _, _, _, rfl, rfl, rfl,
    by decide +kernel, by decide +kernel⟩

/-- C140, the part that holds, for `std::complex<double>`. -/
theorem C140_double_partial {A B : MB (Cpx Double)} {n k m : Nat} {M : Matrix (Fin n) (Fin k) (Cpx Double)}
    {N : Matrix (Fin k) (Fin m) (Cpx Double)} (hA : A.Is M) (hB : B.Is N) (hf : Fits n m) :
    ∃ E : Matrix (Fin n) (Fin m) (Cpx Double), Yields (mul A B) E ∧ ∀ i j,
      |(E i j).re.val - (M.map (·.re.val) * N.map (·.re.val) - M.map (·.im.val) * N.map (·.im.val)) i j| ≤
        ((1 + 2 ^ (-53 : ℤ)) ^ (k + 2) - 1) * (M.map (|·.re.val|) * N.map (|·.re.val|) + M.map (|·.im.val|) * N.map (|·.im.val|)) i j +
          2 * k * (1 + 2 ^ (-53 : ℤ)) ^ (k + 1) * (2 ^ (-1074 : ℤ) / 2) ∧
      |(E i j).im.val - (M.map (·.re.val) * N.map (·.im.val) + M.map (·.im.val) * N.map (·.re.val)) i j| ≤
        ((1 + 2 ^ (-53 : ℤ)) ^ (k + 2) - 1) * (M.map (|·.re.val|) * N.map (|·.im.val|) + M.map (|·.im.val|) * N.map (|·.re.val|)) i j +
          2 * k * (1 + 2 ^ (-53 : ℤ)) ^ (k + 1) * (2 ^ (-1074 : ℤ) / 2) :=
  C140_product_partial (Fl.rounds ℚ (p := 53) (by norm_num) (-1074)) hA hB hf

set_option exponentiation.threshold 3000 in
/-- C140, the part that holds, for `std::complex<double>` in terms of moduli. -/
theorem C140_modulus_double_partial {A B : MB (Cpx Double)} {n k m : Nat} {M : Matrix (Fin n) (Fin k) (Cpx Double)}
    {N : Matrix (Fin k) (Fin m) (Cpx Double)} (hA : A.Is M) (hB : B.Is N) (hf : Fits n m) :
    ∃ E : Matrix (Fin n) (Fin m) (Cpx Double), Yields (mul A B) E ∧ ∀ i j,
      ‖toCx (fun x => (x.val : ℝ)) (E i j) - (M.map (toCx fun x => (x.val : ℝ)) * N.map (toCx fun x => (x.val : ℝ))) i j‖ ≤
        2 * ((1 + 2 ^ (-53 : ℤ)) ^ (k + 2) - 1) * (M.map (‖toCx (fun x => (x.val : ℝ)) ·‖) * N.map (‖toCx (fun x => (x.val : ℝ)) ·‖)) i j +
          4 * k * (1 + 2 ^ (-53 : ℤ)) ^ (k + 1) * (2 ^ (-1074 : ℤ) / 2) := by
  have := C140_modulus_partial (Fl.rounds ℚ (p := 53) (by norm_num) (-1074)).cast hA hB hf
  push_cast at this
  exact this

example : mul (⟨1, 2, [cdouble (1/2) 3, cdouble 2 (-1)]⟩ : Mat (Cpx Double)).toMB (⟨2, 1, [cdouble 4 1, cdouble 0 1]⟩ : Mat (Cpx Double)).toMB =
    .ok ⟨1, 1, [cdouble 0 (29/2)]⟩ := by decide +kernel

/-- A product whose conjugate transpose is rounded. -/
example : (mul (⟨1, 1, [cdouble (1/10) (3/10)]⟩ : Mat (Cpx Double)).toMB (⟨1, 1, [cdouble (7/10) (1/3)]⟩ : Mat (Cpx Double)).toMB >>=
      fun X => conjTranspose Cpx.conj X.toMB) =
    (mul (⟨1, 1, [Cpx.conj (cdouble (7/10) (1/3))]⟩ : Mat (Cpx Double)).toMB
      (⟨1, 1, [Cpx.conj (cdouble (1/10) (3/10))]⟩ : Mat (Cpx Double)).toMB) := by decide +kernel

end Malg
