import Verif.Props.FloatDet
import Mathlib.LinearAlgebra.Matrix.Permanent
import Mathlib.GroupTheory.Perm.Fin
/-!
# Property C86: accuracy of `determinant` in floating point
-/
namespace Malg
open Ops Lin

/-- Expansion of the permanent along the first column. -/
theorem permanent_succ {K : Type} [CommRing K] {n : Nat} (A : Matrix (Fin n.succ) (Fin n.succ) K) :
    A.permanent = ∑ i, A i 0 * (A.submatrix i.succAbove Fin.succ).permanent := by
  rw [Matrix.permanent, Finset.univ_perm_fin_succ, ← Finset.univ_product_univ]
  simp only [Finset.sum_map, Equiv.toEmbedding_apply, Finset.sum_product]
  refine Finset.sum_congr rfl fun i _ => Fin.cases ?_ (fun i => ?_) i
  · simp only [Fin.prod_univ_succ, Matrix.permanent, Finset.mul_sum, Equiv.Perm.decomposeFin_symm_apply_zero, Equiv.swap_self,
      Equiv.Perm.decomposeFin_symm_apply_succ, Fin.succAbove_zero, Equiv.coe_refl, id, Matrix.submatrix_apply]
  · rw [← Matrix.permanent_permute_cols i.cycleRange, Matrix.permanent, Finset.mul_sum]
    refine Finset.sum_congr rfl fun σ _ => ?_
    simp only [Fin.prod_univ_succ, Fin.succAbove_cycleRange, Matrix.submatrix_apply, id,
        Equiv.Perm.decomposeFin_symm_apply_zero, Equiv.Perm.decomposeFin_symm_apply_succ]

theorem permanent_two {K : Type} [CommRing K] (A : Matrix (Fin 2) (Fin 2) K) :
    A.permanent = A 0 0 * A 1 1 + A 0 1 * A 1 0 := by
  simp [permanent_succ, Fin.sum_univ_succ, Fin.succAbove]
  ring

theorem permanent_three {K : Type} [CommRing K] (A : Matrix (Fin 3) (Fin 3) K) :
    A.permanent = A 0 0 * (A 1 1 * A 2 2 + A 2 1 * A 1 2) + A 0 1 * (A 1 0 * A 2 2 + A 1 2 * A 2 0) +
      A 0 2 * (A 1 0 * A 2 1 + A 1 1 * A 2 0) := by
  rw [permanent_succ]
  simp only [Fin.sum_univ_three, permanent_two, Matrix.submatrix_apply]
  simp [Fin.succAbove]
  ring

theorem permanent_four {K : Type} [CommRing K] (A : Matrix (Fin 4) (Fin 4) K) :
    A.permanent = A 0 3 * A 1 2 * A 2 1 * A 3 0 + A 0 2 * A 1 3 * A 2 1 * A 3 0 + A 0 3 * A 1 1 * A 2 2 * A 3 0 + A 0 1 * A 1 3 * A 2 2 * A 3 0 + A 0 2 * A 1 1 * A 2 3 * A 3 0 + A 0 1 * A 1 2 * A 2 3 * A 3 0 + A 0 3 * A 1 2 * A 2 0 * A 3 1 + A 0 2 * A 1 3 * A 2 0 * A 3 1 + A 0 3 * A 1 0 * A 2 2 * A 3 1 + A 0 0 * A 1 3 * A 2 2 * A 3 1 + A 0 2 * A 1 0 * A 2 3 * A 3 1 + A 0 0 * A 1 2 * A 2 3 * A 3 1 + A 0 3 * A 1 1 * A 2 0 * A 3 2 + A 0 1 * A 1 3 * A 2 0 * A 3 2 + A 0 3 * A 1 0 * A 2 1 * A 3 2 + A 0 0 * A 1 3 * A 2 1 * A 3 2 + A 0 1 * A 1 0 * A 2 3 * A 3 2 + A 0 0 * A 1 1 * A 2 3 * A 3 2 + A 0 2 * A 1 1 * A 2 0 * A 3 3 + A 0 1 * A 1 2 * A 2 0 * A 3 3 + A 0 2 * A 1 0 * A 2 1 * A 3 3 + A 0 0 * A 1 2 * A 2 1 * A 3 3 + A 0 1 * A 1 0 * A 2 2 * A 3 3 + A 0 0 * A 1 1 * A 2 2 * A 3 3 := by
  rw [permanent_succ]
  simp only [Fin.sum_univ_four, permanent_three, Matrix.submatrix_apply]
  simp [Fin.succAbove]
  ring

section
variable {T K : Type} [Zero T] [One T] [Add T] [Sub T] [Mul T] [CDiv T] [Field K] [LinearOrder K] [IsStrictOrderedRing K]
  {val : T → K} {u η : K}

/-- `x` is `ξ` up to `k` roundings relative to `X`, and up to `ε`. -/
structure Near (val : T → K) (u : K) (k : Nat) (ε : K) (x : T) (ξ X : K) : Prop where
  err : |val x - ξ| ≤ ((1 + u) ^ k - 1) * X + ε
  size : |ξ| ≤ X
  nonneg : 0 ≤ ε

omit [Zero T] [One T] [Add T] [Sub T] [Mul T] [CDiv T] in
theorem Near.exact (x : T) : Near val u 0 0 x (val x) |val x| := ⟨by simp, le_rfl, le_rfl⟩

omit [Zero T] [One T] [Add T] [Sub T] [Mul T] [CDiv T] in
theorem Near.mono (hu : 0 ≤ u) {k l : Nat} {ε ε' X X' ξ : K} {x : T} (h : Near val u k ε x ξ X) (hk : k ≤ l) (hε : ε ≤ ε') (hX : X ≤ X') :
    Near val u l ε' x ξ X' := by
  have h1 : (1 : K) ≤ 1 + u := by linarith
  refine ⟨h.err.trans (add_le_add (mul_le_mul ?_ hX ((abs_nonneg _).trans h.size) ?_) hε), h.size.trans hX, h.nonneg.trans hε⟩
  · have := pow_le_pow_right₀ h1 hk; linarith
  · have := one_le_pow₀ (n := l) h1; linarith

variable (R : Rounds val u η)
include R

omit [One T] in
theorem Near.sub {k : Nat} {x y : T} {ξ ζ X Y ε δ : K} (hx : Near val u k ε x ξ X) (hy : Near val u k δ y ζ Y) :
    Near val u (k + 1) ((1 + u) * (ε + δ)) (x - y) (ξ - ζ) (X + Y) := by
  have hu := R.u_nonneg
  have hS : |ξ - ζ| ≤ X + Y := (abs_sub _ _).trans (add_le_add hx.size hy.size)
  refine ⟨?_, hS, mul_nonneg (by linarith) (add_nonneg hx.nonneg hy.nonneg)⟩
  have h1 := R.sub x y
  have e : val x - val y = ((val x - ξ) - (val y - ζ)) + (ξ - ζ) := by ring
  have h2 : |val x - val y| ≤ |val x - ξ| + |val y - ζ| + (X + Y) := by
    rw [e]; exact (abs_add_le _ _).trans (add_le_add (abs_sub _ _) hS)
  have e2 : val (x - y) - (ξ - ζ) = (val (x - y) - (val x - val y)) + ((val x - ξ) - (val y - ζ)) := by ring
  have h3 : |val (x - y) - (ξ - ζ)| ≤ u * |val x - val y| + (|val x - ξ| + |val y - ζ|) := by
    rw [e2]; exact (abs_add_le _ _).trans (add_le_add h1 (abs_sub _ _))
  have h4 := mul_le_mul_of_nonneg_left h2 hu
  have h5 := mul_le_mul_of_nonneg_left (add_le_add hx.err hy.err) (by linarith : 0 ≤ 1 + u)
  rw [pow_succ]
  linarith

omit [One T] in
theorem Near.add {k : Nat} {x y : T} {ξ ζ X Y ε δ : K} (hx : Near val u k ε x ξ X) (hy : Near val u k δ y ζ Y) :
    Near val u (k + 1) ((1 + u) * (ε + δ)) (x + y) (ξ + ζ) (X + Y) := by
  have hu := R.u_nonneg
  have hS : |ξ + ζ| ≤ X + Y := (abs_add_le _ _).trans (add_le_add hx.size hy.size)
  refine ⟨?_, hS, mul_nonneg (by linarith) (add_nonneg hx.nonneg hy.nonneg)⟩
  have h1 := R.add x y
  have e : val x + val y = ((val x - ξ) + (val y - ζ)) + (ξ + ζ) := by ring
  have h2 : |val x + val y| ≤ |val x - ξ| + |val y - ζ| + (X + Y) := by
    rw [e]; exact (abs_add_le _ _).trans (add_le_add (abs_add_le _ _) hS)
  have e2 : val (x + y) - (ξ + ζ) = (val (x + y) - (val x + val y)) + ((val x - ξ) + (val y - ζ)) := by ring
  have h3 : |val (x + y) - (ξ + ζ)| ≤ u * |val x + val y| + (|val x - ξ| + |val y - ζ|) := by
    rw [e2]; exact (abs_add_le _ _).trans (add_le_add h1 (abs_add_le _ _))
  have h4 := mul_le_mul_of_nonneg_left h2 hu
  have h5 := mul_le_mul_of_nonneg_left (add_le_add hx.err hy.err) (by linarith : 0 ≤ 1 + u)
  rw [pow_succ]
  linarith

omit [One T] in
/-- Multiplication by a number without error. -/
theorem Near.mul {k : Nat} {x y : T} {ξ X ε : K} (hx : Near val u k ε x ξ X) :
    Near val u (k + 1) ((1 + u) * (ε * |val y|) + η) (x * y) (ξ * val y) (X * |val y|) := by
  have hu := R.u_nonneg
  have hy := abs_nonneg (val y)
  have hS : |ξ * val y| ≤ X * |val y| := by rw [abs_mul]; exact mul_le_mul_of_nonneg_right hx.size hy
  refine ⟨?_, hS, add_nonneg (mul_nonneg (by linarith) (mul_nonneg hx.nonneg hy)) R.η_nonneg⟩
  have h1 := R.mul x y
  have e : val x * val y = (val x - ξ) * val y + ξ * val y := by ring
  have h2 : |val x * val y| ≤ |val x - ξ| * |val y| + X * |val y| := by
    rw [e, ← abs_mul]; exact (abs_add_le _ _).trans (add_le_add le_rfl hS)
  have e2 : val (x * y) - ξ * val y = (val (x * y) - val x * val y) + (val x - ξ) * val y := by ring
  have h3 : |val (x * y) - ξ * val y| ≤ (u * |val x * val y| + η) + |val x - ξ| * |val y| := by
    rw [e2, ← abs_mul]; exact (abs_add_le _ _).trans (add_le_add h1 le_rfl)
  have h4 := mul_le_mul_of_nonneg_left h2 hu
  have h5 := mul_le_mul_of_nonneg_left (mul_le_mul_of_nonneg_right hx.err hy) (by linarith : 0 ≤ 1 + u)
  rw [pow_succ]
  linarith

omit [One T] in
/-- The same with the exact factor on the left. -/
theorem Near.mul' {k : Nat} {x y : T} {ξ X ε : K} (hx : Near val u k ε x ξ X) :
    Near val u (k + 1) ((1 + u) * (ε * |val y|) + η) (y * x) (val y * ξ) (|val y| * X) := by
  have hu := R.u_nonneg
  have hy := abs_nonneg (val y)
  have hS : |val y * ξ| ≤ |val y| * X := by rw [abs_mul]; exact mul_le_mul_of_nonneg_left hx.size hy
  refine ⟨?_, hS, add_nonneg (mul_nonneg (by linarith) (mul_nonneg hx.nonneg hy)) R.η_nonneg⟩
  have h1 := R.mul y x
  have e : val y * val x = val y * (val x - ξ) + val y * ξ := by ring
  have h2 : |val y * val x| ≤ |val x - ξ| * |val y| + |val y| * X := by
    rw [e, mul_comm |val x - ξ|, ← abs_mul]; exact (abs_add_le _ _).trans (add_le_add le_rfl hS)
  have e2 : val (y * x) - val y * ξ = (val (y * x) - val y * val x) + val y * (val x - ξ) := by ring
  have h3 : |val (y * x) - val y * ξ| ≤ (u * |val y * val x| + η) + |val x - ξ| * |val y| := by
    rw [e2, mul_comm |val x - ξ|, ← abs_mul]; exact (abs_add_le _ _).trans (add_le_add h1 le_rfl)
  have h4 := mul_le_mul_of_nonneg_left h2 hu
  have h5 := mul_le_mul_of_nonneg_left (mul_le_mul_of_nonneg_right hx.err hy) (by linarith : 0 ≤ 1 + u)
  rw [pow_succ]
  linarith

omit [One T] in
/-- A further term of a long sum: `n` terms so far, each with an error `ε` besides the roundings. -/
theorem Near.subS {n : Nat} {x y : T} {ξ ζ X Y ε : K} (hε : 0 ≤ ε) (hx : Near val u (3 + n) ((n + 1) * ((1 + u) ^ n * ε)) x ξ X) (hy : Near val u 3 ε y ζ Y) :
    Near val u (3 + (n + 1)) (((n + 1 : ℕ) + 1) * ((1 + u) ^ (n + 1) * ε)) (x - y) (ξ - ζ) (X + Y) := by
  have hu := R.u_nonneg
  have h1 : (1 : K) ≤ (1 + u) ^ n := one_le_pow₀ (by linarith)
  refine (hx.sub R (hy.mono hu (by omega : 3 ≤ 3 + n) le_rfl le_rfl)).mono hu le_rfl ?_ le_rfl
  rw [pow_succ]
  push_cast
  have h2 : ε ≤ (1 + u) ^ n * ε := le_mul_of_one_le_left hε h1
  have := mul_le_mul_of_nonneg_left h2 (by linarith : 0 ≤ 1 + u)
  linarith

omit [One T] in
theorem Near.addS {n : Nat} {x y : T} {ξ ζ X Y ε : K} (hε : 0 ≤ ε) (hx : Near val u (3 + n) ((n + 1) * ((1 + u) ^ n * ε)) x ξ X) (hy : Near val u 3 ε y ζ Y) :
    Near val u (3 + (n + 1)) (((n + 1 : ℕ) + 1) * ((1 + u) ^ (n + 1) * ε)) (x + y) (ξ + ζ) (X + Y) := by
  have hu := R.u_nonneg
  have h1 : (1 : K) ≤ (1 + u) ^ n := one_le_pow₀ (by linarith)
  refine (hx.add R (hy.mono hu (by omega : 3 ≤ 3 + n) le_rfl le_rfl)).mono hu le_rfl ?_ le_rfl
  rw [pow_succ]
  push_cast
  have h2 : ε ≤ (1 + u) ^ n * ε := le_mul_of_one_le_left hε h1
  have := mul_le_mul_of_nonneg_left h2 (by linarith : 0 ≤ 1 + u)
  linarith

omit [One T] in
/-- A product of two numbers. -/
theorem Near.two (x y : T) : Near val u 1 η (x * y) (val x * val y) (|val x| * |val y|) := by
  have := (Near.exact (val := val) (u := u) x).mul R (y := y)
  simpa using this

variable [Neg T]

/-- C86, the part that holds for 2×2: two roundings relative to `|ad| + |bc|` (the permanent of the absolute values). Missing: the result need
not be zero exactly for the singular matrices. -/
theorem C86_two_partial (isz : T → Bool) {A : MB T} {M : Matrix (Fin 2) (Fin 2) T} (hA : A.Is M) :
    ∃ d, determinant isz A = .ok d ∧
      |val d - (M.map val).det| ≤ ((1 + u) ^ 2 - 1) * (M.map (|val ·|)).permanent + 2 * (1 + u) * η := by
  obtain ⟨e, h, rfl⟩ := hA
  refine ⟨_, determinant_closed isz h (by omega), ?_⟩
  have := ((Near.two R (e 0 0) (e 1 1)).sub R (Near.two R (e 0 1) (e 1 0))).err
  have hd := closedDet_eq (fun i j => val (e i j)) (N := 2) (by omega)
  rw [permanent_two, show (toM 2 2 e).map val = toM 2 2 fun i j => val (e i j) from rfl, ← hd,
    show 2 * (1 + u) * η = (1 + u) * (η + η) by ring]
  exact this

/-- C86, the part that holds for 3×3: five roundings. -/
theorem C86_three_partial (isz : T → Bool) {A : MB T} {M : Matrix (Fin 3) (Fin 3) T} (hA : A.Is M) {m : K} (hm : ∀ i j, |val (M i j)| ≤ m) :
    ∃ d, determinant isz A = .ok d ∧
      |val d - (M.map val).det| ≤ ((1 + u) ^ 5 - 1) * (M.map (|val ·|)).permanent + 3 * (1 + u) ^ 4 * (2 * m + 1) * η := by
  obtain ⟨e, h, rfl⟩ := hA
  refine ⟨_, determinant_closed isz h (by omega), ?_⟩
  have hu := R.u_nonneg
  have hη := R.η_nonneg
  have hm0 : 0 ≤ m := (abs_nonneg _).trans (hm 0 0)
  have t : ∀ (a b c d f : T), |val f| ≤ m → Near val u 3 ((1 + u) ^ 2 * (2 * m + 1) * η) (f * (a * b - c * d))
      (val f * (val a * val b - val c * val d)) (|val f| * (|val a| * |val b| + |val c| * |val d|)) := by
    intro a b c d f hf
    refine ((((Near.two R a b).sub R (Near.two R c d)).mul' R (y := f)).mono hu le_rfl ?_ le_rfl)
    have h1 := mul_le_mul_of_nonneg_left hf (mul_nonneg (mul_nonneg (by linarith : 0 ≤ 1 + u) (by linarith : 0 ≤ 1 + u)) (add_nonneg hη hη))
    have h2 : η ≤ (1 + u) ^ 2 * η := le_mul_of_one_le_left hη (one_le_pow₀ (by linarith))
    linarith
  have t0 := t (e 1 1) (e 2 2) (e 2 1) (e 1 2) (e 0 0) (hm 0 0)
  have t1 := t (e 1 0) (e 2 2) (e 1 2) (e 2 0) (e 0 1) (hm 0 1)
  have t2 := t (e 1 0) (e 2 1) (e 1 1) (e 2 0) (e 0 2) (hm 0 2)
  have := ((t0.sub R t1).add R (t2.mono hu (by omega : 3 ≤ 3 + 1) le_rfl le_rfl)).err
  have hd := closedDet_eq (fun i j => val (e i j)) (N := 3) (by omega)
  rw [permanent_three, show (toM 3 3 e).map val = toM 3 3 fun i j => val (e i j) from rfl, ← hd]
  refine this.trans (add_le_add le_rfl ?_)
  set q := (1 + u) ^ 2 * (2 * m + 1) * η
  have hq : 0 ≤ q := by positivity
  have e1 : 3 * (1 + u) ^ 4 * (2 * m + 1) * η = 3 * ((1 + u) ^ 2 * q) := by ring
  rw [e1]
  have h3 := mul_nonneg hu hq
  have h4 := mul_nonneg hu h3
  nlinarith

/-- C86, the part that holds for 4×4: 26 roundings. -/
theorem C86_four_partial (isz : T → Bool) {A : MB T} {M : Matrix (Fin 4) (Fin 4) T} (hA : A.Is M) {m : K} (hm : ∀ i j, |val (M i j)| ≤ m) :
    ∃ d, determinant isz A = .ok d ∧
      |val d - (M.map val).det| ≤ ((1 + u) ^ 26 - 1) * (M.map (|val ·|)).permanent + 24 * (1 + u) ^ 25 * (m ^ 2 + m + 1) * η := by
  obtain ⟨e, h, rfl⟩ := hA
  refine ⟨_, determinant_closed isz h (by omega), ?_⟩
  have hu := R.u_nonneg
  have hη := R.η_nonneg
  have hm0 : 0 ≤ m := (abs_nonneg _).trans (hm 0 0)
  have hm' : ∀ i j : Fin 4, |val (e i j)| ≤ m := hm
  generalize hεd : (1 + u) ^ 2 * (m ^ 2 + m + 1) * η = ε
  have hε : 0 ≤ ε := by rw [← hεd]; positivity
  have m4 : ∀ i j k l i' j' k' l' : Fin 4, Near val u 3 ε (e i j * e k l * e i' j' * e k' l')
      (val (e i j) * val (e k l) * val (e i' j') * val (e k' l'))
      (|val (e i j)| * |val (e k l)| * |val (e i' j')| * |val (e k' l')|) := by
    intro i j k l i' j' k' l'
    refine (((Near.two R (e i j) (e k l)).mul R (y := e i' j')).mul R (y := e k' l')).mono hu le_rfl ?_ le_rfl
    have h1 := hm' i' j'
    have h2 := hm' k' l'
    have h3 : η * |val (e i' j')| ≤ η * m := mul_le_mul_of_nonneg_left h1 hη
    have h4 : (1 + u) * (η * |val (e i' j')|) + η ≤ (1 + u) * (η * m) + (1 + u) * η := by
      have := mul_le_mul_of_nonneg_left h3 (by linarith : 0 ≤ 1 + u)
      have := mul_nonneg hu hη
      linarith
    have h5 : ((1 + u) * (η * |val (e i' j')|) + η) * |val (e k' l')| ≤ ((1 + u) * (η * m) + (1 + u) * η) * m :=
      mul_le_mul h4 h2 (abs_nonneg _) (by positivity)
    have h6 := mul_le_mul_of_nonneg_left h5 (by linarith : 0 ≤ 1 + u)
    have h7 : η ≤ (1 + u) ^ 2 * η := le_mul_of_one_le_left hη (one_le_pow₀ (by linarith))
    rw [← hεd]
    linarith
  have s1 : Near val u (3 + 0) (((0 : ℕ) + 1) * ((1 + u) ^ 0 * ε)) _ _ _ := (m4 0 3 1 2 2 1 3 0).mono hu le_rfl (by simp) le_rfl
  have s2 := s1.subS R hε (m4 0 2 1 3 2 1 3 0)
  have s3 := s2.subS R hε (m4 0 3 1 1 2 2 3 0)
  have s4 := s3.addS R hε (m4 0 1 1 3 2 2 3 0)
  have s5 := s4.addS R hε (m4 0 2 1 1 2 3 3 0)
  have s6 := s5.subS R hε (m4 0 1 1 2 2 3 3 0)
  have s7 := s6.subS R hε (m4 0 3 1 2 2 0 3 1)
  have s8 := s7.addS R hε (m4 0 2 1 3 2 0 3 1)
  have s9 := s8.addS R hε (m4 0 3 1 0 2 2 3 1)
  have s10 := s9.subS R hε (m4 0 0 1 3 2 2 3 1)
  have s11 := s10.subS R hε (m4 0 2 1 0 2 3 3 1)
  have s12 := s11.addS R hε (m4 0 0 1 2 2 3 3 1)
  have s13 := s12.addS R hε (m4 0 3 1 1 2 0 3 2)
  have s14 := s13.subS R hε (m4 0 1 1 3 2 0 3 2)
  have s15 := s14.subS R hε (m4 0 3 1 0 2 1 3 2)
  have s16 := s15.addS R hε (m4 0 0 1 3 2 1 3 2)
  have s17 := s16.addS R hε (m4 0 1 1 0 2 3 3 2)
  have s18 := s17.subS R hε (m4 0 0 1 1 2 3 3 2)
  have s19 := s18.subS R hε (m4 0 2 1 1 2 0 3 3)
  have s20 := s19.addS R hε (m4 0 1 1 2 2 0 3 3)
  have s21 := s20.addS R hε (m4 0 2 1 0 2 1 3 3)
  have s22 := s21.subS R hε (m4 0 0 1 2 2 1 3 3)
  have s23 := s22.subS R hε (m4 0 1 1 0 2 2 3 3)
  have s24 := s23.addS R hε (m4 0 0 1 1 2 2 3 3)
  have := s24.err
  have hd := closedDet_eq (fun i j => val (e i j)) (N := 4) (by omega)
  rw [permanent_four, show (toM 4 4 e).map val = toM 4 4 fun i j => val (e i j) from rfl, ← hd]
  have e1 : 24 * (1 + u) ^ 25 * (m ^ 2 + m + 1) * η = ((23 : ℕ) + 1) * ((1 + u) ^ 23 * ε) := by
    rw [← hεd]; push_cast; ring
  rw [e1]
  exact this

end

section
variable {K : Type} [Field K] [LinearOrder K] [IsStrictOrderedRing K] [FloorRing K] {p : ℕ} {emin : ℤ} (hp : 1 ≤ p)

include hp in
/-- C86: a singular 2×2 matrix gives exactly zero, and `inverse` reports it. -/
theorem C86_two_singular_partial {A : MB (Fl K p emin)} {M : Matrix (Fin 2) (Fin 2) (Fl K p emin)} (hA : A.Is M) (h0 : (M.map Fl.val).det = 0) :
    (∀ isz, determinant isz A = .ok 0) ∧ ∀ tol : Fl K p emin, |tol.val| ≤ 1 / 4 → inverse (Feq.approxZero Fl.abs tol) A = .ok Mat.empty0 := by
  obtain ⟨e, h, rfl⟩ := hA
  have hd : ∀ isz, determinant isz A = .ok 0 := by
    intro isz
    rw [determinant_closed isz h (by omega)]
    congr 1
    apply Fl.ext
    rw [Matrix.det_fin_two] at h0
    have h1 : (e 0 0).val * (e 1 1).val = (e 0 1).val * (e 1 0).val := sub_eq_zero.1 h0
    show rnd p emin (rnd p emin ((e 0 0).val * (e 1 1).val) - rnd p emin ((e 0 1).val * (e 1 0).val)) = 0
    rw [h1, sub_self]
    exact rnd_exact hp (isFl_zero p emin)
  refine ⟨hd, fun tol ht => ?_⟩
  unfold inverse
  rw [isSquare_eq h.toRepAt, beq_self_eq_true, Bool.not_true, if_neg Bool.false_ne_true, hd, Res.ok_bind,
    if_pos ((approxZero_fl hp ht _).2 rfl)]
  rfl

end

/-- C86 is false: a regular matrix is reported as singular. The determinant of `[1 + 2^-30, 1; 1, 1 - 2^-30]` is `-2^-60`; in `double`
the result is zero. -/
theorem C86_regular_false :
    (!![1 + 1 / 2 ^ 30, 1; 1, 1 - 1 / 2 ^ 30] : Matrix (Fin 2) (Fin 2) ℚ).det ≠ 0 ∧
    (⟨2, 2, doubles [1 + 1 / 2 ^ 30, 1, 1, 1 - 1 / 2 ^ 30]⟩ : Mat Double).data.map Fl.val = [1 + 1 / 2 ^ 30, 1, 1, 1 - 1 / 2 ^ 30] ∧
    determinant (Feq.approxZero Fl.abs doubleTol) (⟨2, 2, doubles [1 + 1 / 2 ^ 30, 1, 1, 1 - 1 / 2 ^ 30]⟩ : Mat Double).toMB = .ok 0 ∧
    inverse (Feq.approxZero Fl.abs doubleTol) (⟨2, 2, doubles [1 + 1 / 2 ^ 30, 1, 1, 1 - 1 / 2 ^ 30]⟩ : Mat Double).toMB = .ok Mat.empty0 := by
  refine ⟨?_, ?_, ?_, ?_⟩ <;> decide +kernel

/-- C86 is false: a singular integer matrix (the last row is the sum of the others) has the determinant `-64` in `double`, and `inverse`
returns a matrix for it. -/
theorem C86_singular_false :
    (!![140892, 596854, 888599; 841236, 800876, 66173; 982128, 1397730, 954772] : Matrix (Fin 3) (Fin 3) ℤ).det = 0 ∧
    determinant (Feq.approxZero Fl.abs doubleTol)
      (⟨3, 3, doubles [140892, 596854, 888599, 841236, 800876, 66173, 982128, 1397730, 954772]⟩ : Mat Double).toMB =
        .ok (Fl.of 53 (-1074) (-64)) ∧
    ∃ B : Mat Double, B.rows = 3 ∧ inverse (Feq.approxZero Fl.abs doubleTol)
      (⟨3, 3, doubles [140892, 596854, 888599, 841236, 800876, 66173, 982128, 1397730, 954772]⟩ : Mat Double).toMB = .ok B := by
  have key : ∀ r : Res (Mat Double), (match r with | .ok B => decide (B.rows = 3) | _ => false) = true → ∃ B : Mat Double, B.rows = 3 ∧ r = .ok B := by
    intro r h
    match r, h with
    | .ok B, h => exact ⟨B, of_decide_eq_true h, rfl⟩
  exact ⟨by decide +kernel, by decide +kernel, key _ (by decide +kernel)⟩

end Malg
