import Verif.Props.Arith
import Verif.Props.Linalg
import Verif.Props.Reduce
import Verif.Props.VecOps
import Verif.Props.Det
import Verif.Props.Qr
import Mathlib.Algebra.Order.BigOperators.Ring.Finset
/-!
# C106: the norms are norms

Exact arithmetic over an ordered field with an exact square root. `square_norm` of a matrix is the Frobenius norm, of a vector the
Euclidean norm; `infinity_norm` of a matrix is the largest sum of a row, of a vector the largest absolute value.
-/
namespace Malg
open Ops Lin

section
variable {K : Type} [Field K] [LinearOrder K] [IsStrictOrderedRing K] {sqrt : K → K}

/-! ## Sums of squares -/

/-- The square root is monotone. -/
theorem Sqrt.le_of_sq (hs : Sqrt sqrt) {x y : K} (hx : 0 ≤ x) (hy : 0 ≤ y) (h : x ≤ y * y) : sqrt x ≤ y := by
  obtain ⟨h1, h2⟩ := hs x hx
  exact le_of_not_gt fun h3 => absurd (mul_self_lt_mul_self hy h3) (by rw [h2]; exact not_lt.2 h)

theorem Sqrt.le_sqrt (hs : Sqrt sqrt) {x y : K} (hy : 0 ≤ y) (h : x * x ≤ y) : x ≤ sqrt y := by
  obtain ⟨h1, h2⟩ := hs y hy
  exact le_of_not_gt fun h3 => absurd (mul_self_lt_mul_self h1 h3) (by rw [h2]; exact not_lt.2 h)

theorem Sqrt.eq_of_sq (hs : Sqrt sqrt) {x y : K} (hy : 0 ≤ y) (h : y * y = x) : sqrt x = y := by
  have hx : 0 ≤ x := h ▸ mul_self_nonneg y
  exact le_antisymm (hs.le_of_sq hx hy h.ge) (hs.le_sqrt hx h.le)

theorem Sqrt.mono (hs : Sqrt sqrt) {x y : K} (hx : 0 ≤ x) (h : x ≤ y) : sqrt x ≤ sqrt y :=
  hs.le_of_sq hx (hs y (hx.trans h)).1 (h.trans (hs y (hx.trans h)).2.ge)

theorem Sqrt.mul (hs : Sqrt sqrt) {x y : K} (hx : 0 ≤ x) (hy : 0 ≤ y) : sqrt (x * y) = sqrt x * sqrt y :=
  hs.eq_of_sq (mul_nonneg (hs x hx).1 (hs y hy).1) (by rw [mul_mul_mul_comm, (hs x hx).2, (hs y hy).2])

variable {ι : Type} [Fintype ι]

theorem sumsq_nonneg (f : ι → K) : 0 ≤ ∑ i, f i * f i := Finset.sum_nonneg fun _ _ => mul_self_nonneg _

theorem sqrt_sumsq_eq_zero (hs : Sqrt sqrt) (f : ι → K) : sqrt (∑ i, f i * f i) = 0 ↔ ∀ i, f i = 0 := by
  constructor
  · intro h i
    have h1 := (hs _ (sumsq_nonneg f)).2
    rw [h, mul_zero] at h1
    have := (Finset.sum_eq_zero_iff_of_nonneg (fun i _ => mul_self_nonneg (f i))).1 h1.symm i (Finset.mem_univ _)
    exact mul_self_eq_zero.1 this
  · intro h
    exact hs.eq_of_sq le_rfl (by rw [mul_zero, Finset.sum_eq_zero fun i _ => by rw [h i, mul_zero]])

theorem sqrt_sumsq_scale (hs : Sqrt sqrt) (b : K) (f : ι → K) : sqrt (∑ i, b * f i * (b * f i)) = |b| * sqrt (∑ i, f i * f i) := by
  apply hs.eq_of_sq (mul_nonneg (abs_nonneg _) (hs _ (sumsq_nonneg f)).1)
  rw [mul_mul_mul_comm, (hs _ (sumsq_nonneg f)).2, abs_mul_abs_self, Finset.mul_sum]
  exact Finset.sum_congr rfl fun i _ => by ring

/-- Cauchy and Schwarz. -/
theorem abs_sum_mul_le (hs : Sqrt sqrt) (f g : ι → K) :
    |∑ i, f i * g i| ≤ sqrt (∑ i, f i * f i) * sqrt (∑ i, g i * g i) := by
  rw [← hs.mul (sumsq_nonneg f) (sumsq_nonneg g)]
  apply hs.le_sqrt (mul_nonneg (sumsq_nonneg f) (sumsq_nonneg g))
  rw [abs_mul_abs_self]
  have := Finset.sum_mul_sq_le_sq_mul_sq Finset.univ f g
  simpa only [sq] using this

/-- The triangle inequality. -/
theorem sqrt_sumsq_add (hs : Sqrt sqrt) (f g : ι → K) :
    sqrt (∑ i, (f i + g i) * (f i + g i)) ≤ sqrt (∑ i, f i * f i) + sqrt (∑ i, g i * g i) := by
  apply hs.le_of_sq (sumsq_nonneg _) (add_nonneg (hs _ (sumsq_nonneg f)).1 (hs _ (sumsq_nonneg g)).1)
  have h := (le_abs_self _).trans (abs_sum_mul_le hs f g)
  have e : ∑ i, (f i + g i) * (f i + g i) = ∑ i, f i * f i + 2 * ∑ i, f i * g i + ∑ i, g i * g i := by
    rw [Finset.mul_sum, ← Finset.sum_add_distrib, ← Finset.sum_add_distrib]
    exact Finset.sum_congr rfl fun i _ => by ring
  have h1 := (hs _ (sumsq_nonneg f)).2
  have h2 := (hs _ (sumsq_nonneg g)).2
  rw [e]
  nlinarith

omit [IsStrictOrderedRing K] in
/-- The sum over the rows and columns as a sum over pairs. -/
theorem squareNorm_is (sqrt : K → K) {A : MB K} {n m : Nat} {M : Matrix (Fin n) (Fin m) K} (hA : A.Is M) :
    squareNorm sqrt A = .ok (sqrt (∑ p : Fin n × Fin m, M p.1 p.2 * M p.1 p.2)) := by
  obtain ⟨e, h, rfl⟩ := hA
  rw [(C44_square_norm sqrt (v := []) (p := 0) (f := fun _ => 0) ⟨by rw [allocMax_eq]; decide, rfl, fun _ h => by omega⟩ h.toRepAt).2,
    Fintype.sum_prod_type]
  rfl

omit [LinearOrder K] [IsStrictOrderedRing K] in
theorem squareNormVec_is (sqrt : K → K) {v : List K} {n : Nat} {f} (hv : VRep v n f) :
    squareNormVec sqrt v = .ok (sqrt (∑ i : Fin n, f i * f i)) := by
  unfold squareNormVec
  rw [hv.2.1, accum_eq (g := fun i => f i * f i) (fun i acc hi => by rw [hv.get hi]; rfl), lsum_eq_sum]; rfl

theorem ReturnsVec.rep {T : Type} {x : Res (List T)} {n : Nat} {f} (hn : n < allocMax) (h : ReturnsVec x n f) : ∃ v, x = .ok v ∧ VRep v n f := by
  obtain ⟨v, h1, h2, h3⟩ := h
  exact ⟨v, h1, hn, h2, h3⟩

/-! ## The Frobenius norm -/

/-- C106: `square_norm` of matrices, also of views: it is not negative and zero only for the zero matrix; it is scaled by `|b|` when
the matrix is scaled by `b`; that of a sum is at most the sum and that of a difference at least the difference; the transpose has the
same. -/
theorem C106_frobenius (hs : Sqrt sqrt) {A B : MB K} {n m : Nat} {M N : Matrix (Fin n) (Fin m) K} (hA : A.Is M) (hB : B.Is N) (b : K) :
    ∃ x y, squareNorm sqrt A = .ok x ∧ squareNorm sqrt B = .ok y ∧ 0 ≤ x ∧ (x = 0 ↔ M = 0) ∧
      (∃ z, (add A B >>= fun X => squareNorm sqrt X.toMB) = .ok z ∧ z ≤ x + y) ∧
      (∃ z, (sub A B >>= fun X => squareNorm sqrt X.toMB) = .ok z ∧ |x - y| ≤ z) ∧
      (mulS A b >>= fun X => squareNorm sqrt X.toMB) = .ok (|b| * x) ∧
      (transpose A >>= fun X => squareNorm sqrt X.toMB) = .ok x := by
  obtain ⟨⟨S, s1, -, s2⟩, ⟨D, d1, -, d2⟩, -⟩ := C33_matrix hA hB b
  obtain ⟨⟨P, p1, -, p2⟩, -, -⟩ := C33_field hA b
  obtain ⟨T, t1, -, t2⟩ := C48_matrix hA
  refine ⟨_, _, squareNorm_is sqrt hA, squareNorm_is sqrt hB, (hs _ (sumsq_nonneg _)).1, ?_, ?_, ?_, ?_, ?_⟩
  · rw [sqrt_sumsq_eq_zero hs]
    exact ⟨fun h => by ext i j; exact h (i, j), fun h p => by rw [h]; rfl⟩
  · refine ⟨_, by rw [s1, Res.ok_bind]; exact squareNorm_is sqrt s2, ?_⟩
    exact sqrt_sumsq_add hs (fun p : Fin n × Fin m => M p.1 p.2) fun p => N p.1 p.2
  · refine ⟨_, by rw [d1, Res.ok_bind]; exact squareNorm_is sqrt d2, ?_⟩
    have h1 := sqrt_sumsq_add hs (fun p : Fin n × Fin m => (M - N) p.1 p.2) fun p => N p.1 p.2
    have h2 := sqrt_sumsq_add hs (fun p : Fin n × Fin m => M p.1 p.2) fun p => -(M - N) p.1 p.2
    simp only [Matrix.sub_apply, sub_add_cancel, neg_mul_neg] at h1 h2 ⊢
    simp only [neg_sub, add_sub_cancel] at h2
    rw [abs_le]
    constructor <;> linarith
  · rw [p1, Res.ok_bind, squareNorm_is sqrt p2]
    exact congrArg _ (sqrt_sumsq_scale hs b fun p : Fin n × Fin m => M p.1 p.2)
  · rw [t1, Res.ok_bind, squareNorm_is sqrt t2]
    congr 2
    exact Fintype.sum_equiv (Equiv.prodComm _ _) _ _ fun p => rfl

/-- C106: `square_norm` of a product is at most the product, and multiplying by a matrix with orthonormal columns does not change it. -/
theorem C106_frobenius_product (hs : Sqrt sqrt) {A B : MB K} {n k m : Nat} {M : Matrix (Fin n) (Fin k) K} {N : Matrix (Fin k) (Fin m) K}
    (hA : A.Is M) (hB : B.Is N) (hf : Fits n m) :
    ∃ x y z, squareNorm sqrt A = .ok x ∧ squareNorm sqrt B = .ok y ∧ (mul A B >>= fun X => squareNorm sqrt X.toMB) = .ok z ∧
      z ≤ x * y ∧ (M.transpose * M = 1 → z = y) := by
  obtain ⟨P, p1, -, p2⟩ := C35_product hA hB hf
  refine ⟨_, _, _, squareNorm_is sqrt hA, squareNorm_is sqrt hB, by rw [p1, Res.ok_bind]; exact squareNorm_is sqrt p2, ?_, fun h => ?_⟩
  · rw [← hs.mul (sumsq_nonneg _) (sumsq_nonneg _)]
    apply hs.mono (sumsq_nonneg _)
    rw [Fintype.sum_prod_type, Fintype.sum_prod_type, Fintype.sum_prod_type_right, Finset.sum_mul_sum]
    refine Finset.sum_le_sum fun i _ => Finset.sum_le_sum fun j _ => ?_
    have := Finset.sum_mul_sq_le_sq_mul_sq Finset.univ (fun l => M i l) fun l => N l j
    simpa only [sq, Matrix.mul_apply] using this
  · congr 1
    rw [Fintype.sum_prod_type_right, Fintype.sum_prod_type_right]
    have e : ∀ (p : Nat) (X : Matrix (Fin p) (Fin m) K), ∑ j, ∑ i, X i j * X i j = (X.transpose * X).trace := by
      intro p X; rfl
    show ∑ j, ∑ i, (M * N) i j * (M * N) i j = ∑ j, ∑ i, N i j * N i j
    rw [e, e, Matrix.transpose_mul, Matrix.mul_assoc, ← Matrix.mul_assoc M.transpose, h, Matrix.one_mul]

/-! ## The Euclidean norm -/

/-- C106: `square_norm` of vectors: the same laws, and `dot` is bounded by the product. -/
theorem C106_euclid (hs : Sqrt sqrt) {v w : List K} {n : Nat} {f g : Nat → K} (hv : VRep v n f) (hw : VRep w n g) (b : K) :
    ∃ x y d, squareNormVec sqrt v = .ok x ∧ squareNormVec sqrt w = .ok y ∧ dot v w = .ok d ∧ 0 ≤ x ∧ (x = 0 ↔ ∀ i, i < n → f i = 0) ∧
      |d| ≤ x * y ∧ dot v v = .ok (x * x) ∧
      (∃ z, (vadd v w >>= squareNormVec sqrt) = .ok z ∧ z ≤ x + y) ∧
      (∃ z, (vsub v w >>= squareNormVec sqrt) = .ok z ∧ |x - y| ≤ z) ∧
      (vmulS v b >>= squareNormVec sqrt) = .ok (|b| * x) := by
  obtain ⟨S, s1, s2⟩ := (C38_zip hv hw).1.rep hv.1
  obtain ⟨D, d1, d2⟩ := (C38_zip hv hw).2.1.rep hv.1
  obtain ⟨P, p1, p2⟩ := (C38_scalar hv b).2.2.1.rep hv.1
  refine ⟨_, _, _, squareNormVec_is sqrt hv, squareNormVec_is sqrt hw, C38_dot_sum hv hw, (hs _ (sumsq_nonneg _)).1, ?_, ?_, ?_, ?_, ?_, ?_⟩
  · rw [sqrt_sumsq_eq_zero hs (fun i : Fin n => f i)]
    exact ⟨fun h i hi => h ⟨i, hi⟩, fun h i => h i i.2⟩
  · exact abs_sum_mul_le hs (fun i : Fin n => f i) fun i => g i
  · rw [(hs _ (sumsq_nonneg _)).2, C38_dot_sum hv hv]
  · exact ⟨_, by rw [s1, Res.ok_bind]; exact squareNormVec_is sqrt s2, sqrt_sumsq_add hs (fun i : Fin n => f i) fun i => g i⟩
  · refine ⟨_, by rw [d1, Res.ok_bind]; exact squareNormVec_is sqrt d2, ?_⟩
    have h1 := sqrt_sumsq_add hs (fun i : Fin n => f i - g i) fun i => g i
    have h2 := sqrt_sumsq_add hs (fun i : Fin n => f i) fun i => -(f i - g i)
    simp only [sub_add_cancel, neg_mul_neg] at h1 h2 ⊢
    simp only [neg_sub, add_sub_cancel] at h2
    rw [abs_le]
    constructor <;> linarith
  · rw [p1, Res.ok_bind, squareNormVec_is sqrt p2, ← sqrt_sumsq_scale hs b fun i : Fin n => f i]
    simp only [mul_comm b]

/-- C106: `A * x` is at most as long as the Frobenius norm of `A` times the length of `x`. -/
theorem C106_apply (hs : Sqrt sqrt) {A : MB K} {n m : Nat} {M : Matrix (Fin n) (Fin m) K} (hA : A.Is M) {v : List K} {f} (hv : VRep v m f)
    (hn : n < allocMax) :
    ∃ x y z, squareNorm sqrt A = .ok x ∧ squareNormVec sqrt v = .ok y ∧ (mulVec A v >>= squareNormVec sqrt) = .ok z ∧ z ≤ x * y := by
  obtain ⟨w, hw, -, hw1, hw2⟩ := C37_matrix_partial hA hv hn
  have hw3 : VRep w n fun i => if h : i < n then M.mulVec (toV m f) ⟨i, h⟩ else 0 :=
    ⟨hn, hw1, fun i hi => by dsimp only; rw [dif_pos hi]; exact hw2 ⟨i, hi⟩⟩
  refine ⟨_, _, _, squareNorm_is sqrt hA, squareNormVec_is sqrt hv, by rw [hw, Res.ok_bind]; exact squareNormVec_is sqrt hw3, ?_⟩
  rw [← hs.mul (sumsq_nonneg _) (sumsq_nonneg _)]
  apply hs.mono (sumsq_nonneg _)
  rw [Fintype.sum_prod_type, Finset.sum_mul]
  refine Finset.sum_le_sum fun i _ => ?_
  rw [dif_pos i.2]
  have := Finset.sum_mul_sq_le_sq_mul_sq Finset.univ (fun l => M i l) (toV m f)
  simpa only [sq, Matrix.mulVec, dotProduct, toV] using this

/-! ## The infinity norms -/

theorem abs_mulVec_le {n m : Nat} (M : Matrix (Fin n) (Fin m) K) (v : Fin m → K) (i : Fin n) :
    |M.mulVec v i| ≤ ∑ j, |M i j| * |v j| := by
  rw [Matrix.mulVec, dotProduct]
  exact (Finset.abs_sum_le_sum_abs _ _).trans (Finset.sum_le_sum fun l _ => (abs_mul _ _).le)

/-- `infinity_norm` of a matrix is the least number that is not negative and not below the sum of a row. -/
theorem infNorm_is {A : Mat K} (hw : A.WF) {n m : Nat} {M : Matrix (Fin n) (Fin m) K} (hA : A.toMB.Is M) :
    ∃ x, infNorm (|·|) A.toMB = .ok x ∧ 0 ≤ x ∧ (∀ i, ∑ j, |M i j| ≤ x) ∧ ∀ y, 0 ≤ y → (∀ i, ∑ j, |M i j| ≤ y) → x ≤ y := by
  obtain ⟨e, h, rfl⟩ := hA
  obtain ⟨h1, h2⟩ := C44_inf_matrix_partial (K := K) (abs := (|·|)) abs_nonneg (A := A) (n := n) (m := m) (e := e) ⟨hw, h⟩
  by_cases h0 : n = 0 ∨ m = 0
  · refine ⟨0, h1 h0, le_rfl, fun i => ?_, fun y hy _ => hy⟩
    rcases h0 with rfl | rfl
    · exact i.elim0
    · simp
  · obtain ⟨x, hx, ⟨i, hi, hxi⟩, h3⟩ := h2 (by omega) (by omega)
    have h3' : ∀ i : Fin n, ∑ j, |toM n m e i j| ≤ x := fun i => h3 i i.2
    refine ⟨x, hx, ?_, h3', fun y _ hy => ?_⟩
    · rw [hxi]; exact Finset.sum_nonneg fun _ _ => abs_nonneg _
    · rw [hxi]; exact hy ⟨i, hi⟩

/-- The same for a vector. -/
theorem infNormVec_is {v : List K} {n : Nat} {f} (hv : VRep v n f) :
    ∃ x, infNormVec (|·|) v = .ok x ∧ 0 ≤ x ∧ (∀ i, i < n → |f i| ≤ x) ∧ ∀ y, 0 ≤ y → (∀ i, i < n → |f i| ≤ y) → x ≤ y := by
  obtain ⟨h1, h2⟩ := C44_inf_vector hv
  by_cases h0 : n = 0
  · exact ⟨0, h1 h0, le_rfl, fun i hi => by omega, fun y hy _ => hy⟩
  · obtain ⟨x, hx, ⟨i, hi, hxi⟩, h3⟩ := h2 (by omega)
    exact ⟨x, hx, hxi ▸ abs_nonneg _, h3, fun y _ hy => hxi ▸ hy i hi⟩

/-- C106 (partial): `infinity_norm` of `Matrix` objects obeys the laws of a norm. Missing: views, see `C106_view_false`. -/
theorem C106_infinity_partial {A B : Mat K} (hwA : A.WF) (hwB : B.WF) {n m : Nat} {M N : Matrix (Fin n) (Fin m) K} (hA : A.toMB.Is M)
    (hB : B.toMB.Is N) (b : K) :
    ∃ x y, infNorm (|·|) A.toMB = .ok x ∧ infNorm (|·|) B.toMB = .ok y ∧ 0 ≤ x ∧ (x = 0 ↔ M = 0) ∧
      (∃ z, (add A.toMB B.toMB >>= fun X => infNorm (|·|) X.toMB) = .ok z ∧ z ≤ x + y) ∧
      (∃ z, (sub A.toMB B.toMB >>= fun X => infNorm (|·|) X.toMB) = .ok z ∧ |x - y| ≤ z) ∧
      (mulS A.toMB b >>= fun X => infNorm (|·|) X.toMB) = .ok (|b| * x) := by
  obtain ⟨⟨S, s1, sw, s2⟩, ⟨D, d1, dw, d2⟩, -⟩ := C33_matrix hA hB b
  obtain ⟨⟨P, p1, pw, p2⟩, -, -⟩ := C33_field hA b
  obtain ⟨x, hx, x0, x1, x2⟩ := infNorm_is hwA hA
  obtain ⟨y, hy, y0, y1, y2⟩ := infNorm_is hwB hB
  obtain ⟨s, hs, s0, s3, s4⟩ := infNorm_is sw s2
  obtain ⟨d, hd, d0, d3, d4⟩ := infNorm_is dw d2
  obtain ⟨p, hp, p0, p3, p4⟩ := infNorm_is pw p2
  refine ⟨x, y, hx, hy, x0, ⟨fun h => ?_, fun h => ?_⟩, ⟨s, by rw [s1, Res.ok_bind, hs], ?_⟩, ⟨d, by rw [d1, Res.ok_bind, hd], ?_⟩, ?_⟩
  · ext i j
    have h1 := x1 i
    rw [h] at h1
    have h2 := Finset.single_le_sum (f := fun j => |M i j|) (fun _ _ => abs_nonneg _) (Finset.mem_univ j)
    exact abs_eq_zero.1 (le_antisymm (h2.trans h1) (abs_nonneg _))
  · refine le_antisymm (x2 0 le_rfl fun i => ?_) x0
    rw [h]; simp
  · refine s4 _ (add_nonneg x0 y0) fun i => ?_
    refine (Finset.sum_le_sum fun j _ => abs_add_le (M i j) (N i j)).trans ?_
    rw [Finset.sum_add_distrib]
    exact add_le_add (x1 i) (y1 i)
  · rw [abs_le]
    constructor
    · have : y ≤ d + x := y2 _ (add_nonneg d0 x0) fun i => by
        refine le_trans ?_ (add_le_add (d3 i) (x1 i))
        rw [← Finset.sum_add_distrib]
        refine Finset.sum_le_sum fun j _ => ?_
        have := abs_sub_le (N i j) (M i j) 0
        rwa [sub_zero, sub_zero, abs_sub_comm (N i j)] at this
      linarith
    · have : x ≤ d + y := x2 _ (add_nonneg d0 y0) fun i => by
        refine le_trans ?_ (add_le_add (d3 i) (y1 i))
        rw [← Finset.sum_add_distrib]
        refine Finset.sum_le_sum fun j _ => ?_
        have := abs_sub_le (M i j) (N i j) 0
        rwa [sub_zero, sub_zero] at this
      linarith
  · have e : ∀ i, ∑ j, |(b • M) i j| = |b| * ∑ j, |M i j| := fun i => by
      rw [Finset.mul_sum]; exact Finset.sum_congr rfl fun j _ => abs_mul _ _
    rw [p1, Res.ok_bind, hp]
    congr 1
    apply le_antisymm
    · exact p4 _ (mul_nonneg (abs_nonneg _) x0) fun i => by rw [e]; exact mul_le_mul_of_nonneg_left (x1 i) (abs_nonneg _)
    · by_cases hb : b = 0
      · rw [hb, abs_zero, zero_mul]; exact p0
      · have hb' := abs_pos.2 hb
        rw [mul_comm, ← le_div_iff₀ hb']
        refine x2 _ (div_nonneg p0 hb'.le) fun i => ?_
        rw [le_div_iff₀ hb', mul_comm, ← e]
        exact p3 i

/-- C106: `infinity_norm` of vectors obeys the laws of a norm. -/
theorem C106_infinity_vector {v w : List K} {n : Nat} {f g : Nat → K} (hv : VRep v n f) (hw : VRep w n g) (b : K) :
    ∃ x y, infNormVec (|·|) v = .ok x ∧ infNormVec (|·|) w = .ok y ∧ 0 ≤ x ∧ (x = 0 ↔ ∀ i, i < n → f i = 0) ∧
      (∃ z, (vadd v w >>= infNormVec (|·|)) = .ok z ∧ z ≤ x + y) ∧
      (∃ z, (vsub v w >>= infNormVec (|·|)) = .ok z ∧ |x - y| ≤ z) ∧
      (vmulS v b >>= infNormVec (|·|)) = .ok (|b| * x) := by
  obtain ⟨S, s1, s2⟩ := (C38_zip hv hw).1.rep hv.1
  obtain ⟨D, d1, d2⟩ := (C38_zip hv hw).2.1.rep hv.1
  obtain ⟨P, p1, p2⟩ := (C38_scalar hv b).2.2.1.rep hv.1
  obtain ⟨d, hd, d0, d3, d4⟩ := infNormVec_is d2
  obtain ⟨x, hx, x0, x1, x2⟩ := infNormVec_is hv
  obtain ⟨y, hy, y0, y1, y2⟩ := infNormVec_is hw
  obtain ⟨s, hs, s0, s3, s4⟩ := infNormVec_is s2
  obtain ⟨p, hp, p0, p3, p4⟩ := infNormVec_is p2
  refine ⟨x, y, hx, hy, x0, ⟨fun h i hi => ?_, fun h => ?_⟩, ⟨s, by rw [s1, Res.ok_bind, hs], ?_⟩, ⟨d, by rw [d1, Res.ok_bind, hd], ?_⟩, ?_⟩
  · exact abs_eq_zero.1 (le_antisymm (h ▸ x1 i hi) (abs_nonneg _))
  · exact le_antisymm (x2 0 le_rfl fun i hi => by rw [h i hi, abs_zero]) x0
  · exact s4 _ (add_nonneg x0 y0) fun i hi => (abs_add_le _ _).trans (add_le_add (x1 i hi) (y1 i hi))
  · have h1 : x ≤ d + y := x2 _ (add_nonneg d0 y0) fun i hi => by
      have := abs_add_le (f i - g i) (g i)
      rw [sub_add_cancel] at this
      exact this.trans (add_le_add (d3 i hi) (y1 i hi))
    have h2 : y ≤ d + x := y2 _ (add_nonneg d0 x0) fun i hi => by
      have := abs_add_le (g i - f i) (f i)
      rw [sub_add_cancel, abs_sub_comm] at this
      exact this.trans (add_le_add (d3 i hi) (x1 i hi))
    rw [abs_le]
    constructor <;> linarith
  · rw [p1, Res.ok_bind, hp]
    congr 1
    apply le_antisymm
    · refine p4 _ (mul_nonneg (abs_nonneg _) x0) fun i hi => ?_
      rw [abs_mul, mul_comm]; exact mul_le_mul_of_nonneg_left (x1 i hi) (abs_nonneg _)
    · by_cases hb : b = 0
      · rw [hb, abs_zero, zero_mul]; exact p0
      · have hb' := abs_pos.2 hb
        rw [mul_comm, ← le_div_iff₀ hb']
        refine x2 _ (div_nonneg p0 hb'.le) fun i hi => ?_
        rw [le_div_iff₀ hb', ← abs_mul]
        exact p3 i hi

/-- C106 (partial): `infinity_norm` of a product of `Matrix` objects is at most the product. -/
theorem C106_infinity_product_partial {A B : Mat K} (hwA : A.WF) (hwB : B.WF) {n k m : Nat} {M : Matrix (Fin n) (Fin k) K}
    {N : Matrix (Fin k) (Fin m) K} (hA : A.toMB.Is M) (hB : B.toMB.Is N) (hf : Fits n m) :
    ∃ x y z, infNorm (|·|) A.toMB = .ok x ∧ infNorm (|·|) B.toMB = .ok y ∧ (mul A.toMB B.toMB >>= fun X => infNorm (|·|) X.toMB) = .ok z ∧
      z ≤ x * y := by
  obtain ⟨P, p1, pw, p2⟩ := C35_product hA hB hf
  obtain ⟨x, hx, x0, x1, x2⟩ := infNorm_is hwA hA
  obtain ⟨y, hy, y0, y1, y2⟩ := infNorm_is hwB hB
  obtain ⟨p, hp, p0, p3, p4⟩ := infNorm_is pw p2
  refine ⟨x, y, p, hx, hy, by rw [p1, Res.ok_bind, hp], p4 _ (mul_nonneg x0 y0) fun i => ?_⟩
  calc ∑ j, |(M * N) i j| ≤ ∑ j, ∑ l, |M i l| * |N l j| := Finset.sum_le_sum fun j _ => by
        rw [Matrix.mul_apply]
        exact (Finset.abs_sum_le_sum_abs _ _).trans (Finset.sum_le_sum fun l _ => (abs_mul _ _).le)
    _ = ∑ l, |M i l| * ∑ j, |N l j| := by rw [Finset.sum_comm]; simp only [Finset.mul_sum]
    _ ≤ ∑ l, |M i l| * y := Finset.sum_le_sum fun l _ => mul_le_mul_of_nonneg_left (y1 l) (abs_nonneg _)
    _ = (∑ l, |M i l|) * y := (Finset.sum_mul _ _ _).symm
    _ ≤ x * y := mul_le_mul_of_nonneg_right (x1 i) y0

/-- C106 (partial): it is the norm that belongs to that of vectors: no vector is stretched by more, and some vector by as much. -/
theorem C106_induced_partial {A : Mat K} (hwA : A.WF) {n m : Nat} {M : Matrix (Fin n) (Fin m) K} (hA : A.toMB.Is M) (hn : n < allocMax)
    (hm : m < allocMax) :
    ∃ x, infNorm (|·|) A.toMB = .ok x ∧
      (∀ v f, VRep v m f → ∃ y z, infNormVec (|·|) v = .ok y ∧ (mulVec A.toMB v >>= infNormVec (|·|)) = .ok z ∧ z ≤ x * y) ∧
      (0 < m → ∃ v f, VRep v m f ∧ infNormVec (|·|) v = .ok 1 ∧ (mulVec A.toMB v >>= infNormVec (|·|)) = .ok x) := by
  obtain ⟨x, hx, x0, x1, x2⟩ := infNorm_is hwA hA
  have key : ∀ v f, VRep v m f → ∃ y z, infNormVec (|·|) v = .ok y ∧ (mulVec A.toMB v >>= infNormVec (|·|)) = .ok z ∧ z ≤ x * y ∧
      ∀ i, |M.mulVec (toV m f) i| ≤ z := by
    intro v f hv
    obtain ⟨y, hy, y0, y1, y2⟩ := infNormVec_is hv
    obtain ⟨w, hw, -, hw1, hw2⟩ := C37_matrix_partial hA hv hn
    have hw3 : VRep w n fun i => if h : i < n then M.mulVec (toV m f) ⟨i, h⟩ else 0 :=
      ⟨hn, hw1, fun i hi => by dsimp only; rw [dif_pos hi]; exact hw2 ⟨i, hi⟩⟩
    obtain ⟨z, hz, z0, z1, z2⟩ := infNormVec_is hw3
    refine ⟨y, z, hy, by rw [hw, Res.ok_bind, hz], z2 _ (mul_nonneg x0 y0) fun i hi => ?_, fun i => ?_⟩
    · rw [dif_pos hi]
      calc |M.mulVec (toV m f) ⟨i, hi⟩| ≤ ∑ j, |M ⟨i, hi⟩ j| * |toV m f j| := abs_mulVec_le _ _ _
        _ ≤ ∑ j, |M ⟨i, hi⟩ j| * y := Finset.sum_le_sum fun l _ => mul_le_mul_of_nonneg_left (y1 l l.2) (abs_nonneg _)
        _ ≤ x * y := by rw [← Finset.sum_mul]; exact mul_le_mul_of_nonneg_right (x1 _) y0
    · have := z1 i i.2; rwa [dif_pos i.2] at this
  refine ⟨x, hx, fun v f hv => ?_, fun h0 => ?_⟩
  · obtain ⟨y, z, h1, h2, h3, -⟩ := key v f hv; exact ⟨y, z, h1, h2, h3⟩
  · have : x = 0 ∨ ∃ i, x = ∑ j, |M i j| := by
      rcases Nat.eq_zero_or_pos n with rfl | hn0
      · exact Or.inl (le_antisymm (x2 0 le_rfl fun i => i.elim0) x0)
      · have : Nonempty (Fin n) := ⟨⟨0, hn0⟩⟩
        obtain ⟨i, -, hi⟩ := Finset.exists_max_image Finset.univ (fun i => ∑ j, |M i j|) Finset.univ_nonempty
        exact Or.inr ⟨i, le_antisymm (x2 _ (Finset.sum_nonneg fun _ _ => abs_nonneg _) fun i' => hi i' (Finset.mem_univ _)) (x1 i)⟩
    let σ : Nat → K := fun j => if h : (∃ i, x = ∑ j, |M i j|) ∧ j < m then (if 0 ≤ M h.1.choose ⟨j, h.2⟩ then 1 else -1) else 1
    have hσ : ∀ j, |σ j| = 1 := by
      intro j
      simp only [σ]
      split_ifs <;> simp
    have hv : VRep ((List.range m).map σ) m σ := ⟨hm, by simp, fun i hi => by simp [hi]⟩
    obtain ⟨y, z, h1, h2, h3, h4⟩ := key _ σ hv
    obtain ⟨y', hy', y0, y1, y2⟩ := infNormVec_is hv
    have e : y' = y := by rw [hy'] at h1; exact Res.ok.inj h1
    subst e
    have hy1 : y' = 1 := le_antisymm (y2 1 zero_le_one fun i _ => (hσ i).le) (by rw [← hσ 0]; exact y1 0 h0)
    refine ⟨_, σ, hv, by rw [hy', hy1], ?_⟩
    rw [h2]
    congr 1
    rw [hy1, mul_one] at h3
    refine le_antisymm h3 ?_
    by_cases hi : ∃ i, x = ∑ j, |M i j|
    · refine le_trans (le_of_eq ?_) ((le_abs_self _).trans (h4 hi.choose))
      rw [Matrix.mulVec, dotProduct]
      conv_lhs => rw [hi.choose_spec]
      refine Finset.sum_congr rfl fun j _ => ?_
      simp only [toV, σ]
      rw [dif_pos ⟨hi, j.2⟩]
      split_ifs with h
      · rw [abs_of_nonneg h, mul_one]
      · rw [abs_of_neg (not_le.1 h), mul_neg_one]
    · rcases this with h | h
      · rw [h]
        obtain ⟨w, hw, -, hw1, hw2⟩ := C37_matrix_partial hA hv hn
        rw [hw, Res.ok_bind] at h2
        have hw3 : VRep w n fun i => if h : i < n then M.mulVec (toV m σ) ⟨i, h⟩ else 0 :=
          ⟨hn, hw1, fun i hi => by dsimp only; rw [dif_pos hi]; exact hw2 ⟨i, hi⟩⟩
        obtain ⟨z', hz', z0, -⟩ := infNormVec_is hw3
        rw [h2] at hz'
        rw [Res.ok.inj hz']; exact z0
      · exact absurd h hi

/-! ## The norms compared, inverses -/

/-- C106: the largest entry of a vector is at most its length, its length at most `sqrt n` times the largest entry. -/
theorem C106_between_vector (hs : Sqrt sqrt) {v : List K} {n : Nat} {f : Nat → K} (hv : VRep v n f) :
    ∃ x y, infNormVec (|·|) v = .ok x ∧ squareNormVec sqrt v = .ok y ∧ x ≤ y ∧ y ≤ sqrt n * x := by
  obtain ⟨x, hx, x0, x1, x2⟩ := infNormVec_is hv
  refine ⟨x, _, hx, squareNormVec_is sqrt hv, x2 _ (hs _ (sumsq_nonneg _)).1 fun i hi => ?_, ?_⟩
  · apply hs.le_sqrt (sumsq_nonneg _)
    rw [abs_mul_abs_self]
    exact Finset.single_le_sum (f := fun i : Fin n => f i * f i) (fun _ _ => mul_self_nonneg _) (Finset.mem_univ (⟨i, hi⟩ : Fin n))
  · have hn : (0 : K) ≤ n := Nat.cast_nonneg n
    apply hs.le_of_sq (sumsq_nonneg _) (mul_nonneg (hs _ hn).1 x0)
    rw [mul_mul_mul_comm, (hs _ hn).2]
    calc ∑ i : Fin n, f i * f i ≤ ∑ _i : Fin n, x * x := Finset.sum_le_sum fun i _ => by
          rw [← abs_mul_abs_self]; exact mul_self_le_mul_self (abs_nonneg _) (x1 i i.2)
      _ = n * (x * x) := by rw [Finset.sum_const, Finset.card_univ, Fintype.card_fin, nsmul_eq_mul]

/-- C106 (partial): the infinity norm of an `n`×`m` `Matrix` object is at most `sqrt m` times the Frobenius norm, and that at most
`sqrt n` times the infinity norm. -/
theorem C106_between_partial (hs : Sqrt sqrt) {A : Mat K} (hwA : A.WF) {n m : Nat} {M : Matrix (Fin n) (Fin m) K} (hA : A.toMB.Is M) :
    ∃ x y, infNorm (|·|) A.toMB = .ok x ∧ squareNorm sqrt A.toMB = .ok y ∧ x ≤ sqrt m * y ∧ y ≤ sqrt n * x := by
  obtain ⟨x, hx, x0, x1, x2⟩ := infNorm_is hwA hA
  have hn : (0 : K) ≤ n := Nat.cast_nonneg n
  have hm : (0 : K) ≤ m := Nat.cast_nonneg m
  refine ⟨x, _, hx, squareNorm_is sqrt hA, x2 _ (mul_nonneg (hs _ hm).1 (hs _ (sumsq_nonneg _)).1) fun i => ?_, ?_⟩
  · have h := abs_sum_mul_le hs (fun _ : Fin m => (1 : K)) fun j => |M i j|
    simp only [one_mul, mul_one, Finset.sum_const, Finset.card_univ, Fintype.card_fin, nsmul_eq_mul, abs_mul_abs_self] at h
    refine (le_abs_self _).trans (h.trans (mul_le_mul_of_nonneg_left (hs.mono (sumsq_nonneg _) ?_) (hs _ hm).1))
    rw [Fintype.sum_prod_type]
    exact Finset.single_le_sum (f := fun i => ∑ j, M i j * M i j) (fun i _ => sumsq_nonneg fun j => M i j) (Finset.mem_univ i)
  · apply hs.le_of_sq (sumsq_nonneg _) (mul_nonneg (hs _ hn).1 x0)
    rw [mul_mul_mul_comm, (hs _ hn).2, Fintype.sum_prod_type]
    calc ∑ i, ∑ j, M i j * M i j ≤ ∑ _i : Fin n, x * x := Finset.sum_le_sum fun i _ => by
          refine le_trans ?_ (mul_self_le_mul_self (Finset.sum_nonneg fun _ _ => abs_nonneg _) (x1 i))
          rw [Finset.sum_mul]
          refine Finset.sum_le_sum fun j _ => ?_
          rw [← abs_mul_abs_self]
          exact mul_le_mul_of_nonneg_left (Finset.single_le_sum (f := fun j => |M i j|) (fun _ _ => abs_nonneg _) (Finset.mem_univ j))
            (abs_nonneg _)
      _ = n * (x * x) := by rw [Finset.sum_const, Finset.card_univ, Fintype.card_fin, nsmul_eq_mul]

/-- C106 (partial): with `k` the product of the infinity norms of a regular matrix and of its `inverse`, `k` is at least one, and if
`A * v` and `A * w` differ by at most `r` in every entry, `v` and `w` differ by at most the norm of the inverse times `r`. Missing:
matrices for which `inverse` is wrong. -/
theorem C106_condition_partial {tol : K} (ht : tol < 1) {A : Mat K} (hwA : A.WF) {n : Nat} {M : Matrix (Fin n) (Fin n) K} (hA : A.toMB.Is M)
    (hM : M.det ≠ 0) (hi : n ≤ 5 ∨ ∀ i j, M⁻¹ i j ≠ 0) (hn : n < allocMax) :
    ∃ x y, infNorm (|·|) A.toMB = .ok x ∧ (inverse (isZ AbsoluteValue.abs tol) A.toMB >>= fun X => infNorm (|·|) X.toMB) = .ok y ∧
      (0 < n → 1 ≤ x * y) ∧
      ∀ v w f g, VRep v n f → VRep w n g → ∃ a b, (mulVec A.toMB v >>= fun p => mulVec A.toMB w >>= fun q => vsub p q >>= infNormVec (|·|)) = .ok a ∧
        (vsub v w >>= infNormVec (|·|)) = .ok b ∧ b ≤ y * a := by
  obtain ⟨X, e1, wX, hX⟩ := C52_large_partial AbsoluteValue.abs ht hA hM hi
  obtain ⟨x, hx, x0, x1, x2⟩ := infNorm_is hwA hA
  obtain ⟨y, hy, y0, y1, y2⟩ := infNorm_is wX hX
  have hinv : M⁻¹ * M = 1 := Matrix.nonsing_inv_mul M (isUnit_iff_ne_zero.2 hM)
  refine ⟨x, y, hx, by rw [e1, Res.ok_bind, hy], fun h0 => ?_, fun v w f g hv hw => ?_⟩
  · have h1 : ∑ j, |(M⁻¹ * M) ⟨0, h0⟩ j| ≤ x * y := by
      calc ∑ j, |(M⁻¹ * M) ⟨0, h0⟩ j| ≤ ∑ j, ∑ l, |M⁻¹ ⟨0, h0⟩ l| * |M l j| := Finset.sum_le_sum fun j _ => by
            rw [Matrix.mul_apply]
            exact (Finset.abs_sum_le_sum_abs _ _).trans (Finset.sum_le_sum fun l _ => (abs_mul _ _).le)
        _ = ∑ l, |M⁻¹ ⟨0, h0⟩ l| * ∑ j, |M l j| := by rw [Finset.sum_comm]; simp only [Finset.mul_sum]
        _ ≤ ∑ l, |M⁻¹ ⟨0, h0⟩ l| * x := Finset.sum_le_sum fun l _ => mul_le_mul_of_nonneg_left (x1 l) (abs_nonneg _)
        _ = (∑ l, |M⁻¹ ⟨0, h0⟩ l|) * x := (Finset.sum_mul _ _ _).symm
        _ ≤ x * y := by rw [mul_comm]; exact mul_le_mul_of_nonneg_left (y1 _) x0
    refine le_trans ?_ h1
    rw [hinv]
    refine le_trans (le_of_eq ?_) (Finset.single_le_sum (f := fun j => |(1 : Matrix (Fin n) (Fin n) K) ⟨0, h0⟩ j|) (fun _ _ => abs_nonneg _)
      (Finset.mem_univ ⟨0, h0⟩))
    rw [Matrix.one_apply_eq, abs_one]
  · obtain ⟨p, hp, -, hp1, hp2⟩ := C37_matrix_partial hA hv hn
    obtain ⟨q, hq, -, hq1, hq2⟩ := C37_matrix_partial hA hw hn
    have hp3 : VRep p n fun i => if h : i < n then M.mulVec (toV n f) ⟨i, h⟩ else 0 :=
      ⟨hn, hp1, fun i hi => by dsimp only; rw [dif_pos hi]; exact hp2 ⟨i, hi⟩⟩
    have hq3 : VRep q n fun i => if h : i < n then M.mulVec (toV n g) ⟨i, h⟩ else 0 :=
      ⟨hn, hq1, fun i hi => by dsimp only; rw [dif_pos hi]; exact hq2 ⟨i, hi⟩⟩
    obtain ⟨d, d1, d2⟩ := (C38_zip hp3 hq3).2.1.rep hn
    obtain ⟨e, e1, e2⟩ := (C38_zip hv hw).2.1.rep hn
    obtain ⟨a, ha, a0, a1, a2⟩ := infNormVec_is d2
    obtain ⟨b, hb, b0, b1, b2⟩ := infNormVec_is e2
    refine ⟨a, b, by rw [hp, hq, Res.ok_bind, Res.ok_bind, d1, Res.ok_bind, ha], by rw [e1, Res.ok_bind, hb],
      b2 _ (mul_nonneg y0 a0) fun i hi => ?_⟩
    have hd : toV n f - toV n g = M⁻¹.mulVec (M.mulVec (toV n f) - M.mulVec (toV n g)) := by
      rw [← Matrix.mulVec_sub, Matrix.mulVec_mulVec, hinv, Matrix.one_mulVec]
    have hd' := congrFun hd ⟨i, hi⟩
    have h2 : f i - g i = M⁻¹.mulVec (M.mulVec (toV n f) - M.mulVec (toV n g)) ⟨i, hi⟩ := hd'
    rw [h2]
    calc |M⁻¹.mulVec (M.mulVec (toV n f) - M.mulVec (toV n g)) ⟨i, hi⟩|
          ≤ ∑ j, |M⁻¹ ⟨i, hi⟩ j| * |(M.mulVec (toV n f) - M.mulVec (toV n g)) j| := abs_mulVec_le _ _ _
      _ ≤ ∑ j, |M⁻¹ ⟨i, hi⟩ j| * a := Finset.sum_le_sum fun l _ => mul_le_mul_of_nonneg_left (by
            have := a1 l l.2
            rwa [dif_pos l.2, dif_pos l.2] at this) (abs_nonneg _)
      _ ≤ y * a := by rw [← Finset.sum_mul]; exact mul_le_mul_of_nonneg_right (y1 _) a0

/-- C106 is false for views: the infinity norm of every view is zero, also of one that shows the whole of a matrix whose norm is not
zero; so a norm of zero does not mean a zero matrix, and adding two views gives a matrix whose norm is larger than the sum. -/
theorem C106_view_false :
    infNorm (|·|) ((⟨1, 2, [3, -4]⟩ : Mat ℚ).toMB.view Range.all Range.all) = .ok 0 ∧
    (add ((⟨1, 2, [3, -4]⟩ : Mat ℚ).toMB.view Range.all Range.all) ((⟨1, 2, [3, -4]⟩ : Mat ℚ).toMB.view Range.all Range.all) >>=
      fun X => infNorm (|·|) X.toMB) = .ok 14 := by decide +kernel

end

example : squareNorm exSqrt (⟨2, 2, [1, 2, 4, 2]⟩ : Mat ℚ).toMB = .ok 5 ∧
    (mul (⟨2, 2, [1, 2, 4, 2]⟩ : Mat ℚ).toMB (⟨2, 2, [0, 3, 4, 0]⟩ : Mat ℚ).toMB >>= fun X => squareNorm id X.toMB) = .ok 281 ∧
    squareNorm exSqrt (⟨2, 2, [0, 3, 4, 0]⟩ : Mat ℚ).toMB = .ok 5 ∧ (281 : ℚ) ≤ (5 * 5) * (5 * 5) ∧
    squareNormVec exSqrt [3, 4] = .ok 5 ∧ infNormVec (|·|) [3, (-4 : ℚ)] = .ok 4 ∧ dot [3, 4] [4, (-3 : ℚ)] = .ok 0 ∧
    infNorm (|·|) (⟨2, 2, [1, 2, 3, 5]⟩ : Mat ℚ).toMB = .ok 8 ∧ infNorm (|·|) (⟨2, 2, [-5, 2, 3, -1]⟩ : Mat ℚ).toMB = .ok 7 ∧
    mulVec (⟨2, 2, [1, 2, 3, -5]⟩ : Mat ℚ).toMB [1, -1] = .ok [-1, 8] ∧ infNorm (|·|) (⟨2, 2, [1, 2, 3, -5]⟩ : Mat ℚ).toMB = .ok 8 := by
  decide +kernel

end Malg
