import Verif.Lemmas.MathOps
import Verif.Lemmas.Utility
import Mathlib.Algebra.Order.AbsoluteValue.Basic
import Mathlib.Algebra.Order.Field.Basic
import Mathlib.Tactic.Linarith
/-!
# Properties C39, C40 and C43: comparisons
-/
namespace Malg
open Ops Feq
variable {T : Type}

/-! ## C40 -/
section C40
variable {K : Type} [Field K] [LinearOrder K] [IsStrictOrderedRing K]
variable {R : Type} [Ring R] (abs : AbsoluteValue R K)

/-- C40: the meaning of `approximately_equal`, for real or complex values (`abs` is the modulus). -/
theorem C40_meaning (tol : K) (h : 0 ≤ tol) (a b : R) :
    approxEq abs tol a b = true ↔ abs (a - b) ≤ tol * abs a ∨ abs (a - b) ≤ tol * abs b := by
  unfold approxEq
  rw [decide_eq_true_iff, ← le_max_iff, mul_max_of_nonneg _ _ h]

/-- C40: reflexive (tolerance at least 0), symmetric. -/
theorem C40_refl_symm (tol : K) (a b : R) :
    (0 ≤ tol → approxEq abs tol a a = true) ∧ approxEq abs tol a b = approxEq abs tol b a := by
  unfold approxEq
  constructor
  · intro h
    rw [sub_self, map_zero, max_self]
    exact decide_eq_true (mul_nonneg h (abs.nonneg a))
  · rw [abs.map_sub, max_comm]

/-- C40: invariant under scaling both values by the same non-zero factor. -/
theorem C40_scale (tol : K) (a b c : R) (hc : c ≠ 0) :
    approxEq abs tol (c * a) (c * b) = approxEq abs tol a b := by
  unfold approxEq
  have h := abs.pos hc
  rw [← mul_sub, abs.map_mul, abs.map_mul, abs.map_mul, ← mul_max_of_nonneg _ _ h.le, mul_left_comm]
  congr 1
  rw [mul_le_mul_iff_right₀ h]

/-- C40: with a tolerance below 1 only zero is approximately equal to zero. -/
theorem C40_zero (tol : K) (h1 : tol < 1) (a : R) :
    (approxEq abs tol a 0 = true ↔ a = 0) ∧ (approxZero abs tol a = true ↔ a = 0) := by
  have key : abs a ≤ tol * abs a ↔ a = 0 := by
    constructor
    · intro h
      by_contra hne
      have := abs.pos hne
      nlinarith
    · rintro rfl; simp
  unfold approxEq approxZero
  rw [decide_eq_true_iff, decide_eq_true_iff, sub_zero, map_zero, max_eq_left (abs.nonneg a)]
  exact ⟨key, key⟩

/-- C40: a larger tolerance accepts more; tolerance 0 is equality. -/
theorem C40_tolerance (tol tol' : K) (h : tol ≤ tol') (a b : R) :
    (approxEq abs tol a b = true → approxEq abs tol' a b = true) ∧ (approxEq abs 0 a b = true ↔ a = b) := by
  unfold approxEq
  simp only [decide_eq_true_iff]
  refine ⟨fun h1 => h1.trans (mul_le_mul_of_nonneg_right h (le_max_of_le_left (abs.nonneg a))), ?_⟩
  rw [zero_mul]
  constructor
  · intro h
    exact sub_eq_zero.1 (abs.eq_zero.1 (le_antisymm h (abs.nonneg _)))
  · rintro rfl; simp

/-- C40: the ordered variants over the reals. -/
theorem C40_order (tol a b : K) :
    (approxLe (|·|) tol a b = true ↔ a < b ∨ approxEq (|·|) tol a b = true) ∧
    (approxGe (|·|) tol a b = true ↔ b < a ∨ approxEq (|·|) tol a b = true) ∧
    approxLe (|·|) tol a b = approxGe (|·|) tol b a ∧
    (0 ≤ tol → (approxLe (|·|) tol a b = true ∨ approxLe (|·|) tol b a = true)) ∧
    (0 ≤ tol → (approxLe (|·|) tol a b = true ∧ approxGe (|·|) tol a b = true ↔ approxEq (|·|) tol a b = true)) := by
  have hs : approxEq (|·|) tol a b = approxEq (|·|) tol b a :=
    (C40_refl_symm (AbsoluteValue.abs (S := K)) tol a b).2
  have hr : 0 ≤ tol → approxEq (|·|) tol a a = true :=
    (C40_refl_symm (AbsoluteValue.abs (S := K)) tol a b).1
  unfold approxLe approxGe
  refine ⟨by simp, by simp, by rw [hs], fun h => ?_, fun h => ?_⟩
  · rcases lt_trichotomy a b with h1 | rfl | h1
    · left; simp [h1]
    · left; simp [hr h]
    · right; simp [h1]
  · constructor
    · rintro ⟨h1, h2⟩
      simp only [Bool.or_eq_true, decide_eq_true_eq] at h1 h2
      rcases h1 with h1 | h1
      · rcases h2 with h2 | h2
        · exact absurd h1 (lt_asymm h2)
        · exact h2
      · exact h1
    · intro h1; simp [h1]

end C40

example : approxEq (|·|) (1/100 : ℚ) 100 101 = true ∧ approxEq (|·|) (1/100 : ℚ) 100 102 = false := by decide +kernel

/-! ## C39 -/

theorem ofFn_ext {n m : Nat} {e f : Nat → Nat → T} (h : Mat.ofFn n m e = Mat.ofFn n m f) {i j : Nat} (hi : i < n)
    (hj : j < m) : e i j = f i j := by
  have h1 : (Mat.ofFn n m e).lin (i * m + j) = (Mat.ofFn n m f).lin (i * m + j) := by rw [h]
  rw [ofFn_lin (lin_lt hi hj), ofFn_lin (lin_lt hi hj), lin_div hj, lin_mod hj] at h1
  exact Res.ok.inj h1

/-- C39: `==` and `!=` give a table of the same shape with the verdict of the element comparison; matrix with
matrix, matrix with scalar. -/
theorem C39_entries (c : T → T → Bool) {A B : MB T} {n m : Nat} {e f} (hA : Rep A n m e) (hB : Rep B n m f) (b : T) :
    Returns (cmp c A B) n m (fun i j => c (e i j) (f i j)) ∧ Returns (cmpS c A b) n m (fun i j => c (e i j) b) :=
  ⟨Returns.of_eq hA.fits (zipMat_eq hA hB fun _ _ _ _ => rfl), Returns.of_eq hA.fits (mapMat_eq hA fun _ _ _ _ => rfl)⟩

/-- C39: the same for vectors. -/
theorem C39_entries_vec (c : T → T → Bool) {a b : List T} {n : Nat} {f g} (ha : VRep a n f) (hb : VRep b n g) (x : T) :
    ReturnsVec (cmpVec c a b) n (fun i => c (f i) (g i)) ∧ ReturnsVec (cmpVecS c a x) n (fun i => c (f i) x) :=
  ⟨ReturnsVec.of_eq (zipVec_eq ha hb fun _ _ => rfl), ReturnsVec.of_eq (mapVec_eq ha fun _ _ => rfl)⟩

/-- C39: in each of the three element comparisons chosen at compile time, `!=` is the negation of `==`. -/
theorem C39_ne_negates {R : Type} [Sub T] [Sub R] [Mul R] [Max R] [LE R] [DecidableRel (α := R) (· ≤ ·)] [DecidableEq T]
    (abs : T → R) (absR : R → R) (re im : T → R) (tol : R) :
    ∀ p ∈ [(eqApprox abs tol, neApprox abs tol), (eqParts absR re im tol, neParts absR re im tol), (eqExact, neExact)],
      ∀ {A B : MB T} {n m : Nat} {e f}, Rep A n m e → Rep B n m f → ∀ b E E',
        (Returns (cmp p.1 A B) n m E → Returns (cmp p.2 A B) n m (fun i j => !E i j)) ∧
        (Returns (cmpS p.1 A b) n m E' → Returns (cmpS p.2 A b) n m (fun i j => !E' i j)) := by
  intro p hp A B n m e f hA hB b E E'
  have hneg : ∀ x y : T, p.2 x y = !p.1 x y := by
    simp only [List.mem_cons, List.not_mem_nil, or_false] at hp
    rcases hp with rfl | rfl | rfl <;> intro x y
    · rfl
    · show (!_ || !_) = !(_ && _)
      rw [Bool.not_and]
    · simp [neExact, eqExact]
  have h1 := C39_entries p.1 hA hB b
  have h2 := C39_entries p.2 hA hB b
  constructor
  · intro h
    have := h1.1.eq.symm.trans h.eq
    refine h2.1.congr (fun i j hi hj => ?_)
    rw [hneg, ofFn_ext (Res.ok.inj this) hi hj]
  · intro h
    have := h1.2.eq.symm.trans h.eq
    refine h2.2.congr (fun i j hi hj => ?_)
    rw [hneg, ofFn_ext (Res.ok.inj this) hi hj]

/-- C39: the four order comparisons over a total order: each entry has the right verdict. -/
theorem C39_order {K : Type} [LinearOrder K] {A B : MB K} {n m : Nat} {e f} (hA : Rep A n m e) (hB : Rep B n m f) (b : K) :
    Returns (lt A B) n m (fun i j => decide (e i j < f i j)) ∧ Returns (gt A B) n m (fun i j => decide (f i j < e i j)) ∧
    Returns (ge A B) n m (fun i j => !decide (e i j < f i j)) ∧
    Returns (le A B) n m (fun i j => !decide (f i j < e i j)) ∧
    Returns (ltS A b) n m (fun i j => decide (e i j < b)) ∧ Returns (gtS A b) n m (fun i j => decide (b < e i j)) ∧
    Returns (geS A b) n m (fun i j => !decide (e i j < b)) ∧ Returns (leS A b) n m (fun i j => !decide (b < e i j)) := by
  have key : ∀ x y : K, decide (x ≤ y) = !decide (y < x) := fun x y => by
    rw [← decide_not]; exact decide_eq_decide.2 not_lt.symm
  refine ⟨Returns.of_eq hA.fits (zipMat_eq hA hB fun _ _ _ _ => rfl), Returns.of_eq hA.fits (zipMat_eq hA hB fun _ _ _ _ => rfl),
    Returns.of_eq hA.fits (zipMat_eq hA hB fun _ _ _ _ => by rw [key]),
    Returns.of_eq hA.fits (zipMat_eq hA hB fun _ _ _ _ => by rw [key]),
    Returns.of_eq hA.fits (mapMat_eq hA fun _ _ _ _ => rfl), Returns.of_eq hA.fits (mapMat_eq hA fun _ _ _ _ => rfl),
    Returns.of_eq hA.fits (mapMat_eq hA fun _ _ _ _ => by rw [key]),
    Returns.of_eq hA.fits (mapMat_eq hA fun _ _ _ _ => by rw [key])⟩

/-- C39: mirror images, as identities between computed objects: `A < B` is `B > A`, `A <= B` is `B >= A`. -/
theorem C39_mirror {K : Type} [LinearOrder K] {A B : MB K} {n m : Nat} {e f} (hA : Rep A n m e) (hB : Rep B n m f) :
    lt A B = gt B A ∧ le A B = ge B A :=
  ⟨(C39_order hA hB (e 0 0)).1.eq.trans (C39_order hB hA (e 0 0)).2.1.eq.symm,
   (C39_order hA hB (e 0 0)).2.2.2.1.eq.trans (C39_order hB hA (e 0 0)).2.2.1.eq.symm⟩

/-- C39: mismatched shapes throw. -/
theorem C39_mismatch {K : Type} [LinearOrder K] (c : K → K → Bool) {A B : MB K} (h : A.rows ≠ B.rows ∨ A.cols ≠ B.cols)
    {a b : List K} (h' : a.length ≠ b.length) :
    cmp c A B = .throw .invalidArgument ∧ lt A B = .throw .invalidArgument ∧ gt A B = .throw .invalidArgument ∧
    le A B = .throw .invalidArgument ∧ ge A B = .throw .invalidArgument ∧ cmpVec c a b = .throw .invalidArgument :=
  ⟨zipMat_throw h, zipMat_throw h, zipMat_throw h, zipMat_throw h, zipMat_throw h, if_pos h'⟩

/-! ## C43 -/

/-- C43: `all` and `any` on matrices and views. -/
theorem C43_matrix [Zero T] [DecidableEq T] {A : MB T} {n m : Nat} {e} (hA : Rep A n m e) :
    (∃ b, all A = .ok b ∧ (b = true ↔ ∀ i j, i < n → j < m → e i j ≠ 0)) ∧
    (∃ b, any A = .ok b ∧ (b = true ↔ ∃ i j, i < n ∧ j < m ∧ e i j ≠ 0)) := by
  constructor
  · unfold Ops.all
    rw [hA.size]
    obtain ⟨b, h1, h2⟩ := Util.search_spec (n := n * m) (P := fun i => e (i / m) (i % m) = 0) (body := fun i => do
      let x ← A.lin i
      return (if x = 0 then some false else none)) (fun i hi => by rw [hA.lin' hi]; rfl)
    refine ⟨b, h1, h2.trans ⟨fun h i j hi hj => ?_, fun h i hi => h _ _ (lin_of_lt hi).1 (lin_of_lt hi).2.1⟩⟩
    have := h (i * m + j) (lin_lt hi hj)
    rwa [lin_div hj, lin_mod hj] at this
  · unfold Ops.any
    rw [hA.size]
    rcases forSearch_decide (lo := 0) (hi := n * m) (p := fun i => e (i / m) (i % m) ≠ 0) (b := true) (body := fun i => do
      let x ← A.lin i
      return (if x ≠ 0 then some true else none)) (fun i _ hi => by rw [hA.lin' hi]; rfl) with ⟨h1, i, -, hi, h2⟩ | ⟨h1, h2⟩
    · rw [h1]
      exact ⟨true, rfl, by simpa using ⟨_, (lin_of_lt hi).1, _, (lin_of_lt hi).2.1, h2⟩⟩
    · rw [h1]
      refine ⟨false, rfl, by simp, ?_⟩
      rintro ⟨i, j, hi, hj, h⟩
      have := h2 (i * m + j) (Nat.zero_le _) (lin_lt hi hj)
      rw [lin_div hj, lin_mod hj] at this
      exact absurd h this

/-- C43: `all` and `any` on vectors. -/
theorem C43_vector [Zero T] [DecidableEq T] {v : List T} {n : Nat} {f} (hv : VRep v n f) :
    (∃ b, allVec v = .ok b ∧ (b = true ↔ ∀ i, i < n → f i ≠ 0)) ∧
    (∃ b, anyVec v = .ok b ∧ (b = true ↔ ∃ i, i < n ∧ f i ≠ 0)) := by
  constructor
  · unfold allVec
    rw [hv.2.1]
    exact Util.search_spec (n := n) (P := fun i => f i = 0) (fun i hi => by rw [hv.get hi]; rfl)
  · unfold anyVec
    rw [hv.2.1]
    rcases forSearch_decide (lo := 0) (hi := n) (p := fun i => f i ≠ 0) (b := true) (body := fun i => do
      let x ← vget v i
      return (if x ≠ 0 then some true else none)) (fun i _ hi => by rw [hv.get hi]; rfl) with ⟨h1, i, -, hi, h2⟩ | ⟨h1, h2⟩
    · rw [h1]; exact ⟨true, rfl, by simpa using ⟨i, hi, h2⟩⟩
    · rw [h1]
      refine ⟨false, rfl, by simp, ?_⟩
      rintro ⟨i, hi, h⟩
      exact absurd h (h2 i (Nat.zero_le _) hi)

/-- `false` is the zero of `bool`, so that `all` and `any` apply to the result of a comparison. -/
local instance : Zero Bool := ⟨false⟩

/-- C39 with C43: `all(A == A)` is true: for floating point elements with tolerance at least 0, for complex ones, and
for exact ones. -/
theorem C39_self_equal {K : Type} [Field K] [LinearOrder K] [IsStrictOrderedRing K] {R : Type} [Ring R] [DecidableEq R]
    (abs : AbsoluteValue R K) (re im : R → K) (tol : K) (h0 : 0 ≤ tol) {A : MB R} {n m : Nat} {e} (hA : Rep A n m e) :
    ∀ c ∈ [eqApprox abs tol, eqParts (|·|) re im tol, eqExact],
      (cmp c A A >>= fun E => Ops.all E.toMB) = .ok true := by
  intro c hc
  have hrefl : ∀ x : R, c x x = true := by
    have h : ∀ x : K, approxEq (|·|) tol x x = true := fun x =>
      (C40_refl_symm (AbsoluteValue.abs (S := K)) tol x x).1 h0
    simp only [List.mem_cons, List.not_mem_nil, or_false] at hc
    rcases hc with rfl | rfl | rfl <;> intro x
    · show approxEq abs tol x x = true
      unfold approxEq; rw [sub_self, map_zero, max_self]; exact decide_eq_true (mul_nonneg h0 (abs.nonneg x))
    · show (_ && _) = true
      rw [h, h]; rfl
    · exact decide_eq_true rfl
  obtain ⟨E, h1, h2⟩ := (C39_entries c hA hA (e 0 0)).1
  rw [h1, Res.ok_bind]
  obtain ⟨b, h3, h4⟩ := (C43_matrix h2.rep).1
  rw [h3]
  rw [h4.2 (fun i j _ _ => by rw [hrefl]; exact Bool.noConfusion)]

example : ge (⟨1, 3, [1, 2, 3]⟩ : Mat Int).toMB (⟨1, 3, [2, 2, 2]⟩ : Mat Int).toMB = .ok ⟨1, 3, [false, true, true]⟩ := by
  decide +kernel
example : any ((⟨2, 2, [0, 5, 0, 0]⟩ : Mat Int).toMB.view ⟨0, 2⟩ ⟨0, 1⟩) = .ok false := by decide +kernel
example : cmp (eqApprox (|·|) (1/100 : ℚ)) (⟨1, 2, [100, 1]⟩ : Mat ℚ).toMB (⟨1, 2, [101, 2]⟩ : Mat ℚ).toMB =
    .ok ⟨1, 2, [true, false]⟩ := by decide +kernel

end Malg
