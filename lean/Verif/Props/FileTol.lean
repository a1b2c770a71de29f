import Verif.Props.FloatIo
import Verif.Props.Compare
import Verif.Props.FloatLaws
/-!
# Property C119: what a file keeps, seen through `==`
-/
namespace Malg
open Ops Io Feq

/-- `false` is the zero of `bool`. -/
local instance zeroBoolFile : Zero Bool := ⟨false⟩

theorem Fl.abs_val {K : Type} [Field K] [LinearOrder K] [IsStrictOrderedRing K] [FloorRing K] {p : ℕ} {emin : ℤ} (x : Fl K p emin) :
    (Fl.abs x).val = |x.val| := by
  unfold Fl.abs
  by_cases hx : x < 0
  · rw [if_pos hx, abs_of_neg (show x.val < 0 from hx)]; rfl
  · rw [if_neg hx, abs_of_nonneg (not_lt.1 (show ¬ x.val < 0 from hx))]

theorem Fl.le_max_right {K : Type} [Field K] [LinearOrder K] [IsStrictOrderedRing K] [FloorRing K] {p : ℕ} {emin : ℤ} (x y : Fl K p emin) :
    y.val ≤ (max x y).val := by
  show y.val ≤ (if x ≤ y then y else x).val
  split
  · exact le_rfl
  · next h => exact (not_le.1 (show ¬ x.val ≤ y.val from h)).le

/-- Two numbers of the format that differ by at most the tolerance times one of them are equal for `feq`, with all the rounding. -/
theorem approxEq_of_near {K : Type} [Field K] [LinearOrder K] [IsStrictOrderedRing K] [FloorRing K] {p : ℕ} (hp : 1 ≤ p) {emin : ℤ}
    {tol x y : Fl K p emin} (ht : 0 ≤ tol.val) (h : |y.val - x.val| ≤ tol.val * |x.val|) : approxEq Fl.abs tol y x = true := by
  unfold approxEq
  rw [decide_eq_true_iff]
  show (Fl.abs (y - x)).val ≤ rnd p emin (tol.val * (max (Fl.abs y) (Fl.abs x)).val)
  have h1 : |rnd p emin (y.val - x.val)| = rnd p emin |y.val - x.val| := by
    rcases le_total 0 (y.val - x.val) with h0 | h0
    · rw [abs_of_nonneg h0, abs_of_nonneg]
      have := rnd_mono hp emin h0
      rwa [rnd_exact hp (isFl_zero p emin)] at this
    · rw [abs_of_nonpos h0, rnd_neg, abs_of_nonpos]
      have := rnd_mono hp emin h0
      rwa [rnd_exact hp (isFl_zero p emin)] at this
  rw [Fl.abs_val, show (y - x).val = rnd p emin (y.val - x.val) from rfl, h1]
  refine rnd_mono hp emin (h.trans (mul_le_mul_of_nonneg_left ?_ ht))
  rw [← Fl.abs_val]
  exact Fl.le_max_right _ _

/-- Written with `P` digits and read, a number changes by at most `10^(1-P)` of its size, in whichever way it is rounded. -/
theorem Trip.near {p : ℕ} (hp : 1 ≤ p) {emin : ℤ} {P : Nat} (hP : 1 ≤ P) {x y : Fl ℚ p emin} (h : Trip P x.val y) :
    |y.val - x.val| ≤ 10 ^ (1 - (P : ℤ)) * |x.val| := by
  obtain ⟨d, -, h2, h3, -⟩ := h
  obtain ⟨d', -, h4, -, h5⟩ := C112_text hP x.val
  have h6 := (h2 d' h4).trans h5
  have h7 := rnd_nearest hp d x.isFl
  rw [abs_sub_comm x.val d] at h7
  have h8 : |rnd p emin d - x.val| ≤ |rnd p emin d - d| + |d - x.val| := by
    have := abs_add_le (rnd p emin d - d) (d - x.val)
    rwa [sub_add_sub_cancel] at this
  rw [h3]
  linarith

/-- C119: a vector written to a file with the precision `P` and read back is equal to the one written, for `==`, if the tolerance is at
least `10^(1-P)`. -/
theorem C119_vector_partial {p : ℕ} (hp : 1 ≤ p) {emin emax : ℤ} (he : emin + p ≤ emax) {P : Nat} (hP : 1 ≤ P) (Q : Nat)
    {tol : Fl ℚ p emin} (ht : 10 ^ (1 - (P : ℤ)) ≤ tol.val)
    (fmtM : Fl ℚ p emin → List Char) (v old : List (Fl ℚ p emin)) (hv : v.length < allocMax)
    (hx : ∀ x ∈ v, (1 + 10 ^ (1 - (P : ℤ)) / 2) * |x.val| ≤ (2 ^ p - 1) * 2 ^ (emax - p)) (ws tail : List Char) (hws : AllSpace ws) :
    ∃ text y, writeVec fmtM (fun x => fmtG P x.val) v = .ok text ∧ (∃ ws', AllSpace ws' ∧
      readVec (floatCodec p emin emax Q) ⟨ws ++ text ++ tail, false, false⟩ old = .ok (⟨ws' ++ tail, false, false⟩, y)) ∧
      (cmpVec (eqApprox Fl.abs tol) y v >>= fun E => allVec E) = .ok true := by
  obtain ⟨text, y, h1, h2, h3⟩ := C112_vector_partial he hP Q fmtM v old hv hx ws tail hws
  refine ⟨text, y, h1, h3, ?_⟩
  have ht0 : 0 ≤ tol.val := (ten_zpow_pos (K := ℚ) _).le.trans ht
  have hl := h2.length_eq
  have hv' : VRep v v.length (fun i => v.getD i 0) := ⟨hv, rfl, fun i hi => by simp [hi]⟩
  have hy' : VRep y v.length (fun i => y.getD i 0) := ⟨hv, hl.symm, fun i hi => by simp [hl ▸ hi]⟩
  obtain ⟨E, hE, hE1, hE2⟩ := (C39_entries_vec (eqApprox Fl.abs tol) hy' hv' 0).1
  obtain ⟨b, hb, hb2⟩ := (C43_vector (v := E) ⟨hv, hE1, hE2⟩).1
  rw [hE, Res.ok_bind, hb]
  congr 1
  refine hb2.2 fun i hi => ?_
  have h4 : Trip P (v[i]).val (y[i]'(hl ▸ hi)) := List.Forall₂.get h2 hi (hl ▸ hi)
  have h5 := approxEq_of_near hp ht0 ((h4.near hp hP).trans (mul_le_mul_of_nonneg_right ht (abs_nonneg _)))
  unfold eqApprox
  rw [show y.getD i 0 = y[i]'(hl ▸ hi) by simp [hl ▸ hi], show v.getD i 0 = v[i] by simp [hi], h5]
  decide

/-- C119 for matrices and views. -/
theorem C119_matrix_partial {p : ℕ} (hp : 1 ≤ p) {emin emax : ℤ} (he : emin + p ≤ emax) {P : Nat} (hP : 1 ≤ P) (Q : Nat)
    {tol : Fl ℚ p emin} (ht : 10 ^ (1 - (P : ℤ)) ≤ tol.val)
    (fmtM : Fl ℚ p emin → List Char) {b : MB (Fl ℚ p emin)} {n m : Nat} {e} (h : Rep b n m e)
    (hx : ∀ i j, i < n → j < m → (1 + 10 ^ (1 - (P : ℤ)) / 2) * |(e i j).val| ≤ (2 ^ p - 1) * 2 ^ (emax - p))
    {old : Mat (Fl ℚ p emin)} (hold : old.WF) (ws tail : List Char) (hws : AllSpace ws) :
    ∃ text, writeMat fmtM (fun x => fmtG P x.val) b = .ok text ∧ ∃ ws' A, AllSpace ws' ∧
      readMat (floatCodec p emin emax Q) ⟨ws ++ text ++ tail, false, false⟩ old = .ok (⟨ws' ++ tail, false, false⟩, A) ∧
      (cmp (eqApprox Fl.abs tol) A.toMB b >>= fun E => Ops.all E.toMB) = .ok true := by
  obtain ⟨text, h1, ws', A, y, h2, h3, h4, h5⟩ := C112_matrix_partial he hP Q fmtM h hx hold ws tail hws
  refine ⟨text, h1, ws', A, h2, h3, ?_⟩
  have ht0 : 0 ≤ tol.val := (ten_zpow_pos (K := ℚ) _).le.trans ht
  obtain ⟨E, hE, hwf, hrep⟩ := (C39_entries (eqApprox Fl.abs tol) h4.rep h 0).1
  obtain ⟨b, hb, hb2⟩ := (C43_matrix hrep).1
  rw [hE, Res.ok_bind, hb]
  congr 1
  refine hb2.2 fun i j hi hj => ?_
  have h6 := approxEq_of_near hp ht0 (((h5 i j hi hj).near hp hP).trans (mul_le_mul_of_nonneg_right ht (abs_nonneg _)))
  unfold eqApprox
  rw [h6]
  decide

/-- `test_vec`, `tests/test_read_write_file.cpp:9-38`, for the random vector `v`: is the vector in the file equal to it? -/
def fileTestVec (P : Nat) (tol : Double) (v : List Double) : Res Bool := do
  let text ← writeVec (fun x => fmtG P x.val) (fun x => fmtG P x.val) v
  let (_, y) ← readVec (doubleCodec 6) ⟨text, false, false⟩ []
  let E ← cmpVec (eqApprox Fl.abs tol) y v
  allVec E

/-- `test_matrix`, `tests/test_read_write_file.cpp:40-69`, for the random matrix `A`. -/
def fileTestMat (P : Nat) (tol : Double) (A : Mat Double) : Res Bool := do
  let text ← writeMat (fun x => fmtG P x.val) (fun x => fmtG P x.val) A.toMB
  let (_, y) ← readMat (doubleCodec 6) ⟨text, false, false⟩ Mat.empty0
  let E ← cmp (eqApprox Fl.abs tol) y.toMB A.toMB
  Ops.all E.toMB

theorem slack_ten {x : ℚ} (h : |x| ≤ 10) : (1 + 10 ^ (1 - ((9 : ℕ) : ℤ)) / 2) * |x| ≤ (2 ^ 53 - 1) * 2 ^ ((1024 : ℤ) - (53 : ℕ)) := by
  have h1 : (2 : ℚ) ^ (0 : ℤ) ≤ 2 ^ ((1024 : ℤ) - (53 : ℕ)) := zpow_le_zpow_right₀ one_le_two (by norm_num)
  have h2 : 1 + (10 : ℚ) ^ (1 - ((9 : ℕ) : ℤ)) / 2 ≤ 2 := by norm_num
  have h3 := mul_le_mul_of_nonneg_right h2 (abs_nonneg x)
  rw [zpow_zero] at h1
  have h4 : (2 ^ 53 - 1 : ℚ) * 1 ≤ (2 ^ 53 - 1) * 2 ^ ((1024 : ℤ) - (53 : ℕ)) := mul_le_mul_of_nonneg_left h1 (by norm_num)
  have h5 : (20 : ℚ) ≤ (2 ^ 53 - 1) * 1 := by norm_num
  exact h3.trans (le_trans (by linarith) (h5.trans h4))

/-- C119: the file test of the project (nine digits, tolerance `1e-06`) succeeds for whatever numbers between -10 and 10 are drawn, and
for vectors and matrices of any size. -/
theorem C119_own_test (v : List Double) (hv : v.length < allocMax) (hx : ∀ x ∈ v, |x.val| ≤ 10) {A : Mat Double} {n m : Nat} {e}
    (hA : A.Holds n m e) (he : ∀ i j, i < n → j < m → |(e i j).val| ≤ 10) :
    fileTestVec 9 (Fl.of 53 (-1074) (1 / 10 ^ 6)) v = .ok true ∧ fileTestMat 9 (Fl.of 53 (-1074) (1 / 10 ^ 6)) A = .ok true := by
  have ht : (10 : ℚ) ^ (1 - ((9 : ℕ) : ℤ)) ≤ (Fl.of 53 (-1074) (1 / 10 ^ 6) : Double).val := by decide +kernel
  constructor
  · obtain ⟨text, y, h1, ⟨ws', -, h2⟩, h3⟩ := C119_vector_partial (p := 53) (emin := -1074) (emax := 1024) (by norm_num) (by norm_num) (by norm_num : 1 ≤ 9) 6 ht
      (fun x => fmtG 9 x.val) v [] hv (fun x h => slack_ten (hx x h)) [] [] (by intro c hc; cases hc)
    unfold fileTestVec
    rw [h1, Res.ok_bind]
    rw [List.nil_append, List.append_nil] at h2
    rw [h2, Res.ok_bind]
    exact h3
  · obtain ⟨text, h1, ws', y, -, h2, h3⟩ := C119_matrix_partial (p := 53) (emin := -1074) (emax := 1024) (by norm_num) (by norm_num) (by norm_num : 1 ≤ 9) 6 ht
      (fun x => fmtG 9 x.val) hA.rep (fun i j hi hj => slack_ten (he i j hi hj)) (old := Mat.empty0) ⟨rfl, by rw [allocMax_eq]; decide, W_pos, W_pos⟩ [] [] (by intro c hc; cases hc)
    unfold fileTestMat
    rw [h1, Res.ok_bind]
    rw [List.nil_append, List.append_nil] at h2
    rw [h2, Res.ok_bind]
    exact h3

/-- Two runs of the test. -/
example : fileTestVec 9 (Fl.of 53 (-1074) (1 / 10 ^ 6)) (doubles [1 / 3, -9876543211 / 10 ^ 9, 0]) = .ok true ∧
    fileTestMat 9 (Fl.of 53 (-1074) (1 / 10 ^ 6)) ⟨2, 2, doubles [2 / 7, -10, 1 / 1000000, 5]⟩ = .ok true := by decide +kernel

/-- C119 is false with the default settings, six digits and the tolerance `1e-06`: 1.0000049 is written as 1, and `==` tells the
difference. -/
theorem C119_default_false : ∃ x : Double, fileTestVec 6 (Fl.of 53 (-1074) (1 / 10 ^ 6)) [x] = .ok false ∧
    fileTestMat 6 (Fl.of 53 (-1074) (1 / 10 ^ 6)) ⟨1, 1, [x]⟩ = .ok false :=
  ⟨Fl.of 53 (-1074) 1.0000049, by decide +kernel, by decide +kernel⟩

end Malg
