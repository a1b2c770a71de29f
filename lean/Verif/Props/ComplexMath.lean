import Verif.Model.ComplexMath
import Mathlib.Data.Complex.Basic
import Mathlib.Tactic.Linarith
import Mathlib.Tactic.Ring
/-!
# Property C71: mixed complex arithmetic
-/
namespace Malg
open Cpx
variable {A B K : Type}

/-- C71: over any field and for any conversions, the mixed operators are the complex operators after converting the
number to a complex number. -/
theorem C71_converts [Field K] (c1 : A → K) (c2 : B → K) (z : Cpx A) (w : Cpx B) (x : A) (y : B) :
    addCR c1 c2 z y = addC ⟨c1 z.re, c1 z.im⟩ (ofReal (c2 y)) ∧ addRC c1 c2 x w = addC (ofReal (c1 x)) ⟨c2 w.re, c2 w.im⟩ ∧
    subCR c1 c2 z y = subC ⟨c1 z.re, c1 z.im⟩ (ofReal (c2 y)) ∧ subRC c1 c2 x w = subC (ofReal (c1 x)) ⟨c2 w.re, c2 w.im⟩ ∧
    mulCR c1 c2 z y = mulC ⟨c1 z.re, c1 z.im⟩ (ofReal (c2 y)) ∧ mulRC c1 c2 x w = mulC (ofReal (c1 x)) ⟨c2 w.re, c2 w.im⟩ := by
  refine ⟨?_, rfl, ?_, rfl, ?_, rfl⟩
  · simp [addCR, addR, addC, ofReal, conv]
  · simp [subCR, subR, subC, ofReal, conv]
  · simp [mulCR, mulR, mulC, ofReal, conv]

/-- C71: the same for quotients, also when the divisor is zero. -/
theorem C71_converts_div [Field K] [DecidableEq K] (c1 : A → K) (c2 : B → K) (z : Cpx A) (w : Cpx B) (x : A) (y : B) :
    divCR c1 c2 z y = divC ⟨c1 z.re, c1 z.im⟩ (ofReal (c2 y)) ∧ divRC c1 c2 x w = divC (ofReal (c1 x)) ⟨c2 w.re, c2 w.im⟩ := by
  refine ⟨?_, rfl⟩
  simp only [divCR, divR, divC, ofReal, conv, mul_zero, add_zero, sub_zero]
  by_cases h : c2 y = 0
  · simp only [h, mul_zero, cdiv_zero, Res.ub_bind]
  · have h2 : c2 y * c2 y ≠ 0 := mul_ne_zero h h
    simp only [cdiv_ok _ h, cdiv_ok _ h2, Res.ok_bind]
    congr 2
    · rw [mul_div_mul_right _ _ h]
    · rw [mul_div_mul_right _ _ h]

/-- The number a pair of real numbers stands for. -/
noncomputable def Cpx.toC (z : Cpx ℝ) : ℂ := ⟨z.re, z.im⟩

/-- C71: with real parts the twelve operators are the operations of the complex numbers. -/
theorem C71_value (c1 : A → ℝ) (c2 : B → ℝ) (z : Cpx A) (w : Cpx B) (x : A) (y : B) :
    (addCC c1 c2 z w).toC = (Complex.mk (c1 z.re) (c1 z.im)) + (Complex.mk (c2 w.re) (c2 w.im)) ∧
    (addCR c1 c2 z y).toC = (Complex.mk (c1 z.re) (c1 z.im)) + (c2 y : ℂ) ∧ (addRC c1 c2 x w).toC = (c1 x : ℂ) + (Complex.mk (c2 w.re) (c2 w.im)) ∧
    (subCC c1 c2 z w).toC = (Complex.mk (c1 z.re) (c1 z.im)) - (Complex.mk (c2 w.re) (c2 w.im)) ∧
    (subCR c1 c2 z y).toC = (Complex.mk (c1 z.re) (c1 z.im)) - (c2 y : ℂ) ∧ (subRC c1 c2 x w).toC = (c1 x : ℂ) - (Complex.mk (c2 w.re) (c2 w.im)) ∧
    (mulCC c1 c2 z w).toC = (Complex.mk (c1 z.re) (c1 z.im)) * (Complex.mk (c2 w.re) (c2 w.im)) ∧
    (mulCR c1 c2 z y).toC = (Complex.mk (c1 z.re) (c1 z.im)) * (c2 y : ℂ) ∧ (mulRC c1 c2 x w).toC = (c1 x : ℂ) * (Complex.mk (c2 w.re) (c2 w.im)) := by
  refine ⟨?_, ?_, ?_, ?_, ?_, ?_, ?_, ?_, ?_⟩ <;> apply Complex.ext <;>
    simp [Cpx.toC, conv, addCC, addCR, addRC, subCC, subCR, subRC, mulCC, mulCR, mulRC, addC, addR, subC, subR, mulC, mulR,
      ofReal]

theorem divC_value [DecidableEq ℝ] (a b : Cpx ℝ) (hb : b.toC ≠ 0) :
    ∃ q, divC a b = .ok q ∧ q.toC = a.toC / b.toC := by
  have hn : b.re * b.re + b.im * b.im ≠ 0 := by
    intro h
    apply hb
    have h1 : b.re = 0 ∧ b.im = 0 := by constructor <;> nlinarith [mul_self_nonneg b.re, mul_self_nonneg b.im]
    apply Complex.ext <;> simp [Cpx.toC, h1]
  refine ⟨⟨(a.re * b.re + a.im * b.im) / (b.re * b.re + b.im * b.im),
    (a.im * b.re - a.re * b.im) / (b.re * b.re + b.im * b.im)⟩,
    by simp only [divC, cdiv_ok _ hn, Res.ok_bind, Res.pure_eq], ?_⟩
  rw [eq_div_iff hb]
  apply Complex.ext
  · simp only [Cpx.toC, Complex.mul_re]; rw [div_mul_eq_mul_div, div_mul_eq_mul_div, ← sub_div, div_eq_iff hn]; ring
  · simp only [Cpx.toC, Complex.mul_im]; rw [div_mul_eq_mul_div, div_mul_eq_mul_div, ← add_div, div_eq_iff hn]; ring

/-- C71: quotients by anything but zero. -/
theorem C71_value_div [DecidableEq ℝ] (c1 : A → ℝ) (c2 : B → ℝ) (z : Cpx A) (w : Cpx B) (x : A) (y : B)
    (hw : (Complex.mk (c2 w.re) (c2 w.im)) ≠ 0) (hy : c2 y ≠ 0) :
    (∃ q, divCC c1 c2 z w = .ok q ∧ q.toC = (Complex.mk (c1 z.re) (c1 z.im)) / (Complex.mk (c2 w.re) (c2 w.im))) ∧
    (∃ q, divCR c1 c2 z y = .ok q ∧ q.toC = (Complex.mk (c1 z.re) (c1 z.im)) / (c2 y : ℂ)) ∧
    (∃ q, divRC c1 c2 x w = .ok q ∧ q.toC = (c1 x : ℂ) / (Complex.mk (c2 w.re) (c2 w.im))) := by
  have hofr : ∀ t : ℝ, (ofReal t).toC = (t : ℂ) := fun t => rfl
  refine ⟨divC_value _ _ hw, ?_, ?_⟩
  · rw [(C71_converts_div c1 c2 z w x y).1, ← hofr (c2 y)]
    exact divC_value _ _ (by rw [hofr]; exact_mod_cast hy)
  · rw [(C71_converts_div c1 c2 z w x y).2, ← hofr (c1 x)]
    exact divC_value _ _ hw

example : mulRC (K := ℚ) (fun n : Int => (n : ℚ)) id 3 ⟨1 / 2, -2⟩ = ⟨3 / 2, -6⟩ := by decide +kernel
example : subRC (K := ℚ) (fun n : Int => (n : ℚ)) id 3 ⟨1 / 2, -2⟩ = ⟨5 / 2, 2⟩ := by decide +kernel
example : divRC (K := ℚ) (fun n : Int => (n : ℚ)) id 5 ⟨1, 2⟩ = .ok ⟨1, -2⟩ := by decide +kernel
example : divCR (K := ℚ) id (fun n : Int => (n : ℚ)) ⟨3, 6⟩ 3 = .ok ⟨1, 2⟩ := by decide +kernel
example : divCR (K := ℚ) id (fun n : Int => (n : ℚ)) ⟨3, 6⟩ 0 = .ub .divZero := by decide +kernel

end Malg
