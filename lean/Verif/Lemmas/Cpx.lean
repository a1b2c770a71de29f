import Verif.Model.EigenQr
import Mathlib.Algebra.Field.Basic
import Mathlib.Algebra.Star.Basic
import Mathlib.Algebra.BigOperators.Group.Finset.Basic
import Mathlib.Algebra.Order.Field.Basic
import Mathlib.Tactic.Ring
import Mathlib.Tactic.Linarith
import Mathlib.Tactic.FieldSimp
import Mathlib.Tactic.LinearCombination
/-!
# Pairs over an ordered field as complex numbers
-/
namespace Malg
namespace Cpx
variable {K : Type}

@[ext] theorem ext' {a b : Cpx K} (h1 : a.re = b.re) (h2 : a.im = b.im) : a = b := by
  cases a; cases b; simp_all

section ring
variable [CommRing K]

@[simp] theorem zero_re : (0 : Cpx K).re = 0 := rfl
@[simp] theorem zero_im : (0 : Cpx K).im = 0 := rfl
@[simp] theorem one_re : (1 : Cpx K).re = 1 := rfl
@[simp] theorem one_im : (1 : Cpx K).im = 0 := rfl
@[simp] theorem add_re (a b : Cpx K) : (a + b).re = a.re + b.re := rfl
@[simp] theorem add_im (a b : Cpx K) : (a + b).im = a.im + b.im := rfl
@[simp] theorem sub_re (a b : Cpx K) : (a - b).re = a.re - b.re := rfl
@[simp] theorem sub_im (a b : Cpx K) : (a - b).im = a.im - b.im := rfl
@[simp] theorem neg_re (a : Cpx K) : (-a).re = -a.re := rfl
@[simp] theorem neg_im (a : Cpx K) : (-a).im = -a.im := rfl
@[simp] theorem mul_re (a b : Cpx K) : (a * b).re = a.re * b.re - a.im * b.im := rfl
@[simp] theorem mul_im (a b : Cpx K) : (a * b).im = a.re * b.im + a.im * b.re := rfl
@[simp] theorem ofReal_re (x : K) : (ofReal x).re = x := rfl
@[simp] theorem ofReal_im (x : K) : (ofReal x).im = 0 := rfl
@[simp] theorem conj_re (a : Cpx K) : (conj a).re = a.re := rfl
@[simp] theorem conj_im (a : Cpx K) : (conj a).im = -a.im := rfl

instance : CommRing (Cpx K) where
  add_assoc a b c := by ext <;> simp <;> ring
  zero_add a := by ext <;> simp
  add_zero a := by ext <;> simp
  add_comm a b := by ext <;> simp <;> ring
  mul_assoc a b c := by ext <;> simp <;> ring
  one_mul a := by ext <;> simp
  mul_one a := by ext <;> simp
  mul_comm a b := by ext <;> simp <;> ring
  left_distrib a b c := by ext <;> simp <;> ring
  right_distrib a b c := by ext <;> simp <;> ring
  zero_mul a := by ext <;> simp
  mul_zero a := by ext <;> simp
  neg_add_cancel a := by ext <;> simp
  sub_eq_add_neg a b := by ext <;> simp <;> ring
  nsmul := nsmulRec
  zsmul := zsmulRec

instance : StarRing (Cpx K) where
  star := conj
  star_involutive a := by ext <;> simp
  star_mul a b := by ext <;> simp <;> ring
  star_add a b := by ext <;> simp; ring

theorem star_def (a : Cpx K) : star a = conj a := rfl
@[simp] theorem star_re (a : Cpx K) : (star a).re = a.re := rfl
@[simp] theorem star_im (a : Cpx K) : (star a).im = -a.im := rfl

theorem mulR_eq (a : Cpx K) (x : K) : mulR a x = a * ofReal x := by ext <;> simp [mulR]

theorem ofReal_add (x y : K) : ofReal (x + y) = ofReal x + ofReal y := by ext <;> simp
theorem ofReal_sub (x y : K) : ofReal (x - y) = ofReal x - ofReal y := by ext <;> simp
theorem ofReal_mul (x y : K) : ofReal (x * y) = ofReal x * ofReal y := by ext <;> simp
@[simp] theorem ofReal_zero : ofReal (0 : K) = 0 := rfl
@[simp] theorem ofReal_one : ofReal (1 : K) = 1 := rfl
@[simp] theorem star_ofReal (x : K) : star (ofReal x) = ofReal x := by ext <;> simp
theorem ofReal_inj {x y : K} : ofReal x = ofReal y ↔ x = y := ⟨fun h => congrArg Cpx.re h, fun h => h ▸ rfl⟩

theorem two_eq : (2 : Cpx K) = ofReal 2 := by
  rw [← one_add_one_eq_two, ← one_add_one_eq_two (R := K), ofReal_add, ofReal_one]

theorem norm_eq (a : Cpx K) : ofReal (Eigen.norm a) = star a * a := by ext <;> simp [Eigen.norm]; ring
theorem norm_eq' (a : Cpx K) : ofReal (Eigen.norm a) = a * star a := by ext <;> simp [Eigen.norm]; ring
@[simp] theorem norm_star (a : Cpx K) : Eigen.norm (star a) = Eigen.norm a := by simp [Eigen.norm]
@[simp] theorem norm_neg (a : Cpx K) : Eigen.norm (-a) = Eigen.norm a := by simp [Eigen.norm]
@[simp] theorem norm_zero : Eigen.norm (0 : Cpx K) = 0 := by simp [Eigen.norm]
@[simp] theorem norm_one : Eigen.norm (1 : Cpx K) = 1 := by simp [Eigen.norm]
theorem norm_mul (a b : Cpx K) : Eigen.norm (a * b) = Eigen.norm a * Eigen.norm b := by simp [Eigen.norm]; ring
theorem norm_ofReal (x : K) : Eigen.norm (ofReal x) = x * x := by simp [Eigen.norm]

/-- The embedding of the numbers. -/
def ofRealHom : K →+* Cpx K where
  toFun := ofReal
  map_one' := rfl
  map_zero' := rfl
  map_add' := ofReal_add
  map_mul' := ofReal_mul

theorem ofReal_sum {ι : Type} (s : Finset ι) (f : ι → K) : ofReal (∑ i ∈ s, f i) = ∑ i ∈ s, ofReal (f i) :=
  map_sum ofRealHom f s

end ring

section field
variable [Field K] [LinearOrder K] [IsStrictOrderedRing K]

theorem norm_nonneg (a : Cpx K) : 0 ≤ Eigen.norm a :=
  add_nonneg (mul_self_nonneg _) (mul_self_nonneg _)

theorem norm_eq_zero {a : Cpx K} : Eigen.norm a = 0 ↔ a = 0 := by
  constructor
  · intro h
    have h1 := mul_self_nonneg a.re
    have h2 := mul_self_nonneg a.im
    unfold Eigen.norm at h
    ext
    · exact mul_self_eq_zero.1 (by linarith)
    · exact mul_self_eq_zero.1 (by linarith)
  · rintro rfl; exact norm_zero

theorem norm_pos {a : Cpx K} (h : a ≠ 0) : 0 < Eigen.norm a :=
  lt_of_le_of_ne (norm_nonneg a) fun h' => h (norm_eq_zero.1 h'.symm)

instance : Field (Cpx K) where
  inv a := ⟨a.re / Eigen.norm a, -a.im / Eigen.norm a⟩
  exists_pair_ne := ⟨0, 1, fun h => zero_ne_one (congrArg Cpx.re h)⟩
  mul_inv_cancel a h := by
    have := (norm_pos h).ne'
    ext
    · simp only [mul_re, one_re]
      field_simp
      unfold Eigen.norm
      ring
    · simp only [mul_im, one_im]
      field_simp
      ring
  inv_zero := by ext <;> simp
  nnqsmul := _
  qsmul := _

theorem inv_re (a : Cpx K) : (a⁻¹).re = a.re / Eigen.norm a := rfl
theorem inv_im (a : Cpx K) : (a⁻¹).im = -a.im / Eigen.norm a := rfl

omit [LinearOrder K] [IsStrictOrderedRing K] in
theorem ofReal_ne_zero {x : K} : ofReal x ≠ 0 ↔ x ≠ 0 := by rw [Ne, ← ofReal_zero, ofReal_inj]

theorem ofReal_div (x y : K) : ofReal (x / y) = ofReal x / ofReal y := map_div₀ (ofRealHom : K →+* Cpx K) x y

/-- `complex /= number`. -/
theorem divR_ok (a : Cpx K) {x : K} (h : x ≠ 0) : divR a x = .ok (a / ofReal x) := by
  unfold divR
  rw [cdiv_ok _ h, Res.ok_bind, cdiv_ok _ h, Res.ok_bind]
  show Res.ok _ = Res.ok _
  congr 1
  rw [eq_div_iff (ofReal_ne_zero.2 h)]
  ext
  · simp [div_mul_cancel₀ _ h]
  · simp [div_mul_cancel₀ _ h]

/-- `complex /= complex`. -/
theorem divC_ok (a : Cpx K) {b : Cpx K} (h : b ≠ 0) : divC a b = .ok (a / b) := by
  have hn : b.re * b.re + b.im * b.im ≠ 0 := (norm_pos h).ne'
  unfold divC
  dsimp only
  rw [cdiv_ok _ hn, Res.ok_bind, cdiv_ok _ hn, Res.ok_bind]
  show Res.ok _ = Res.ok _
  congr 1
  rw [eq_div_iff h]
  ext
  · rw [mul_re, div_mul_eq_mul_div, div_mul_eq_mul_div, ← sub_div, div_eq_iff hn]; ring
  · rw [mul_im, div_mul_eq_mul_div, div_mul_eq_mul_div, ← add_div, div_eq_iff hn]; ring

/-- `abs` is the modulus. -/
def IsAbs (abs : Cpx K → K) : Prop := ∀ z, 0 ≤ abs z ∧ abs z * abs z = Eigen.norm z

end field
end Cpx
end Malg
