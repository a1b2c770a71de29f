import Verif.Model.Quals
import Verif.Lemmas.Cpx
import Verif.Props.Compare
import Verif.Props.Reduce
import Verif.Props.Io
import Verif.Props.Types
import Mathlib.Analysis.Complex.Polynomial.Basic
/-!
# Property C110: views of constant matrices behave as the matrices they view
-/
namespace Malg
open Ops Io Feq

/-- Both real, or of the same parts, or both complex over floating point numbers. -/
def Compatible (a b : ElemType) : Prop :=
  (a.isComplex = false ∧ b.isComplex = false) ∨ a.inner = b.inner ∨
    (a.isComplex = true ∧ b.isComplex = true ∧ a.inner.isFloat = true ∧ b.inner.isFloat = true)

/-- C110: the element type of results. It is the one of the unqualified types unless both operands are complex and one
of them, but not the other, is seen through a view of a constant matrix, or a real operand has another type than
the parts of the other. -/
theorem C110_result_partial (p q : QType) (h : Compatible p.elem q.elem)
    (hc : p.elem.isComplex = false ∨ q.elem.isComplex = false ∨ p.const = q.const) :
    QType.extract p q = some (CType.ofElem (ElemType.extract p.elem q.elem)) := by
  obtain ⟨b, e⟩ := p
  obtain ⟨d, f⟩ := q
  rcases h with ⟨h1, h2⟩ | h | ⟨h1, h2, h3, h4⟩
  · cases e <;> cases f <;> simp_all [ElemType.isComplex, QType.extract, QType.isComplex, CType.ofElem,
      ElemType.extract, CType.common]
  · cases e <;> cases f <;> simp_all [ElemType.isComplex, ElemType.inner, QType.extract, QType.isComplex,
      QType.complexT, CType.ofElem, ElemType.extract, CType.common]
    all_goals (try cases b) <;> (try cases d) <;> simp_all [Arith.common]
  · cases e <;> cases f <;> simp_all [ElemType.isComplex, ElemType.inner, QType.extract, QType.isComplex,
      QType.complexT, CType.ofElem, ElemType.extract, CType.common]
    cases d <;> simp_all [Arith.common]

/-- C110 also with conversions of parts as long as the complex operand is not seen through such a view. -/
theorem C110_result_plain_partial (a b : ElemType) (c : Bool) (h : b.isComplex = false) :
    QType.extract (.plain a) ⟨c, b⟩ = some (CType.ofElem (ElemType.extract a b)) ∧
    QType.extract ⟨c, b⟩ (.plain a) = some (CType.ofElem (ElemType.extract b a)) := by
  cases a <;> cases b <;> simp_all [ElemType.isComplex, ElemType.inner, QType.extract, QType.isComplex, QType.plain,
    QType.complexT, CType.ofElem, ElemType.extract, CType.common]

/-- C110 fails for `cA(rows, cols) + B` and `B + cA(rows, cols)` on complex elements: the element type of the result is
`std::complex<std::complex<T>>`, whatever `T`. -/
theorem C110_result_false (s t : Arith) :
    QType.extract (.constView (.complex s)) (.plain (.complex t)) = some (.cpx (.cpx (.arith s))) ∧
    QType.extract (.plain (.complex t)) (.constView (.complex s)) = some (.cpx (.cpx (.arith s))) ∧
    QType.extract (.plain (.complex s)) (.plain (.complex t)) = some (.cpx (.arith (Arith.common s t))) := by
  refine ⟨rfl, rfl, ?_⟩
  simp [QType.extract, QType.isComplex, QType.plain, ElemType.isComplex, QType.complexT, CType.common, ElemType.inner]

/-- C110 fails for `cA(rows, cols) + b` with a complex matrix and a real operand of another type: the result keeps the
parts of the view, so `complex<float>` with `double` is rounded and `complex<int>` with `double` is truncated, whereas
without the view the parts are `double`. -/
theorem C110_narrow_false (s t : Arith) :
    QType.extract (.constView (.complex s)) (.plain (.real t)) = some (.cpx (.arith s)) ∧
    QType.extract (.plain (.real t)) (.constView (.complex s)) = some (.cpx (.arith s)) ∧
    QType.extract (.plain (.complex s)) (.plain (.real t)) = some (.cpx (.arith (Arith.common s t))) ∧
    Arith.common .float .double = .double ∧ Arith.common .int .double = .double := by
  refine ⟨rfl, rfl, ?_, rfl, rfl⟩
  simp [QType.extract, CType.ofElem, QType.isComplex, QType.plain, ElemType.isComplex, QType.complexT, CType.common,
    ElemType.inner]

/-- C110: how `==` and `!=` compare elements. Without views of constant matrices: with a tolerance if one of the two
element types is floating point, by parts with a tolerance if both are complex, exactly otherwise; with such views the
same, unless both are complex. -/
theorem C110_mode_partial (a b : ElemType) :
    (cmpMode (.plain a) (.plain b) = .parts ↔ a.isComplex = true ∧ b.isComplex = true) ∧
    (cmpMode (.plain a) (.plain b) = .approx ↔ ∃ t : Arith, t.isFloat = true ∧ (a = .real t ∨ b = .real t)) ∧
    ∀ c d, a.isComplex = false ∨ b.isComplex = false → cmpMode ⟨c, a⟩ ⟨d, b⟩ = cmpMode (.plain a) (.plain b) := by
  refine ⟨?_, ?_, ?_⟩
  · cases a <;> cases b <;> simp [cmpMode, QType.plain, QType.isFloat, QType.isComplex, ElemType.isComplex] <;>
      (try split) <;> simp_all
  · cases a <;> cases b <;> simp [cmpMode, QType.plain, QType.isFloat, QType.isComplex, ElemType.isComplex]
    case real.real s t =>
      constructor
      · intro h
        by_cases hs : s.isFloat = true
        · exact ⟨s, hs, .inl rfl⟩
        · exact ⟨t, by simpa [hs] using h, .inr rfl⟩
      · rintro ⟨u, hu, rfl | rfl⟩ <;> simp [hu]
  · intro c d h
    cases a <;> cases b <;> simp_all [cmpMode, QType.plain, QType.isFloat, QType.isComplex, ElemType.isComplex]

/-- C110 fails for complex elements: one view of a constant matrix among the operands and the comparison is exact. -/
theorem C110_mode_false (s t : Arith) (c d : Bool) (h : c = true ∨ d = true) :
    cmpMode ⟨c, .complex s⟩ ⟨d, .complex t⟩ = .exact ∧ cmpMode (.plain (.complex s)) (.plain (.complex t)) = .parts := by
  rcases h with rfl | rfl <;> simp [cmpMode, QType.plain, QType.isFloat, QType.isComplex, ElemType.isComplex]

/-- C110: what `==` finds equal through a view of a constant matrix is equal to `==` on the matrices as well, for every
tolerance that is not negative. -/
theorem C110_equal_partial {K : Type} [Field K] [LinearOrder K] [IsStrictOrderedRing K] [DecidableEq (Cpx K)] (tol : K)
    (h0 : 0 ≤ tol) (t : Arith) {A B : MB (Cpx K)} {n m : Nat} {e f} (hA : Rep A n m e) (hB : Rep B n m f)
    (p q : QType) (hp : p.elem = .complex t) (hq : q.elem = .complex t) :
    ∃ E F, eqComplex (|·|) tol p q A B = .ok E ∧
      eqComplex (|·|) tol (.plain (.complex t)) (.plain (.complex t)) A B = .ok F ∧
      ∀ i j, i < n → j < m → E.at_ i j = .ok true → F.at_ i j = .ok true := by
  obtain ⟨c, a⟩ := p
  obtain ⟨d, b⟩ := q
  subst hp hq
  have hpl : cmpMode (.plain (.complex t)) (.plain (.complex t)) = .parts := by
    simp [cmpMode, QType.plain, QType.isFloat, QType.isComplex, ElemType.isComplex]
  obtain ⟨F, hF, hF'⟩ := (C39_entries (eqParts (|·|) Cpx.re Cpx.im tol) hA hB (e 0 0)).1
  by_cases h : c = true ∨ d = true
  · obtain ⟨E, hE, hE'⟩ := (C39_entries (eqExact (T := Cpx K)) hA hB (e 0 0)).1
    refine ⟨E, F, ?_, ?_, ?_⟩
    · unfold eqComplex; rw [(C110_mode_false t t c d h).1]; exact hE
    · unfold eqComplex; rw [hpl]; exact hF
    · intro i j hi hj h1
      have h2 := hE'.rep.get i j hi hj
      have h3 := hF'.rep.get i j hi hj
      have h4 : E.at_ i j = .ok (eqExact (e i j) (f i j)) := h2
      rw [h1] at h4
      have h5 : e i j = f i j := by
        have := (Res.ok.inj h4).symm
        exact of_decide_eq_true this
      have h6 : F.at_ i j = .ok (eqParts (|·|) Cpx.re Cpx.im tol (e i j) (f i j)) := h3
      rw [h6, h5]
      have hr : ∀ x : K, approxEq (|·|) tol x x = true := fun x =>
        (C40_refl_symm (AbsoluteValue.abs (S := K)) tol x x).1 h0
      simp only [eqParts, hr, Bool.and_self]
  · have hcd : c = false ∧ d = false := by simpa using h
    obtain ⟨rfl, rfl⟩ := hcd
    refine ⟨F, F, ?_, ?_, fun i j _ _ h => h⟩ <;>
    · unfold eqComplex
      first
        | (rw [hpl]; exact hF)
        | (rw [show cmpMode ⟨false, .complex t⟩ ⟨false, .complex t⟩ = .parts from hpl]; exact hF)

/-- The verdict of `==` on the same complex entries depends on `const`: two numbers within the tolerance are equal as
entries of matrices and different as soon as one of the matrices is seen through a view of a constant matrix. -/
theorem C110_equal_false : ∃ A B : Mat (Cpx ℚ), ∃ tol : ℚ, 0 < tol ∧
    eqComplex (|·|) tol (.plain (.complex .double)) (.plain (.complex .double)) A.toMB B.toMB = .ok ⟨1, 1, [true]⟩ ∧
    eqComplex (|·|) tol (.constView (.complex .double)) (.plain (.complex .double)) A.toMB B.toMB = .ok ⟨1, 1, [false]⟩ ∧
    eqComplex (|·|) tol (.constView (.complex .double)) (.constView (.complex .double)) A.toMB B.toMB =
      .ok ⟨1, 1, [false]⟩ :=
  ⟨⟨1, 1, [⟨1, 0⟩]⟩, ⟨1, 1, [⟨1 + 1 / 10 ^ 9, 0⟩]⟩, 1 / 10 ^ 8, by norm_num, by decide +kernel, by decide +kernel,
    by decide +kernel⟩

/-- C110: `to_matlab` of complex entries: `re+imi`, the same text for all but views of constant matrices. -/
theorem C110_matlab_partial (c : Codec Int) (t : Arith) (name : List Char) {A : MB (Int × Int)} {n m : Nat} {e}
    (h : RepAt A n m e) :
    matlabComplexMat c (.plain (.complex t)) name A = .ok (name ++ " = [".toList ++ ((List.range n).flatMap fun r =>
      "[".toList ++ [' '].intercalate ((List.range m).map fun k => matlabComplex c.fmt (e r k)) ++ "];".toList) ++
      "]".toList) :=
  C69_matlab_matrix _ name h

/-- C110 fails for them: `to_matlab` writes `(re,im)` instead, two numbers to matlab. -/
theorem C110_matlab_false :
    matlabComplexMat (intCodec (-2 ^ 31) (2 ^ 31 - 1)) (.plain (.complex .int)) "A".toList (⟨1, 2, [(1, 2), (3, -4)]⟩ : Mat (Int × Int)).toMB =
      .ok "A = [[1+2i 3-4i];]".toList ∧
    matlabComplexMat (intCodec (-2 ^ 31) (2 ^ 31 - 1)) (.constView (.complex .int)) "A".toList (⟨1, 2, [(1, 2), (3, -4)]⟩ : Mat (Int × Int)).toMB =
      .ok "A = [[(1,2) (3,-4)];]".toList := by
  constructor <;> decide +kernel

/-- C110: `square_norm` and `vector_length` of a view of a constant complex matrix return a square root of the sum of
the squares `z * z`, not of the squared moduli. -/
theorem C110_norm {K : Type} [CommRing K] (csqrt : Cpx K → Cpx K) (hs : ∀ z, csqrt z * csqrt z = z) {A : MB (Cpx K)}
    {n m : Nat} {e} (hA : RepAt A n m e) :
    (∃ w, squareNormConst csqrt A = .ok w ∧ w * w = ∑ i : Fin n, ∑ j : Fin m, e i j * e i j) ∧
    ∀ c, c < m → ∃ w, vectorLengthConst csqrt A c 0 n = .ok w ∧ w * w = ∑ r ∈ Finset.range n, e r c * e r c := by
  refine ⟨⟨_, ?_, hs _⟩, fun c hc => ⟨_, C44_vector_length csqrt hA hc 0 n, ?_⟩⟩
  · have h := (C44_square_norm csqrt (v := []) (p := 0) (f := fun _ => 0)
      ⟨Nat.pos_of_ne_zero (by unfold allocMax; decide), rfl, nofun⟩ hA).2
    exact h
  · rw [hs]
    congr 1
    ext r; simp

/-- C110 for entries that are real: the square of the result is the sum of their squares. -/
theorem C110_norm_partial {K : Type} [CommRing K] (csqrt : Cpx K → Cpx K) (hs : ∀ z, csqrt z * csqrt z = z)
    {A : MB (Cpx K)} {n m : Nat} {e} (hA : RepAt A n m e) (x : Nat → Nat → K)
    (hx : ∀ i j, i < n → j < m → e i j = ⟨x i j, 0⟩) :
    ∃ w, squareNormConst csqrt A = .ok w ∧ w * w = ⟨∑ i : Fin n, ∑ j : Fin m, x i j ^ 2, 0⟩ := by
  obtain ⟨w, h1, h2⟩ := (C110_norm csqrt hs hA).1
  refine ⟨w, h1, ?_⟩
  rw [h2]
  have h : ∀ i : Fin n, ∀ j : Fin m, e i j * e i j = ⟨x i j ^ 2, 0⟩ := by
    intro i j
    rw [hx i j i.2 j.2]
    apply Cpx.ext'
    · show x i j * x i j - 0 * 0 = _; ring
    · show x i j * 0 + 0 * x i j = _; ring
  have hre : ∀ (k : Nat) (g : Fin k → Cpx K), (∑ i, g i).re = ∑ i, (g i).re := fun k g =>
    map_sum (⟨⟨Cpx.re, rfl⟩, fun _ _ => rfl⟩ : Cpx K →+ K) g _
  have him : ∀ (k : Nat) (g : Fin k → Cpx K), (∑ i, g i).im = ∑ i, (g i).im := fun k g =>
    map_sum (⟨⟨Cpx.im, rfl⟩, fun _ _ => rfl⟩ : Cpx K →+ K) g _
  apply Cpx.ext'
  · simp only [hre, h]
  · simp only [him, h, Finset.sum_const_zero]

/-- The norm of a complex matrix seen through a view of a constant matrix can be 0 although the matrix is not: `(1, i)`,
for whatever complex square root. -/
theorem C110_norm_false (csqrt : Cpx ℚ → Cpx ℚ) (h0 : csqrt 0 = 0) (sqrt : ℚ → ℚ) :
    squareNormConst csqrt (⟨1, 2, [⟨1, 0⟩, ⟨0, 1⟩]⟩ : Mat (Cpx ℚ)).toMB = .ok 0 ∧
    Eigen.squareNormC sqrt (⟨1, 2, [⟨1, 0⟩, ⟨0, 1⟩]⟩ : Mat (Cpx ℚ)).toMB = .ok (sqrt 2) := by
  constructor
  · have h : squareNormConst id (⟨1, 2, [⟨1, 0⟩, ⟨0, 1⟩]⟩ : Mat (Cpx ℚ)).toMB = .ok 0 := by decide +kernel
    unfold squareNormConst squareNorm at *
    obtain ⟨a, h1, h2⟩ := Res.bind_eq_ok.1 h
    rw [h1, Res.ok_bind]
    have : a = 0 := Res.ok.inj h2
    rw [this, h0]; rfl
  · have h : Eigen.squareNormC id (⟨1, 2, [⟨1, 0⟩, ⟨0, 1⟩]⟩ : Mat (Cpx ℚ)).toMB = .ok 2 := by decide +kernel
    unfold Eigen.squareNormC at *
    obtain ⟨a, h1, h2⟩ := Res.bind_eq_ok.1 h
    rw [h1, Res.ok_bind]
    have : a = 2 := Res.ok.inj h2
    rw [this]; rfl

/-- There are such square roots. -/
example : ∃ csqrt : Cpx ℝ → Cpx ℝ, ∀ z, csqrt z * csqrt z = z := by
  have h : ∀ z : Cpx ℝ, ∃ w : Cpx ℝ, w * w = z := fun z => by
    obtain ⟨w, hw⟩ := IsAlgClosed.exists_eq_mul_self (⟨z.re, z.im⟩ : ℂ)
    exact ⟨⟨w.re, w.im⟩, Cpx.ext' (congrArg Complex.re hw).symm (congrArg Complex.im hw).symm⟩
  choose f hf using h
  exact ⟨f, hf⟩

example : QType.extract (.constView (.real .int)) (.plain (.real .double)) = some (.arith .double) := by decide
example : QType.extract (.constView (.complex .float)) (.constView (.complex .double)) = some (.cpx (.arith .double)) := by
  decide
example : QType.extract (.constView (.complex .int)) (.constView (.complex .float)) = none := by decide
example : cmpMode (.constView (.real .float)) (.plain (.real .float)) = .approx := by decide
example : cmpMode (.plain (.complex .double)) (.constView (.complex .double)) = .exact := by decide

end Malg
