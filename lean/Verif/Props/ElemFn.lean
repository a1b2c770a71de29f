import Verif.Model.ElemFn
import Verif.Props.Reduce
/-!
# C46 for `abs`, `real` and `imag`

The results of the lambdas are thrown away. These theorems say for exactly which arguments the right values come out all the same.
-/
namespace Malg
open Ops
variable {T K : Type}

/-- C46: `element_wise_function` of a vector hands the vector back, of a matrix it returns zeros. So the values wanted come out exactly
when they are the elements themselves, or are all zero. -/
theorem C46_right_partial [Zero T] {R : Type} (fn : T → R) (g : T → T) :
    (∀ {a : List T} {p f}, VRep a p f → (ReturnsVec (mapFnVec id fn a) p (fun i => g (f i)) ↔ ∀ i < p, g (f i) = f i)) ∧
    ∀ {A : MB T} {n m e}, Rep A n m e → (Returns (mapFnMat (R := T) fn A) n m (fun i j => g (e i j)) ↔ ∀ i < n, ∀ j < m, g (e i j) = 0) := by
  constructor
  · intro a p f ha
    have hM : Fits (⟨0, 0, []⟩ : Mat T).toMB.rows (⟨0, 0, []⟩ : Mat T).toMB.cols := by
      show Fits 0 0
      exact fits_small (by decide) (by decide)
    obtain ⟨v, hv, hl, hg⟩ := (C46_shape_partial id fn ha hM).1
    constructor
    · rintro ⟨w, hw, _, hf⟩ i hi
      rw [hv] at hw; cases hw
      have := (hg i hi).symm.trans (hf i hi)
      exact (Option.some.inj this).symm
    · exact fun h => ⟨v, hv, hl, fun i hi => (hg i hi).trans (congrArg some (h i hi).symm)⟩
  · intro A n m e hA
    have hV : VRep ([] : List T) 0 (fun _ => 0) := ⟨by decide +kernel, rfl, fun i hi => absurd hi (Nat.not_lt_zero i)⟩
    have h0 := (C46_shape_partial id fn hV (A := A) (by rw [hA.rows, hA.cols]; exact hA.fits)).2
    rw [hA.rows, hA.cols] at h0
    constructor
    · intro h i hi j hj
      obtain ⟨B, hB, hb⟩ := h
      obtain ⟨B', hB', hb'⟩ := h0
      rw [hB] at hB'; cases hB'
      exact Res.ok.inj ((hb.rep.get i j hi hj).symm.trans (hb'.rep.get i j hi hj))
    · exact fun h => h0.congr fun i j hi hj => (h i hi j hj).symm

/-- C46: `abs` is right for vectors without negative elements and for zero matrices, and for no others. -/
theorem C46_abs_partial [AddCommGroup T] [LinearOrder T] [IsOrderedAddMonoid T] :
    (∀ {a : List T} {p f}, VRep a p f → (ReturnsVec (absVec (fun x : T => |x|) a) p (fun i => |f i|) ↔ ∀ i < p, 0 ≤ f i)) ∧
    ∀ {A : MB T} {n m e}, Rep A n m e →
      (Returns (absMat (fun x : T => |x|) A) n m (fun i j => |e i j|) ↔ ∀ i < n, ∀ j < m, e i j = 0) := by
  obtain ⟨h1, h2⟩ := C46_right_partial (fun x : T => |x|) (fun x => |x|)
  refine ⟨fun ha => (h1 ha).trans ?_, fun hA => (h2 hA).trans ?_⟩
  · simp only [abs_eq_self]
  · simp only [abs_eq_zero]

/-- C46: `real` returns complex numbers. They are the real parts (with no imaginary part) for vectors of real numbers and for matrices of
imaginary numbers, and for no others. -/
theorem C46_real_partial [Zero K] :
    (∀ {a : List (Cpx K)} {p f}, VRep a p f → (ReturnsVec (realVec a) p (fun i => ⟨(f i).re, 0⟩) ↔ ∀ i < p, (f i).im = 0)) ∧
    ∀ {A : MB (Cpx K)} {n m e}, Rep A n m e →
      (Returns (realMat A) n m (fun i j => ⟨(e i j).re, 0⟩) ↔ ∀ i < n, ∀ j < m, (e i j).re = 0) := by
  obtain ⟨h1, h2⟩ := C46_right_partial (fun z : Cpx K => z.re) (fun z => ⟨z.re, 0⟩)
  refine ⟨fun {a p f} ha => (h1 ha).trans ?_, fun {A n m e} hA => (h2 hA).trans ?_⟩
  · refine forall₂_congr fun i _ => ?_
    cases f i; simp [eq_comm]
  · refine forall₂_congr fun i _ => forall₂_congr fun j _ => ?_
    constructor
    · intro h; exact congrArg Cpx.re h
    · intro h; rw [h]; rfl

/-- C46: `imag` gives the imaginary parts of zero vectors and of matrices of real numbers, and of no others. -/
theorem C46_imag_partial [Zero K] :
    (∀ {a : List (Cpx K)} {p f}, VRep a p f → (ReturnsVec (imagVec a) p (fun i => ⟨(f i).im, 0⟩) ↔ ∀ i < p, f i = 0)) ∧
    ∀ {A : MB (Cpx K)} {n m e}, Rep A n m e →
      (Returns (imagMat A) n m (fun i j => ⟨(e i j).im, 0⟩) ↔ ∀ i < n, ∀ j < m, (e i j).im = 0) := by
  obtain ⟨h1, h2⟩ := C46_right_partial (fun z : Cpx K => z.im) (fun z => ⟨z.im, 0⟩)
  refine ⟨fun {a p f} ha => (h1 ha).trans ?_, fun {A n m e} hA => (h2 hA).trans ?_⟩
  · refine forall₂_congr fun i _ => ?_
    rcases hz : f i with ⟨x, y⟩
    constructor
    · intro h
      have h1 := congrArg Cpx.re h
      have h2 := congrArg Cpx.im h
      dsimp only at h1 h2
      rw [← h1, ← h2]; rfl
    · intro h
      cases h; rfl
  · refine forall₂_congr fun i _ => forall₂_congr fun j _ => ?_
    constructor
    · intro h; exact congrArg Cpx.re h
    · intro h; rw [h]; rfl

/-- C46: `imag([1+2i])` is `[1+2i]` and `real` of the matrix `[1+2i]` is zero. -/
theorem C46_parts_false : imagVec [(⟨1, 2⟩ : Cpx Int)] = .ok [⟨1, 2⟩] ∧
    realMat (⟨1, 1, [(⟨1, 2⟩ : Cpx Int)]⟩ : Mat (Cpx Int)).toMB = .ok ⟨1, 1, [⟨0, 0⟩]⟩ := by decide +kernel

example : absVec (fun x : Int => |x|) [3, 0, 5] = .ok [3, 0, 5] := by decide +kernel
example : absMat (fun x : Int => |x|) (⟨1, 2, [-3, 5]⟩ : Mat Int).toMB = .ok ⟨1, 2, [0, 0]⟩ := by decide +kernel
example : realVec [(⟨1, 0⟩ : Cpx Int), ⟨-4, 0⟩] = .ok [⟨1, 0⟩, ⟨-4, 0⟩] := by decide +kernel

end Malg
