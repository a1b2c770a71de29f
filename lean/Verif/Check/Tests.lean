import Verif.Props.IntInv
import Verif.Model.Control
import Verif.Model.Sqrt
/-!
# The tests of the project, run in the model

These are not properties. The test programs of the project are transcribed and evaluated, to check the model: where the program is said
to succeed, the model succeeds. The short ones are evaluated by the kernel (`example`), the long ones by the compiler (`#guard`, which
adds nothing to the environment). `double` is `Fl ℚ 53 (-1074)`, `int` is `SInt 32`.
-/
namespace Malg.Check
open Ops Lin Control

/-- `false` is the zero of `bool`. -/
scoped instance : Zero Bool := ⟨false⟩

/-- `malg::all(x == ref)` for `double`. -/
def same (tol : Double) (x : Res (Mat Double)) (ref : Mat Double) : Res Bool := do
  let x ← x
  let e ← cmp (eqApprox Fl.abs tol) x.toMB ref.toMB
  Ops.all e.toMB

/-- `malg::all(x == ref)` for vectors of `double`. -/
def sameVec (tol : Double) (x : Res (List Double)) (ref : List Double) : Res Bool := do
  let x ← x
  let e ← cmpVec (eqApprox Fl.abs tol) x ref
  Ops.allVec e

/-- `malg::all(x == ref)` for other elements. -/
def sameI {T : Type} [DecidableEq T] (x : Res (MB T)) (ref : Mat T) : Res Bool := do
  let x ← x
  let e ← cmp eqExact x ref.toMB
  Ops.all e.toMB

/-- `malg::all(x == ref)` for vectors of other elements. -/
def sameVecI {T : Type} [DecidableEq T] (x : Res (List T)) (ref : List T) : Res Bool := do
  let x ← x
  let e ← cmpVec eqExact x ref
  Ops.allVec e

/-- The interface of a resulting matrix. -/
def toMB {T : Type} (x : Res (Mat T)) : Res (MB T) := do
  let x ← x
  return x.toMB

/-- `feq::approximately_equal_to_zero`. -/
def isz (tol : Double) : Double → Bool := Feq.approxZero Fl.abs tol

/-- `linalg::expm(A, 1e-05)`. -/
def expmD (tol : Double) (A : MB Double) : Res (Mat Double) :=
  expm (isz tol) Fl.abs Fl.sqrtRat (Fl.of 53 (-1074) (1 / 2)) A (Fl.of 53 (-1074) (1 / 10 ^ 5)) 20

/-! ## `tests/test_view.cpp` -/

/-- The matrix of `test_view` and `test_find`. -/
def exA : Mat CInt := ⟨6, 5, [
    10, 1, 2, 6, -3, -4, 4, -1, -4, 7, -4, -2, 0, 9, -9, -4, -8, -4, -1, 7, -4, -9, -6, -6, 8, -5, 0, -1, 8, 10].map SInt.of⟩

example : sameI (exA.toMB.mkView ⟨0, 3⟩ ⟨1, 4⟩) ⟨3, 3, [
    1, 2, 6, 4, -1, -4, -2, 0, 9].map SInt.of⟩ = .ok true := by decide +kernel
example : sameI (exA.toMB.mkView ⟨0, 5⟩ ⟨0, 2⟩) ⟨5, 2, [
    10, 1, -4, 4, -4, -2, -4, -8, -4, -9].map SInt.of⟩ = .ok true := by decide +kernel
example : sameI (exA.toMB.mkView Range.all ⟨2, 5⟩) ⟨6, 3, [
    2, 6, -3, -1, -4, 7, 0, 9, -9, -4, -1, 7, -6, -6, 8, -1, 8, 10].map SInt.of⟩ = .ok true := by decide +kernel

/-! ## `tests/test_find.cpp` -/

instance : LT CInt := ⟨fun x y => x.get.getD 0 < y.get.getD 0⟩
instance : DecidableRel (α := CInt) (· < ·) := fun x y => inferInstanceAs (Decidable (x.get.getD 0 < y.get.getD 0))

example : sameI (do let c ← ltS exA.toMB (SInt.of (-5)); toMB (Util.find (! ·) c (W - 1) true)) ⟨5, 1, [14, 16, 21, 22, 23]⟩ = .ok true := by decide +kernel

/-! ## `tests/test_utility.cpp` -/

example : sameVecI (Util.linspace (fun a b => decide (a = b)) (SInt.of 0 : CInt) (SInt.of 40) 5) ([0, 10, 20, 30, 40].map SInt.of) = .ok true := by decide +kernel
example : sameVec tol6 (Util.linspace (Feq.approxEq Fl.abs tol6) (Fl.of 53 (-1074) 0) (Fl.of 53 (-1074) 1) 5) (doubles [0, 0.25, 0.5, 0.75, 1]) =
    .ok true := by decide +kernel

/-- The operands of `test_stack`. -/
def stA : Mat CInt := ⟨2, 2, [10, 1, -4, 4].map SInt.of⟩
@[inherit_doc stA]
def stB : Mat CInt := ⟨2, 2, [9, -9, -1, 7].map SInt.of⟩

example : sameI (toMB (Util.vstack stA.toMB stB.toMB)) ⟨4, 2, [10, 1, -4, 4, 9, -9, -1, 7].map SInt.of⟩ = .ok true := by decide +kernel
example : sameI (do let z ← Util.zeros 2 2; toMB (Util.vstack stA.toMB z.toMB)) ⟨4, 2, [10, 1, -4, 4, 0, 0, 0, 0].map SInt.of⟩ = .ok true := by decide +kernel
example : sameI (toMB (Util.hstack stA.toMB stB.toMB)) ⟨2, 4, [10, 1, 9, -9, -4, 4, -1, 7].map SInt.of⟩ = .ok true := by decide +kernel
example : sameI (do let z ← Util.zeros 2 2; toMB (Util.hstack stA.toMB z.toMB)) ⟨2, 4, [10, 1, 0, 0, -4, 4, 0, 0].map SInt.of⟩ = .ok true := by decide +kernel

/-- The elements of `test_transform`. -/
def trV : List CInt := [10, -4, 9, -1].map SInt.of

example : sameVecI (Util.toVector ⟨4, 1, trV⟩) trV = .ok true := by decide +kernel
example : sameVecI (Util.toVector ⟨1, 4, trV⟩) trV = .ok true := by decide +kernel
example : sameI (toMB (Util.toMatrix trV false)) ⟨4, 1, trV⟩ = .ok true := by decide +kernel
example : sameI (toMB (Util.toMatrix trV true)) ⟨1, 4, trV⟩ = .ok true := by decide +kernel

/-! ## `tests/test_math.cpp`: `test_int`, `test_double`

The quotient of `test_int` is in `C118_own_test_false`. -/

example : sameI (toMB (add (testIntA 32).toMB (testIntB 32).toMB)) ⟨5, 5, [
    -10, 81, 115, 28, -5, -95, -52, 2, 83, -56, 20, -13, 108, -116, -37, 17, 17, -20, -71, 87, -17, 103, -1, -10, -81].map SInt.of⟩ = .ok true := by decide +kernel
example : sameI (toMB (sub (testIntA 32).toMB (testIntB 32).toMB)) ⟨5, 5, [
    -144, 5, 47, -148, -61, -95, -28, 26, -1, 82, -20, 95, 78, -62, 3, -137, -15, -128, -35, 51, -1, -83, -177, 70, -63].map SInt.of⟩ = .ok true := by decide +kernel
example : sameI (toMB (mul (testIntA 32).toMB (testIntB 32).toMB)) ⟨5, 5, [
    -7895, -11845, -8063, -4757, -7526, -3032, -2021, 818, -11676, 441, -4857, -8519, -5399, 1493, -6138, -10133, 7273, 48, -5046, -1844,
    503, -1872, -6477, 4371, 2026].map SInt.of⟩ = .ok true := by decide +kernel

/-- Operand `a` of `test_double`. -/
def dblA : Mat Double := ⟨5, 5, doubles [
    -37.2013365, -68.6581972, 41.3047901, 39.1891392, -83.7775724, -29.4343112, 19.2121221, -92.9539817, 79.2170016, 87.7778305,
    -17.6058458, -4.69375854, 22.4131617, 67.8548823, -72.9728209, 82.8826396, -23.414967, -63.2745926, 99.0710991, -39.0158564,
    -32.7507545, -20.9186668, -0.269948579, 27.4472885, -97.0661874]⟩
/-- Operand `b` of `test_double`. -/
def dblB : Mat Double := ⟨5, 5, doubles [
    -37.4315122, -46.8778636, 98.621834, 64.875136, -82.3723058, -19.5194821, -29.6733099, 27.642446, -66.8425277, 18.3564081, -56.4430537,
    -85.474696, 44.795422, 44.2905858, -2.45158714, 27.0582983, -64.0869579, 11.8315765, 58.6659616, -95.9791052, -33.592816, 37.7442705,
    6.9947062, 90.3429215, 9.45861974]⟩

example : same tol6 (add dblA.toMB dblB.toMB) ⟨5, 5, doubles [
    -74.6328488, -115.536061, 139.926624, 104.064275, -166.149878, -48.9537934, -10.4611878, -65.3115357, 12.374474, 106.134239,
    -74.0488995, -90.1684545, 67.2085837, 112.145468, -75.424408, 109.940938, -87.501925, -51.4430161, 157.737061, -134.994962,
    -66.3435705, 16.8256037, 6.72475762, 117.79021, -87.6075677]⟩ = .ok true := by decide +kernel
example : same tol6 (sub dblA.toMB dblB.toMB) ⟨5, 5, doubles [
    0.230175709, -21.7803337, -57.3170439, -25.6859969, -1.40526653, -9.91482914, 48.885432, -120.596428, 146.059529, 69.4214224,
    38.8372079, 80.7809375, -22.3822602, 23.5642965, -70.5212337, 55.8243412, 40.6719909, -75.1061691, 40.4051375, 56.9632487, 0.84206149,
    -58.6629372, -7.26465478, -62.8956329, -106.524807]⟩ = .ok true := by decide +kernel
example : same tol6 (mul dblA.toMB dblB.toMB) ⟨5, 5, doubles [
    4276.02224, -5422.91529, -3838.80925, -1264.38308, -2850.97902, 5168.13944, 6991.27723, -4984.46639, 5266.71917, -3767.79738,
    3772.96607, -8054.07327, -569.653942, -2447.5528, -5893.7473, 4917.38457, -5603.97532, 5591.64172, 6426.96416, -16979.7172, 5652.87203,
    -3243.6204, -4174.47982, -7897.43065, -1238.05296]⟩ = .ok true := by decide +kernel
example : same tol6 (div (isz tol6) dblA.toMB dblB.toMB) ⟨5, 5, doubles [
    -1.75792991, 7.4526154, -1.77961696, 4.36930452, 5.24532028, -1.84669495, 1.44407952, 0.432614559, 1.16256939, 2.3043699, -1.14684653,
    5.19297263, -1.67231909, 3.19086747, 4.16458535, 1.58260119, -9.06219024, 2.47852257, -3.32018408, -5.80381381, -4.05907923,
    15.0937256, -4.35863652, 8.57273315, 10.9560582]⟩ = .ok true := by decide +kernel

/-! ## `tests/test_control.cpp`: `test_polyreduce`, `test_poly` -/

example : sameVecI (polyreduce ([1, 0, 0, 1, 0, 1, 0, 0, 0, 0].map SInt.of : List CInt)) ([1, 0, 0, 1, 0, 1, 0, 0, 0, 0].map SInt.of) = .ok true := by decide +kernel
example : sameVecI (polyreduce ([0, 1, 1, 1, 1, 0, 1, 0, 0, 0].map SInt.of : List CInt)) ([1, 1, 1, 1, 0, 1, 0, 0, 0].map SInt.of) = .ok true := by decide +kernel
example : sameVecI (polyreduce ([0, 1, 1, 0, 1, 1, 0, 1, 0, 0].map SInt.of : List CInt)) ([1, 1, 0, 1, 1, 0, 1, 0, 0].map SInt.of) = .ok true := by decide +kernel
example : sameVecI (polyreduce ([0, 0, 0, 1, 0, 1, 0, 1, 1, 1].map SInt.of : List CInt)) ([1, 0, 1, 0, 1, 1, 1].map SInt.of) = .ok true := by decide +kernel
example : sameVecI (polyreduce ([0, 0, 0, 0, 0, 0, 0, 0, 1, 0].map SInt.of : List CInt)) ([1, 0].map SInt.of) = .ok true := by decide +kernel
#guard sameVec tol6 (polyRoots (doubles [-4.31365916, -5.43236374, 8.30901341, -4.1052015, -8.75671849, -8.20968452, -7.9560314, 4.93680757, 9.39615916, -4.92315493])) (doubles [
    1, 21.0548336, -17.4897007, -3268.17296, -19192.7843, 107667.157, 1353231.96, 2417940.15, -17396408.5, -82999934.9, -104405414]) = .ok true
#guard sameVec tol6 (polyRoots (doubles [-6.59672341, -0.663223138, 2.65719019, -6.36291406, 9.07896614, 0.975672407, 6.18531446, -5.29307772, -5.14025403, -1.46744895])) (doubles [
    1, 6.62649812, -112.911725, -902.680926, 2500.57233, 30199.3369, 19059.1166, -210355.545, -212728.833, 195535.603, 161817.207]) = .ok true
#guard sameVec tol6 (polyRoots (doubles [2.44049723, -9.49302124, -8.37147845, 1.51190319, -7.40282487, 8.66589357, -5.72460565, 2.24800701, -4.27068812, 6.31589424])) (doubles [
    1, 14.0804231, -98.0180687, -1916.89923, 887.608435, 78625.4753, 66775.9288, -1145145.79, -234697.692, 6666982.31, -6529736.95]) = .ok true
#guard sameVec tol6 (polyRoots (doubles [1.18684296, -8.83575517, 9.88988867, 2.2718604, 7.85940986, 2.26749284, -5.22560682, 2.30190354, -4.51284885, 3.30124804])) (doubles [
    1, -10.5044355, -101.444433, 1251.43984, 1027.49399, -37680.6611, 74338.4234, 262291.876, -1195069.98, 1627862.7, -752486.363]) = .ok true
#guard sameVec tol6 (polyRoots (doubles [7.1682439, -8.06318395, -0.528348051, 2.64482488, 4.27461831, 7.59099286, 8.16414622, -5.98537147, 3.02603983, 1.75029028])) (doubles [
    1, -20.0422528, 43.7125343, 1560.5739, -11639.3617, -302.944468, 275213.098, -1066030.37, 1436090.15, -187362.574, -678295.446]) = .ok true

end Malg.Check
