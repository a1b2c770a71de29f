import Verif.Check.Tests
/-!
# `tests/test_control.cpp`: `test_c2d`, `test_acker`
-/
namespace Malg.Check
open Ops Lin Control

/-- The system of `test_c2d` and `test_acker`. -/
def sysA : Mat Double := ⟨5, 5, doubles [
    -5.48328, 0.96393, -7.51204, 5.44579, -7.60848, 1.34257, -8.9994, -9.63156, 5.80513, 4.864, 8.5414, -0.685415, -4.95847, 7.58094,
    -0.0461616, 8.53525, 0.564686, 6.03278, -0.992654, 3.41276, 4.14144, 2.8026, -8.80536, -4.99359, -6.67707]⟩
@[inherit_doc sysA]
def sysB : Mat Double := ⟨5, 1, doubles [
    4.14299, 4.56572, 5.34455, 4.78882, -9.34907]⟩
@[inherit_doc sysA]
def sysC : Mat Double := ⟨5, 5, doubles [
    -6.75743, 1.61057, -8.59706, -3.852, -5.76971, 5.33681, -2.14648, -1.37983, -0.30633, 4.17382, -1.38097, 5.1317, -2.39843, 5.62033,
    -2.95562, -8.32778, 2.35308, -2.10552, -3.82267, 5.30287, -7.79774, 1.97377, -5.66731, 0.177432, 0.132991]⟩
@[inherit_doc sysA]
def sysD : Mat Double := ⟨5, 1, doubles [
    0, 0, 0, 0, 0]⟩

/-- The tolerance `1e-04`. -/
def tol4 : Double := Fl.of 53 (-1074) (1 / 10 ^ 4)

/-- `test_c2d`, `tests/test_control.cpp:49-60`: the system is discretised with the tolerance `1e-06` and compared with `1e-04`. -/
def runC2d (refA refB : Mat Double) : Res (Bool × Bool) := do
  let sys ← mkStateSpace sysA sysB sysC sysD
  let d ← c2d (isz tol6) (expmD tol6) sys (Fl.of 53 (-1074) (1 / 10 ^ 3))
  let a ← same tol4 (.ok d.A) refA
  let b ← same tol4 (.ok d.B) refB
  return (a, b)

#guard runC2d
    ⟨5, 5, doubles [
    0.994508, 0.000950468, -0.00742783, 0.00542156, -0.00755056, 0.00132652, 0.991053, -0.00957357, 0.00573143, 0.00483101, 0.00852862,
    -0.000674497, 0.995048, 0.00757982, -6.70223e-05, 0.00854067, 0.000568664, 0.00596532, 0.999047, 0.00336857, 0.00405941, 0.00278427,
    -0.008798, -0.00498858, 0.993328]⟩
    ⟨5, 1, doubles [
    0.00416226, 0.00451353, 0.00536587, 0.00480567, -0.0093385]⟩ = .ok (true, true)

/-! `test_acker`, `tests/test_control.cpp:91-106`, with the tolerance that `test_c2d` leaves. -/

#guard same tol4 (acker (isz tol4) sysA.toMB sysB.toMB (⟨1, 5, doubles [-19.8672, -18.54, -13.3962, -19.5758, -15.2926]⟩ : Mat Double).toMB)
    ⟨1, 5, doubles [-3.69417, -5.54803, 21.2759, -6.09239, -1.67523]⟩ = .ok true

end Malg.Check
