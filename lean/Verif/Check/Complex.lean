import Verif.Check.Tests
import Verif.Model.EigenQr
/-!
# `tests/test_math.cpp`: `test_complex`
-/
namespace Malg.Check
open Ops Lin Control

/-- `std::complex<double>` from decimal fractions. -/
def cpxs (l : List (ℚ × ℚ)) : List (Cpx Double) := l.map fun z => ⟨Fl.of 53 (-1074) z.1, Fl.of 53 (-1074) z.2⟩

/-- `std::abs` of a complex number, rounded once. -/
def absC (z : Cpx Double) : Double := Fl.of 53 (-1074) (sqrtQ 1075 (z.re.val * z.re.val + z.im.val * z.im.val))

instance : CDiv (Cpx Double) := ⟨Cpx.divC⟩

/-- `malg::all(x == ref)` for complex elements. -/
def sameC (x : Res (Mat (Cpx Double))) (ref : Mat (Cpx Double)) : Res Bool := do
  let x ← x
  let e ← cmp (eqParts Fl.abs Cpx.re Cpx.im tol6) x.toMB ref.toMB
  Ops.all e.toMB

/-- The operands of `test_complex`. -/
def cpxA : Mat (Cpx Double) := ⟨5, 5, cpxs [
    (6.21972047, 55.6003688), (-62.0717653, -9.29039483), (-79.2333101, 25.5526935), (70.1014075, -15.4969014), (32.7315868, 79.1097553),
    (7.51023105, 3.64680008), (63.7374363, 43.92121), (36.9210945, -56.4619748), (-20.2259046, 73.9420527), (48.0314307, 22.4845855),
    (10.9792993, 19.9594746), (79.8537074, 55.1074495), (83.2460263, -63.3195366), (-58.0035035, 95.0898121), (98.1701286, -18.5235781),
    (-46.0580658, -92.6997876), (-97.3461191, -8.6252516), (87.8804822, -57.8865619), (3.50403728, 47.7014354), (-15.613705, 24.7798349),
    (67.6734711, 56.103517), (-26.3088772, 48.460602), (70.6932588, -79.7588588), (-85.9500325, 35.6230139), (-11.8113297, 78.4160521)]⟩
@[inherit_doc cpxA]
def cpxB : Mat (Cpx Double) := ⟨5, 5, cpxs [
    (37.6463194, 55.5178134), (-18.4074263, -65.6354342), (11.291236, 19.5497491), (26.5698575, -96.6589965), (-31.1807715, -81.1488153),
    (27.0583953, 15.5557727), (41.347285, -49.2771551), (-86.1100143, -8.4328456), (-91.8965878, 97.7787111), (-46.1050965, 47.456248),
    (25.6042146, 53.7801993), (-40.6112622, 9.19292961), (2.85852944, 2.69556217), (97.6854439, -0.892334903), (12.801631, -12.0367261),
    (-45.3993398, 85.3966666), (74.6956836, -29.4508223), (51.8387618, -51.7090829), (81.4358985, -69.3236742), (58.2171779, -7.16924139),
    (-69.3605792, 48.1518686), (39.8427618, 51.2287156), (-27.0086001, 30.983493), (90.1640195, -84.6278121), (-59.2749554, -68.5078407)]⟩

example : sameC (add cpxA.toMB cpxB.toMB) ⟨5, 5, cpxs [
    (43.8660398, 111.118182), (-80.4791916, -74.9258291), (-67.942074, 45.1024427), (96.671265, -112.155898), (1.55081528, -2.03905996),
    (34.5686264, 19.2025728), (105.084721, -5.3559451), (-49.1889198, -64.8948204), (-112.122492, 171.720764), (1.92633415, 69.9408335),
    (36.5835139, 73.7396739), (39.2424452, 64.3003792), (86.1045557, -60.6239744), (39.6819404, 94.1974772), (110.97176, -30.5603042),
    (-91.4574056, -7.30312099), (-22.6504355, -38.0760739), (139.719244, -109.595645), (84.9399358, -21.6222388), (42.6034729, 17.6105935),
    (-1.68710806, 104.255386), (13.5338845, 99.6893176), (43.6846587, -48.7753658), (4.21398695, -49.0047983), (-71.0862851, 9.90821134)]⟩ = .ok true := by decide +kernel
example : sameC (sub cpxA.toMB cpxB.toMB) ⟨5, 5, cpxs [
    (-31.4265989, 0.0825553932), (-43.6643391, 56.3450394), (-90.5245461, 6.00294437), (43.5315499, 81.1620951), (63.9123582, 160.258571),
    (-19.5481643, -11.9089726), (22.3901514, 93.1983651), (123.031109, -48.0291292), (71.6706833, -23.8366585), (94.1365272, -24.9716626),
    (-14.6249152, -33.8207247), (120.46497, 45.9145199), (80.3874968, -66.0150988), (-155.688947, 95.982147), (85.3684976, -6.48685207),
    (-0.658726072, -178.096454), (-172.041803, 20.8255707), (36.0417204, -6.177479), (-77.9318612, 117.02511), (-73.830883, 31.9490763),
    (137.03405, 7.95164839), (-66.151639, -2.76811362), (97.7018589, -110.742352), (-176.114052, 120.250826), (47.4636257, 146.923893)]⟩ = .ok true := by decide +kernel
example : sameC (mul cpxA.toMB cpxB.toMB) ⟨5, 5, cpxs [
    (-15729.3783, 393.534741), (5524.72444, 1083.43283), (3452.0503, -3618.4312), (18715.5456, -3531.4511), (14363.4158, -11811.2754),
    (-4706.7783, -1056.76389), (5349.15112, 10222.821), (-4065.73103, 1566.41267), (3668.84828, 1404.63678), (-7122.24205, -1064.22327),
    (-5258.73983, 3691.5543), (7654.7563, 13694.4559), (-6436.41659, 6535.30201), (6721.99659, -2260.14522), (-14499.1048, -1752.82647),
    (1933.13282, -8887.39193), (-12948.3454, 15975.7617), (12311.3721, 826.480396), (12419.5692, -5272.63418), (2408.46411, 2959.91843),
    (1970.03643, -6433.90808), (-8259.55967, 9426.04534), (-1965.60586, 1775.14428), (12776.1178, -3001.52339), (2624.64344, -13744.6046)]⟩ = .ok true := by decide +kernel
#guard sameC (div (Feq.approxZero absC tol6) cpxA.toMB cpxB.toMB) ⟨5, 5, cpxs [
    (-2.61040517, -0.51938165), (-0.86673903, -1.64601849), (0.103491678, 0.796748593), (0.314309467, -2.28212603),
    (1.47281764, -0.731910495), (0.546504938, 0.924958461), (0.502346129, 1.28819315), (0.94023401, -0.537185686),
    (-0.280741161, 1.18529653), (-1.2076058, 0.0729997121), (1.15521647, 2.4762995), (0.0113777518, 2.59992251),
    (1.62600223, -0.265827624), (-1.43559827, 1.79784449), (-2.2968276, -0.378406349), (0.477587767, -2.40854546),
    (0.179103912, -0.638206495), (-0.891307585, 0.400488878), (1.53100862, 0.408404799), (0.0222926676, 1.29257084),
    (-0.223354037, 0.0842494207), (-0.0380571152, 1.29062814), (1.74043017, 0.253183147), (-0.360988464, 0.553631548),
    (-1.07908079, -0.559970571)]⟩ = .ok true

end Malg.Check
