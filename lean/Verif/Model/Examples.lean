import Verif.Model.Control
/-!
# `examples/*.cpp`

The systems that the three example programs build, the right side of the differential equations that two of them give to an
integrator (which is not part of the repository), and the loop of `sim_rlc_dt.cpp`. Measuring and plotting are left out.
-/
namespace Malg.Examples
open Ops Control
variable {T : Type}

/-- `sys.A = {…}; sys.B = {…}; sys.C = {…}; sys.D = {…};` on a default constructed `StateSpace`. -/
def build [Zero T] (A B C D : List (List T)) : Res (StateSpace T) := do
  let a ← Mat.empty0.assignNested A
  let b ← Mat.empty0.assignNested B
  let c ← Mat.empty0.assignNested C
  let d ← Mat.empty0.assignNested D
  return ⟨a, b, c, d⟩

/-- The circuit of `sim_rlc_ct.cpp:64-77`. -/
def rlcCt [Zero T] [One T] [Neg T] [CDiv T] (R0 L0 C0 : T) : Res (StateSpace T) := do
  let a ← cdiv (-R0) L0
  let b ← cdiv 1 L0
  let c ← cdiv 1 C0
  build [[a, b], [c, 0]] [[b], [0]] [[1, 0]] [[0]]

/-- The circuit of `sim_rlc_dt.cpp:43-56`. -/
def rlcDt [Zero T] [One T] [Neg T] [CDiv T] (R0 L0 C0 : T) : Res (StateSpace T) := do
  let a ← cdiv (-R0) L0
  let b ← cdiv (-1) L0
  let c ← cdiv 1 C0
  let d ← cdiv 1 L0
  build [[a, b], [c, 0]] [[d], [0]] [[0, 1]] [[0]]

/-- The pendulum of `pendulum.cpp:73-86`. -/
def pendulum [Zero T] [One T] [Mul T] [Neg T] [CDiv T] (m l b g : T) : Res (StateSpace T) := do
  let p ← cdiv (-g) l
  let q ← cdiv (-b) (m * l * l)
  let r ← cdiv 1 (m * l * l)
  build [[0, 1], [p, q]] [[0], [r]] [[0, 1]] [[0]]

/-- `operator()` of the models, `sim_rlc_ct.cpp:84-89` and `pendulum.cpp:93-102`: `u0` is the value of the input at the time in question
(`u` has one element); the result is what `dxdt` is set to. -/
def rate [Zero T] [Add T] [Mul T] (sys : StateSpace T) (u0 : T) (x : List T) : Res (List T) := do
  let ax ← dotMat sys.A.toMB x
  let bu ← dotMat sys.B.toMB [u0]
  vadd ax bu

/-- `compute_samples`, `sim_rlc_dt.cpp:21-25`, `sim_rlc_ct.cpp:105-109`; `toSize` is `static_cast<std::size_t>`. -/
def computeSamples [Sub T] [Mul T] [CDiv T] (toSize : T → Res Nat) (time_start time_end time_delta sampling : T) : Res Nat := do
  let q ← cdiv (time_end - time_start) time_delta
  toSize (q * sampling)

/-- The variables of the loop; `lines` are the times, inputs and outputs printed so far. -/
structure Loop (T : Type) where
  t : T
  steps : Nat
  x : List T
  lines : List (T × T × T)
deriving DecidableEq

/-- One round of the loop of `sim_rlc_dt.cpp:78-92`, without plotting; `input t` is `3.3 * std::sin(2 * M_PI * t)`. -/
def loopStep [Zero T] [Add T] [Mul T] (lt : T → T → Bool) (input : T → T) (dsys : StateSpace T) (time_end time_delta : T) (s : Loop T) :
    Res (Option (Loop T)) :=
  if lt s.t time_end then do
    let u0 := input s.t
    let ax ← dotMat dsys.A.toMB s.x
    let bu ← dotMat dsys.B.toMB [u0]
    let x ← vadd ax bu
    let cx ← dotMat dsys.C.toMB x
    let du ← dotMat dsys.D.toMB [u0]
    let y ← vadd cx du
    let y0 ← vget y 0
    return some ⟨s.t + time_delta, s.steps + 1, x, s.lines ++ [(s.t, u0, y0)]⟩
  else return none

/-- The loop of `sim_rlc_dt.cpp:65-92`. -/
def loop [Zero T] [Add T] [Mul T] (lt : T → T → Bool) (input : T → T) (dsys : StateSpace T) (time_start time_end time_delta : T)
    (fuel : Nat) : Res (Loop T) :=
  whileFuel (loopStep lt input dsys time_end time_delta) fuel ⟨time_start, 0, [0, 0], []⟩

end Malg.Examples
