import Verif.Props.Control
import Verif.Props.Expm
/-!
# C64: `c2d`

The matrix exponential enters as the function `ex`; the theorems are about every call in which it returns a matrix.
`C64_taylor_partial` plugs in the transcribed `expm`.
-/
namespace Malg
open Ops Control

section
variable {K R : Type} [Field K] [DecidableEq K] [Field R] [LinearOrder R] [IsStrictOrderedRing R]
variable (abs : AbsoluteValue K R) {tol : R} (ht : tol < 1) {n m p : Nat}
variable {sys : StateSpace K} {A : Matrix (Fin n) (Fin n) K} {B : Matrix (Fin n) (Fin m) K} {C : Matrix (Fin p) (Fin n) K}
  {D : Matrix (Fin p) (Fin m) K}

/-- The run of `c2d` up to the assertions. -/
theorem c2d_exec (isz : K → Bool) {ex : MB K → Res (Mat K)} (h : sys.Is A B C D) (hn : 0 < n) (hm : 0 < m) (hp : 0 < p) {dt : K}
    {E V : Matrix (Fin n) (Fin n) K} (hE : Yields (mulS sys.A.toMB dt >>= fun X => ex X.toMB) E)
    (hV : Yields (Lin.inverse isz sys.A.toMB) V) :
    ∃ d : DiscreteStateSpace K, c2d isz ex sys dt = .ok d ∧ d.toStateSpace.Is E (V * (E - 1) * B) C D ∧ d.sampleTime = dt := by
  have hf := h.a.fits
  have hAr : sys.A.rows = n := by obtain ⟨e, hr, -⟩ := h.a; exact hr.rows
  obtain ⟨X, hX⟩ : ∃ X, mulS sys.A.toMB dt = .ok X := by
    obtain ⟨x, hx, -⟩ := hE
    obtain ⟨X, h1, -⟩ := Res.bind_eq_ok.1 hx
    exact ⟨X, h1⟩
  rw [hX, Res.ok_bind] at hE
  obtain ⟨Ed, eE, wE, iE⟩ := hE
  obtain ⟨Vd, eV, wV, iV⟩ := hV
  obtain ⟨I, eI, wI, iI⟩ := identity_yields (K := K) hn hf
  obtain ⟨S, eS, wS, iS⟩ := (C33_matrix iE iI 0).2.1
  obtain ⟨Y, eY, wY, iY⟩ := C35_product iV iS hf
  obtain ⟨Z, eZ, wZ, iZ⟩ := C35_product iY h.b h.b.fits
  have rE : Ed.rows = n ∧ Ed.cols = n := by obtain ⟨e, hr, -⟩ := iE; exact ⟨hr.rows, hr.cols⟩
  have rZ : Z.rows = n := by obtain ⟨e, hr, -⟩ := iZ; exact hr.rows
  obtain ⟨c, hc, rfl⟩ := h.c
  obtain ⟨d, hd, rfl⟩ := h.d
  have eC : Mat.empty0.assign sys.C.toMB = .ok (Mat.ofFn p n c) := Mat.assign_eq hc.toRepAt (Nat.mul_pos hp hn)
  have eD : Mat.empty0.assign sys.D.toMB = .ok (Mat.ofFn p m d) := Mat.assign_eq hd.toRepAt (Nat.mul_pos hp hm)
  have mE : (Mat.empty0.moveAssign Ed).1 = Ed := moveAssign_fst (by rw [Is.size iE]; exact Nat.mul_pos hn hn)
  have mZ : (Mat.empty0.moveAssign Z).1 = Z := moveAssign_fst (by rw [Is.size iZ]; exact Nat.mul_pos hn hm)
  refine ⟨⟨⟨Ed, Z, Mat.ofFn p n c, Mat.ofFn p m d⟩, dt⟩, ?_, ⟨iE, iZ, (ofFn_rep hc.fits c).is, (ofFn_rep hd.fits d).is⟩, rfl⟩
  unfold c2d
  rw [hX, Res.ok_bind, eE, Res.ok_bind]
  dsimp only
  rw [mE, eV, Res.ok_bind, hAr, eI, Res.ok_bind, eS, Res.ok_bind, eY, Res.ok_bind, eZ, Res.ok_bind, mZ, eC, Res.ok_bind, eD, Res.ok_bind,
    if_neg (by rw [rE.1, rE.2]; simp), if_neg (by rw [rE.1, rZ]; simp), if_neg (by rw [rE.1]; simp)]
  rfl

include ht in
/-- C64: for a non-singular system matrix the result is `A_d = expm(A dt)`, `B_d = A⁻¹ (A_d - 1) B`, so
`A B_d = (A_d - 1) B`, with `C`, `D` unchanged and the sample time stored. Missing: system matrices larger than `5 × 5`
whose inverse has a zero entry, singular ones (see `C64_singular_partial`, `C64_singular_false`), and systems without
inputs or outputs (`C64_no_io_false`). -/
theorem C64_equations_partial {ex : MB K → Res (Mat K)} (h : sys.Is A B C D) (hn : 0 < n) (hm : 0 < m) (hp : 0 < p) {dt : K}
    {E : Matrix (Fin n) (Fin n) K} (hE : Yields (mulS sys.A.toMB dt >>= fun X => ex X.toMB) E) (hA : A.det ≠ 0)
    (hi : n ≤ 5 ∨ ∀ i j, A⁻¹ i j ≠ 0) :
    ∃ (d : DiscreteStateSpace K) (Bd : Matrix (Fin n) (Fin m) K), c2d (isZ abs tol) ex sys dt = .ok d ∧
      d.toStateSpace.Is E Bd C D ∧ d.sampleTime = dt ∧ Bd = A⁻¹ * (E - 1) * B ∧ A * Bd = (E - 1) * B := by
  obtain ⟨d, h1, h2, h3⟩ := c2d_exec _ h hn hm hp hE (C52_large_partial abs ht h.a hA hi)
  refine ⟨d, _, h1, h2, h3, rfl, ?_⟩
  rw [Matrix.mul_assoc, Matrix.mul_nonsing_inv_cancel_left _ _ (IsUnit.mk0 _ hA)]

include ht in
/-- C64: a singular system matrix of at most four states is rejected with `invalid_argument`. -/
theorem C64_singular_partial {ex : MB K → Res (Mat K)} (h : sys.Is A B C D) (hn : 0 < n) {dt : K}
    {E : Matrix (Fin n) (Fin n) K} (hE : Yields (mulS sys.A.toMB dt >>= fun X => ex X.toMB) E) (hA : A.det = 0) (h4 : n ≤ 4) :
    c2d (isZ abs tol) ex sys dt = .throw .invalidArgument := by
  have hf := h.a.fits
  have hAr : sys.A.rows = n := by obtain ⟨e, hr, -⟩ := h.a; exact hr.rows
  obtain ⟨X, hX⟩ : ∃ X, mulS sys.A.toMB dt = .ok X := by
    obtain ⟨x, hx, -⟩ := hE
    obtain ⟨X, h1, -⟩ := Res.bind_eq_ok.1 hx
    exact ⟨X, h1⟩
  rw [hX, Res.ok_bind] at hE
  obtain ⟨Ed, eE, wE, iE⟩ := hE
  obtain ⟨I, eI, wI, iI⟩ := identity_yields (K := K) hn hf
  obtain ⟨S, eS, wS, iS⟩ := (C33_matrix iE iI 0).2.1
  have rS : S.rows = n := by obtain ⟨e, hr, -⟩ := iS; exact hr.rows
  have mE : (Mat.empty0.moveAssign Ed).1 = Ed := moveAssign_fst (by rw [Is.size iE]; exact Nat.mul_pos hn hn)
  unfold c2d
  rw [hX, Res.ok_bind, eE, Res.ok_bind]
  dsimp only
  rw [mE, (C52_small_partial abs ht h.a h4).1 hA, Res.ok_bind, hAr, eI, Res.ok_bind, eS, Res.ok_bind, C35_mismatch]
  · rfl
  · show 0 ≠ S.rows; omega

include ht in
/-- C64 is false from five states on: every singular system matrix is accepted. -/
theorem C64_singular_false {ex : MB K → Res (Mat K)} (h : sys.Is A B C D) (h5 : 4 < n) (hm : 0 < m) (hp : 0 < p) {dt : K}
    {E : Matrix (Fin n) (Fin n) K} (hE : Yields (mulS sys.A.toMB dt >>= fun X => ex X.toMB) E) (hA : A.det = 0) :
    ∃ d, c2d (isZ abs tol) ex sys dt = .ok d := by
  obtain ⟨V, hV⟩ := C52_singular_false abs ht h.a h5 hA
  obtain ⟨d, h1, -⟩ := c2d_exec _ h (by omega) hm hp hE hV
  exact ⟨d, h1⟩

include ht in
/-- C64 is false for systems without inputs, and for systems without outputs: the assertions end the process. -/
theorem C64_no_io_false {ex : MB K → Res (Mat K)} (h : sys.Is A B C D) (hn : 0 < n) (hmp : m = 0 ∨ p = 0) {dt : K}
    {E : Matrix (Fin n) (Fin n) K} (hE : Yields (mulS sys.A.toMB dt >>= fun X => ex X.toMB) E) (hA : A.det ≠ 0) :
    c2d (isZ abs tol) ex sys dt = .abort := by
  have hf := h.a.fits
  have hAr : sys.A.rows = n := by obtain ⟨e, hr, -⟩ := h.a; exact hr.rows
  obtain ⟨X, hX⟩ : ∃ X, mulS sys.A.toMB dt = .ok X := by
    obtain ⟨x, hx, -⟩ := hE
    obtain ⟨X, h1, -⟩ := Res.bind_eq_ok.1 hx
    exact ⟨X, h1⟩
  rw [hX, Res.ok_bind] at hE
  obtain ⟨Ed, eE, wE, iE⟩ := hE
  obtain ⟨V, Vd, eV, wV, iV⟩ := inverse_some (isZ_iff abs ht) h.a hA
  obtain ⟨I, eI, wI, iI⟩ := identity_yields (K := K) hn hf
  obtain ⟨S, eS, wS, iS⟩ := (C33_matrix iE iI 0).2.1
  obtain ⟨Y, eY, wY, iY⟩ := C35_product iV iS hf
  obtain ⟨Z, eZ, wZ, iZ⟩ := C35_product iY h.b h.b.fits
  have rE : Ed.rows = n ∧ Ed.cols = n := by obtain ⟨e, hr, -⟩ := iE; exact ⟨hr.rows, hr.cols⟩
  have mE : (Mat.empty0.moveAssign Ed).1 = Ed := moveAssign_fst (by rw [Is.size iE]; exact Nat.mul_pos hn hn)
  have hCs : sys.C.toMB.size = p * n := by obtain ⟨e, hr, -⟩ := h.c; exact hr.size
  have hDs : sys.D.toMB.size = p * m := by obtain ⟨e, hr, -⟩ := h.d; exact hr.size
  obtain ⟨c, hc, rfl⟩ := h.c
  obtain ⟨d, hd, rfl⟩ := h.d
  have hC : ∃ X, Mat.empty0.assign sys.C.toMB = .ok X ∧ (p = 0 → X.cols = 0) := by
    by_cases hp : p = 0
    · exact ⟨Mat.empty0, if_neg (by rw [hCs, hp, Nat.zero_mul]; simp), fun _ => rfl⟩
    · exact ⟨_, Mat.assign_eq hc.toRepAt (Nat.mul_pos (Nat.pos_of_ne_zero hp) hn), fun hp' => absurd hp' hp⟩
  have hD : ∃ X, Mat.empty0.assign sys.D.toMB = .ok X := by
    by_cases hp : p * m = 0
    · exact ⟨Mat.empty0, if_neg (by rw [hDs, hp]; simp)⟩
    · exact ⟨_, Mat.assign_eq hd.toRepAt (Nat.pos_of_ne_zero hp)⟩
  obtain ⟨Cd, eC, hC0⟩ := hC
  obtain ⟨Dd, eD⟩ := hD
  unfold c2d
  rw [hX, Res.ok_bind, eE, Res.ok_bind]
  dsimp only
  rw [mE, eV, Res.ok_bind, hAr, eI, Res.ok_bind, eS, Res.ok_bind, eY, Res.ok_bind, eZ, Res.ok_bind, eC, Res.ok_bind, eD, Res.ok_bind,
    if_neg (by rw [rE.1, rE.2]; simp)]
  by_cases hm : m = 0
  · rw [if_pos]
    have : (Mat.empty0.moveAssign Z).1 = Mat.empty0 := by
      unfold Mat.moveAssign; rw [if_neg (by rw [Is.size iZ, hm]; simp)]
    rw [this, rE.1]; show 0 ≠ n; omega
  · have hZ : (Mat.empty0.moveAssign Z).1 = Z := moveAssign_fst (by
      rw [Is.size iZ]; exact Nat.mul_pos hn (Nat.pos_of_ne_zero hm))
    have rZ : Z.rows = n := by obtain ⟨e, hr, -⟩ := iZ; exact hr.rows
    rw [hZ, if_neg (by rw [rE.1, rZ]; simp), if_pos]
    rw [hC0 (hmp.resolve_left hm), rE.1]; omega

end

section
variable {K : Type} [Field K] [LinearOrder K] [IsStrictOrderedRing K] (abs : AbsoluteValue K K) {tol : K} (ht : tol < 1) {n m p : Nat}
variable {sys : StateSpace K} {A : Matrix (Fin n) (Fin n) K} {B : Matrix (Fin n) (Fin m) K} {C : Matrix (Fin p) (Fin n) K}
  {D : Matrix (Fin p) (Fin m) K}

include ht in
/-- C64 with the transcribed `expm`: if `c2d` returns for a non-singular system, `A_d` is a power of a Taylor sum of
`exp(A dt)` as in C55 and `B_d` solves `A B_d = (A_d - 1) B`. Missing: as in `C64_equations_partial`, and the distance
between the Taylor sum and the exponential. -/
theorem C64_taylor_partial {absf sqrt : K → K} {accuracy : K} {fuel : Nat} (h : sys.Is A B C D) (hn : 0 < n) (hm : 0 < m) (hp : 0 < p)
    {dt : K} (hA : A.det ≠ 0) (hi : n ≤ 5 ∨ ∀ i j, A⁻¹ i j ≠ 0) {d : DiscreteStateSpace K}
    (hd : c2d (isZ abs tol) (fun X => Lin.expm (isZ abs tol) absf sqrt (1/2) X accuracy fuel) sys dt = .ok d) :
    ∃ (k t : Nat) (Bd : Matrix (Fin n) (Fin m) K), 0 < t ∧
      d.toStateSpace.Is ((taylor ((1/2 : K) ^ k • dt • A) (t * (n * n))) ^ (2 ^ k)) Bd C D ∧ d.sampleTime = dt ∧
      A * Bd = ((taylor ((1/2 : K) ^ k • dt • A) (t * (n * n))) ^ (2 ^ k) - 1) * B := by
  obtain ⟨X, eX, -, iX⟩ := (C33_field h.a dt).1
  have hd' := hd
  unfold c2d at hd'
  rw [eX, Res.ok_bind] at hd'
  obtain ⟨E, eE, -⟩ := Res.bind_eq_ok.1 hd'
  obtain ⟨k, t, -, h1, h2, h3⟩ := C55_taylor (isZ_iff abs ht) iX eE
  obtain ⟨d', Bd, e1, e2, e3, -, e5⟩ := C64_equations_partial abs ht (dt := dt)
    (ex := fun X => Lin.expm (isZ abs tol) absf sqrt (1/2) X accuracy fuel) h hn hm hp (E := _)
    (by rw [eX, Res.ok_bind]; exact ⟨E, eE, h2, h3⟩) hA hi
  rw [hd] at e1
  injection e1 with e1
  subst e1
  exact ⟨k, t, Bd, h1, e2, e3, e5⟩

end

/-- A stable first-order system with an exponential that returns one half. -/
example : c2d (isZ (AbsoluteValue.abs (S := ℚ)) (1/1000000000)) (fun _ => .ok ⟨1, 1, [1/2]⟩)
    (⟨⟨1, 1, [-1]⟩, ⟨1, 1, [4]⟩, ⟨1, 1, [1]⟩, ⟨1, 1, [0]⟩⟩ : StateSpace ℚ) (7/10) =
    .ok ⟨⟨⟨1, 1, [1/2]⟩, ⟨1, 1, [2]⟩, ⟨1, 1, [1]⟩, ⟨1, 1, [0]⟩⟩, 7/10⟩ := by decide +kernel

end Malg
