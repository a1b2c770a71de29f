import Verif.Props.Acker
import Verif.Props.Utility
import Verif.Props.Reach
import Verif.Props.StableEig
/-!
# Property C153: feedback and observers designed with `acker`
-/
namespace Malg
open Ops Lin Control Polynomial
open scoped Matrix

/-- The gain of an observer as a user of the library computes it, by duality: `transpose(acker(transpose(A), transpose(C), poles))`. -/
def observerGain {T : Type} [Zero T] [One T] [Add T] [Sub T] [Mul T] [Neg T] [NatCast T] [CDiv T] (isz : T → Bool) (A C P : MB T) : Res (Mat T) := do
  let At ← Lin.transpose A
  let Ct ← Lin.transpose C
  let G ← acker isz At.toMB Ct.toMB P
  Lin.transpose G.toMB

/-- The observer `z⁺ = (A - L C) z + (B - L D) u + L y`, whose inputs are the inputs of the system followed by its output: `(A - L * C, hstack(B - L * D, L))`. -/
def observerOf {T : Type} [Zero T] [One T] [Add T] [Sub T] [Mul T] [Neg T] [NatCast T] [CDiv T] (isz : T → Bool) (sys : StateSpace T) (P : MB T) : Res (Mat T × Mat T) := do
  let L ← observerGain isz sys.A.toMB sys.C.toMB P
  let LC ← mul L.toMB sys.C.toMB
  let Ao ← sub sys.A.toMB LC.toMB
  let LD ← mul L.toMB sys.D.toMB
  let BL ← sub sys.B.toMB LD.toMB
  let Bo ← Util.hstack BL.toMB L.toMB
  return (Ao, Bo)

/-- The matrix that `hstack` makes. -/
def besides {K : Type} {n m k : Nat} (M : Matrix (Fin n) (Fin m) K) (N : Matrix (Fin n) (Fin k) K) : Matrix (Fin n) (Fin (m + k)) K :=
  Matrix.of fun i => Fin.append (M i) (N i)

theorem hstack_is {K : Type} [Zero K] {A B : MB K} {n m k : Nat} {M : Matrix (Fin n) (Fin m) K} {N : Matrix (Fin n) (Fin k) K} (hA : A.Is M) (hB : B.Is N) (hf : Fits n (m + k)) :
    Yields (Util.hstack A B) (besides M N) := by
  obtain ⟨e, hA, rfl⟩ := hA
  obtain ⟨f, hB, rfl⟩ := hB
  refine (C22_hstack hA.toRepAt hB.toRepAt hf).yields.congr ?_
  ext i j
  refine Fin.addCases (fun j => ?_) (fun j => ?_) j
  · simp [besides, toM_apply]
  · simp [besides, toM_apply]

theorem besides_mulVec {K : Type} [NonUnitalNonAssocSemiring K] {n m k : Nat} (M : Matrix (Fin n) (Fin m) K) (N : Matrix (Fin n) (Fin k) K) (u : Fin m → K) (v : Fin k → K) :
    besides M N *ᵥ Fin.append u v = M *ᵥ u + N *ᵥ v := by
  funext i
  simp [besides, Matrix.mulVec, dotProduct, Fin.sum_univ_add]

/-- The distance of an observer from the state. -/
theorem observer_error {K : Type} [CommRing K] {n m : Nat} (A : Matrix (Fin n) (Fin n) K) (B : Matrix (Fin n) (Fin m) K) (C : Matrix (Fin 1) (Fin n) K) (D : Matrix (Fin 1) (Fin m) K) (L : Matrix (Fin n) (Fin 1) K)
    (x0 z0 : Fin n → K) (u : Nat → Fin m → K) {w : Nat → Fin (m + 1) → K} {N : Nat} (hw : ∀ i, i < N → w i = Fin.append (u i) (C *ᵥ traj A B x0 u i + D *ᵥ u i)) :
    ∀ i, i ≤ N → traj (A - L * C) (besides (B - L * D) L) z0 w i - traj A B x0 u i = (A - L * C) ^ i *ᵥ (z0 - x0) := by
  intro i
  induction i with
  | zero => intro _; rw [pow_zero, Matrix.one_mulVec]; rfl
  | succ i ih =>
    intro hi
    have h1 := ih (by omega)
    rw [pow_succ', ← Matrix.mulVec_mulVec, ← h1]
    show (A - L * C) *ᵥ traj (A - L * C) (besides (B - L * D) L) z0 w i + besides (B - L * D) L *ᵥ w i - (A *ᵥ traj A B x0 u i + B *ᵥ u i) = _
    rw [hw i (by omega), besides_mulVec, Matrix.mulVec_sub (A - L * C), Matrix.sub_mulVec B, Matrix.sub_mulVec A (L * C) (traj A B x0 u i), Matrix.mulVec_add, Matrix.mulVec_mulVec, Matrix.mulVec_mulVec]
    abel

section
variable {K R : Type} [Field K] [DecidableEq K] [Field R] [LinearOrder R] [IsStrictOrderedRing R] (abs : AbsoluteValue K R) {tol : R} (ht : tol < 1) {n m : Nat}
variable {A : Matrix (Fin n) (Fin n) K} {B : Matrix (Fin n) (Fin m) K} {C : Matrix (Fin 1) (Fin n) K} {D : Matrix (Fin 1) (Fin m) K}
include ht

/-- The gain that places the poles of an observer. -/
theorem observer_gain {A' C' P : MB K} (hA : A'.Is A) (hC : C'.Is C) {e : Nat → Nat → K} (hP : Rep P 1 n e) (hPe : P.empty = false) (hn : 0 < n) (hka : n + 1 < allocMax)
    (hobs : (ctrbMatrix Aᵀ Cᵀ).det ≠ 0) (hi : n ≤ 5 ∨ ∀ i j, (ctrbMatrix Aᵀ Cᵀ)⁻¹ i j ≠ 0) :
    ∃ (L' : Mat K) (L : Matrix (Fin n) (Fin 1) K), observerGain (isZ abs tol) A' C' P = .ok L' ∧ L'.toMB.Is L ∧ (A - L * C).charpoly = ∏ j : Fin n, (X - Polynomial.C (e 0 j)) := by
  obtain ⟨At, a1, -, a2⟩ := C48_matrix hA
  obtain ⟨Ct, c1, -, c2⟩ := C48_matrix hC
  obtain ⟨G, ⟨G', g1, -, g2⟩, hch⟩ := C63_placed_partial abs ht a2 c2 hP hPe hn hka hobs hi
  obtain ⟨L', l1, -, l2⟩ := C48_matrix g2
  refine ⟨L', Gᵀ, ?_, l2, ?_⟩
  · unfold observerGain
    rw [a1, Res.ok_bind, c1, Res.ok_bind, g1, Res.ok_bind, l1]
  · rw [← hch, ← Matrix.charpoly_transpose, Matrix.transpose_sub, Matrix.transpose_mul, Matrix.transpose_transpose]

/-- What the computed observer consists of. -/
theorem observer_design {sys : StateSpace K} (h : sys.Is A B C D) {P : MB K} {e : Nat → Nat → K} (hP : Rep P 1 n e) (hPe : P.empty = false) (hn : 0 < n) (hka : n + 1 < allocMax)
    (hf : Fits n (m + 1)) (hobs : (ctrbMatrix Aᵀ Cᵀ).det ≠ 0) (hi : n ≤ 5 ∨ ∀ i j, (ctrbMatrix Aᵀ Cᵀ)⁻¹ i j ≠ 0) :
    ∃ (Ao Bo : Mat K) (L : Matrix (Fin n) (Fin 1) K), observerOf (isZ abs tol) sys P = .ok (Ao, Bo) ∧ Ao.toMB.Is (A - L * C) ∧ Bo.toMB.Is (besides (B - L * D) L) ∧
      (A - L * C).charpoly = ∏ j : Fin n, (X - Polynomial.C (e 0 j)) := by
  obtain ⟨L', L, l1, l2, hch⟩ := observer_gain abs ht h.a h.c hP hPe hn hka hobs hi
  obtain ⟨LC, e1, -, e2⟩ := C35_product l2 h.c h.a.fits
  obtain ⟨Ao, e3, -, e4⟩ := (C33_matrix h.a e2 0).2.1
  obtain ⟨LD, e5, -, e6⟩ := C35_product l2 h.d h.b.fits
  obtain ⟨BL, e7, -, e8⟩ := (C33_matrix h.b e6 0).2.1
  obtain ⟨Bo, e9, -, e10⟩ := hstack_is e8 l2 hf
  refine ⟨Ao, Bo, L, ?_, e4, e10, hch⟩
  unfold observerOf
  rw [l1, Res.ok_bind, e1, Res.ok_bind, e3, Res.ok_bind, e5, Res.ok_bind, e7, Res.ok_bind, e9, Res.ok_bind]
  rfl

/-- C153 for observers: simulated with the inputs of a system and the outputs that the simulation of the system gave, the computed observer follows the states of the system: the distance of step `i` is `Mⁱ` times the
initial distance, where `M` has the given poles. Missing: systems with several outputs, and larger systems for which C52 fails. -/
theorem C153_observer_partial {sys : DiscreteStateSpace K} (h : sys.toStateSpace.Is A B C D) {P : MB K} {e : Nat → Nat → K} (hP : Rep P 1 n e) (hPe : P.empty = false) (hn : 0 < n) (hka : n + 1 < allocMax)
    (hf : Fits n (m + 1)) (hobs : (ctrbMatrix Aᵀ Cᵀ).det ≠ 0) (hi : n ≤ 5 ∨ ∀ i j, (ctrbMatrix Aᵀ Cᵀ)⁻¹ i j ≠ 0) :
    ∃ (Ao Bo : Mat K) (M : Matrix (Fin n) (Fin n) K), observerOf (isZ abs tol) sys.toStateSpace P = .ok (Ao, Bo) ∧ M.charpoly = ∏ j : Fin n, (X - Polynomial.C (e 0 j)) ∧
      ∀ (toSize : K → Res Nat) (us : List (Fin m → K)) (x0 z0 : Fin n → K) (T q : K) (k : Nat) (_ : cdiv T sys.sampleTime = .ok q) (_ : toSize q = .ok k)
        (p : Nat) (_ : p < allocMax) (Co Do : Mat K) (Cm : Matrix (Fin p) (Fin n) K) (Dm : Matrix (Fin p) (Fin (m + 1)) K) (_ : Co.toMB.Is Cm) (_ : Do.toMB.Is Dm),
      ∃ t xs ys zs vs, simulate toSize sys (us.map List.ofFn) T (List.ofFn x0) = .ok (t, xs, ys) ∧
        simulate toSize ⟨⟨Ao, Bo, Co, Do⟩, sys.sampleTime⟩ (List.zipWith (· ++ ·) (us.map List.ofFn) ys) T (List.ofFn z0) = .ok (t, zs, vs) ∧
        xs.length = min us.length k + 1 ∧ zs.length = min us.length k + 1 ∧
        ∀ i, i ≤ min us.length k → ∃ x z : Fin n → K, xs[i]? = some (List.ofFn x) ∧ zs[i]? = some (List.ofFn z) ∧ z - x = M ^ i *ᵥ (z0 - x0) := by
  obtain ⟨Ao, Bo, L, h1, h2, h3, h4⟩ := observer_design abs ht h hP hPe hn hka hf hobs hi
  refine ⟨Ao, Bo, _, h1, h4, fun toSize us x0 z0 T q k hq hk p hp Co Do Cm Dm hC hD => ?_⟩
  let u : Nat → Fin m → K := fun j => us.getD j 0
  let ws : List (Fin (m + 1) → K) := vtab (min us.length k) fun i => Fin.append (u i) (C *ᵥ traj A B x0 u i + D *ᵥ u i)
  have hna : n < allocMax := by omega
  have hso : (⟨⟨Ao, Bo, Co, Do⟩, sys.sampleTime⟩ : DiscreteStateSpace K).toStateSpace.Is (A - L * C) (besides (B - L * D) L) Cm Dm := ⟨h2, h3, hC, hD⟩
  have hws : ws.length = min us.length k := vtab_length _ _
  have hmin : min ws.length k = min us.length k := by rw [hws]; omega
  have s1 := simulate_eq h hna (by rw [allocMax_eq]; norm_num) us x0 hq hk
  have s2 := simulate_eq hso hna hp ws z0 hq hk
  have hin : ws.map List.ofFn = List.zipWith (· ++ ·) (us.map List.ofFn) (vtab (min us.length k) fun i => List.ofFn (C *ᵥ traj A B x0 u i + D *ᵥ u i)) := by
    apply List.ext_getElem
    · rw [List.length_map, hws, List.length_zipWith, List.length_map, vtab_length]; omega
    · intro i a b
      have hi : i < us.length := by rw [List.length_map, hws] at a; omega
      rw [List.getElem_map, List.getElem_zipWith, List.getElem_map, vtab_getElem, vtab_getElem, List.ofFn_fin_append]
      congr 2
      show us.getD i 0 = us[i]
      rw [List.getD_eq_getElem?_getD, List.getElem?_eq_getElem hi, Option.getD_some]
  rw [hmin, hin] at s2
  refine ⟨_, _, _, _, _, s1, s2, vtab_length _ _, vtab_length _ _, fun i hi => ⟨_, _, ?_, ?_, observer_error A B C D L x0 z0 u (N := min us.length k) (w := fun j => ws.getD j 0) (fun j hj => ?_) i hi⟩⟩
  · simp [vtab, Nat.lt_succ_of_le hi, u]
  · simp [vtab, Nat.lt_succ_of_le hi]
  · have hj' : j < ws.length := by rw [hws]; exact hj
    show ws.getD j 0 = _
    rw [List.getD_eq_getElem?_getD, List.getElem?_eq_getElem hj', Option.getD_some]
    exact vtab_getElem _ _ _ _

/-- C153: with all poles at zero the observer has the state of the system after as many steps as there are states, whatever it started from. Missing: as in `C153_observer_partial`. -/
theorem C153_exact_partial {sys : DiscreteStateSpace K} (h : sys.toStateSpace.Is A B C D) (hn : 0 < n) (hka : n + 1 < allocMax)
    (hf : Fits n (m + 1)) (hobs : (ctrbMatrix Aᵀ Cᵀ).det ≠ 0) (hi : n ≤ 5 ∨ ∀ i j, (ctrbMatrix Aᵀ Cᵀ)⁻¹ i j ≠ 0) :
    ∃ (Ao Bo : Mat K), (Util.zeros 1 n >>= fun P => observerOf (isZ abs tol) sys.toStateSpace P.toMB) = .ok (Ao, Bo) ∧
      ∀ (toSize : K → Res Nat) (us : List (Fin m → K)) (x0 z0 : Fin n → K) (T q : K) (k : Nat) (_ : cdiv T sys.sampleTime = .ok q) (_ : toSize q = .ok k)
        (p : Nat) (_ : p < allocMax) (Co Do : Mat K) (Cm : Matrix (Fin p) (Fin n) K) (Dm : Matrix (Fin p) (Fin (m + 1)) K) (_ : Co.toMB.Is Cm) (_ : Do.toMB.Is Dm),
      ∃ t xs ys zs vs, simulate toSize sys (us.map List.ofFn) T (List.ofFn x0) = .ok (t, xs, ys) ∧
        simulate toSize ⟨⟨Ao, Bo, Co, Do⟩, sys.sampleTime⟩ (List.zipWith (· ++ ·) (us.map List.ofFn) ys) T (List.ofFn z0) = .ok (t, zs, vs) ∧
        xs.length = min us.length k + 1 ∧ zs.length = min us.length k + 1 ∧ ∀ i, n ≤ i → zs[i]? = xs[i]? := by
  have hf1 : Fits 1 n := h.a.fits.mono hn (Nat.le_refl n)
  have hz1 : Util.zeros 1 n = .ok (Mat.ofFn 1 n fun _ _ => (0 : K)) := by
    unfold Util.zeros; rw [if_neg (by omega), if_neg (by omega), Mat.new_eq hf1]
  obtain ⟨Ao, Bo, M, h1, h2, h3⟩ := C153_observer_partial abs ht h (ofFn_rep hf1 fun _ _ => (0 : K)) (by
    show (Mat.ofFn 1 n fun _ _ => (0 : K)).isEmpty = false
    simp [Mat.isEmpty, ofFn_rows, ofFn_cols, hn.ne']) hn hka hf hobs hi
  refine ⟨Ao, Bo, by rw [hz1, Res.ok_bind, h1], fun toSize us x0 z0 T q k hq hk p hp Co Do Cm Dm hC hD => ?_⟩
  obtain ⟨t, xs, ys, zs, vs, s1, s2, s3, s4, s5⟩ := h3 toSize us x0 z0 T q k hq hk p hp Co Do Cm Dm hC hD
  refine ⟨t, xs, ys, zs, vs, s1, s2, s3, s4, fun i hin => ?_⟩
  have hnil : M ^ n = 0 := by
    have := Matrix.aeval_self_charpoly M
    rw [h2] at this
    simpa using this
  by_cases hik : i ≤ min us.length k
  · obtain ⟨x, z, e1, e2, e3⟩ := s5 i hik
    obtain ⟨j, rfl⟩ := Nat.exists_eq_add_of_le hin
    rw [pow_add, hnil, Matrix.zero_mul, Matrix.zero_mulVec, sub_eq_zero] at e3
    rw [e1, e2, e3]
  · rw [List.getElem?_eq_none (by omega), List.getElem?_eq_none (by omega)]
end

/-- The eigenvalues of a matrix with a given characteristic polynomial. -/
theorem eig_of_charpoly {n : Nat} {M : Matrix (Fin n) (Fin n) ℝ} {r : Fin n → ℝ} (h : M.charpoly = ∏ j : Fin n, (X - Polynomial.C (r j))) {μ : ℂ} {z : Fin n → ℂ} (hz : z ≠ 0)
    (e : M.map Complex.ofReal *ᵥ z = μ • z) : ∃ j, μ = r j := by
  have h1 : (M.map Complex.ofRealHom).charpoly.eval μ = 0 := by
    rw [Matrix.eval_charpoly, ← Matrix.exists_mulVec_eq_zero_iff]
    refine ⟨z, hz, ?_⟩
    rw [Matrix.sub_mulVec, sub_eq_zero, show M.map Complex.ofRealHom *ᵥ z = μ • z from e]
    funext i
    rw [Matrix.scalar_apply, Matrix.mulVec_diagonal]
    rfl
  rw [Matrix.charpoly_map, h, Polynomial.map_prod, eval_prod, Finset.prod_eq_zero_iff] at h1
  obtain ⟨j, -, h2⟩ := h1
  refine ⟨j, ?_⟩
  simpa [sub_eq_zero] using h2

section
variable {tol : ℝ} (ht : tol < 1) {n m p : Nat}
include ht

/-- C153 for feedback: if all poles are inside of the unit circle, the system with the computed feedback is stable, and there are `c` and `ρ < 1` such that the states of every simulation of it
are at most `c (ρ^i M + β / (1 - ρ))`. Missing: larger systems for which C52 fails. -/
theorem C153_feedback_partial {sys : DiscreteStateSpace ℝ} {A : Matrix (Fin n) (Fin n) ℝ} {B : Matrix (Fin n) (Fin 1) ℝ} {C : Matrix (Fin p) (Fin n) ℝ} {D : Matrix (Fin p) (Fin 1) ℝ} (h : sys.toStateSpace.Is A B C D)
    {P : MB ℝ} {e : Nat → Nat → ℝ} (hP : Rep P 1 n e) (hPe : P.empty = false) (hn : 0 < n) (hka : n + 1 < allocMax) (hp : p < allocMax)
    (hctrl : (ctrbMatrix A B).det ≠ 0) (hi : n ≤ 5 ∨ ∀ i j, (ctrbMatrix A B)⁻¹ i j ≠ 0) (hs : ∀ j, j < n → |e 0 j| < 1) :
    ∃ (Acl : Mat ℝ) (c ρ : ℝ), 0 ≤ ρ ∧ ρ < 1 ∧
      (acker (isZ AbsoluteValue.abs tol) sys.A.toMB sys.B.toMB P >>= fun G => mul sys.B.toMB G.toMB >>= fun BG => sub sys.A.toMB BG.toMB) = .ok Acl ∧
      ∀ (toSize : ℝ → Res Nat) (us : List (Fin 1 → ℝ)) (x0 : Fin n → ℝ) (T q : ℝ) (k : Nat) (_ : cdiv T sys.sampleTime = .ok q) (_ : toSize q = .ok k)
        (M β : ℝ) (_ : ∀ i, |x0 i| ≤ M) (_ : 0 ≤ β) (_ : ∀ w ∈ us, ∀ i, |(B *ᵥ w) i| ≤ β),
      ∃ t y, ∃ x : Nat → Fin n → ℝ, simulate toSize { sys with A := Acl } (us.map List.ofFn) T (List.ofFn x0) = .ok (t, vtab (min us.length k + 1) fun i => List.ofFn (x i), y) ∧
        ∀ i, i ≤ min us.length k → ∀ l, |x i l| ≤ c * (ρ ^ i * M + β / (1 - ρ)) := by
  obtain ⟨G, hG, hch⟩ := C63_placed_partial AbsoluteValue.abs ht h.a h.b hP hPe hn hka hctrl hi
  have hY : Yields (acker (isZ AbsoluteValue.abs tol) sys.A.toMB sys.B.toMB P >>= fun G => mul sys.B.toMB G.toMB >>= fun BG => sub sys.A.toMB BG.toMB) (A - B * G) :=
    hG.bind fun G' _ hG' => (C35_product h.b hG' h.a.fits).bind fun BG _ hBG => (C33_matrix h.a hBG 0).2.1
  obtain ⟨Acl, h1, h2, h3⟩ := hY
  obtain ⟨c, ρ, r1, r2, r3⟩ := C151_eigenvalues (m := 1) (p := p) (A := A - B * G) fun μ z hz e => by
    obtain ⟨j, rfl⟩ := eig_of_charpoly hch hz e
    rw [Complex.norm_real, Real.norm_eq_abs]
    exact hs j j.2
  exact ⟨Acl, c, ρ, r1, r2, h1, fun toSize us x0 T q k hq hk M β hM hβ hB =>
    r3 toSize { sys with A := Acl } B C D ⟨h3, h.b, h.c, h.d⟩ (by omega) hp us x0 T q k hq hk M β hM hβ hB⟩

/-- C153 for observers with poles inside of the unit circle: the distance between the observer and the state of the system decays exponentially. Missing: as in `C153_observer_partial`. -/
theorem C153_decay_partial {sys : DiscreteStateSpace ℝ} {A : Matrix (Fin n) (Fin n) ℝ} {B : Matrix (Fin n) (Fin m) ℝ} {C : Matrix (Fin 1) (Fin n) ℝ} {D : Matrix (Fin 1) (Fin m) ℝ} (h : sys.toStateSpace.Is A B C D)
    {P : MB ℝ} {e : Nat → Nat → ℝ} (hP : Rep P 1 n e) (hPe : P.empty = false) (hn : 0 < n) (hka : n + 1 < allocMax)
    (hf : Fits n (m + 1)) (hobs : (ctrbMatrix Aᵀ Cᵀ).det ≠ 0) (hi : n ≤ 5 ∨ ∀ i j, (ctrbMatrix Aᵀ Cᵀ)⁻¹ i j ≠ 0) (hs : ∀ j, j < n → |e 0 j| < 1) :
    ∃ (Ao Bo : Mat ℝ) (c ρ : ℝ), 0 ≤ ρ ∧ ρ < 1 ∧ observerOf (isZ AbsoluteValue.abs tol) sys.toStateSpace P = .ok (Ao, Bo) ∧
      ∀ (toSize : ℝ → Res Nat) (us : List (Fin m → ℝ)) (x0 z0 : Fin n → ℝ) (T q : ℝ) (k : Nat) (_ : cdiv T sys.sampleTime = .ok q) (_ : toSize q = .ok k)
        (p : Nat) (_ : p < allocMax) (Co Do : Mat ℝ) (Cm : Matrix (Fin p) (Fin n) ℝ) (Dm : Matrix (Fin p) (Fin (m + 1)) ℝ) (_ : Co.toMB.Is Cm) (_ : Do.toMB.Is Dm) (δ : ℝ) (_ : ∀ i, |z0 i - x0 i| ≤ δ),
      ∃ t xs ys zs vs, simulate toSize sys (us.map List.ofFn) T (List.ofFn x0) = .ok (t, xs, ys) ∧
        simulate toSize ⟨⟨Ao, Bo, Co, Do⟩, sys.sampleTime⟩ (List.zipWith (· ++ ·) (us.map List.ofFn) ys) T (List.ofFn z0) = .ok (t, zs, vs) ∧
        xs.length = min us.length k + 1 ∧ zs.length = min us.length k + 1 ∧
        ∀ i, i ≤ min us.length k → ∃ x z : Fin n → ℝ, xs[i]? = some (List.ofFn x) ∧ zs[i]? = some (List.ofFn z) ∧ ∀ l, |z l - x l| ≤ c * ρ ^ i * δ := by
  obtain ⟨Ao, Bo, M, h1, h2, h3⟩ := C153_observer_partial AbsoluteValue.abs ht h hP hPe hn hka hf hobs hi
  obtain ⟨c, ρ, -, r2, r3, r4⟩ := real_pow_decay M fun μ z hz e => by
    obtain ⟨j, rfl⟩ := eig_of_charpoly h2 hz e
    rw [Complex.norm_real, Real.norm_eq_abs]
    exact hs j j.2
  refine ⟨Ao, Bo, c, ρ, r2, r3, h1, fun toSize us x0 z0 T q k hq hk p hp Co Do Cm Dm hC hD δ hδ => ?_⟩
  obtain ⟨t, xs, ys, zs, vs, s1, s2, s3, s4, s5⟩ := h3 toSize us x0 z0 T q k hq hk p hp Co Do Cm Dm hC hD
  refine ⟨t, xs, ys, zs, vs, s1, s2, s3, s4, fun i hik => ?_⟩
  obtain ⟨x, z, e1, e2, e3⟩ := s5 i hik
  refine ⟨x, z, e1, e2, fun l => ?_⟩
  have e4 : z l - x l = ∑ j, (M ^ i) l j * (z0 j - x0 j) := congrFun e3 l
  have hd : 0 ≤ δ := (abs_nonneg _).trans (hδ l)
  rw [e4]
  refine (Finset.abs_sum_le_sum_abs _ _).trans (le_trans (Finset.sum_le_sum fun j _ => ?_) ((Finset.sum_mul _ _ δ).symm.le.trans (mul_le_mul_of_nonneg_right (r4 i l) hd)))
  rw [abs_mul]
  exact mul_le_mul_of_nonneg_left (hδ j) (abs_nonneg _)
end

/-- The matrix that `vstack` makes. -/
def above {K : Type} {n m k : Nat} (M : Matrix (Fin n) (Fin k) K) (N : Matrix (Fin m) (Fin k) K) : Matrix (Fin (n + m)) (Fin k) K :=
  Matrix.of (Fin.append M N)

theorem above_top {K : Type} {n m k : Nat} (M : Matrix (Fin n) (Fin k) K) (N : Matrix (Fin m) (Fin k) K) (i : Fin n) (j : Fin k) : above M N (Fin.castAdd m i) j = M i j :=
  congrFun (Fin.append_left M N i) j

theorem above_bottom {K : Type} {n m k : Nat} (M : Matrix (Fin n) (Fin k) K) (N : Matrix (Fin m) (Fin k) K) (i : Fin m) (j : Fin k) : above M N (Fin.natAdd n i) j = N i j :=
  congrFun (Fin.append_right M N i) j

theorem besides_left {K : Type} {n m k : Nat} (M : Matrix (Fin n) (Fin m) K) (N : Matrix (Fin n) (Fin k) K) (i : Fin n) (j : Fin m) : besides M N i (Fin.castAdd k j) = M i j :=
  Fin.append_left (M i) (N i) j

theorem besides_right {K : Type} {n m k : Nat} (M : Matrix (Fin n) (Fin m) K) (N : Matrix (Fin n) (Fin k) K) (i : Fin n) (j : Fin k) : besides M N i (Fin.natAdd m j) = N i j :=
  Fin.append_right (M i) (N i) j

theorem vstack_is {K : Type} [Zero K] {A B : MB K} {n m k : Nat} {M : Matrix (Fin n) (Fin k) K} {N : Matrix (Fin m) (Fin k) K} (hA : A.Is M) (hB : B.Is N) (hf : Fits (n + m) k) :
    Yields (Util.vstack A B) (above M N) := by
  obtain ⟨e, hA, rfl⟩ := hA
  obtain ⟨f, hB, rfl⟩ := hB
  refine (C22_vstack hA.toRepAt hB.toRepAt hf).yields.congr ?_
  ext i j
  refine Fin.addCases (fun i => ?_) (fun i => ?_) i
  · rw [above_top]; simp [toM_apply]
  · rw [above_bottom]; simp [toM_apply]

/-- A controller that feeds back the state of an observer, as a user of the library builds it: the system `x⁺ = A x - B K z`, `z⁺ = L C x + (A - B K - L C) z` with the states `x` and `z`,
`vstack(hstack(A, -B * K), hstack(L * C, A - B * K - L * C))`. -/
def controllerOf {T : Type} [Zero T] [One T] [Add T] [Sub T] [Mul T] [Neg T] [NatCast T] [CDiv T] (isz : T → Bool) (sys : StateSpace T) (P Q : MB T) : Res (Mat T) := do
  let G ← acker isz sys.A.toMB sys.B.toMB P
  let L ← observerGain isz sys.A.toMB sys.C.toMB Q
  let BG ← mul sys.B.toMB G.toMB
  let LC ← mul L.toMB sys.C.toMB
  let F ← sub sys.A.toMB BG.toMB
  let F ← sub F.toMB LC.toMB
  let N ← mulS BG.toMB (-1)
  let top ← Util.hstack sys.A.toMB N.toMB
  let bottom ← Util.hstack LC.toMB F.toMB
  Util.vstack top.toMB bottom.toMB

/-- The eigenvalues of the whole are those of the feedback and those of the observer. -/
theorem controller_eig {n : Nat} {A F G : Matrix (Fin n) (Fin n) ℝ} {μ : ℂ} {v : Fin (n + n) → ℂ} (hv : v ≠ 0)
    (h : (above (besides A (-F)) (besides G (A - F - G))).map Complex.ofReal *ᵥ v = μ • v) :
    ∃ z : Fin n → ℂ, z ≠ 0 ∧ ((A - F).map Complex.ofReal *ᵥ z = μ • z ∨ (A - G).map Complex.ofReal *ᵥ z = μ • z) := by
  let x : Fin n → ℂ := fun i => v (Fin.castAdd n i)
  let z : Fin n → ℂ := fun i => v (Fin.natAdd n i)
  have h1 : A.map Complex.ofReal *ᵥ x - F.map Complex.ofReal *ᵥ z = μ • x := by
    funext i
    have := congrFun h (Fin.castAdd n i)
    simp only [Matrix.mulVec, dotProduct, Fin.sum_univ_add, Matrix.map_apply, above_top, besides_left, besides_right, Matrix.neg_apply, Complex.ofReal_neg, neg_mul, Finset.sum_neg_distrib] at this
    simp only [Matrix.mulVec, dotProduct, Matrix.map_apply, Pi.sub_apply, sub_eq_add_neg]
    exact this
  have h2 : G.map Complex.ofReal *ᵥ x + (A - F - G).map Complex.ofReal *ᵥ z = μ • z := by
    funext i
    have := congrFun h (Fin.natAdd n i)
    simp only [Matrix.mulVec, dotProduct, Fin.sum_univ_add, Matrix.map_apply, above_bottom, besides_left, besides_right] at this
    exact this
  have hm : ∀ X Y : Matrix (Fin n) (Fin n) ℝ, (X - Y).map Complex.ofReal = X.map Complex.ofReal - Y.map Complex.ofReal := fun X Y => by
    ext i j; simp
  rw [hm, hm, Matrix.sub_mulVec, Matrix.sub_mulVec] at h2
  by_cases he : z = x
  · refine ⟨x, fun h0 => hv (funext fun i => ?_), .inl ?_⟩
    · refine Fin.addCases (fun i => congrFun h0 i) (fun i => ?_) i
      exact congrFun (he.trans h0) i
    · rw [he] at h1
      rw [hm, Matrix.sub_mulVec, h1]
  · refine ⟨z - x, sub_ne_zero.2 he, .inr ?_⟩
    rw [hm, Matrix.sub_mulVec, Matrix.mulVec_sub, Matrix.mulVec_sub, smul_sub, ← h1, ← h2]
    abel

section
variable {tol : ℝ} (ht : tol < 1) {n m p : Nat}
include ht

/-- C153 for feedback of the state of an observer: if both are designed with poles inside of the unit circle, the whole is stable, and there are `c` and `ρ < 1` such that the states of every simulation
of it, with whatever further inputs and outputs, are at most `c (ρ^i M + β / (1 - ρ))`. Missing: larger systems for which C52 fails. -/
theorem C153_controller_partial {sys : StateSpace ℝ} {A : Matrix (Fin n) (Fin n) ℝ} {B : Matrix (Fin n) (Fin 1) ℝ} {C : Matrix (Fin 1) (Fin n) ℝ} {D : Matrix (Fin 1) (Fin 1) ℝ} (h : sys.Is A B C D)
    {P Q : MB ℝ} {e f : Nat → Nat → ℝ} (hP : Rep P 1 n e) (hPe : P.empty = false) (hQ : Rep Q 1 n f) (hQe : Q.empty = false) (hn : 0 < n) (hka : n + n < allocMax) (h1a : n + 1 < allocMax) (hff : Fits (n + n) (n + n))
    (hctrl : (ctrbMatrix A B).det ≠ 0) (hi : n ≤ 5 ∨ ∀ i j, (ctrbMatrix A B)⁻¹ i j ≠ 0)
    (hobs : (ctrbMatrix Aᵀ Cᵀ).det ≠ 0) (hj : n ≤ 5 ∨ ∀ i j, (ctrbMatrix Aᵀ Cᵀ)⁻¹ i j ≠ 0) (hs : ∀ j, j < n → |e 0 j| < 1) (hs' : ∀ j, j < n → |f 0 j| < 1) :
    ∃ (Acl : Mat ℝ) (c ρ : ℝ), 0 ≤ ρ ∧ ρ < 1 ∧ controllerOf (isZ AbsoluteValue.abs tol) sys P Q = .ok Acl ∧
      ∀ (toSize : ℝ → Res Nat) (Bo Co Do : Mat ℝ) (Bm : Matrix (Fin (n + n)) (Fin m) ℝ) (Cm : Matrix (Fin p) (Fin (n + n)) ℝ) (Dm : Matrix (Fin p) (Fin m) ℝ) (dt : ℝ)
        (_ : Bo.toMB.Is Bm) (_ : Co.toMB.Is Cm) (_ : Do.toMB.Is Dm) (_ : p < allocMax)
        (us : List (Fin m → ℝ)) (x0 : Fin (n + n) → ℝ) (T q : ℝ) (k : Nat) (_ : cdiv T dt = .ok q) (_ : toSize q = .ok k)
        (M β : ℝ) (_ : ∀ i, |x0 i| ≤ M) (_ : 0 ≤ β) (_ : ∀ w ∈ us, ∀ i, |(Bm *ᵥ w) i| ≤ β),
      ∃ t y, ∃ x : Nat → Fin (n + n) → ℝ, simulate toSize ⟨⟨Acl, Bo, Co, Do⟩, dt⟩ (us.map List.ofFn) T (List.ofFn x0) = .ok (t, vtab (min us.length k + 1) fun i => List.ofFn (x i), y) ∧
        ∀ i, i ≤ min us.length k → ∀ l, |x i l| ≤ c * (ρ ^ i * M + β / (1 - ρ)) := by
  obtain ⟨G, ⟨G', g1, -, g2⟩, hch⟩ := C63_placed_partial AbsoluteValue.abs ht h.a h.b hP hPe hn h1a hctrl hi
  obtain ⟨L', L, l1, l2, hcl⟩ := observer_gain AbsoluteValue.abs ht h.a h.c hQ hQe hn h1a hobs hj
  obtain ⟨BG, e1, -, e2⟩ := C35_product h.b g2 h.a.fits
  obtain ⟨LC, e3, -, e4⟩ := C35_product l2 h.c h.a.fits
  obtain ⟨F, e5, -, e6⟩ := (C33_matrix h.a e2 0).2.1
  obtain ⟨F', e7, -, e8⟩ := (C33_matrix e6 e4 0).2.1
  obtain ⟨N, e9, -, e10⟩ := (C33_field e2 (-1)).1
  have hf1 : Fits n (n + n) := hff.mono (by omega) le_rfl
  obtain ⟨top, e11, -, e12⟩ := hstack_is h.a e10 hf1
  obtain ⟨bot, e13, -, e14⟩ := hstack_is e4 e8 hf1
  obtain ⟨Acl, e15, -, e16⟩ := vstack_is e12 e14 hff
  rw [neg_one_smul] at e16
  obtain ⟨c, ρ, r1, r2, r3⟩ := C151_eigenvalues (m := m) (p := p) (A := above (besides A (-(B * G))) (besides (L * C) (A - B * G - L * C))) fun μ v hv hμ => by
    obtain ⟨z, hz, h5 | h5⟩ := controller_eig hv hμ
    · obtain ⟨j, rfl⟩ := eig_of_charpoly hch hz h5
      rw [Complex.norm_real, Real.norm_eq_abs]
      exact hs j j.2
    · obtain ⟨j, rfl⟩ := eig_of_charpoly hcl hz h5
      rw [Complex.norm_real, Real.norm_eq_abs]
      exact hs' j j.2
  refine ⟨Acl, c, ρ, r1, r2, ?_, fun toSize Bo Co Do Bm Cm Dm dt hB hC hD hp us x0 T q k hq hk M β hM hβ hu =>
    r3 toSize ⟨⟨Acl, Bo, Co, Do⟩, dt⟩ Bm Cm Dm ⟨e16, hB, hC, hD⟩ hka hp us x0 T q k hq hk M β hM hβ hu⟩
  unfold controllerOf
  rw [g1, Res.ok_bind, l1, Res.ok_bind, e1, Res.ok_bind, e3, Res.ok_bind, e5, Res.ok_bind, e7, Res.ok_bind, e9, Res.ok_bind, e11, Res.ok_bind, e13, Res.ok_bind, e15]
end

/-- The double integrator with the position as output: the observer with the poles 0, 0, and its states next to those of the system. It starts from `(5, -7)` instead of `(1, 2)` and is right after two steps. -/
example : (Util.zeros 1 2 >>= fun P => observerOf (isZ (AbsoluteValue.abs (S := ℚ)) (1/1000000000)) (⟨⟨2, 2, [1, 1, 0, 1]⟩, ⟨2, 1, [0, 1]⟩, ⟨1, 2, [1, 0]⟩, ⟨1, 1, [3]⟩⟩ : StateSpace ℚ) P.toMB) =
      .ok (⟨2, 2, [-1, 1, -1, 1]⟩, ⟨2, 2, [-6, 2, -2, 1]⟩) ∧
    (simulate floorSize ⟨⟨⟨2, 2, [1, 1, 0, 1]⟩, ⟨2, 1, [0, 1]⟩, ⟨1, 2, [1, 0]⟩, ⟨1, 1, [3]⟩⟩, 1⟩ [[1], [0], [4]] (3 : ℚ) [1, 2] >>= fun r =>
      simulate floorSize ⟨⟨⟨2, 2, [-1, 1, -1, 1]⟩, ⟨2, 2, [-6, 2, -2, 1]⟩, ⟨1, 2, [1, 0]⟩, ⟨1, 2, [0, 0]⟩⟩, 1⟩ (List.zipWith (· ++ ·) [[1], [0], [4]] r.2.2) 3 [5, -7] >>= fun s => .ok (r.2.1, s.2.1)) =
    .ok ([[1, 2], [3, 3], [6, 3], [9, 7]], [[5, -7], [-10, -10], [6, 3], [9, 7]]) := by decide +kernel
/-- The double integrator with the feedback gain `(1/4, 1)`, which places the poles 1/2, 1/2, from the state of that observer. -/
example : (Util.zeros 1 2 >>= fun Q => controllerOf (isZ (AbsoluteValue.abs (S := ℚ)) (1/1000000000)) (⟨⟨2, 2, [1, 1, 0, 1]⟩, ⟨2, 1, [0, 1]⟩, ⟨1, 2, [1, 0]⟩, ⟨1, 1, [0]⟩⟩ : StateSpace ℚ)
      (⟨1, 2, [1/2, 1/2]⟩ : Mat ℚ).toMB Q.toMB) =
    .ok ⟨4, 4, [1, 1, 0, 0, 0, 1, -1/4, -1, 2, 0, -1, 1, 1, 0, -5/4, 0]⟩ := by decide +kernel
end Malg
