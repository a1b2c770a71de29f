import Verif.Props.Det
import Verif.Lemmas.Lu
/-!
# C53: `lu_decomposition`
-/
namespace Malg
open Ops Lin

section
variable {K : Type} [Field K] [DecidableEq K]

/-- The leading `k × k` block. -/
def leading {N : Nat} (M : Matrix (Fin N) (Fin N) K) (k : Nat) (h : k ≤ N) : Matrix (Fin k) (Fin k) K :=
  M.submatrix (Fin.castLE h) (Fin.castLE h)

/-- C53: a returned pair is a factorisation into a lower and a unit upper triangular matrix. -/
theorem C53_factor {A : MB K} {N : Nat} {M : Matrix (Fin N) (Fin N) K} (h : A.Is M) {L U : Mat K} (hr : lu A = .ok (L, U)) :
    ∃ ML MU : Matrix (Fin N) (Fin N) K, L.WF ∧ U.WF ∧ L.toMB.Is ML ∧ U.toMB.Is MU ∧ (∀ i j, i < j → ML i j = 0) ∧
      (∀ i j, j < i → MU i j = 0) ∧ (∀ i, MU i i = 1) ∧ ML * MU = M := by
  obtain ⟨a, h, rfl⟩ := h
  rcases lu_cases h.toRepAt with ⟨l, u, h1, h2⟩ | ⟨h1, -⟩
  · rw [h1] at hr
    injection hr with hr
    injection hr with e1 e2
    subst e1 e2
    refine ⟨toM N N l, toM N N u, (ofFn_holds h.fits l).wf, (ofFn_holds h.fits u).wf, (ofFn_rep h.fits l).is, (ofFn_rep h.fits u).is, fun i j hij => h2.l_up i j i.2 j.2 hij,
      fun i j hij => h2.u_low i j i.2 j.2 hij, fun i => h2.u_one i i.2, ?_⟩
    exact (lu_block h2.l_low h2.l_up h2.u_up h2.u_one h2.u_low).1
  · rw [h1] at hr; cases hr

/-- C53: it succeeds exactly when all proper leading principal minors are non-zero; otherwise it divides by zero. -/
theorem C53_iff {A : MB K} {N : Nat} {M : Matrix (Fin N) (Fin N) K} (h : A.Is M) :
    ((∃ p, lu A = .ok p) ↔ ∀ k (hk : k < N), (leading M k hk.le).det ≠ 0) ∧
    ((¬ ∃ p, lu A = .ok p) → lu A = .ub .divZero) := by
  obtain ⟨a, h, rfl⟩ := h
  have hb : ∀ k (hk : k < N), leading (toM N N a) k hk.le = toM k k a := fun k hk => rfl
  rcases lu_cases h.toRepAt with ⟨l, u, h1, h2⟩ | ⟨h1, k, h2, h3, h4⟩
  · refine ⟨⟨fun _ k hk => ?_, fun _ => ⟨_, h1⟩⟩, fun h' => absurd ⟨_, h1⟩ h'⟩
    rw [hb k hk, h2.minor (Nat.le_refl N) hk.le]
    exact Finset.prod_ne_zero_iff.2 fun j hj => h2.piv j (by have := Finset.mem_range.1 hj; omega) (by have := Finset.mem_range.1 hj; omega)
  · refine ⟨⟨fun ⟨p, hp⟩ => by rw [h1] at hp; (cases hp), fun h' => ?_⟩, fun _ => h1⟩
    exact absurd h4 (hb k h3 ▸ h' k h3)

/-- C53: the determinant is the product of the pivots. -/
theorem C53_det {A : MB K} {N : Nat} {M : Matrix (Fin N) (Fin N) K} (h : A.Is M) {L U : Mat K} (hr : lu A = .ok (L, U))
    {ML : Matrix (Fin N) (Fin N) K} (hL : L.toMB.Is ML) : M.det = ∏ i, ML i i := by
  obtain ⟨ML', MU, w1, w2, h1, h2, h3, h4, h5, rfl⟩ := C53_factor h hr
  have : ML = ML' := Yields.inj (x := .ok L) ⟨L, rfl, w1, hL⟩ ⟨L, rfl, w1, h1⟩
  subst this
  rw [Matrix.det_mul, Matrix.det_of_isLowerTriangular (M := ML) (fun i j hij => h3 i j hij),
    Matrix.det_of_isUpperTriangular (M := MU) (fun i j hij => h4 i j hij)]
  simp [h5]

end

/-- C53: non-square input throws. -/
theorem C53_throws {T : Type} [Zero T] [One T] [Sub T] [Mul T] [CDiv T] {A : MB T}
    (h : A.rows ≠ A.cols) : lu A = .throw .invalidArgument := by
  unfold lu
  rw [if_pos]; simpa [Util.isSquare] using h

example : lu (⟨2, 2, [2, 4, 1, 5]⟩ : Mat ℚ).toMB = .ok (⟨2, 2, [2, 0, 1, 3]⟩, ⟨2, 2, [1, 2, 0, 1]⟩) := by decide +kernel
example : lu (⟨2, 2, [0, 1, 1, 0]⟩ : Mat ℚ).toMB = .ub .divZero := by decide +kernel
example : lu (⟨3, 3, [1, 2, 3, 2, 5, 8, 3, 8, 14]⟩ : Mat ℚ).toMB =
    .ok (⟨3, 3, [1, 0, 0, 2, 1, 0, 3, 2, 1]⟩, ⟨3, 3, [1, 2, 3, 0, 1, 2, 0, 0, 1]⟩) := by decide +kernel

end Malg
