import Verif.Props.Arith
import Verif.Lemmas.Linalg
import Mathlib.Data.Matrix.Basic
import Mathlib.LinearAlgebra.Matrix.ConjTranspose
/-!
# C19 (`cofactor`), C48, C49, C54, C56
-/
namespace Malg
open Ops Lin
variable {T : Type}

/-! ## C19 -/

/-- C19: `cofactor(A, p, q)` is `A` without row `p` and column `q`. -/
theorem C19_cofactor [Zero T] {A : MB T} {n m : Nat} {e} (h : RepAt A n m e) {p q : Nat} (hp : p < n) (hq : q < m) :
    Returns (Lin.cofactor A p q) (n - 1) (m - 1)
      (fun r c => e (if r < p then r else r + 1) (if c < q then c else c + 1)) :=
  Returns.of_eq (h.fits.mono (by omega) (by omega)) (cofactor_eq h hp hq)

/-- C19: so `cofactor` returns what the `CofactorView` shows. -/
theorem C19_agree [Zero T] {A : MB T} {n m : Nat} {e} (h : RepAt A n m e) {p q : Nat} (hp : p < n) (hq : q < m) :
    ∃ B, Lin.cofactor A p q = .ok B ∧ B.rows = (A.cofactor p q).rows ∧ B.cols = (A.cofactor p q).cols ∧
      ∀ r c, r < n - 1 → c < m - 1 → B.at_ r c = (A.cofactor p q).at_ r c := by
  obtain ⟨B, h1, h2⟩ := C19_cofactor h hp hq
  have h3 := cofactor_repAt h (by omega) (by omega) p q
  refine ⟨B, h1, ?_, ?_, fun r c hr hc => ?_⟩
  · exact h2.rep.rows.trans h3.rows.symm
  · exact h2.rep.cols.trans h3.cols.symm
  · rw [h3.get r c hr hc]; exact h2.rep.get r c hr hc

example : Lin.cofactor (⟨3, 3, [1, 2, 3, 4, 5, 6, 7, 8, 9]⟩ : Mat Int).toMB 1 0 = .ok ⟨2, 2, [2, 3, 8, 9]⟩ := by
  decide +kernel

/-! ## C48 -/

/-- C48: the transposed entries. -/
theorem C48_transpose [Zero T] {A : MB T} {n m : Nat} {e} (h : RepAt A n m e) :
    Returns (transpose A) m n (fun r c => e c r) := Returns.of_eq h.fits.swap (transpose_eq h)

/-- C48: transposing twice gives the entries back. -/
theorem C48_involution [Zero T] {A : MB T} {n m : Nat} {e} (h : RepAt A n m e) :
    Returns (transpose A >>= fun B => transpose B.toMB) n m e := by
  obtain ⟨B, h1, h2⟩ := C48_transpose h
  rw [h1, Res.ok_bind]
  exact C48_transpose h2.rep.toRepAt

/-- C48: it is Mathlib's transpose. -/
theorem C48_matrix [Zero T] {A : MB T} {n m : Nat} {M : Matrix (Fin n) (Fin m) T} (h : A.Is M) :
    Yields (transpose A) M.transpose := by
  obtain ⟨e, h, rfl⟩ := h
  exact (C48_transpose h.toRepAt).yields

/-- C48: the transpose of a product is the product of the transposes in reverse order, as objects. -/
theorem C48_product {K : Type} [CommSemiring K] {A B : MB K} {n k m : Nat} {M : Matrix (Fin n) (Fin k) K}
    {N : Matrix (Fin k) (Fin m) K} (hA : A.Is M) (hB : B.Is N) (hf : Fits n m) :
    (mul A B >>= fun X => transpose X.toMB) =
      (transpose B >>= fun X => transpose A >>= fun Y => mul X.toMB Y.toMB) ∧
    Yields (mul A B >>= fun X => transpose X.toMB) (M * N).transpose := by
  have h : Yields (mul A B >>= fun X => transpose X.toMB) (M * N).transpose :=
    (C35_product hA hB hf).bind fun X _ hX => C48_matrix hX
  refine ⟨Yields.unique h ?_, h⟩
  rw [Matrix.transpose_mul]
  exact (C48_matrix hB).bind fun X _ hX => (C48_matrix hA).bind fun Y _ hY => C35_product hX hY hf.swap

/-- C48: `conjugate_transpose` is Mathlib's conjugate transpose (`star` is the conjugation). -/
theorem C48_conjugate {K : Type} [Zero K] [Star K] {A : MB K} {n m : Nat} {M : Matrix (Fin n) (Fin m) K} (h : A.Is M) :
    Yields (conjTranspose star A) M.conjTranspose := by
  obtain ⟨e, h, rfl⟩ := h
  exact (Returns.of_eq h.fits.swap (conjTranspose_eq h.toRepAt)).yields

/-- C48: applied twice it is the identity. -/
theorem C48_conjugate_involution {K : Type} [AddMonoid K] [StarAddMonoid K] {A : MB K} {n m : Nat}
    {M : Matrix (Fin n) (Fin m) K} (h : A.Is M) :
    Yields (conjTranspose star A >>= fun B => conjTranspose star B.toMB) M :=
  (C48_conjugate h).bind fun _ _ hB => (C48_conjugate hB).congr M.conjTranspose_conjTranspose

example : transpose (⟨2, 3, [1, 2, 3, 4, 5, 6]⟩ : Mat Int).toMB = .ok ⟨3, 2, [1, 4, 2, 5, 3, 6]⟩ := by decide +kernel
example : conjTranspose (fun z : Int × Int => (z.1, -z.2)) (⟨1, 2, [(1, 2), (3, -4)]⟩ : Mat (Int × Int)).toMB =
    .ok ⟨2, 1, [(1, -2), (3, 4)]⟩ := by decide +kernel

/-! ## C49 -/

/-- C49, the part that holds: the power of every non-empty square matrix. Missing: the 0×0 matrix
(`C49_empty_false`). -/
theorem C49_powm_partial {K : Type} [Semiring K] {A : MB K} {n : Nat} {M : Matrix (Fin n) (Fin n) K} (h : A.Is M)
    (hn : 0 < n) (N : Nat) : Yields (powm A N) (M ^ N) := by
  have hf := h.fits
  obtain ⟨e, h, rfl⟩ := h
  have key : ∀ N, ∃ E, powm A N = .ok (Mat.ofFn n n E) ∧ toM n n E = toM n n e ^ N := by
    intro N
    unfold powm
    rw [h.rows, h.cols, Util.eye_eq hn hn hf, Res.ok_bind]
    obtain ⟨s, h1, E, h2, h3⟩ := forRange_inv (Nat.zero_le N)
      (fun N s => ∃ E, s = Mat.ofFn n n E ∧ toM n n E = toM n n e ^ N)
      (s := Mat.ofFn n n fun r c => if r = c then (1 : K) else 0)
      (body := fun _ R => mulAssign MRef.self (fun _ => A) R)
      ⟨_, rfl, by rw [pow_zero, toM_one]⟩
      (by
        rintro N s _ _ ⟨E, rfl, hE⟩
        refine ⟨_, mulAssign_self hf h.toRepAt, _, rfl, ?_⟩
        rw [toM_mul, hE, pow_succ])
    exact ⟨E, by rw [h1, h2], h3⟩
  obtain ⟨E, h1, h2⟩ := key N
  exact (Yields.of_eq hf h1).congr h2

/-- C49: a non-square argument and a positive exponent throw `invalid_argument`. -/
theorem C49_throws [Zero T] [One T] [Add T] [Mul T] {A : MB T} {n m : Nat} {e} (h : RepAt A n m e) (hne : n ≠ m)
    {N : Nat} (hN : 0 < N) : powm A N = .throw .invalidArgument := by
  unfold powm
  rw [h.rows, h.cols]
  by_cases hn : n = 0
  · subst hn; rfl
  by_cases hm : m = 0
  · subst hm; unfold Util.eye; rw [if_neg hn]; rfl
  rw [Util.eye_eq (by omega) (by omega) h.fits, Res.ok_bind, forRange_lt hN]
  have : mulAssign MRef.self (fun _ => A) (Mat.ofFn n m fun r c => if r = c then (1 : T) else 0) =
      .throw .invalidArgument := by
    unfold mulAssign
    show (if (Mat.ofFn n m _).toMB.cols ≠ A.rows then _ else _) = _
    rw [if_pos]
    rw [h.rows]; exact fun h' => hne h'.symm
  rw [this]; rfl

/-- C49 is false for the empty square matrix: `eye` rejects it. -/
theorem C49_empty_false : ∃ A : Mat Int, A.WF ∧ A.rows = A.cols ∧ ∀ N, powm A.toMB N = .throw .invalidArgument :=
  ⟨Mat.empty0, by decide +kernel, rfl, fun _ => rfl⟩

example : powm (⟨2, 2, [1, 1, 1, 0]⟩ : Mat Int).toMB 10 = .ok ⟨2, 2, [89, 55, 55, 34]⟩ := by decide +kernel

/-! ## C54 -/

/-- C54, what the code does instead: the entrywise exponential of the transpose. It agrees with the entrywise
exponential exactly when that is symmetric. Missing: all other matrices (`C54_exp_false`). -/
theorem C54_exp_partial [Zero T] {ex : T → T} {A : MB T} {n m : Nat} {e} (h : RepAt A n m e) :
    Returns (Lin.exp ex A) m n (fun r c => ex (e c r)) ∧
      (Returns (Lin.exp ex A) n m (fun r c => ex (e r c)) ↔
        n = m ∧ ∀ r c, r < n → c < m → ex (e r c) = ex (e c r)) := by
  have h1 : Returns (Lin.exp ex A) m n (fun r c => ex (e c r)) := Returns.of_eq h.fits.swap (exp_eq h)
  refine ⟨h1, fun h2 => ?_, ?_⟩
  · obtain ⟨B, e1, b1⟩ := h1
    obtain ⟨C, e2, b2⟩ := h2
    obtain rfl : B = C := by rw [e1] at e2; injection e2
    have hnm : n = m := b2.rep.rows.symm.trans b1.rep.rows
    subst hnm
    refine ⟨rfl, fun r c hr hc => ?_⟩
    have := (b2.rep.get r c hr hc).symm.trans (b1.rep.get r c hr hc)
    injection this
  · rintro ⟨rfl, h3⟩
    exact h1.congr fun r c hr hc => (h3 r c hr hc).symm

/-- C54 is false: on a 1×2 matrix the result is 2×1. -/
theorem C54_exp_false : ∃ (ex : Int → Int) (A B : Mat Int), A.WF ∧ Lin.exp ex A.toMB = .ok B ∧ A.rows = 1 ∧
    B.rows = 2 ∧ B.cols = 1 :=
  ⟨fun x => x * x, ⟨1, 2, [3, 5]⟩, ⟨2, 1, [9, 25]⟩, by decide +kernel, by decide +kernel, rfl, rfl, rfl⟩

example : Lin.exp (fun x : Int => x + 1) (⟨2, 2, [1, 2, 2, 3]⟩ : Mat Int).toMB = .ok ⟨2, 2, [2, 3, 3, 4]⟩ := by
  decide +kernel

/-! ## C56 -/

/-- C56: the factorial of every non-negative integer. -/
theorem C56_factorial (n : Nat) : Lin.factorial (n : Int) = (n.factorial : Int) := factorial_nat n

/-- C56: one for negative arguments. -/
theorem C56_negative {n : Int} (h : n < 0) : Lin.factorial n = 1 := by
  rw [Lin.factorial, if_pos (by omega)]

/-- C56: the unsigned 64-bit version wraps; it is exact up to 20. -/
theorem C56_unsigned (n : Nat) : factorialU n = n.factorial % W := by
  rw [← factorialU_eq n]
  refine (Nat.mod_eq_of_lt ?_).symm
  cases n with
  | zero => exact one_lt_W
  | succ n => exact Nat.mod_lt _ W_pos

/-- C56: the values up to `20!` fit, and `21!` does not. -/
theorem C56_exact (n : Nat) : factorialU n = n.factorial ↔ n ≤ 20 := by
  rw [C56_unsigned]
  constructor
  · intro h
    by_contra hn
    have h1 : n.factorial < W := by rw [← h]; exact Nat.mod_lt _ W_pos
    have h2 : (21).factorial ≤ n.factorial := Nat.factorial_le (by omega)
    have h3 : W ≤ (21).factorial := by rw [W_eq]; decide +kernel
    omega
  · intro h
    apply Nat.mod_eq_of_lt
    have h2 : n.factorial ≤ (20).factorial := Nat.factorial_le h
    have h3 : (20).factorial < W := by rw [W_eq]; decide +kernel
    omega

example : Lin.factorial 5 = 120 ∧ Lin.factorial (-3) = 1 := by
  constructor
  · exact C56_factorial 5
  · exact C56_negative (by decide)
example : factorialU 21 = 14197454024290336768 := by decide +kernel

end Malg
