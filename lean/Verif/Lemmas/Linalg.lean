import Verif.Lemmas.MathOps
import Verif.Lemmas.View
import Verif.Model.Linalg
import Verif.Model.Field
/-!
# `linalg.hpp`: simple functions as table equations
-/
namespace Malg
variable {T : Type}

theorem ofFn_repAt {n m : Nat} (hf : Fits n m) (e : Nat → Nat → T) : Rep (Mat.ofFn n m e).toMB n m e := ofFn_rep hf e

theorem Fits.swap {n m : Nat} (h : Fits n m) : Fits m n := ⟨Nat.mul_comm n m ▸ h.1, h.2.2, h.2.1⟩

/-- Fill of the transposed position. -/
theorem fill_transposed {n m : Nat} (hf : Fits m n) {A : Mat T} {e f0 : Nat → Nat → T} (hA : A = Mat.ofFn m n f0)
    {g : Nat → Nat → Res T} (hg : ∀ r c, r < n → c < m → g r c = .ok (e r c)) :
    forRange 0 n A (fun r A => forRange 0 m A (fun c A => g r c >>= fun x => A.setAt c r x))
      = .ok (Mat.ofFn m n fun i j => e j i) := by
  rw [fillRect (Nat.zero_le n) (Nat.zero_le m) (fun f => Mat.ofFn m n fun i j => f j i)
    (e := e) (f0 := fun i j => f0 j i) hA]
  · congr 1; apply ofFn_congr; intro i j hi hj; exact if_pos (by omega)
  · intro r c f _ hr _ hc _ _
    rw [hg r c hr hc, Res.ok_bind, ofFn_setAt hf hc hr]
    congr 1; apply ofFn_congr; intro i j _ _
    simp only [upd]; apply if_congr (by omega) rfl rfl

namespace Lin
open Ops

theorem transpose_eq [Zero T] {A : MB T} {n m : Nat} {e} (h : RepAt A n m e) :
    transpose A = .ok (Mat.ofFn m n fun i j => e j i) := by
  unfold transpose
  rw [h.rows, h.cols, Mat.new_eq h.fits.swap, Res.ok_bind]
  exact fill_transposed h.fits.swap rfl h.get

theorem conjTranspose_eq [Zero T] {conj : T → T} {A : MB T} {n m : Nat} {e} (h : RepAt A n m e) :
    conjTranspose conj A = .ok (Mat.ofFn m n fun i j => conj (e j i)) := by
  unfold conjTranspose
  rw [h.rows, h.cols, Mat.new_eq h.fits.swap, Res.ok_bind]
  have := fill_transposed h.fits.swap (A := Mat.ofFn m n fun _ _ => (0 : T)) rfl (e := fun r c => conj (e r c))
    (g := fun r c => A.at_ r c >>= fun x => .ok (conj x)) (fun r c hr hc => by rw [h.get r c hr hc]; rfl)
  simpa only [bind_assoc, Res.ok_bind] using this

theorem exp_eq [Zero T] {ex : T → T} {A : MB T} {n m : Nat} {e} (h : RepAt A n m e) :
    exp ex A = .ok (Mat.ofFn m n fun i j => ex (e j i)) := conjTranspose_eq (conj := ex) h

/-- `A *= B` on a local variable, `B` square. -/
theorem mulAssign_self [Zero T] [Add T] [Mul T] {B : MB T} {n k : Nat} {e f} (hf : Fits n k) (hB : RepAt B k k f) :
    mulAssign MRef.self (fun _ => B) (Mat.ofFn n k e) =
      .ok (Mat.ofFn n k fun r c => lsum k (fun i => e r i * f i c)) := by
  have hA := ofFn_rep hf e
  unfold mulAssign
  show (if (Mat.ofFn n k e).toMB.cols ≠ B.rows then _ else _) = _
  rw [if_neg (by rw [hA.cols, hB.rows]; simp)]
  dsimp only [MRef.self]
  rw [hA.rows, hA.cols, hB.cols, hB.rows, hA.size, Mat.new_eq hf, Res.ok_bind, mul_loop hA.toRepAt hB hf (Nat.le_refl k),
    Res.ok_bind]
  refine fill_lin rfl (fun i f' hi _ _ => ?_)
  rw [ofFn_lin hi, Res.ok_bind, ofFn_setLin hi]
  congr 2; funext r c; simp only [upd]
  by_cases h : r = i / k ∧ c = i % k
  · rw [if_pos h, if_pos h, if_pos (lin_of_lt hi).2.1]
  · rw [if_neg h, if_neg h]

/-- `A += B` on a local variable. -/
theorem addAssign_self [Add T] {B : MB T} {n m : Nat} {e f} (hB : Rep B n m f) :
    addAssign MRef.self (fun _ => B) (Mat.ofFn n m e) = .ok (Mat.ofFn n m fun r c => e r c + f r c) := by
  have hA := ofFn_rep hB.fits e
  unfold addAssign
  show (if (Mat.ofFn n m e).toMB.rows ≠ B.rows then _ else _) = _
  rw [if_neg (by rw [hA.rows, hB.rows]; simp)]
  show (if (Mat.ofFn n m e).toMB.cols ≠ B.cols then _ else _) = _
  rw [if_neg (by rw [hA.cols, hB.cols]; simp)]
  dsimp only [MRef.self]
  rw [hA.size]
  refine fill_lin rfl (fun i f' hi _ h2 => ?_)
  show ((Mat.ofFn n m f').lin i >>= _) = _
  rw [ofFn_lin hi, Res.ok_bind, hB.lin' hi, Res.ok_bind, ofFn_setLin hi,
    h2 (i / m) (i % m) (lin_of_lt hi).2.1 (by rw [(lin_of_lt hi).2.2])]

/-- Exchange of two rows of a local variable. -/
theorem swapRows_self {n m : Nat} (hf : Fits n m) {e : Nat → Nat → T} {i j : Nat} (hi : i < n) (hj : j < n) :
    Util.swapRows MRef.self (Mat.ofFn n m e) i j 0 (W - 1) =
      .ok (Mat.ofFn n m fun r c => e (if r = i then j else if r = j then i else r) c) := by
  unfold Util.swapRows
  have hmin : min (W - 1) (MRef.self.view (Mat.ofFn n m e)).cols = m := by
    show min (W - 1) m = m
    have := hf.2.2; omega
  rw [hmin]
  rw [forRange_eq (Nat.zero_le m) (fun c => Mat.ofFn n m (Util.swapR e i j 0 c))]
  · congr 1; apply ofFn_congr; intro r c _ hc
    simp only [Util.swapR]; rw [if_pos ⟨Nat.zero_le c, hc⟩]
  · apply ofFn_congr; intro r c _ hc; simp [Util.swapR]
  · intro c _ hc
    have := Util.swapMat_eq hf (F := Util.swapR e i j 0 c) hi hc hj hc
    rw [Util.swapR_step _ (Nat.zero_le c)] at this
    exact this

/-- The part of the output written before row `row` of the source is processed. -/
def cofPart [Zero T] (e : Nat → Nat → T) (p q I J : Nat) : Nat → Nat → T := fun i j =>
  if i < I ∨ (i = I ∧ j < J) then e (skip p i) (skip q j) else 0

theorem cofactor_eq [Zero T] {A : MB T} {n m : Nat} {e} (h : RepAt A n m e) {p q : Nat} (hp : p < n) (hq : q < m) :
    cofactor A p q = .ok (Mat.ofFn (n - 1) (m - 1) fun r c => e (skip p r) (skip q c)) := by
  have hf : Fits (n - 1) (m - 1) := h.fits.mono (by omega) (by omega)
  unfold cofactor
  rw [h.rows, h.cols, wsub_eq (by omega) h.fits.2.1, wsub_eq (by omega) h.fits.2.2, Mat.new_eq hf, Res.ok_bind]
  by_cases hm : m = 1
  · subst hm
    rw [forRange_eq (Nat.zero_le n) (fun _ => (Mat.ofFn (n - 1) (1 - 1) (fun _ _ => (0 : T)), 0, 0)) rfl]
    · rw [Res.ok_bind]; rfl
    · intro i _ _
      rw [forRange_lt (by omega), if_neg (by omega), Res.ok_bind, forRange_self]
  let I : Nat → Nat := fun row => if p < row then row - 1 else row
  let J : Nat → Nat := fun col => if q < col then col - 1 else col
  rw [forRange_eq (Nat.zero_le n) (fun row => (Mat.ofFn (n - 1) (m - 1) (cofPart e p q (I row) 0), I row, 0))]
  · rw [Res.ok_bind]; congr 1; apply ofFn_congr; intro r c hr _
    have : I n = n - 1 := by simp only [I]; rw [if_pos hp]
    simp only [cofPart, this]; rw [if_pos (by omega)]
  · have h0 : I 0 = 0 := by simp [I]
    have h1 : cofPart e p q (I 0) 0 = fun _ _ => 0 := by funext i j; simp [cofPart, h0]
    rw [h1, h0]
  · intro row _ hrow
    by_cases hrp : row = p
    · rw [forRange_eq (Nat.zero_le m) (fun _ => _) rfl]
      · have h1 : I (row + 1) = I row := by simp only [I]; subst hrp; simp
        rw [h1]
      · intro c _ _; rw [if_neg (by omega)]
    · have hIs : I (row + 1) = I row + 1 := by
        simp only [I]; split <;> split <;> omega
      have hIlt : I row < n - 1 := by simp only [I]; split <;> omega
      have hIe : skip p (I row) = row := by
        simp only [I, skip]; split <;> split <;> omega
      have hnext : ∀ j, j = m - 1 → Mat.ofFn (n - 1) (m - 1) (cofPart e p q (I row) j) =
          Mat.ofFn (n - 1) (m - 1) (cofPart e p q (I row + 1) 0) := by
        intro j hj; apply ofFn_congr; intro r c _ hc; simp only [cofPart]; apply if_congr (by omega) rfl rfl
      rw [forRange_eq (Nat.zero_le m) (fun col =>
        if J col = m - 1 then (Mat.ofFn (n - 1) (m - 1) (cofPart e p q (I row + 1) 0), I row + 1, 0)
        else (Mat.ofFn (n - 1) (m - 1) (cofPart e p q (I row) (J col)), I row, J col))]
      · rw [if_pos (by simp only [J]; rw [if_pos hq]), hIs]
      · rw [if_neg (by simp only [J]; split <;> omega)]; simp [J]
      · intro col _ hcol
        by_cases hcq : col = q
        · have hJ : J (col + 1) = J col := by simp only [J]; subst hcq; simp
          rw [if_neg (by omega), hJ]
        · rw [if_pos ⟨hrp, hcq⟩]
          have hJlt : J col < m - 1 := by simp only [J]; split <;> omega
          have hJs : J (col + 1) = J col + 1 := by simp only [J]; split <;> split <;> omega
          have hJe : skip q (J col) = col := by simp only [J, skip]; split <;> split <;> omega
          rw [if_neg (by omega : ¬ J col = m - 1), h.get row col hrow hcol, Res.ok_bind]
          dsimp only
          rw [ofFn_setAt hf hIlt hJlt, Res.ok_bind]
          have hup : upd (cofPart e p q (I row) (J col)) (I row) (J col) (e row col) = cofPart e p q (I row) (J col + 1) := by
            funext r c; simp only [upd, cofPart]
            by_cases hx : r = I row ∧ c = J col
            · rw [if_pos hx, if_pos (by omega), hx.1, hx.2, hIe, hJe]
            · rw [if_neg hx]; apply if_congr (by omega) rfl rfl
          rw [hup, hJs]
          by_cases hl : J col + 1 = m - 1
          · rw [if_pos hl, if_pos hl, hnext _ hl]; rfl
          · rw [if_neg hl, if_neg hl]; rfl

theorem factorial_nat (n : Nat) : factorial (n : Int) = (n.factorial : Int) := by
  induction n with
  | zero => rw [factorial]; simp
  | succ n ih =>
    rw [factorial, if_neg (by omega)]
    rw [show ((n + 1 : Nat) : Int) - 1 = (n : Int) by omega, ih, Nat.factorial_succ]; push_cast; rfl

theorem factorialU_eq (n : Nat) : factorialU n % W = n.factorial % W := by
  induction n with
  | zero => rfl
  | succ n ih =>
    rw [factorialU, Nat.factorial_succ]
    show ((n + 1) * factorialU n) % W % W = _
    rw [Nat.mod_mod, Nat.mul_mod, ih, ← Nat.mul_mod]

end Lin
end Malg
