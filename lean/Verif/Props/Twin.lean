import Verif.Props.Zeros
import Verif.Props.IeeeInv
/-!
# Property C147: are equal rows or columns noticed?
-/
namespace Malg
open Ops Lin Feq

section
variable {K : Type} [Field K] [LinearOrder K] [IsStrictOrderedRing K] [FloorRing K] {p : ℕ} {emin : ℤ} {emax : ℕ}

namespace Twin
theorem comm (x y : Fl K p emin) : x * y = y * x := (C81_float x y).2
theorem self (x : Fl K p emin) : (x - x).val = 0 := by
  show rnd p emin (x.val - x.val) = 0
  rw [sub_self, rnd_zero']
theorem mulZ {x : Fl K p emin} (y : Fl K p emin) (h : x.val = 0) : (y * x).val = 0 := by
  show rnd p emin (y.val * x.val) = 0
  rw [h, mul_zero, rnd_zero']
theorem addZ {x y : Fl K p emin} (h : x.val = 0) (h' : y.val = 0) : (x + y).val = 0 := by
  show rnd p emin (x.val + y.val) = 0
  rw [h, h', add_zero, rnd_zero']
variable (hp : 1 ≤ p)
include hp
theorem plusMinus {s : Fl K p emin} (x : Fl K p emin) (h : s.val = 0) : (s + x - x).val = 0 := by
  show rnd p emin (rnd p emin (s.val + x.val) - x.val) = 0
  rw [h, zero_add, rnd_exact hp x.isFl, sub_self, rnd_zero']
theorem minusPlus {s : Fl K p emin} (x : Fl K p emin) (h : s.val = 0) : (s - x + x).val = 0 := by
  show rnd p emin (rnd p emin (s.val - x.val) + x.val) = 0
  rw [h, zero_sub, rnd_neg, rnd_exact hp x.isFl, neg_add_cancel, rnd_zero']
/-- `a (x - y) - 0 + a (y - x)`. -/
theorem turned {z : Fl K p emin} (a x y : Fl K p emin) (h : z.val = 0) : (a * (x - y) - z + a * (y - x)).val = 0 := by
  show rnd p emin (rnd p emin (rnd p emin (a.val * rnd p emin (x.val - y.val)) - z.val) + rnd p emin (a.val * rnd p emin (y.val - x.val))) = 0
  rw [h, sub_zero, rnd_exact hp (rnd_isFl p emin _), ← neg_sub x.val y.val, rnd_neg, mul_neg, rnd_neg, add_neg_cancel, rnd_zero']
end Twin
open Twin

/-- C147: two equal columns make the determinant of a matrix up to 3×3 zero, however the arithmetic rounds. -/
theorem columns_zero (hp : 1 ≤ p) {e : Nat → Nat → Fl K p emin} {N : Nat} (hN : N ≤ 3) {i j : Nat} (hij : i < j) (hj : j < N)
    (h : ∀ r, r < N → e r i = e r j) : (closedDet e N).val = 0 := by
  obtain rfl | rfl : N = 2 ∨ N = 3 := by omega
  · obtain ⟨rfl, rfl⟩ : i = 0 ∧ j = 1 := by omega
    show (e 0 0 * e 1 1 - e 0 1 * e 1 0).val = 0
    rw [h 0 (by omega), h 1 (by omega)]
    exact self _
  · have h0 := h 0 (by omega)
    have h1 := h 1 (by omega)
    have h2 := h 2 (by omega)
    show (e 0 0 * (e 1 1 * e 2 2 - e 2 1 * e 1 2) - e 0 1 * (e 1 0 * e 2 2 - e 1 2 * e 2 0) + e 0 2 * (e 1 0 * e 2 1 - e 1 1 * e 2 0)).val = 0
    obtain ⟨rfl, rfl⟩ | ⟨rfl, rfl⟩ | ⟨rfl, rfl⟩ : (i = 0 ∧ j = 1) ∨ (i = 0 ∧ j = 2) ∨ (i = 1 ∧ j = 2) := by omega
    · rw [h0, h1, h2, comm (e 2 1) (e 1 2)]
      exact addZ (self _) (mulZ _ (self _))
    · rw [h0, h1, h2, comm (e 2 1) (e 1 2)]
      exact turned hp _ _ _ (mulZ _ (self _))
    · rw [h0, h1, h2, comm (e 1 2) (e 2 2), comm (e 1 2) (e 2 0)]
      exact minusPlus hp _ (mulZ _ (self _))

/-- The pairs of equal rows that are noticed. -/
def SeenRows (n i j : Nat) : Prop := (n = 2 ∧ i = 0 ∧ j = 1) ∨ (n = 3 ∧ i = 1 ∧ j = 2) ∨ (n = 4 ∧ i = 0 ∧ j = 1)

theorem rows_zero (hp : 1 ≤ p) {e : Nat → Nat → Fl K p emin} {N i j : Nat} (hs : SeenRows N i j) (h : ∀ c, c < N → e i c = e j c) : (closedDet e N).val = 0 := by
  obtain ⟨rfl, rfl, rfl⟩ | ⟨rfl, rfl, rfl⟩ | ⟨rfl, rfl, rfl⟩ := hs
  · show (e 0 0 * e 1 1 - e 0 1 * e 1 0).val = 0
    rw [h 0 (by omega), h 1 (by omega), comm (e 1 0) (e 1 1)]
    exact self _
  · show (e 0 0 * (e 1 1 * e 2 2 - e 2 1 * e 1 2) - e 0 1 * (e 1 0 * e 2 2 - e 1 2 * e 2 0) + e 0 2 * (e 1 0 * e 2 1 - e 1 1 * e 2 0)).val = 0
    rw [h 0 (by omega), h 1 (by omega), h 2 (by omega), comm (e 2 2) (e 2 0), comm (e 2 1) (e 2 0)]
    have hz : ∀ {x y : Fl K p emin}, x.val = 0 → y.val = 0 → (x - y).val = 0 := fun {x y} h h' => by
      show rnd p emin (x.val - y.val) = 0
      rw [h, h', sub_zero, rnd_zero']
    exact addZ (hz (mulZ _ (self _)) (mulZ _ (self _))) (mulZ _ (self _))
  · have h0 := h 0 (by omega)
    have h1 := h 1 (by omega)
    have h2 := h 2 (by omega)
    have h3 := h 3 (by omega)
    unfold closedDet
    rw [h0, h1, h2, h3, comm (e 1 3) (e 1 2), comm (e 1 3) (e 1 1), comm (e 1 3) (e 1 0), comm (e 1 2) (e 1 1), comm (e 1 2) (e 1 0), comm (e 1 1) (e 1 0)]
    refine minusPlus hp _ (plusMinus hp _ (minusPlus hp _ (plusMinus hp _ (minusPlus hp _ (plusMinus hp _ (minusPlus hp _ (plusMinus hp _
      (minusPlus hp _ (plusMinus hp _ (minusPlus hp _ (self _)))))))))))

theorem inverse_seen {T : Type} [Zero T] [One T] [Add T] [Sub T] [Mul T] [Neg T] [CDiv T] {isz : T → Bool} {A : MB T} {n : Nat} {e : Nat → Nat → T} (hA : Rep A n n e) {d : T}
    (h : determinant isz A = .ok d) (hd : isz d = true) : inverse isz A = .ok Mat.empty0 := by
  unfold inverse
  rw [isSquare_eq hA.toRepAt, hA.rows, beq_self_eq_true, Bool.not_true, if_neg Bool.false_ne_true, h, Res.ok_bind, if_pos hd]; rfl

/-- Equal columns up to 3×3, or one of the pairs of equal rows. -/
def SeenTwins {T : Type} {n : Nat} (M : Matrix (Fin n) (Fin n) T) : Prop :=
  (n ≤ 3 ∧ ∃ i j, i ≠ j ∧ ∀ r, M r i = M r j) ∨ ∃ i j : Fin n, SeenRows n i j ∧ ∀ c, M i c = M j c

theorem SeenTwins.zero (hp : 1 ≤ p) {n : Nat} {e : Nat → Nat → Fl K p emin} (h : SeenTwins (toM n n e)) : n ≤ 4 ∧ (closedDet e n).val = 0 := by
  rcases h with ⟨hn, i, j, hij, h⟩ | ⟨i, j, hs, h⟩
  · refine ⟨by omega, ?_⟩
    rcases lt_or_gt_of_ne hij with hl | hl
    · exact columns_zero hp hn hl j.2 fun r hr => h ⟨r, hr⟩
    · exact columns_zero hp hn hl i.2 fun r hr => (h ⟨r, hr⟩).symm
  · exact ⟨by rcases hs with h | h | h <;> omega, rows_zero hp hs fun c hc => h ⟨c, hc⟩⟩

/-- C147: equal columns of matrices up to 3×3, and the pairs of equal rows in `SeenRows`, make the determinant exactly zero, however the arithmetic rounds, and
`inverse` returns the empty matrix that stands for a singular one. -/
theorem C147_seen_partial (hp : 1 ≤ p) {isz : Fl K p emin → Bool} (hz : ∀ x, x.val = 0 → isz x = true) {A : MB (Fl K p emin)} {n : Nat}
    {M : Matrix (Fin n) (Fin n) (Fl K p emin)} (hA : A.Is M) (h : SeenTwins M) :
    (∃ d, determinant isz A = .ok d ∧ d.val = 0) ∧ inverse isz A = .ok Mat.empty0 := by
  obtain ⟨e, hA, rfl⟩ := hA
  obtain ⟨hn, h0⟩ := h.zero hp
  have hd := determinant_closed isz hA hn
  exact ⟨⟨_, hd, h0⟩, inverse_seen hA hd (hz _ h0)⟩

/-- C147: the same for IEEE numbers, unless something overflows. -/
theorem C147_ieee_partial (hp : 1 ≤ p) (he : emin ≤ 0) (hx : 1 ≤ emax) {t : Ieee K p emin emax} (ht : Ieee.Tol t) {A : MB (Ieee K p emin emax)} {n : Nat}
    {M : Matrix (Fin n) (Fin n) (Ieee K p emin emax)} (hA : A.Is M) (h : SeenTwins M) :
    ∃ d, determinant (approxZero Ieee.abs t) A = .ok d ∧ (d.Finite → d.val = 0 ∧ inverse (approxZero Ieee.abs t) A = .ok Mat.empty0) := by
  obtain ⟨e, hA, rfl⟩ := hA
  have h' : SeenTwins (toM n n fun i j => (e i j).flD) := by
    rcases h with ⟨hn, i, j, hij, h⟩ | ⟨i, j, hs, h⟩
    · exact .inl ⟨hn, i, j, hij, fun r => congrArg Ieee.flD (h r)⟩
    · exact .inr ⟨i, j, hs, fun c => congrArg Ieee.flD (h c)⟩
  obtain ⟨hn, h0⟩ := h'.zero hp
  have hd := determinant_closed (approxZero Ieee.abs t) hA hn
  refine ⟨_, hd, fun hf => ?_⟩
  have hv : (closedDet e n).val = 0 := by
    have := hf.eq ((Ieee.reads hp he hx).rd_closedDet (z := fun i j => (e i j).flD) (fun i j c hc => by unfold Ieee.flD; rw [hc]; rfl) n)
    unfold Ieee.val
    rw [this, h0]
  exact ⟨hv, inverse_seen hA hd ((Ieee.approxZero_iff hp ht _).2 (.inl ⟨hf, hv⟩))⟩
end

/-! ## The other pairs -/

/-- The matrix with the entries `l` divided by ten, row by row. -/
def tenths (n : Nat) (l : List ℚ) : Mat IDouble := ⟨n, n, l.map fun x => dbl (x / 10)⟩

/-- Matrices with equal rows `i` and `j`. -/
def twinRows : Nat → Nat → Nat → List ℚ
  | 3, 0, 1 => [1, 3, 1, 1, 3, 1, 2, 2, 3]
  | 3, 0, 2 => [3, 2, 2, 3, 1, 3, 3, 2, 2]
  | 4, 0, 2 => [3, 3, 3, 1, 1, 2, 2, 2, 3, 3, 3, 1, 1, 2, 2, 1]
  | 4, 0, 3 => [1, 3, 2, 1, 1, 1, 3, 1, 2, 1, 1, 1, 1, 3, 2, 1]
  | 4, 1, 2 => [1, 2, 3, 1, 2, 3, 1, 1, 2, 3, 1, 1, 2, 3, 1, 1]
  | 4, 1, 3 => [1, 2, 3, 1, 3, 1, 3, 3, 3, 2, 2, 2, 3, 1, 3, 3]
  | 4, 2, 3 => [1, 1, 3, 3, 3, 3, 1, 1, 2, 1, 3, 2, 2, 1, 3, 2]
  | _, _, _ => []

/-- Matrices with equal columns `i` and `j`. -/
def twinColumns : Nat → Nat → List ℚ
  | 0, 1 => [3, 3, 3, 1, 1, 1, 2, 1, 1, 1, 3, 2, 2, 2, 3, 3]
  | 0, 2 => [2, 3, 2, 3, 1, 1, 1, 2, 2, 3, 2, 1, 3, 3, 3, 2]
  | 0, 3 => [1, 3, 2, 1, 2, 3, 2, 2, 3, 1, 2, 3, 1, 3, 3, 1]
  | 1, 2 => [1, 3, 3, 3, 3, 3, 3, 1, 1, 2, 2, 2, 1, 1, 1, 3]
  | 1, 3 => [2, 1, 3, 1, 3, 1, 1, 1, 3, 3, 2, 3, 2, 3, 3, 3]
  | 2, 3 => [2, 2, 3, 3, 3, 1, 2, 2, 1, 1, 3, 3, 1, 2, 1, 1]
  | _, _ => []

/-- `A` has a determinant other than zero and `inverse` returns a matrix with rows. -/
def unseen (A : Mat IDouble) : Bool :=
  match determinant dIsZero A.toMB, inverse dIsZero A.toMB with
  | .ok d, .ok V => decide (d.Finite ∧ d.val ≠ 0 ∧ V.rows = A.rows)
  | _, _ => false

theorem unseen_iff {A : Mat IDouble} : unseen A = true ↔
    ∃ d V, determinant dIsZero A.toMB = .ok d ∧ inverse dIsZero A.toMB = .ok V ∧ d.Finite ∧ d.val ≠ 0 ∧ V.rows = A.rows := by
  unfold unseen
  constructor
  · intro h
    split at h
    · rename_i d V h1 h2
      exact ⟨d, V, h1, h2, of_decide_eq_true h⟩
    · cases h
  · rintro ⟨d, V, h1, h2, h⟩
    rw [h1, h2]
    exact decide_eq_true h

set_option maxRecDepth 100000 in
/-- C147 does not hold for the other pairs of rows: the determinants of these matrices of tenths are not zero and `inverse` returns a matrix. -/
theorem C147_rows_false {n i j : Nat} (hn : n ≤ 4) (hij : i < j) (hj : j < n) (hs : ¬ SeenRows n i j) :
    ∃ A : Mat IDouble, A.WF ∧ A.rows = n ∧ A.cols = n ∧ (∀ c, c < n → A.at_ i c = A.at_ j c) ∧
      ∃ d V, determinant dIsZero A.toMB = .ok d ∧ inverse dIsZero A.toMB = .ok V ∧ d.Finite ∧ d.val ≠ 0 ∧ V.rows = n := by
  have k3 : ∀ j, j < 3 → ∀ i, i < j → (i = 1 ∧ j = 2) ∨ ((tenths 3 (twinRows 3 i j)).data.length = 3 * 3 ∧
      (∀ c, c < 3 → (tenths 3 (twinRows 3 i j)).at_ i c = (tenths 3 (twinRows 3 i j)).at_ j c) ∧ unseen (tenths 3 (twinRows 3 i j)) = true) := by
    decide +kernel
  have k4 : ∀ j, j < 4 → ∀ i, i < j → (i = 0 ∧ j = 1) ∨ ((tenths 4 (twinRows 4 i j)).data.length = 4 * 4 ∧
      (∀ c, c < 4 → (tenths 4 (twinRows 4 i j)).at_ i c = (tenths 4 (twinRows 4 i j)).at_ j c) ∧ unseen (tenths 4 (twinRows 4 i j)) = true) := by
    decide +kernel
  obtain rfl | rfl : n = 3 ∨ n = 4 := by unfold SeenRows at hs; omega
  · obtain ⟨h1, h2, h3⟩ := (k3 j hj i hij).resolve_left fun h => hs (.inr (.inl ⟨rfl, h⟩))
    exact ⟨_, ⟨h1, show Fits 3 3 from fits_small (by decide) (by decide)⟩, rfl, rfl, h2, unseen_iff.1 h3⟩
  · obtain ⟨h1, h2, h3⟩ := (k4 j hj i hij).resolve_left fun h => hs (.inr (.inr ⟨rfl, h⟩))
    exact ⟨_, ⟨h1, show Fits 4 4 from fits_small (by decide) (by decide)⟩, rfl, rfl, h2, unseen_iff.1 h3⟩

set_option maxRecDepth 100000 in
/-- C147 does not hold for any pair of columns of matrices with four rows. -/
theorem C147_columns_false {i j : Nat} (hij : i < j) (hj : j < 4) :
    ∃ A : Mat IDouble, A.WF ∧ A.rows = 4 ∧ A.cols = 4 ∧ (∀ r, r < 4 → A.at_ r i = A.at_ r j) ∧
      ∃ d V, determinant dIsZero A.toMB = .ok d ∧ inverse dIsZero A.toMB = .ok V ∧ d.Finite ∧ d.val ≠ 0 ∧ V.rows = 4 := by
  have key : ∀ j, j < 4 → ∀ i, i < j →
      (tenths 4 (twinColumns i j)).data.length = 4 * 4 ∧ (∀ r, r < 4 → (tenths 4 (twinColumns i j)).at_ r i = (tenths 4 (twinColumns i j)).at_ r j) ∧
        unseen (tenths 4 (twinColumns i j)) = true := by decide +kernel
  obtain ⟨h1, h2, h3⟩ := key j hj i hij
  exact ⟨_, ⟨h1, show Fits 4 4 from fits_small (by decide) (by decide)⟩, rfl, rfl, h2, unseen_iff.1 h3⟩

set_option maxRecDepth 100000 in
/-- C147 needs products that do not overflow: with `2^600` in all places the determinant is NaN, and `inverse` returns NaNs. -/
theorem C147_overflow_false : determinant dIsZero (⟨2, 2, List.replicate 4 (dbl (2 ^ 600))⟩ : Mat IDouble).toMB = .ok .nan ∧
    inverse dIsZero (⟨2, 2, List.replicate 4 (dbl (2 ^ 600))⟩ : Mat IDouble).toMB = .ok ⟨2, 2, List.replicate 4 .nan⟩ := by
  decide +kernel

set_option maxRecDepth 100000 in
/-- What `inverse` returns for the rows `0.1 0.3 0.1`, `0.1 0.3 0.1` and `0.2 0.2 0.3`: the first element is about `4 * 10^16`. -/
example : (match inverse dIsZero (tenths 3 [1, 3, 1, 1, 3, 1, 2, 2, 3]).toMB with
    | .ok V => (match V.at_ 0 0 with | .ok x => decide (4 * 10 ^ 16 < x.val ∧ x.val < 5 * 10 ^ 16) | _ => false)
    | _ => false) = true := by
  decide +kernel

set_option maxRecDepth 100000 in
/-- Equal columns: noticed. -/
example : inverse dIsZero (tenths 3 [1, 7, 1, 2, 3, 2, 9, 4, 9]).toMB = .ok Mat.empty0 ∧
    inverse dIsZero (tenths 4 [1, 7, 3, 2, 1, 7, 3, 2, 5, 3, 9, 8, 6, 1, 3, 3]).toMB = .ok Mat.empty0 := by
  decide +kernel
end Malg
