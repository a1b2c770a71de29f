import Verif.Lemmas.Reads
import Verif.Model.SInt
import Verif.Props.Linalg
import Mathlib.Data.ZMod.Basic
/-!
# Property C94: integer elements and overflow
-/
namespace Malg
open Ops Lin

namespace SInt
variable {w : ℕ}

/-- The value; zero if there is none. -/
def toInt (a : SInt w) : ℤ := a.get.getD 0

/-- No overflow has happened. -/
def Defined (a : SInt w) : Prop := a.get.isSome

instance (a : SInt w) : Decidable a.Defined := inferInstanceAs (Decidable (_ = true))

theorem get_of {x : ℤ} (h : InRange w x) : (of x : SInt w).get = some x := by unfold of; rw [dif_pos h]; rfl
theorem get_of_some {x c : ℤ} (h : (of x : SInt w).get = some c) : InRange w x ∧ c = x := by
  unfold of at h
  split at h
  · next hr => injection h with h; exact ⟨hr, h.symm⟩
  · cases h
theorem inRange_zero : InRange w 0 := by
  have : (0 : ℤ) < 2 ^ (w - 1) := pow_pos two_pos _
  exact ⟨by omega, this⟩
theorem inRange_one (hw : 2 ≤ w) : InRange w 1 := by
  have : (2 : ℤ) ^ 1 ≤ 2 ^ (w - 1) := pow_le_pow_right₀ one_le_two (by omega)
  exact ⟨by omega, by omega⟩
theorem inRange_of_abs {x : ℤ} (h : |x| < 2 ^ (w - 1)) : InRange w x := by
  obtain ⟨h1, h2⟩ := abs_lt.1 h
  exact ⟨h1.le, h2⟩

theorem get_lift_some {f : ℤ → ℤ → ℤ} {a b : SInt w} {c : ℤ} (h : (lift f a b).get = some c) :
    ∃ x y, a.get = some x ∧ b.get = some y ∧ c = f x y ∧ InRange w (f x y) := by
  match a, b with
  | val x hx, val y hy => obtain ⟨h1, h2⟩ := get_of_some h; exact ⟨x, y, rfl, rfl, h2, h1⟩
  | val x hx, over => cases h
  | over, val y hy => cases h
  | over, over => cases h
theorem get_lift {f : ℤ → ℤ → ℤ} {a b : SInt w} {x y : ℤ} (ha : a.get = some x) (hb : b.get = some y) (h : InRange w (f x y)) :
    (lift f a b).get = some (f x y) := by
  match a, b with
  | val x' hx, val y' hy =>
    injection ha with ha; injection hb with hb
    subst ha hb
    exact get_of h
  | val x hx, over => cases hb
  | over, _ => cases ha

theorem reads (hw : 2 ≤ w) : Reads (get (w := w)) where
  zero := get_of inRange_zero
  one := get_of (inRange_one hw)
  add h := by obtain ⟨x, y, h1, h2, h3, -⟩ := get_lift_some h; exact ⟨x, y, h1, h2, h3⟩
  sub h := by obtain ⟨x, y, h1, h2, h3, -⟩ := get_lift_some h; exact ⟨x, y, h1, h2, h3⟩
  mul h := by obtain ⟨x, y, h1, h2, h3, -⟩ := get_lift_some h; exact ⟨x, y, h1, h2, h3⟩

theorem Defined.eq {a : SInt w} {y : ℤ} (h : a.Defined) (hr : Rd get a y) : a.get = some y := by
  obtain ⟨c, hc⟩ := Option.isSome_iff_exists.1 h
  rw [hc, hr c hc]
theorem Defined.toInt_eq {a : SInt w} {y : ℤ} (h : a.Defined) (hr : Rd get a y) : a.toInt = y := by
  unfold toInt; rw [h.eq hr]; rfl
theorem Defined.get_eq {a : SInt w} (h : a.Defined) : a.get = some a.toInt := h.eq (Reads.rd_get _ a)
theorem Defined.inRange {a : SInt w} (h : a.Defined) : InRange w a.toInt := by
  match a with
  | val x hx => exact hx
  | over => cases h

/-- Sums of integers from left to right: defined exactly when the terms and all partial sums are in range. -/
theorem lsum_defined {t : Nat → SInt w} {k : Nat} :
    (lsum k t).Defined ↔ (∀ i, i < k → (t i).Defined) ∧ ∀ m, m ≤ k → InRange w (∑ i ∈ Finset.range m, (t i).toInt) := by
  induction k with
  | zero =>
    refine ⟨fun _ => ⟨fun i hi => absurd hi (Nat.not_lt_zero i), fun m hm => ?_⟩, fun _ => ?_⟩
    · rw [Nat.le_zero.1 hm, Finset.sum_range_zero]; exact inRange_zero
    · show (get (0 : SInt w)).isSome
      rw [show (0 : SInt w) = of 0 from rfl, get_of inRange_zero]; rfl
  | succ k ih =>
    have hval : ∀ j, (lsum j t).Defined → (lsum j t).toInt = ∑ i ∈ Finset.range j, (t i).toInt := by
      intro j
      induction j with
      | zero => intro _; rw [show lsum 0 t = of 0 from rfl]; unfold toInt; rw [get_of inRange_zero]; rfl
      | succ j ihj =>
        intro h
        obtain ⟨c, hc⟩ := Option.isSome_iff_exists.1 h
        obtain ⟨x, y, h1, h2, h3, -⟩ := get_lift_some (f := (· + ·)) hc
        have e1 := ihj (Option.isSome_iff_exists.2 ⟨x, h1⟩)
        unfold toInt at e1 ⊢
        rw [h1] at e1
        rw [hc, Finset.sum_range_succ, ← e1, h2, h3]; rfl
    constructor
    · intro h
      have h0 := h
      obtain ⟨c, hc⟩ := Option.isSome_iff_exists.1 h
      obtain ⟨x, y, h1, h2, h3, h4⟩ := get_lift_some (f := (· + ·)) hc
      obtain ⟨i1, i2⟩ := ih.1 (Option.isSome_iff_exists.2 ⟨x, h1⟩)
      refine ⟨fun i hi => ?_, fun m hm => ?_⟩
      · by_cases e : i = k
        · rw [e]; exact Option.isSome_iff_exists.2 ⟨y, h2⟩
        · exact i1 i (by omega)
      · by_cases e : m = k + 1
        · rw [e, ← hval (k + 1) h0]; exact h0.inRange
        · exact i2 m (by omega)
    · rintro ⟨h1, h2⟩
      have hk := ih.2 ⟨fun i hi => h1 i (by omega), fun m hm => h2 m (by omega)⟩
      have := get_lift (f := (· + ·)) hk.get_eq (h1 k (by omega)).get_eq (by
        show InRange w (_ + _)
        rw [hval k hk, ← Finset.sum_range_succ]
        exact h2 (k + 1) le_rfl)
      exact Option.isSome_iff_exists.2 ⟨_, this⟩

theorem mul_defined {a b : SInt w} : (a * b).Defined ↔ a.Defined ∧ b.Defined ∧ InRange w (a.toInt * b.toInt) := by
  constructor
  · intro h
    obtain ⟨c, hc⟩ := Option.isSome_iff_exists.1 h
    obtain ⟨x, y, h1, h2, h3, h4⟩ := get_lift_some (f := (· * ·)) hc
    refine ⟨Option.isSome_iff_exists.2 ⟨x, h1⟩, Option.isSome_iff_exists.2 ⟨y, h2⟩, ?_⟩
    unfold toInt
    rw [h1, h2]; exact h4
  · rintro ⟨h1, h2, h3⟩
    exact Option.isSome_iff_exists.2 ⟨_, get_lift (f := (· * ·)) h1.get_eq h2.get_eq h3⟩
theorem mul_toInt {a b : SInt w} (h : (a * b).Defined) : (a * b).toInt = a.toInt * b.toInt := by
  obtain ⟨c, hc⟩ := Option.isSome_iff_exists.1 h
  obtain ⟨x, y, h1, h2, h3, h4⟩ := get_lift_some (f := (· * ·)) hc
  unfold toInt
  rw [hc, h1, h2, h3]; rfl
theorem add_defined {a b : SInt w} : (a + b).Defined ↔ a.Defined ∧ b.Defined ∧ InRange w (a.toInt + b.toInt) := by
  constructor
  · intro h
    obtain ⟨c, hc⟩ := Option.isSome_iff_exists.1 h
    obtain ⟨x, y, h1, h2, h3, h4⟩ := get_lift_some (f := (· + ·)) hc
    refine ⟨Option.isSome_iff_exists.2 ⟨x, h1⟩, Option.isSome_iff_exists.2 ⟨y, h2⟩, ?_⟩
    unfold toInt
    rw [h1, h2]; exact h4
  · rintro ⟨h1, h2, h3⟩
    exact Option.isSome_iff_exists.2 ⟨_, get_lift (f := (· + ·)) h1.get_eq h2.get_eq h3⟩
theorem sub_defined {a b : SInt w} : (a - b).Defined ↔ a.Defined ∧ b.Defined ∧ InRange w (a.toInt - b.toInt) := by
  constructor
  · intro h
    obtain ⟨c, hc⟩ := Option.isSome_iff_exists.1 h
    obtain ⟨x, y, h1, h2, h3, h4⟩ := get_lift_some (f := (· - ·)) hc
    refine ⟨Option.isSome_iff_exists.2 ⟨x, h1⟩, Option.isSome_iff_exists.2 ⟨y, h2⟩, ?_⟩
    unfold toInt
    rw [h1, h2]; exact h4
  · rintro ⟨h1, h2, h3⟩
    exact Option.isSome_iff_exists.2 ⟨_, get_lift (f := (· - ·)) h1.get_eq h2.get_eq h3⟩

/-- Sums of products: the value, and when there is one. -/
theorem dot_defined (hw : 2 ≤ w) {a b : Nat → SInt w} {k : Nat} :
    ((lsum k fun i => a i * b i).Defined → (lsum k fun i => a i * b i).toInt = ∑ i ∈ Finset.range k, (a i).toInt * (b i).toInt) ∧
    ((lsum k fun i => a i * b i).Defined ↔
      (∀ i, i < k → (a i).Defined ∧ (b i).Defined ∧ InRange w ((a i).toInt * (b i).toInt)) ∧
        ∀ m, m ≤ k → InRange w (∑ i ∈ Finset.range m, (a i).toInt * (b i).toInt)) := by
  refine ⟨fun h => ?_, ?_⟩
  · rw [h.toInt_eq ((reads hw).rd_lsum fun i _ => (reads hw).rd_mul (Reads.rd_get _ (a i)) (Reads.rd_get _ (b i))), lsum_eq_range]
    rfl
  · rw [lsum_defined]
    have e : (∀ i, i < k → (a i * b i).Defined) → ∀ m, m ≤ k →
        ∑ i ∈ Finset.range m, (a i * b i).toInt = ∑ i ∈ Finset.range m, (a i).toInt * (b i).toInt := fun h m hm =>
      Finset.sum_congr rfl fun i hi => mul_toInt (h i (by have := Finset.mem_range.1 hi; omega))
    constructor
    · rintro ⟨h1, h2⟩
      exact ⟨fun i hi => mul_defined.1 (h1 i hi), fun m hm => by rw [← e h1 m hm]; exact h2 m hm⟩
    · rintro ⟨h1, h2⟩
      have h1' := fun i hi => mul_defined.2 (h1 i hi)
      exact ⟨h1', fun m hm => by rw [e h1' m hm]; exact h2 m hm⟩

/-- Small terms. -/
theorem safe {f : Nat → ℤ} {k : Nat} (h : ∑ i ∈ Finset.range k, |f i| < 2 ^ (w - 1)) :
    (∀ i, i < k → InRange w (f i)) ∧ ∀ m, m ≤ k → InRange w (∑ i ∈ Finset.range m, f i) := by
  refine ⟨fun i hi => inRange_of_abs (lt_of_le_of_lt ?_ h), fun m hm => inRange_of_abs (lt_of_le_of_lt ?_ h)⟩
  · exact Finset.single_le_sum (f := fun i => |f i|) (fun _ _ => abs_nonneg _) (Finset.mem_range.2 hi)
  · refine (Finset.abs_sum_le_sum_abs _ _).trans (Finset.sum_le_sum_of_subset_of_nonneg ?_ fun _ _ _ => abs_nonneg _)
    exact Finset.range_mono hm

end SInt

open SInt

variable {w : ℕ}

/-- C94, products of matrices: without overflow the entries are exact; there is no overflow exactly when all products and all sums
on the way are in range, and certainly none when the sum of the absolute values of the products is. -/
theorem C94_product (hw : 2 ≤ w) {A B : MB (SInt w)} {n k m : Nat} {M : Matrix (Fin n) (Fin k) (SInt w)}
    {N : Matrix (Fin k) (Fin m) (SInt w)} (hA : A.Is M) (hB : B.Is N) (hf : Fits n m) :
    ∃ E : Matrix (Fin n) (Fin m) (SInt w), Yields (mul A B) E ∧ ∀ i j,
      ((E i j).Defined → (E i j).toInt = (M.map toInt * N.map toInt) i j) ∧
      ((E i j).Defined ↔ (∀ l, (M i l).Defined ∧ (N l j).Defined ∧ InRange w ((M i l).toInt * (N l j).toInt)) ∧
        ∀ q, q ≤ k → InRange w (∑ l : Fin k with l.1 < q, (M i l).toInt * (N l j).toInt)) ∧
      ((∀ l, (M i l).Defined ∧ (N l j).Defined) → (M.map (|toInt ·|) * N.map (|toInt ·|)) i j < 2 ^ (w - 1) → (E i j).Defined) := by
  obtain ⟨e, hA, rfl⟩ := hA
  obtain ⟨f, hB, rfl⟩ := hB
  refine ⟨_, (C35_entries hA.toRepAt hB.toRepAt hf).yields, fun i j => ?_⟩
  obtain ⟨h1, h2⟩ := dot_defined hw (a := fun l => e i l) (b := fun l => f l j) (k := k)
  have hq : ∀ q, q ≤ k → ∑ l : Fin k with l.1 < q, (toM n k e i l).toInt * (toM k m f l j).toInt =
      ∑ l ∈ Finset.range q, (e i l).toInt * (f l j).toInt := fun q hq => by
    rw [Finset.sum_filter, Finset.sum_fin_eq_sum_range, ← Finset.sum_subset (Finset.range_mono hq)]
    · refine Finset.sum_congr rfl fun l hl => ?_
      have := Finset.mem_range.1 hl
      rw [dif_pos (by omega), if_pos this]; rfl
    · intro l _ hl
      have := fun h => hl (Finset.mem_range.2 h)
      split
      · rfl
      · rfl
  refine ⟨fun h => ?_, h2.trans ?_, fun hd hs => h2.2 ?_⟩
  · rw [Matrix.mul_apply]
    exact (h1 h).trans (Finset.sum_range _)
  · constructor
    · exact fun h => ⟨fun l => h.1 l.1 l.2, fun q hl => by rw [hq q hl]; exact h.2 q hl⟩
    · exact fun h => ⟨fun l hl => h.1 ⟨l, hl⟩, fun q hl => by rw [← hq q hl]; exact h.2 q hl⟩
  · have hs' : ∑ l ∈ Finset.range k, |(e i l).toInt * (f l j).toInt| < 2 ^ (w - 1) := by
      rw [Finset.sum_range]
      rw [Matrix.mul_apply] at hs
      simp only [abs_mul]
      exact hs
    obtain ⟨h3, h4⟩ := safe hs'
    exact ⟨fun l hl => ⟨(hd ⟨l, hl⟩).1, (hd ⟨l, hl⟩).2, h3 l hl⟩, h4⟩

/-- C94, sums and scalar products of vectors. -/
theorem C94_sum (hw : 2 ≤ w) {v : List (SInt w)} {n : Nat} {f : Nat → SInt w} (hv : VRep v n f) :
    ∃ x, Ops.sum v = .ok x ∧ (x.Defined → x.toInt = ∑ i ∈ Finset.range n, (f i).toInt) ∧
      (x.Defined ↔ (∀ i, i < n → (f i).Defined) ∧ ∀ q, q ≤ n → InRange w (∑ i ∈ Finset.range q, (f i).toInt)) := by
  refine ⟨_, C41_sum hv, fun h => ?_, lsum_defined⟩
  rw [h.toInt_eq ((reads hw).rd_lsum fun i _ => Reads.rd_get _ (f i)), lsum_eq_range]; rfl

/-- C94, dot products of vectors. -/
theorem C94_dot (hw : 2 ≤ w) {a b : List (SInt w)} {n : Nat} {f g : Nat → SInt w} (ha : VRep a n f) (hb : VRep b n g) :
    ∃ x, dot a b = .ok x ∧ (x.Defined → x.toInt = ∑ i ∈ Finset.range n, (f i).toInt * (g i).toInt) ∧
      (x.Defined ↔ (∀ i, i < n → (f i).Defined ∧ (g i).Defined ∧ InRange w ((f i).toInt * (g i).toInt)) ∧
        ∀ q, q ≤ n → InRange w (∑ i ∈ Finset.range q, (f i).toInt * (g i).toInt)) :=
  ⟨_, C38_dot ha hb, dot_defined hw⟩

/-- C94, matrix times vector. -/
theorem C94_mulVec (hw : 2 ≤ w) {A : MB (SInt w)} {b : List (SInt w)} {n m : Nat} {e : Nat → Nat → SInt w} {f : Nat → SInt w}
    (hA : RepAt A n m e) (hb : VRep b m f) (hn : n < allocMax) :
    ∃ g : Nat → SInt w, ReturnsVec (mulVec A b) n g ∧ ReturnsVec (dotMat A b) n g ∧ ∀ i, i < n →
      ((g i).Defined → (g i).toInt = ∑ j ∈ Finset.range m, (e i j).toInt * (f j).toInt) ∧
      ((g i).Defined ↔ (∀ j, j < m → (e i j).Defined ∧ (f j).Defined ∧ InRange w ((e i j).toInt * (f j).toInt)) ∧
        ∀ q, q ≤ m → InRange w (∑ j ∈ Finset.range q, (e i j).toInt * (f j).toInt)) :=
  have h := C37_entries_partial hA hb (Nat.le_refl m) hn
  ⟨_, h.1, h.2, fun _ _ => dot_defined hw⟩

/-- C94, the trace of a square matrix. -/
theorem C94_trace (hw : 2 ≤ w) {A : MB (SInt w)} {n : Nat} {e} (hA : RepAt A n n e) :
    ∃ x, trace A = .ok x ∧ (x.Defined → x.toInt = ∑ i ∈ Finset.range n, (e i i).toInt) ∧
      (x.Defined ↔ (∀ i, i < n → (e i i).Defined) ∧ ∀ q, q ≤ n → InRange w (∑ i ∈ Finset.range q, (e i i).toInt)) := by
  refine ⟨_, C41_trace_partial hA le_rfl, fun h => ?_, lsum_defined⟩
  rw [h.toInt_eq ((reads hw).rd_lsum fun i _ => Reads.rd_get _ (e i i)), lsum_eq_range]; rfl

/-- C94, element-wise sums, differences and multiples. -/
theorem C94_elementwise (hw : 2 ≤ w) {A B : MB (SInt w)} {n m : Nat} {e f} (hA : Rep A n m e) (hB : Rep B n m f) (s : SInt w) :
    (∃ E, Returns (add A B) n m E ∧ ∀ i j, ((E i j).Defined → (E i j).toInt = (e i j).toInt + (f i j).toInt) ∧
      ((E i j).Defined ↔ (e i j).Defined ∧ (f i j).Defined ∧ InRange w ((e i j).toInt + (f i j).toInt))) ∧
    (∃ E, Returns (sub A B) n m E ∧ ∀ i j, ((E i j).Defined → (E i j).toInt = (e i j).toInt - (f i j).toInt) ∧
      ((E i j).Defined ↔ (e i j).Defined ∧ (f i j).Defined ∧ InRange w ((e i j).toInt - (f i j).toInt))) ∧
    (∃ E, Returns (mulS A s) n m E ∧ ∀ i j, ((E i j).Defined → (E i j).toInt = (e i j).toInt * s.toInt) ∧
      ((E i j).Defined ↔ (e i j).Defined ∧ s.Defined ∧ InRange w ((e i j).toInt * s.toInt))) :=
  ⟨⟨_, (C33_add_sub hA hB).1, fun _ _ => ⟨fun h => h.toInt_eq ((reads hw).rd_add (Reads.rd_get _ _) (Reads.rd_get _ _)), add_defined⟩⟩,
   ⟨_, (C33_add_sub hA hB).2, fun _ _ => ⟨fun h => h.toInt_eq ((reads hw).rd_sub (Reads.rd_get _ _) (Reads.rd_get _ _)), sub_defined⟩⟩,
   ⟨_, (C33_scalar hA s).2.2.1, fun _ _ => ⟨fun h => h.toInt_eq ((reads hw).rd_mul (Reads.rd_get _ _) (Reads.rd_get _ _)), mul_defined⟩⟩⟩

/-- C94, determinants of up to four rows: without overflow the result is the determinant. -/
theorem C94_determinant_partial (hw : 2 ≤ w) {A : MB (SInt w)} {N : Nat} {M : Matrix (Fin N) (Fin N) (SInt w)} (hA : A.Is M) (hN : N ≤ 4)
    (isz : SInt w → Bool) :
    ∃ x, determinant isz A = .ok x ∧ (x.Defined → (∀ i j, (M i j).Defined) ∧ x.toInt = (M.map toInt).det) := by
  obtain ⟨e, hA, rfl⟩ := hA
  refine ⟨_, determinant_closed isz hA hN, fun h => ⟨fun i j => (reads hw).some_closedDet hN h i.2 j.2, ?_⟩⟩
  rw [h.toInt_eq ((reads hw).rd_closedDet (fun i j => Reads.rd_get _ (e i j)) N), closedDet_eq _ hN]
  rfl

/-- The entries of the powers computed by `powm`, over any number type. -/
def powT {T : Type} [Zero T] [One T] [Add T] [Mul T] (n : Nat) (e : Nat → Nat → T) : Nat → Nat → Nat → T
  | 0 => fun r c => if r = c then 1 else 0
  | q + 1 => fun r c => lsum n fun i => powT n e q r i * e i c

theorem powm_table {T : Type} [Zero T] [One T] [Add T] [Mul T] {A : MB T} {n : Nat} {e} (h : Rep A n n e) (hn : 0 < n) (q : Nat) :
    powm A q = .ok (Mat.ofFn n n (powT n e q)) := by
  have hf := h.fits
  unfold powm
  rw [h.rows, h.cols, Util.eye_eq hn hn hf, Res.ok_bind]
  refine forRange_eq (Nat.zero_le q) (fun q => Mat.ofFn n n (powT n e q)) rfl ?_
  intro i _ _
  exact mulAssign_self hf h.toRepAt

/-- C94: negation is exact, and overflows for the smallest value only. -/
theorem C94_negation {a : SInt w} : ((-a).Defined ↔ a.Defined ∧ a.toInt ≠ -2 ^ (w - 1)) ∧ ((-a).Defined → (-a).toInt = -a.toInt) := by
  have hz : (0 : SInt w).Defined ∧ (0 : SInt w).toInt = 0 := by
    have : (0 : SInt w).get = some 0 := get_of inRange_zero
    exact ⟨by unfold Defined; rw [this]; rfl, by unfold toInt; rw [this]; rfl⟩
  have hd : (-a).Defined ↔ (0 : SInt w).Defined ∧ a.Defined ∧ InRange w ((0 : SInt w).toInt - a.toInt) := sub_defined
  refine ⟨⟨fun h => ?_, fun ⟨h1, h2⟩ => hd.2 ⟨hz.1, h1, ?_⟩⟩, fun h => ?_⟩
  · obtain ⟨-, h1, h2⟩ := hd.1 h
    refine ⟨h1, fun e => ?_⟩
    rw [hz.2, e] at h2
    have := h2.2
    omega
  · have := h1.inRange
    rw [hz.2]
    exact ⟨by have := this.2; omega, by have := this.1; omega⟩
  · obtain ⟨c, hc⟩ := Option.isSome_iff_exists.1 h
    obtain ⟨x, y, h1, h2, h3, -⟩ := get_lift_some (a := (0 : SInt w)) (f := (· - ·)) hc
    have h1 : x = 0 := by rw [show (0 : SInt w).get = some 0 from get_of inRange_zero] at h1; injection h1 with h1; exact h1.symm
    unfold toInt
    rw [hc, h2, h3, h1]
    exact zero_sub y

/-- C94, the adjoint up to five rows: without overflow it is exact. -/
theorem C94_adjoint_partial (hw : 2 ≤ w) {A : MB (SInt w)} {N : Nat} {M : Matrix (Fin N) (Fin N) (SInt w)} (hA : A.Is M) (hN : N ≤ 5)
    (isz : SInt w → Bool) :
    ∃ E : Matrix (Fin N) (Fin N) (SInt w), Yields (adjoint isz A) E ∧ ∀ i j, (E i j).Defined → (E i j).toInt = (M.map toInt).adjugate i j := by
  obtain ⟨e, h, rfl⟩ := hA
  by_cases h1 : N = 1
  · subst h1
    have : adjoint isz A = .ok (Mat.ofFn 1 1 fun _ _ => 1) := by
      unfold adjoint
      rw [isSquare_eq h.toRepAt, h.cols, beq_self_eq_true, Bool.not_true, if_neg Bool.false_ne_true, if_pos rfl, Mat.new_eq h.fits]
    refine ⟨_, Yields.of_eq h.fits this, fun i j hd => ?_⟩
    obtain rfl : i = j := Subsingleton.elim i j
    rw [Matrix.adjugate_fin_one, Matrix.one_apply_eq]
    exact hd.toInt_eq (reads hw).rd_one
  by_cases hN0 : 0 < N
  · refine ⟨_, Yields.of_eq h.fits (adjoint_exec h.toRepAt h1 fun i j _ _ => determinant_closed isz (cofactor_rep h.toRepAt hN0 i j) (by omega)),
      fun i j hd => ?_⟩
    have h3 := adjugate_eq hN0 (fun r c => (e r c).toInt) j.2 i.2
    have hr := (reads hw).rd_closedDet (fun r c => Reads.rd_get get (e (skip j.1 r) (skip i.1 c))) (N - 1)
    rw [closedDet_eq _ (by omega)] at hr
    have hs : Rd (get (w := w)) (if (j.1 + i.1) % 2 = 0 then 1 else -1) ((-1) ^ (j.1 + i.1)) := by
      by_cases h4 : (j.1 + i.1) % 2 = 0
      · rw [if_pos h4, Even.neg_one_pow (Nat.even_iff.2 h4)]; exact (reads hw).rd_one
      · rw [if_neg h4, Odd.neg_one_pow (Nat.odd_iff.2 (by omega)), ← zero_sub]
        exact (reads hw).rd_sub (reads hw).rd_zero (reads hw).rd_one
    exact (hd.toInt_eq ((reads hw).rd_mul hs hr)).trans h3.symm
  · obtain rfl : N = 0 := by omega
    exact ⟨_, Yields.of_eq h.fits (adjoint_exec h.toRepAt h1 (D := fun _ _ => 0) fun i j hi => absurd hi (Nat.not_lt_zero i)), fun i => i.elim0⟩

/-- C94, powers of a matrix. -/
theorem C94_powm_partial (hw : 2 ≤ w) {A : MB (SInt w)} {n : Nat} {M : Matrix (Fin n) (Fin n) (SInt w)} (hA : A.Is M) (hn : 0 < n) (q : Nat) :
    ∃ E : Matrix (Fin n) (Fin n) (SInt w), Yields (powm A q) E ∧
      ∀ i j, (E i j).Defined → (E i j).toInt = ((M.map toInt) ^ q) i j := by
  obtain ⟨e, hA, rfl⟩ := hA
  refine ⟨_, Yields.of_eq hA.fits (powm_table hA hn q), fun i j h => ?_⟩
  have hr : ∀ q r c, Rd get (powT n e q r c) (powT n (fun i j => (e i j).toInt) q r c) := by
    intro q
    induction q with
    | zero =>
      intro r c
      unfold powT
      split
      · exact (reads hw).rd_one
      · exact (reads hw).rd_zero
    | succ q ih => exact fun r c => (reads hw).rd_lsum fun i _ => (reads hw).rd_mul (ih r i) (Reads.rd_get _ _)
  have hp : ∀ q, toM n n (powT n (fun i j => (e i j).toInt) q) = ((toM n n e).map toInt) ^ q := by
    intro q
    induction q with
    | zero => rw [pow_zero]; exact toM_one
    | succ q ih =>
      rw [pow_succ, ← ih]
      exact toM_mul _ _
  rw [← hp]
  exact h.toInt_eq (hr q i j)

/-- C94 is false as a statement about results: the sum `INT_MAX + 1 - 1` is representable, `sum` overflows; with the terms in
another order it does not. -/
theorem C94_sum_false :
    (∃ v : List CInt, InRange 32 (v.map toInt).sum ∧ (∀ x ∈ v, x.Defined) ∧ Ops.sum v = .ok .over) ∧
    Ops.sum [of 2147483647, of 1, of (-1)] = .ok (.over : CInt) ∧
    Ops.sum [of 2147483647, of (-1), of 1] = .ok (of 2147483647 : CInt) :=
  ⟨⟨[of 2147483647, of 1, of (-1)], by decide +kernel, by decide +kernel, by decide +kernel⟩, by decide +kernel, by decide +kernel⟩

/-- C94 is false as a statement about results: the determinant is `1`, the closed formula overflows. -/
theorem C94_determinant_false : ∃ e : Nat → Nat → CInt, (∀ i j, (e i j).Defined) ∧ (toM 2 2 fun i j => (e i j).toInt).det = 1 ∧
    (Mat.ofFn 2 2 e).data = [of 65536, of 65535, of 65537, of 65536] ∧ ∀ isz, determinant isz (Mat.ofFn 2 2 e).toMB = .ok .over := by
  refine ⟨fun i j => if i = j then of 65536 else if i < j then of 65535 else of 65537, fun i j => ?_, ?_, by decide +kernel, fun isz => ?_⟩
  · dsimp only
    split
    · decide +kernel
    · split <;> decide +kernel
  · rw [Matrix.det_fin_two]; decide +kernel
  · rw [determinant_closed isz (ofFn_rep (fits_small (by decide) (by decide)) _) (by decide)]
    decide +kernel

/-- C94, `A / s` for a divisor other than zero: the fraction is cut off, so the remainder is smaller than the divisor and has the sign
of the element; only the smallest number divided by minus one overflows. -/
theorem C94_division (hw : 2 ≤ w) {A : MB (SInt w)} {n m : Nat} {e} (hA : Rep A n m e) {s : SInt w} (hs : s.Defined) (h0 : s.toInt ≠ 0) :
    ∃ E, Returns (divS A s) n m E ∧ ∀ i j,
      ((E i j).Defined → ∃ r, (e i j).toInt = (E i j).toInt * s.toInt + r ∧ |r| < |s.toInt| ∧ 0 ≤ r * (e i j).toInt) ∧
      ((E i j).Defined ↔ (e i j).Defined ∧ ¬ ((e i j).toInt = -2 ^ (w - 1) ∧ s.toInt = -1)) := by
  obtain ⟨y, hy⟩ := Option.isSome_iff_exists.1 hs
  match s, hy with
  | val s hsr, rfl =>
  have h0 : s ≠ 0 := h0
  have hd : ∀ a : SInt w, (cdiv a (val s hsr) : Res (SInt w)) = .ok (lift Int.tdiv a (val s hsr)) := by
    intro a
    show (match val s hsr with | val 0 _ => (Res.ub .divZero : Res (SInt w)) | b => .ok (lift Int.tdiv a b)) = _
    split
    · next h => injection h with h; exact absurd h h0
    · rfl
  refine ⟨fun i j => lift Int.tdiv (e i j) (val s hsr), C33_div hA _ fun r c _ _ => hd _, fun i j => ?_⟩
  dsimp only
  generalize e i j = a
  have hpow : (2 : ℤ) ≤ 2 ^ (w - 1) := by
    calc (2 : ℤ) = 2 ^ 1 := (pow_one _).symm
      _ ≤ 2 ^ (w - 1) := pow_le_pow_right₀ one_le_two (by omega)
  match a with
  | over => exact ⟨(nomatch ·), (nomatch ·), fun h => nomatch h.1⟩
  | val x hx =>
    have hdef : (lift Int.tdiv (val x hx) (val s hsr)).Defined ↔ ¬ (x = -2 ^ (w - 1) ∧ s = -1) := by
      show (of (x.tdiv s) : SInt w).get.isSome = true ↔ _
      have hr : InRange w (x.tdiv s) ↔ ¬ (x = -2 ^ (w - 1) ∧ s = -1) := by
        constructor
        · rintro h ⟨rfl, rfl⟩
          rw [Int.tdiv_neg, Int.tdiv_one, neg_neg] at h
          exact absurd h.2 (lt_irrefl _)
        · intro h
          have h1 := Int.natAbs_tdiv_le_natAbs x s
          obtain ⟨hx1, hx2⟩ := hx
          by_cases hx3 : x = -2 ^ (w - 1)
          · by_cases hs1 : s = 1
            · rw [hs1, Int.tdiv_one]; exact ⟨hx1, hx2⟩
            · have hsm : s ≠ -1 := fun h' => h ⟨hx3, h'⟩
              have h2 : (x.tdiv s).natAbs ≤ x.natAbs / 2 := by
                rw [Int.natAbs_tdiv]
                exact Nat.div_le_div_left (by omega) (by omega)
              constructor <;> omega
          · constructor <;> omega
      rw [← hr]
      constructor
      · intro h
        obtain ⟨c, hc⟩ := Option.isSome_iff_exists.1 h
        exact (get_of_some hc).1
      · intro h; rw [get_of h]; rfl
    refine ⟨fun h => ?_, hdef.trans ⟨fun h => ⟨rfl, h⟩, fun h => h.2⟩⟩
    obtain ⟨c, hc⟩ := Option.isSome_iff_exists.1 h
    have he : toInt (lift Int.tdiv (val x hx) (val s hsr)) = x.tdiv s := by
      unfold toInt; rw [hc]; exact (get_of_some hc).2
    rw [he]
    refine ⟨x.tmod s, ?_, ?_, ?_⟩
    · have := Int.tdiv_mul_add_tmod x s
      exact this.symm
    · have h1 := Int.natAbs_tmod x s
      have h2 := Nat.mod_lt x.natAbs (show 0 < s.natAbs by omega)
      show |x.tmod s| < |s|
      rw [Int.abs_eq_natAbs, Int.abs_eq_natAbs, h1]
      exact_mod_cast h2
    · show 0 ≤ x.tmod s * x
      rcases le_total 0 x with h' | h'
      · exact mul_nonneg (Int.tmod_nonneg _ h') h'
      · have := Int.tmod_nonneg s (Int.neg_nonneg_of_nonpos h')
        rw [Int.neg_tmod] at this
        nlinarith

/-- C94, `A / 0`: undefined as soon as there is an element. -/
theorem C94_division_zero {A : MB (SInt w)} {n m : Nat} {e} (hA : Rep A n m e) (hn : 0 < n) (hm : 0 < m) :
    divS A (0 : SInt w) = .ub .divZero := by
  have hz : ∀ a : SInt w, (cdiv a 0 : Res (SInt w)) = .ub .divZero := by
    intro a
    have : (0 : SInt w) = val 0 inRange_zero := by show of 0 = _; unfold of; rw [dif_pos inRange_zero]
    rw [this]; rfl
  unfold divS mapMat
  rw [hA.rows, hA.cols, Mat.new_eq hA.fits, Res.ok_bind, hA.size, forRange_lt (Nat.mul_pos hn hm), hA.lin' (Nat.mul_pos hn hm), Res.ok_bind]
  dsimp only
  rw [hz]
  rfl

/-- C94, unsigned elements: all results are right modulo `2^w`, whatever happens on the way. -/
theorem C94_unsigned (w : ℕ) {A B : MB (ZMod (2 ^ w))} {n k m : Nat} {M : Matrix (Fin n) (Fin k) ℤ} {N : Matrix (Fin k) (Fin m) ℤ}
    (hA : A.Is (M.map (Int.cast : ℤ → ZMod (2 ^ w)))) (hB : B.Is (N.map (Int.cast : ℤ → ZMod (2 ^ w)))) (hf : Fits n m) :
    Yields (mul A B) ((M * N).map (Int.cast : ℤ → ZMod (2 ^ w))) :=
  (C35_product hA hB hf).congr (Matrix.map_mul (f := Int.castRingHom (ZMod (2 ^ w)))).symm

-- The adjoint of an integer matrix, and one that overflows in a single entry.
example : adjoint (fun x => decide (x = 0)) (⟨2, 2, [of 3, of 4, of 5, of 7]⟩ : Mat CInt).toMB = .ok ⟨2, 2, [of 7, of (-4), of (-5), of 3]⟩ := by
  decide +kernel
example : adjoint (fun x => decide (x = 0)) (⟨2, 2, [of 3, of (-2147483648), of 5, of 7]⟩ : Mat CInt).toMB =
    .ok ⟨2, 2, [of 7, .over, of (-5), of 3]⟩ := by decide +kernel
example : (-(of (-2147483648)) : CInt) = .over ∧ (-(of (-2147483647)) : CInt) = of 2147483647 := by decide +kernel
example : mul (⟨1, 2, [of 3, of 4]⟩ : Mat CInt).toMB (⟨2, 1, [of 5, of (-6)]⟩ : Mat CInt).toMB = .ok ⟨1, 1, [of (-9)]⟩ := by decide +kernel
example : mul (⟨1, 1, [of 65536]⟩ : Mat CInt).toMB (⟨1, 1, [of 32768]⟩ : Mat CInt).toMB = .ok ⟨1, 1, [.over]⟩ := by decide +kernel
example : powm (⟨1, 1, [of 2]⟩ : Mat CInt).toMB 30 = .ok ⟨1, 1, [of 1073741824]⟩ ∧
    powm (⟨1, 1, [of 2]⟩ : Mat CInt).toMB 31 = .ok ⟨1, 1, [.over]⟩ := by decide +kernel
example : dot [of 65536, of 65536] [of 32767, of (-3)] = .ok (of 2147221504 : CInt) ∧
    dot [of 65536, of (-3)] [of 32768, of 65536] = .ok (.over : CInt) := by decide +kernel
example : mulVec (⟨2, 2, [of 1, of 2, of 2147483647, of 1]⟩ : Mat CInt).toMB [of 1, of 1] = .ok [of 3, .over] := by decide +kernel
example : trace (⟨2, 2, [of 2147483647, of 0, of 0, of 1]⟩ : Mat CInt).toMB = .ok .over ∧
    trace (⟨2, 2, [of 2147483647, of 0, of 0, of (-1)]⟩ : Mat CInt).toMB = .ok (of 2147483646) := by decide +kernel
example : add (⟨1, 2, [of 2147483647, of 1]⟩ : Mat CInt).toMB (⟨1, 2, [of 1, of 1]⟩ : Mat CInt).toMB = .ok ⟨1, 2, [.over, of 2]⟩ := by
  decide +kernel
example : mul (⟨1, 1, [200]⟩ : Mat (ZMod (2 ^ 8))).toMB (⟨1, 1, [2]⟩ : Mat (ZMod (2 ^ 8))).toMB = .ok ⟨1, 1, [144]⟩ := by decide +kernel
example : divS (⟨1, 1, [of (-2147483648)]⟩ : Mat CInt).toMB (of (-1)) = .ok ⟨1, 1, [.over]⟩ := by decide +kernel
example : divS (⟨1, 2, [of (-7), of 7]⟩ : Mat CInt).toMB (of 2) = .ok ⟨1, 2, [of (-3), of 3]⟩ ∧
    divS (⟨1, 2, [of (-7), of 7]⟩ : Mat CInt).toMB (of 0) = .ub .divZero := by decide +kernel

end Malg
