import Verif.Lemmas.Ieee
import Verif.Props.Overflow
import Verif.Props.Compare
import Verif.Props.Linalg
import Verif.Props.Control
/-!
# Property C96: infinities and NaN
-/
namespace Malg
open Ops Lin Ieee Feq

variable {K : Type} [Field K] [LinearOrder K] [IsStrictOrderedRing K] [FloorRing K] {p : ℕ} {emin : ℤ} {emax : ℕ}

namespace Ieee

/-- Tells NaN from everything else. -/
def num : Ieee K p emin emax → Option Unit
  | nan => none
  | _ => some ()

theorem mk_ne_nan (s : Bool) (r : K) : (mk s r : Ieee K p emin emax) ≠ nan := by
  unfold mk
  split <;> exact fun h => by cases h

theorem num_eq {a : Ieee K p emin emax} (h : a ≠ nan) : num a = some () := by
  match a with
  | nan => exact absurd rfl h
  | inf _ => rfl
  | fin .. => rfl
theorem num_isSome {a : Ieee K p emin emax} : (num a).isSome ↔ a ≠ nan := by
  constructor
  · rintro h rfl
    cases h
  · intro h
    rw [num_eq h]; rfl

theorem nan_add (a : Ieee K p emin emax) : nan + a = nan := rfl
theorem add_nan (a : Ieee K p emin emax) : a + nan = nan := by cases a <;> rfl
theorem nan_mul (a : Ieee K p emin emax) : nan * a = nan := rfl
theorem mul_nan (a : Ieee K p emin emax) : a * nan = nan := by cases a <;> rfl
theorem nan_sub (a : Ieee K p emin emax) : nan - a = nan := rfl
theorem sub_nan (a : Ieee K p emin emax) : a - nan = nan := add_nan a
theorem nan_div (a : Ieee K p emin emax) : div nan a = nan := rfl
theorem div_nan (a : Ieee K p emin emax) : div a nan = nan := by cases a <;> rfl

theorem num_two {a b c : Ieee K p emin emax} (h1 : a = nan → c = nan) (h2 : b = nan → c = nan) {z : Unit} (h : num c = some z) :
    ∃ x y, num a = some x ∧ num b = some y ∧ z = () := by
  have hc : c ≠ nan := num_isSome.1 (by rw [h]; rfl)
  exact ⟨(), (), num_eq fun e => hc (h1 e), num_eq fun e => hc (h2 e), rfl⟩

/-- The trivial ring, to use `Reads` for what is a number only. -/
theorem reads_num : Reads (num (K := K) (p := p) (emin := emin) (emax := emax)) where
  zero := rfl
  one := num_eq (mk_ne_nan _ _)
  add h := num_two (fun e => by rw [e]; rfl) (fun e => by rw [e]; exact add_nan _) h
  sub h := num_two (fun e => by rw [e]; rfl) (fun e => by rw [e]; exact sub_nan _) h
  mul h := num_two (fun e => by rw [e]; rfl) (fun e => by rw [e]; exact mul_nan _) h

theorem lsum_nan {t : Nat → Ieee K p emin emax} {k i : Nat} (hi : i < k) (h : t i = nan) : lsum k t = nan := by
  by_contra hc
  exact num_isSome.1 (reads_num.some_lsum (num_isSome.2 hc) i hi) h

end Ieee

/-- C96, NaN reaches every result computed from it: sums, scalar products and traces. -/
theorem C96_nan_vector {a b : List (Ieee K p emin emax)} {n : Nat} {f g : Nat → Ieee K p emin emax} (ha : VRep a n f) (hb : VRep b n g)
    {i : Nat} (hi : i < n) :
    (f i = nan → Ops.sum a = .ok nan) ∧ (f i = nan ∨ g i = nan → dot a b = .ok nan) := by
  refine ⟨fun h => (C41_sum ha).trans (congrArg _ (lsum_nan hi h)), fun h => (C38_dot ha hb).trans (congrArg _ (lsum_nan hi ?_))⟩
  rcases h with h | h
  · rw [h]; exact nan_mul _
  · rw [h]; exact mul_nan _

/-- C96, NaN in products of matrices: a NaN in a row of the left or in a column of the right factor reaches the entry computed from them. -/
theorem C96_nan_product {A B : MB (Ieee K p emin emax)} {n k m : Nat} {M : Matrix (Fin n) (Fin k) (Ieee K p emin emax)}
    {N : Matrix (Fin k) (Fin m) (Ieee K p emin emax)} (hA : A.Is M) (hB : B.Is N) (hf : Fits n m) :
    ∃ E : Matrix (Fin n) (Fin m) (Ieee K p emin emax), Yields (mul A B) E ∧ ∀ i j l, M i l = nan ∨ N l j = nan → E i j = nan := by
  obtain ⟨e, hA, rfl⟩ := hA
  obtain ⟨f, hB, rfl⟩ := hB
  refine ⟨_, (C35_entries hA.toRepAt hB.toRepAt hf).yields, fun i j l h => lsum_nan l.2 ?_⟩
  rcases h with h | h
  · rw [show e i l = nan from h]; exact nan_mul _
  · rw [show f l j = nan from h]; exact mul_nan _

/-- C96, the trace: a NaN on the diagonal makes it NaN. -/
theorem C96_nan_trace {A : MB (Ieee K p emin emax)} {n : Nat} {e} (hA : RepAt A n n e) {i : Nat} (hi : i < n) (h : e i i = nan) :
    trace A = .ok nan :=
  (C41_trace_partial hA le_rfl).trans (congrArg _ (lsum_nan hi h))

/-- C96, determinants of up to four rows: one NaN anywhere, even beside zeros, makes the determinant NaN. -/
theorem C96_nan_determinant {A : MB (Ieee K p emin emax)} {N : Nat} {e} (hA : Rep A N N e) (hN : N ≤ 4)
    (isz : Ieee K p emin emax → Bool) {i j : Nat} (hi : i < N) (hj : j < N) (h : e i j = nan) : determinant isz A = .ok nan := by
  rw [determinant_closed isz hA hN]
  congr 1
  by_contra hc
  exact num_isSome.1 (reads_num.some_closedDet hN (num_isSome.2 hc) hi hj) h

theorem Ieee.div_zero_finite (a : Ieee K p emin emax) {s : Ieee K p emin emax} (hs : s.Finite) (h0 : s.val = 0) :
    ¬ (Ieee.div a s).Finite := by
  match s, a with
  | nan, _ => cases hs
  | inf _, _ => cases hs
  | fin y z hz hy, nan => exact fun h => by cases h
  | fin y z hz hy, inf t => exact fun h => by cases h
  | fin y z hz hy, fin x z' hz' hx' =>
    have h0 : y.val = 0 := h0
    unfold Ieee.div
    dsimp only
    rw [if_pos h0]
    split <;> exact fun h => by cases h

theorem Ieee.div_inf_val {a : Ieee K p emin emax} (h : a.Finite) (t : Bool) :
    (Ieee.div a (inf t)).Finite ∧ (Ieee.div a (inf t)).val = 0 := by
  match a with
  | nan => cases h
  | inf _ => cases h
  | fin x z hz hx =>
    have h0 : (Fl.of p emin (0 : K)).val = 0 := by
      show rnd p emin 0 = 0
      unfold rnd
      rw [zero_div, show rne (0 : K) = 0 by simpa using rne_int (K := K) 0]
      simp
    have h1 : (Ieee.div (fin x z hz hx) (inf t)).fl = some (Fl.of p emin 0) :=
      fl_mk (by rw [h0, abs_zero]; exact pow_pos zero_lt_two _)
    refine ⟨Option.isSome_iff_exists.2 ⟨_, h1⟩, ?_⟩
    unfold Ieee.val flD
    rw [h1]
    exact h0

/-- C96, division by a number never stops the program; NaN stays NaN, what is divided by zero becomes infinite or NaN, and what is
divided by an infinity becomes zero. -/
theorem C96_division {A : MB (Ieee K p emin emax)} {n m : Nat} {e} (hA : Rep A n m e) (s : Ieee K p emin emax) :
    ∃ E, Returns (divS A s) n m E ∧ ∀ i j,
      (e i j = nan ∨ s = nan → E i j = nan) ∧ (s.Finite → s.val = 0 → ¬ (E i j).Finite) ∧
      ((∃ t, s = inf t) → (e i j).Finite → (E i j).Finite ∧ (E i j).val = 0) := by
  refine ⟨fun i j => Ieee.div (e i j) s, Returns.of_eq hA.fits (mapMat_eq hA fun _ _ _ _ => rfl), fun i j => ⟨?_, ?_, ?_⟩⟩
  · dsimp only
    rintro (h | h)
    · rw [h]; rfl
    · rw [h]; exact div_nan _
  · exact Ieee.div_zero_finite _
  · rintro ⟨t, rfl⟩ h
    exact Ieee.div_inf_val h t

/-- C96, `A * b` with an infinite `b`: a NaN for NaN and for zeros of either sign, otherwise an infinity with the product of the signs. -/
theorem C96_times_infinity {A : MB (Ieee K p emin emax)} {n m : Nat} {e} (hA : Rep A n m e) (t : Bool) :
    ∃ E, Returns (mulS A (inf t)) n m E ∧ ∀ i j,
      (e i j = nan → E i j = nan) ∧ ((e i j).Finite → (e i j).val = 0 → E i j = nan) ∧
      ((e i j).Finite → 0 < (e i j).val → E i j = inf t) ∧ ((e i j).Finite → (e i j).val < 0 → E i j = inf !t) ∧
      (∀ s, e i j = inf s → E i j = inf (s != t)) := by
  refine ⟨fun i j => e i j * inf t, Returns.of_eq hA.fits (mapMat_eq hA fun _ _ _ _ => rfl), fun i j => ?_⟩
  dsimp only
  generalize e i j = a
  match a with
  | nan => exact ⟨fun _ => rfl, fun h => Bool.noConfusion h, fun h => Bool.noConfusion h, fun h => Bool.noConfusion h, fun s h => (nomatch h)⟩
  | inf s =>
    refine ⟨(nomatch ·), fun h => Bool.noConfusion h, fun h => Bool.noConfusion h, fun h => Bool.noConfusion h, fun s' h => ?_⟩
    injection h with h
    subst h
    show inf (s ^^ t) = _
    cases s <;> cases t <;> rfl
  | fin x z h1 h2 =>
    have hm : fin x z h1 h2 * inf t = if x.val = 0 then nan else inf ((fin x z h1 h2 : Ieee K p emin emax).sign ^^ t) := rfl
    have hz : x.val ≠ 0 → z = false := fun h => by
      cases z
      · rfl
      · exact absurd (h1 rfl) h
    refine ⟨(nomatch ·), fun _ h => ?_, fun _ h => ?_, fun _ h => ?_, fun s h => (nomatch h)⟩
    · rw [hm, if_pos (show x.val = 0 from h)]
    · have h : 0 < x.val := h
      rw [hm, if_neg h.ne']
      have e : (fin x z h1 h2 : Ieee K p emin emax).sign = false := by
        show (z || decide (x.val < 0)) = false
        rw [hz h.ne', decide_eq_false (not_lt.2 h.le)]; rfl
      rw [e, Bool.false_xor]
    · have h : x.val < 0 := h
      rw [hm, if_neg h.ne]
      have e : (fin x z h1 h2 : Ieee K p emin emax).sign = true := by
        show (z || decide (x.val < 0)) = true
        rw [decide_eq_true h, Bool.or_true]
      rw [e, Bool.true_xor]

/-- `infinity_norm` is never NaN: a row with a NaN in it is passed over. -/
theorem C96_norm_not_nan {A : MB (Ieee K p emin emax)} {n m : Nat} {e} (hA : Rep A n m e) :
    ∃ x, infNorm Ieee.abs A = .ok x ∧ x ≠ nan := by
  unfold infNorm
  split
  · exact ⟨0, rfl, fun h => by cases h⟩
  rw [hA.rows, hA.cols]
  have hrow : ∀ r, r < n → forRange 0 m (0 : Ieee K p emin emax) (fun c accum => do
      let x ← A.at_ r c
      return accum + Ieee.abs x) = .ok (lsum m fun c => Ieee.abs (e r c)) := fun r hr => by
    refine forRange_eq (Nat.zero_le m) (fun j => lsum j fun c => Ieee.abs (e r c)) rfl fun c _ hc => ?_
    rw [hA.get r c hr hc]; rfl
  obtain ⟨x, h1, h2⟩ := forRange_inv (Nat.zero_le n) (fun _ (x : Ieee K p emin emax) => x ≠ nan)
    (s := (0 : Ieee K p emin emax)) (fun h => by cases h) (body := fun r max' => do
      let accum ← forRange 0 m (0 : Ieee K p emin emax) fun c accum => do
        let x ← A.at_ r c
        return accum + Ieee.abs x
      return max max' accum) (fun r x _ hr hx => by
    refine ⟨_, by rw [hrow r hr]; rfl, ?_⟩
    show (if x < _ then _ else x) ≠ nan
    split
    · next hlt =>
      intro e
      rw [e] at hlt
      have : ¬ (x < (nan : Ieee K p emin emax)) := by
        show ¬ (lt x nan = true)
        cases x <;> exact Bool.false_ne_true
      exact this hlt
    · exact hx)
  exact ⟨x, h1, h2⟩

/-! ## Comparisons -/

namespace Ieee

theorem fl_abs {a : Ieee K p emin emax} {x : Fl K p emin} (h : a.fl = some x) : ∃ y, (abs a).fl = some y ∧ y.val = |x.val| := by
  match a with
  | nan => cases h
  | inf _ => cases h
  | fin x' z hz hx =>
    injection h with h
    subst h
    have e : abs (fin x' z hz hx) = if (z || decide (x'.val < 0)) then -(fin x' z hz hx) else fin x' z hz hx := rfl
    rw [e]
    split
    · next hc =>
      refine ⟨-x', fl_neg _, ?_⟩
      have : (-x').val = -x'.val := rfl
      rw [this, abs_of_nonpos]
      rcases Bool.or_eq_true_iff.1 hc with hc | hc
      · exact (hz hc).le
      · exact (of_decide_eq_true hc).le
    · next hc =>
      refine ⟨x', rfl, (abs_of_nonneg ?_).symm⟩
      rw [Bool.or_eq_true_iff, not_or] at hc
      exact not_lt.1 fun h => hc.2 (decide_eq_true h)

theorem le_iff {a b : Ieee K p emin emax} {x y : Fl K p emin} (ha : a.fl = some x) (hb : b.fl = some y) : a ≤ b ↔ x.val ≤ y.val := by
  match a, b with
  | fin x' _ _ _, fin y' _ _ _ =>
    injection ha with ha; injection hb with hb
    subst ha hb
    exact decide_eq_true_iff
  | nan, _ => cases ha
  | inf _, _ => cases ha
  | fin .., nan => cases hb
  | fin .., inf _ => cases hb
theorem lt_iff {a b : Ieee K p emin emax} {x y : Fl K p emin} (ha : a.fl = some x) (hb : b.fl = some y) : a < b ↔ x.val < y.val := by
  match a, b with
  | fin x' _ _ _, fin y' _ _ _ =>
    injection ha with ha; injection hb with hb
    subst ha hb
    exact decide_eq_true_iff
  | nan, _ => cases ha
  | inf _, _ => cases ha
  | fin .., nan => cases hb
  | fin .., inf _ => cases hb

theorem not_lt_nan (a : Ieee K p emin emax) : ¬ a < nan := by
  show ¬ (lt a nan = true)
  cases a <;> exact Bool.false_ne_true
theorem not_nan_lt (a : Ieee K p emin emax) : ¬ (nan : Ieee K p emin emax) < a := Bool.false_ne_true
theorem not_nan_le (a : Ieee K p emin emax) : ¬ (nan : Ieee K p emin emax) ≤ a := Bool.false_ne_true
theorem not_le_nan (a : Ieee K p emin emax) : ¬ a ≤ nan := by
  show ¬ (le a nan = true)
  cases a <;> exact Bool.false_ne_true

theorem lt_irrefl (a : Ieee K p emin emax) : ¬ a < a := by
  match a with
  | nan => exact not_nan_lt _
  | inf true => exact Bool.false_ne_true
  | inf false => exact Bool.false_ne_true
  | fin .. => exact fun h => _root_.lt_irrefl _ ((lt_iff rfl rfl).1 h)

theorem lt_trans {a b c : Ieee K p emin emax} (h1 : a < b) (h2 : b < c) : a < c := by
  match a, b, c with
  | nan, _, _ => exact absurd h1 (not_nan_lt _)
  | _, nan, _ => exact absurd h1 (not_lt_nan _)
  | _, _, nan => exact absurd h2 (not_lt_nan _)
  | fin x _ _ _, fin y _ _ _, fin z _ _ _ =>
    exact (lt_iff rfl rfl).2 (_root_.lt_trans ((lt_iff rfl rfl).1 h1) ((lt_iff rfl rfl).1 h2))
  | inf false, fin .., _ => cases h1
  | inf true, fin .., fin .. => rfl
  | fin .., inf true, _ => cases h1
  | fin .., inf false, fin .. => cases h2
  | fin .., fin .., inf true => cases h2
  | fin .., fin .., inf false => rfl
  | fin .., inf false, inf true => cases h2
  | fin .., inf false, inf false => cases h2
  | inf false, inf true, _ => cases h1
  | inf false, inf false, _ => cases h1
  | inf true, inf true, _ => cases h1
  | inf true, inf false, fin .. => cases h2
  | inf true, inf false, inf true => cases h2
  | inf true, inf false, inf false => rfl
  | inf true, fin .., inf true => cases h2
  | inf true, fin .., inf false => rfl

/-- A usable tolerance. -/
def Tol (t : Ieee K p emin emax) : Prop := t.Finite ∧ 0 < t.val ∧ t.val ≤ 1 / 4

theorem Tol.mul_inf {t : Ieee K p emin emax} (h : Tol t) : t * inf false = inf false := by
  obtain ⟨h1, h2, -⟩ := h
  match t with
  | nan => cases h1
  | inf _ => cases h1
  | fin x z hz hx =>
    have hx0 : 0 < x.val := h2
    have e : (fin x z hz hx * inf false : Ieee K p emin emax) = if x.val = 0 then nan else inf ((z || decide (x.val < 0)) ^^ false) := rfl
    rw [e, if_neg hx0.ne', decide_eq_false (not_lt.2 hx0.le)]
    cases z with
    | false => rfl
    | true => exact absurd (hz rfl) hx0.ne'

/-- Multiplication with the tolerance makes everything but zero smaller. -/
theorem Tol.mul_abs (hp : 1 ≤ p) {t a : Ieee K p emin emax} (h : Tol t) {x : Fl K p emin} (ha : a.fl = some x) :
    ∃ y, (t * abs a).fl = some y ∧ 0 ≤ y.val ∧ (x.val ≠ 0 → y.val < |x.val|) := by
  obtain ⟨h1, h2, h3⟩ := h
  obtain ⟨w, hw, hwv⟩ := fl_abs ha
  have hr := rnd_err p emin (t.flD.val * w.val)
  have hu : (2 : K) ^ (-(p : ℤ)) ≤ 1 / 2 := by
    rw [zpow_neg, zpow_natCast, one_div]
    exact inv_anti₀ zero_lt_two (le_self_pow₀ one_le_two (by omega))
  have hu0 : (0 : K) < 2 ^ (-(p : ℤ)) := two_zpow_pos _
  have hη : (0 : K) < 2 ^ emin := two_zpow_pos _
  have ht0 : 0 < t.flD.val := h2
  have ht1 : t.flD.val ≤ 1 / 4 := h3
  have hw0 : 0 ≤ w.val := hwv ▸ abs_nonneg _
  have hnn : 0 ≤ (t.flD * w).val := by
    show (0 : K) ≤ rnd p emin (t.flD.val * w.val)
    have := le_rne (z := 0) (x := t.flD.val * w.val / 2 ^ lastExp p emin (t.flD.val * w.val))
      (by rw [Int.cast_zero]; exact div_nonneg (mul_nonneg ht0.le hw0) (two_zpow_pos _).le)
    exact mul_nonneg (by exact_mod_cast this) (two_zpow_pos _).le
  have hlt : w.val ≠ 0 → (t.flD * w).val < w.val := fun hw1 => by
    have hg : (2 : K) ^ emin ≤ w.val := by
      obtain ⟨z, hz⟩ := w.isFl.grid
      have hz0 : 0 < z := by
        have : 0 < w.val := lt_of_le_of_ne hw0 hw1.symm
        rw [hz] at this
        exact_mod_cast pos_of_mul_pos_left this hη.le
      rw [hz]
      have : (1 : K) ≤ z := by exact_mod_cast hz0
      nlinarith
    have hm : t.flD.val * w.val ≤ 1 / 4 * w.val := mul_le_mul_of_nonneg_right ht1 hw0
    have hm0 : 0 ≤ t.flD.val * w.val := mul_nonneg ht0.le hw0
    rw [abs_of_nonneg hm0] at hr
    have h4 : 2 ^ (-(p : ℤ)) * (t.flD.val * w.val) ≤ 1 / 2 * (1 / 4 * w.val) := mul_le_mul hu hm hm0 (by norm_num)
    have h5 := (abs_le.1 hr).2
    have h6 : (t.flD * w).val = rnd p emin (t.flD.val * w.val) := rfl
    rw [h6]
    linarith
  have hfin : |(t.flD * w).val| < 2 ^ emax := by
    rw [abs_of_nonneg hnn]
    by_cases hw1 : w.val = 0
    · have : (t.flD * w).val = 0 := by
        show rnd p emin (t.flD.val * w.val) = 0
        rw [hw1, mul_zero]
        exact rnd_exact hp (isFl_zero p emin)
      rw [this]; exact pow_pos zero_lt_two _
    · refine (hlt hw1).trans ?_
      have := fl_lt hw
      rwa [abs_of_nonneg hw0] at this
  refine ⟨_, fl_mul h1.fl_eq hw hfin, hnn, fun hx0 => ?_⟩
  rw [← hwv]
  exact hlt (by rw [hwv]; exact abs_ne_zero.2 hx0)

/-- `approximately_equal_to_zero`: true for zeros and for infinities. -/
theorem approxZero_iff (hp : 1 ≤ p) {t : Ieee K p emin emax} (h : Tol t) (a : Ieee K p emin emax) :
    approxZero abs t a = true ↔ (a.Finite ∧ a.val = 0) ∨ ∃ s, a = inf s := by
  have h0 : approxZero abs t a = true ↔ abs a ≤ t * abs a := decide_eq_true_iff
  rw [h0]
  match a with
  | nan =>
    refine ⟨fun h => absurd h (not_nan_le _), ?_⟩
    rintro (⟨h, -⟩ | ⟨s, h⟩) <;> cases h
  | inf s =>
    refine ⟨fun _ => .inr ⟨s, rfl⟩, fun _ => ?_⟩
    show inf false ≤ t * inf false
    rw [h.mul_inf]; rfl
  | fin x z hz hx =>
    obtain ⟨w, hw, hwv⟩ := fl_abs (show (fin x z hz hx).fl = some x from rfl)
    obtain ⟨y, h1, h2, h3⟩ := h.mul_abs hp (show (fin x z hz hx).fl = some x from rfl)
    rw [le_iff hw h1, hwv]
    have hv : (fin x z hz hx).val = x.val := rfl
    rw [hv]
    constructor
    · exact fun h => .inl ⟨rfl, by_contra fun hc => absurd (h3 hc) (not_lt.2 h)⟩
    · rintro (⟨-, h⟩ | ⟨s, h⟩)
      · rw [h, abs_zero]; exact h2
      · cases h

theorem max_self (a : Ieee K p emin emax) : max a a = a := by
  show (if a < a then a else a) = a
  split <;> rfl

/-- `approximately_equal` of a number with itself. -/
theorem approxEq_self (hp : 1 ≤ p) {t : Ieee K p emin emax} (h : Tol t) (a : Ieee K p emin emax) :
    approxEq abs t a a = true ↔ a.Finite := by
  have h0 : approxEq abs t a a = true ↔ abs (a - a) ≤ t * max (abs a) (abs a) := decide_eq_true_iff
  rw [h0, max_self]
  match a with
  | nan => exact ⟨fun h => absurd h (not_nan_le _), fun h => by cases h⟩
  | inf s =>
    refine ⟨fun h => ?_, fun h => by cases h⟩
    have : (inf s - inf s : Ieee K p emin emax) = nan := by cases s <;> rfl
    rw [this] at h
    exact absurd h (not_nan_le _)
  | fin x z hz hx =>
    refine ⟨fun _ => rfl, fun _ => ?_⟩
    obtain ⟨y, h1, h2, -⟩ := h.mul_abs hp (show (fin x z hz hx).fl = some x from rfl)
    have hxx : (x - x).val = 0 := by
      show rnd p emin (x.val - x.val) = 0
      rw [sub_self]
      exact rnd_exact hp (isFl_zero p emin)
    have h3 : (fin x z hz hx - fin x z hz hx : Ieee K p emin emax).fl = some (x - x) :=
      fl_sub rfl rfl (by rw [hxx, abs_zero]; exact pow_pos zero_lt_two _)
    obtain ⟨w, hw, hwv⟩ := fl_abs h3
    rw [le_iff hw h1, hwv, hxx, abs_zero]
    exact h2

theorem sub_inf {a : Ieee K p emin emax} {s : Bool} (ha : a ≠ nan) (h : a ≠ inf s) : a - inf s = inf !s := by
  match a with
  | nan => exact absurd rfl ha
  | fin .. => rfl
  | inf t =>
    have : t ≠ s := fun e => h (by rw [e])
    have e : (inf t - inf s : Ieee K p emin emax) = if t = !s then inf t else nan := rfl
    have : t = !s := by cases t <;> cases s <;> simp_all
    rw [e, if_pos this, this]
theorem inf_sub {a : Ieee K p emin emax} {s : Bool} (ha : a ≠ nan) (h : a ≠ inf s) : inf s - a = inf s := by
  match a with
  | nan => exact absurd rfl ha
  | fin .. => rfl
  | inf t =>
    have : t ≠ s := fun e => h (by rw [e])
    have e : (inf s - inf t : Ieee K p emin emax) = if s = !t then inf s else nan := rfl
    have : s = !t := by cases t <;> cases s <;> simp_all
    rw [e, if_pos this]

theorem max_inf_left {a : Ieee K p emin emax} : max (inf false) (abs a) = inf false := by
  show (if inf false < abs a then abs a else inf false) = inf false
  split
  · next h =>
    match a with
    | nan => exact absurd h (not_lt_nan _)
    | inf _ => rfl
    | fin x z hz hx =>
      have e : abs (fin x z hz hx) = if (fin x z hz hx).sign then -(fin x z hz hx) else fin x z hz hx := rfl
      rw [e] at h
      split at h <;> cases h
  · rfl
theorem max_inf_right {a : Ieee K p emin emax} (ha : a ≠ nan) : max (abs a) (inf false) = inf false := by
  show (if abs a < inf false then inf false else abs a) = inf false
  split
  · rfl
  · next h =>
    match a with
    | nan => exact absurd rfl ha
    | inf _ => rfl
    | fin x z hz hx =>
      refine absurd ?_ h
      have e : abs (fin x z hz hx) = if (fin x z hz hx).sign then -(fin x z hz hx) else fin x z hz hx := rfl
      rw [e]
      split <;> rfl

/-- `approximately_equal` with an infinity: equal to everything but itself and NaN. -/
theorem approxEq_inf {t : Ieee K p emin emax} (h : Tol t) (a : Ieee K p emin emax) (s : Bool) :
    (approxEq abs t a (inf s) = true ↔ a ≠ nan ∧ a ≠ inf s) ∧ (approxEq abs t (inf s) a = true ↔ a ≠ nan ∧ a ≠ inf s) := by
  have h1 : approxEq abs t a (inf s) = true ↔ abs (a - inf s) ≤ t * max (abs a) (inf false) := decide_eq_true_iff
  have h2 : approxEq abs t (inf s) a = true ↔ abs (inf s - a) ≤ t * max (inf false) (abs a) := decide_eq_true_iff
  have hii : (inf s - inf s : Ieee K p emin emax) = nan := by cases s <;> rfl
  rw [h1, h2]
  by_cases ha : a = nan
  · subst ha
    exact ⟨⟨fun h => absurd h (not_nan_le _), fun h => absurd rfl h.1⟩,
      ⟨fun h => absurd (show (nan : Ieee K p emin emax) ≤ _ by rw [sub_nan] at h; exact h) (not_nan_le _), fun h => absurd rfl h.1⟩⟩
  by_cases hi : a = inf s
  · subst hi
    rw [hii]
    exact ⟨⟨fun h => absurd h (not_nan_le _), fun h => absurd rfl h.2⟩, ⟨fun h => absurd h (not_nan_le _), fun h => absurd rfl h.2⟩⟩
  rw [sub_inf ha hi, inf_sub ha hi, max_inf_left, max_inf_right ha, h.mul_inf]
  exact ⟨⟨fun _ => ⟨ha, hi⟩, fun _ => rfl⟩, ⟨fun _ => ⟨ha, hi⟩, fun _ => rfl⟩⟩

end Ieee

/-- C96, `A == A`: the entries that compare equal with themselves are the finite ones; infinities do not. -/
theorem C96_self_equal_partial (hp : 1 ≤ p) {t : Ieee K p emin emax} (ht : Tol t) {A : MB (Ieee K p emin emax)} {n m : Nat} {e} (hA : Rep A n m e) :
    ∃ E : Nat → Nat → Bool, Returns (cmp (eqApprox Ieee.abs t) A A) n m E ∧ ∀ i j, E i j = true ↔ (e i j).Finite :=
  ⟨fun i j => approxEq Ieee.abs t (e i j) (e i j), Returns.of_eq hA.fits (zipMat_eq hA hA fun _ _ _ _ => rfl),
    fun _ _ => approxEq_self hp ht _⟩

/-- C96, `A == b` with an infinite `b`: true for the entries that are neither NaN nor that infinity, so for all finite ones and for the
opposite infinity. -/
theorem C96_equal_inf_false {t : Ieee K p emin emax} (ht : Tol t) {A : MB (Ieee K p emin emax)} {n m : Nat} {e} (hA : Rep A n m e)
    (s : Bool) :
    ∃ E : Nat → Nat → Bool, Returns (cmpS (eqApprox Ieee.abs t) A (inf s)) n m E ∧ ∀ i j, E i j = true ↔ e i j ≠ nan ∧ e i j ≠ inf s :=
  ⟨fun i j => approxEq Ieee.abs t (e i j) (inf s), Returns.of_eq hA.fits (mapMat_eq hA fun _ _ _ _ => rfl),
    fun _ _ => (approxEq_inf ht _ s).1⟩

/-- C96, `inverse`: when the determinant overflows the matrix counts as singular. -/
theorem C96_inverse_overflow_false (hp : 1 ≤ p) {t : Ieee K p emin emax} (ht : Tol t) {A : MB (Ieee K p emin emax)} {n : Nat} {e}
    (hA : Rep A n n e) {s : Bool} (hd : determinant (approxZero Ieee.abs t) A = .ok (inf s)) :
    inverse (approxZero Ieee.abs t) A = .ok Mat.empty0 := by
  unfold inverse
  rw [if_neg (by rw [Lin.isSquare_eq hA.toRepAt]; simp), hd, Res.ok_bind, if_pos ((approxZero_iff hp ht _).2 (.inr ⟨s, rfl⟩))]
  rfl

/-- C96, `all_close`: exactly the entries whose difference is seen to exceed the tolerance count, so NaN is close to everything. -/
theorem C96_all_close_partial {A B : MB (Ieee K p emin emax)} {n m : Nat} {e f} (hA : Rep A n m e) (hB : Rep B n m f) (t : Ieee K p emin emax) :
    ∃ x, Util.allClose Ieee.abs A B t = .ok x ∧ (x = true ↔ ∀ i j, i < n → j < m → ¬ t < Ieee.abs (e i j - f i j)) := by
  unfold Util.allClose
  rw [if_neg (by rw [hA.rows, hB.rows]; simp), if_neg (by rw [hA.cols, hB.cols]; simp), hA.size]
  obtain ⟨x, h1, h2⟩ := Util.search_spec (n := n * m) (P := fun i => t < Ieee.abs (e (i / m) (i % m) - f (i / m) (i % m)))
    (body := fun i => do
      let x ← A.lin i
      let y ← B.lin i
      return (if t < Ieee.abs (x - y) then some false else none))
    (fun i hi => by rw [hA.lin' hi, hB.lin' hi]; rfl)
  refine ⟨x, h1, h2.trans ⟨fun h i j hi hj => ?_, fun h i hi => ?_⟩⟩
  · have := h (i * m + j) (lin_lt hi hj)
    rwa [lin_div hj, lin_mod hj] at this
  · have h3 := lin_of_lt hi
    exact h _ _ h3.1 h3.2.1

/-- C96, the negation for `all_close`: a matrix of NaN is close to every matrix of its shape, whatever the tolerance. -/
theorem C96_all_close_nan_false {A B : MB (Ieee K p emin emax)} {n m : Nat} {e f} (hA : Rep A n m e) (hB : Rep B n m f)
    (t : Ieee K p emin emax) (h : ∀ i j, i < n → j < m → e i j = nan) : Util.allClose Ieee.abs A B t = .ok true := by
  obtain ⟨x, h1, h2⟩ := C96_all_close_partial hA hB t
  rw [h1, h2.2 fun i j hi hj => by rw [h i j hi hj]; exact not_lt_nan _]

/-! ## Extremes -/

/-- The loops of `min` and `max` need no more than transitivity to pass over NaN. -/
theorem extreme_nan {f : Nat → Ieee K p emin emax} {n : Nat} (h0 : 0 < n) {R : Ieee K p emin emax → Ieee K p emin emax → Prop}
    [DecidableRel R] (hR : ∀ a b c, R a b → R b c → R a c) (hn1 : ∀ a, ¬ R a nan) (hn2 : ∀ a, ¬ R nan a)
    (hir : ∀ a, ¬ R a a)
    {body : Nat → Nat → Res Nat} (hb : ∀ i q, i < n → q < n → body i q = .ok (if R (f q) (f i) then i else q)) :
    (f 0 = nan → forRange 1 n 0 body = .ok 0) ∧
    (f 0 ≠ nan → ∃ q, forRange 1 n 0 body = .ok q ∧ q < n ∧ f q ≠ nan ∧ ∀ i, i < n → ¬ R (f q) (f i)) := by
  constructor
  · intro h
    refine forRange_eq h0 (fun _ => 0) rfl fun i _ hi => ?_
    rw [hb i 0 hi h0, if_neg (by rw [h]; exact hn2 _)]
  · intro h
    refine forRange_inv h0 (fun k q => q < n ∧ f q ≠ nan ∧ ∀ i, i < k → ¬ R (f q) (f i)) (s := 0) (body := body)
      ⟨h0, h, fun i hi hr => ?_⟩ (fun k q _ hk hI => ?_)
    · have hi : i = 0 := by omega
      subst hi
      exact hir _ hr
    · obtain ⟨i1, i2, i3⟩ := hI
      refine ⟨_, hb k q hk i1, ?_⟩
      split
      · next hr =>
        refine ⟨hk, fun e => hn1 _ (e ▸ hr), fun i hi hr' => ?_⟩
        by_cases e : i = k
        · subst e
          exact hir _ hr'
        · exact i3 i (by omega) (hR _ _ _ hr hr')
      · next hr =>
        refine ⟨i1, i2, fun i hi => ?_⟩
        by_cases e : i = k
        · exact e ▸ hr
        · exact i3 i (by omega)

/-- C96, `max` and `min`: if the first element is NaN, it is the result; otherwise NaNs are passed over. -/
theorem C96_extremes_partial {v : List (Ieee K p emin emax)} {n : Nat} {f : Nat → Ieee K p emin emax} (hv : VRep v n f) (h0 : 0 < n) :
    (f 0 = nan → vmax v = .ok (nan, 0) ∧ vmin v = .ok (nan, 0)) ∧
    (f 0 ≠ nan →
      (∃ q, vmax v = .ok (f q, q) ∧ q < n ∧ f q ≠ nan ∧ ∀ i, i < n → ¬ f q < f i) ∧
      (∃ q, vmin v = .ok (f q, q) ∧ q < n ∧ f q ≠ nan ∧ ∀ i, i < n → ¬ f i < f q)) := by
  obtain ⟨a1, a2⟩ := extreme_nan (f := f) (R := fun a b => a < b) h0 (fun _ _ _ => Ieee.lt_trans) not_lt_nan not_nan_lt Ieee.lt_irrefl
    (body := fun i pos => do
      let x ← vget v i
      let y ← vget v pos
      return (if y < x then i else pos)) (fun i q hi hq => by rw [hv.get hi, hv.get hq]; rfl)
  obtain ⟨b1, b2⟩ := extreme_nan (f := f) (R := fun a b => b < a) h0 (fun _ _ _ h h' => Ieee.lt_trans h' h) not_nan_lt not_lt_nan Ieee.lt_irrefl
    (body := fun i pos => do
      let x ← vget v i
      let y ← vget v pos
      return (if x < y then i else pos)) (fun i q hi hq => by rw [hv.get hi, hv.get hq]; rfl)
  have hmax : ∀ q, q < n → forRange 1 n 0 (fun i pos => do
      let x ← vget v i
      let y ← vget v pos
      return (if y < x then i else pos)) = .ok q → vmax v = .ok (f q, q) := fun q hq h => by
    unfold vmax
    rw [hv.2.1, if_neg (by omega), h, Res.ok_bind, hv.get hq]; rfl
  have hmin : ∀ q, q < n → forRange 1 n 0 (fun i pos => do
      let x ← vget v i
      let y ← vget v pos
      return (if x < y then i else pos)) = .ok q → vmin v = .ok (f q, q) := fun q hq h => by
    unfold vmin
    rw [hv.2.1, if_neg (by omega), h, Res.ok_bind, hv.get hq]; rfl
  refine ⟨fun h => ⟨?_, ?_⟩, fun h => ⟨?_, ?_⟩⟩
  · rw [hmax 0 h0 (a1 h), h]
  · rw [hmin 0 h0 (b1 h), h]
  · obtain ⟨q, h1, h2, h3, h4⟩ := a2 h
    exact ⟨q, hmax q h2 h1, h2, h3, h4⟩
  · obtain ⟨q, h1, h2, h3, h4⟩ := b2 h
    exact ⟨q, hmin q h2 h1, h2, h3, h4⟩

/-! ## `log2_ceil` terminates for `double` -/

/-- The constant `0.5`. -/
def dhalf : IDouble := mk false (1 / 2)

theorem dhalf_fl : ∃ h : Double, dhalf.fl = some h ∧ h.val = 1 / 2 := by
  have h : (Fl.of 53 (-1074) (1 / 2 : ℚ)).val = 1 / 2 := by decide +kernel
  exact ⟨_, fl_mk (by rw [h]; decide +kernel), h⟩

/-- Repeated halving of one. -/
theorem halvings_val (j : Nat) (hj : j ≤ 1074) : ∃ x : Double, ((· * dhalf)^[j] (1 : IDouble)).fl = some x ∧ x.val = 1 / 2 ^ j := by
  induction j with
  | zero => exact ⟨_, (reads (K := ℚ) (by decide) (by decide) (by decide)).one, by rw [Fl.one_val (by decide) (by decide)]; norm_num⟩
  | succ j ih =>
    obtain ⟨x, h1, h2⟩ := ih (by omega)
    obtain ⟨h, h3, h4⟩ := dhalf_fl
    have hv : (x * h).val = 1 / 2 ^ (j + 1) := by
      show rnd 53 (-1074) (x.val * h.val) = _
      rw [h2, h4]
      have e : (1 / 2 ^ j * (1 / 2) : ℚ) = 1 / 2 ^ (j + 1) := by rw [pow_succ]; field_simp
      rw [e]
      refine rnd_exact (by decide) ⟨1, -((j + 1 : ℕ) : ℤ), by omega, by norm_num, ?_⟩
      rw [zpow_neg, zpow_natCast]; simp
    refine ⟨x * h, ?_, hv⟩
    rw [Function.iterate_succ_apply']
    refine fl_mul h1 h3 ?_
    rw [hv, abs_of_pos (by positivity)]
    calc (1 / 2 ^ (j + 1) : ℚ) ≤ 1 := by rw [div_le_one (by positivity)]; exact one_le_pow₀ (by norm_num)
      _ < 2 ^ 1024 := one_lt_pow₀ (by norm_num) (by norm_num)

/-- After 1075 halvings the factor is zero. -/
theorem halvings_zero : ∃ x : Double, ((· * dhalf)^[1075] (1 : IDouble)).fl = some x ∧ x.val = 0 := by
  obtain ⟨x, h1, h2⟩ := halvings_val 1074 le_rfl
  obtain ⟨h, h3, h4⟩ := dhalf_fl
  have hv : (x * h).val = 0 := by
    show rnd 53 (-1074) (x.val * h.val) = 0
    rw [h2, h4]
    decide +kernel
  refine ⟨x * h, ?_, hv⟩
  rw [Function.iterate_succ_apply' _ 1074]
  exact fl_mul h1 h3 (by rw [hv, abs_zero]; exact pow_pos zero_lt_two _)

/-- Anything times zero is not above one. -/
theorem not_one_lt_mul_zero (a : IDouble) {b : IDouble} {x : Double} (hb : b.fl = some x) (hx : x.val = 0) : ¬ (1 : IDouble) < a * b := by
  match b with
  | nan => cases hb
  | inf _ => cases hb
  | fin y z hz hy =>
    injection hb with hb
    subst hb
    match a with
    | nan => exact not_lt_nan _
    | inf s =>
      have e : (inf s * fin y z hz hy : IDouble) = if y.val = 0 then nan else inf (s ^^ sign (fin y z hz hy)) := rfl
      rw [e, if_pos hx]
      exact not_lt_nan _
    | fin x' z' hz' hx' =>
      have hv : (x' * y).val = 0 := by
        show rnd 53 (-1074) (x'.val * y.val) = 0
        rw [hx, mul_zero]
        exact rnd_exact (by decide) (isFl_zero _ _)
      have hf : (fin x' z' hz' hx' * fin y z hz hy : IDouble).fl = some (x' * y) :=
        fl_mul rfl rfl (by rw [hv, abs_zero]; exact pow_pos zero_lt_two _)
      rw [lt_iff (reads (K := ℚ) (by decide) (by decide) (by decide)).one hf, hv, Fl.one_val (by decide) (by decide)]
      norm_num

/-- C96, `log2_ceil` of any `double` matrix terminates, after 1075 halvings at the latest, with the least number of halvings after
which the scaled norm is not above one. -/
theorem C96_log2 {A : MB IDouble} {n m : Nat} {e} (hA : Rep A n m e) :
    ∃ x k, infNorm Ieee.abs A = .ok x ∧ k ≤ 1075 ∧
      (∀ fuel, 1076 ≤ fuel → log2Ceil Ieee.abs dhalf A fuel = .ok (k, (· * dhalf)^[k] 1)) ∧
      ¬ 1 < x * (· * dhalf)^[k] 1 ∧ (∀ j, j < k → 1 < x * (· * dhalf)^[j] 1) ∧
      (x = inf false → k = 1075) := by
  classical
  obtain ⟨x, hx, -⟩ := C96_norm_not_nan hA
  have h0 : ¬ 1 < x * (· * dhalf)^[1075] 1 := by
    obtain ⟨z, h1, h2⟩ := halvings_zero
    exact not_one_lt_mul_zero x h1 h2
  have hex : ∃ k, ¬ 1 < x * (· * dhalf)^[k] 1 := ⟨1075, h0⟩
  obtain ⟨k, hk, hmin, hle⟩ : ∃ k, ¬ 1 < x * (· * dhalf)^[k] 1 ∧ (∀ j, j < k → 1 < x * (· * dhalf)^[j] 1) ∧ k ≤ 1075 :=
    ⟨Nat.find hex, Nat.find_spec hex, fun j hj => not_not.1 (Nat.find_min hex hj), Nat.find_min' hex h0⟩
  refine ⟨x, k, hx, hle, fun fuel hf => ?_, hk, hmin, ?_⟩
  · unfold log2Ceil
    rw [hx, Res.ok_bind]
    have : ∀ d j fuel, j + d = k → d + 1 ≤ fuel → whileFuel (fun (p : Nat × IDouble) =>
        if 1 < x * p.2 then .ok (some (p.1 + 1, p.2 * dhalf)) else .ok none) fuel (j, (· * dhalf)^[j] 1) =
        .ok (k, (· * dhalf)^[k] 1) := by
      intro d
      induction d with
      | zero =>
        intro j fuel hj hf
        obtain ⟨f, rfl⟩ : ∃ f, fuel = f + 1 := ⟨fuel - 1, by omega⟩
        obtain rfl : j = k := by omega
        exact whileFuel_none (by dsimp only; rw [if_neg hk]) f
      | succ d ih =>
        intro j fuel hj hf
        obtain ⟨f, rfl⟩ : ∃ f, fuel = f + 1 := ⟨fuel - 1, by omega⟩
        rw [whileFuel_some (s' := (j + 1, (· * dhalf)^[j + 1] 1)) _ f]
        · exact ih (j + 1) f (by omega) (by omega)
        · dsimp only
          rw [if_pos (hmin j (by omega)), Function.iterate_succ_apply']
    exact this k 0 fuel (by omega) (by omega)
  · rintro rfl
    by_contra hne
    obtain ⟨y, h1, h2⟩ := halvings_val k (by omega)
    apply hk
    generalize (· * dhalf)^[k] (1 : IDouble) = b at h1
    match b with
    | nan => cases h1
    | inf _ => cases h1
    | fin y' z hz hy =>
      injection h1 with h1
      subst h1
      have hpos : 0 < y'.val := by rw [h2]; positivity
      have e : (inf false * fin y' z hz hy : IDouble) = if y'.val = 0 then nan else inf (false ^^ (z || decide (y'.val < 0))) := rfl
      rw [e, if_neg hpos.ne', decide_eq_false (not_lt.2 hpos.le)]
      cases z with
      | true => exact absurd (hz rfl) hpos.ne'
      | false => decide +kernel

/-- `tolerance()`, `feq.hpp:15-19`. -/
def dtol : IDouble := dbl (1 / 1000000)

theorem dtol_ok : Tol dtol := ⟨by decide +kernel, by decide +kernel, by decide +kernel⟩

/-- The test for zero of `double`. -/
abbrev dIsZero : IDouble → Bool := approxZero Ieee.abs dtol

/-- C96 is false for `inverse`: a multiple of the identity whose determinant overflows has no inverse, although the inverse is
representable; its entries are `2^-600`. -/
theorem C96_inverse_false :
    inverse dIsZero (Mat.ofFn 2 2 fun i j => if i = j then dbl (2 ^ 600) else dbl 0).toMB = .ok Mat.empty0 ∧
    mul (Mat.ofFn 2 2 fun i j => if i = j then dbl (2 ^ 600) else dbl 0).toMB
      (Mat.ofFn 2 2 fun i j => if i = j then dbl (1 / 2 ^ 600) else dbl 0).toMB = .ok (Mat.ofFn 2 2 fun i j => if i = j then 1 else 0) := by
  decide +kernel

/-- C96, the conversion of the number of steps: defined only for finite numbers above -1 whose integer part fits, and then it is the
integer part. -/
theorem C96_steps (a : IDouble) (k : Nat) :
    Ieee.toSize a = .ok k ↔ a.Finite ∧ k < 2 ^ 64 ∧ ((k : ℚ) ≤ a.val ∧ a.val < k + 1 ∨ k = 0 ∧ -1 < a.val ∧ a.val < 0) := by
  match a with
  | nan => exact ⟨fun h => (by cases h), fun h => absurd h.1 (by decide)⟩
  | inf s => exact ⟨fun h => (by cases h), fun h => absurd h.1 (by cases s <;> decide)⟩
  | fin x z h1 h2 =>
    have hv : (fin x z h1 h2 : IDouble).val = x.val := rfl
    have hf : (fin x z h1 h2 : IDouble).Finite := rfl
    rw [hv, ← W_eq]
    show (if -1 < x.val ∧ ⌊x.val⌋₊ < W then Res.ok ⌊x.val⌋₊ else .ub .badCast) = .ok k ↔ _
    rcases lt_or_ge x.val 0 with h0 | h0
    · have e : ⌊x.val⌋₊ = 0 := Nat.floor_of_nonpos h0.le
      rw [e]
      split
      · rename_i h
        rw [Res.ok.injEq]
        constructor
        · rintro rfl; exact ⟨hf, h.2, .inr ⟨rfl, h.1, h0⟩⟩
        · rintro ⟨-, -, h3 | h3⟩
          · have : (0 : ℚ) ≤ k := Nat.cast_nonneg k
            linarith [h3.1]
          · exact h3.1.symm
      · rename_i h
        constructor
        · intro e; cases e
        · rintro ⟨-, h4, h3 | h3⟩
          · have : (0 : ℚ) ≤ k := Nat.cast_nonneg k
            linarith [h3.1]
          · exact absurd ⟨h3.2.1, h3.1 ▸ h4⟩ h
    · split
      · rename_i h
        rw [Res.ok.injEq, Nat.floor_eq_iff h0]
        constructor
        · intro h3; exact ⟨hf, by rw [← (Nat.floor_eq_iff h0).2 h3]; exact h.2, .inl h3⟩
        · rintro ⟨-, -, h3 | h3⟩
          · exact h3
          · linarith [h3.2.2]
      · rename_i h
        constructor
        · intro e; cases e
        · rintro ⟨-, h4, h3 | h3⟩
          · exact absurd ⟨by linarith, by rw [(Nat.floor_eq_iff h0).2 h3]; exact h4⟩ h
          · linarith [h3.2.2]

example : Ieee.toSize (dbl (5/2)) = .ok 2 ∧ Ieee.toSize (dbl (-1/2)) = .ok 0 ∧ Ieee.toSize (dbl (-1)) = .ub .badCast ∧
    Ieee.toSize (dbl (2 ^ 64)) = .ub .badCast ∧ Ieee.toSize (nan : IDouble) = .ub .badCast := by decide +kernel

/-- C96 is false for `simulate`: with a sample time of zero the number of steps is cast from an infinity or a NaN, which is undefined. -/
theorem C96_simulate_false (sys : DiscreteStateSpace IDouble) (u : List (List IDouble)) (t : IDouble) (init : List IDouble)
    (h0 : sys.sampleTime.Finite) (h1 : sys.sampleTime.val = 0) : Control.simulate Ieee.toSize sys u t init = .ub .badCast := by
  unfold Control.simulate
  have h := Ieee.div_zero_finite t h0 h1
  have e : (cdiv t sys.sampleTime : Res IDouble) = .ok (Ieee.div t sys.sampleTime) := rfl
  rw [e, Res.ok_bind]
  generalize Ieee.div t sys.sampleTime = q at h
  match q with
  | nan => rfl
  | inf _ => rfl
  | fin .. => exact absurd rfl h

example : dIsZero (inf true) = true ∧ dIsZero nan = false ∧ dIsZero (dbl 0) = true ∧ dIsZero (dbl (1 / 2 ^ 1074)) = false := by decide +kernel
example : approxEq Ieee.abs dtol (inf false) (dbl 5) = true ∧ approxEq Ieee.abs dtol (inf false) (inf true) = true ∧
    approxEq Ieee.abs dtol (inf false) (inf false) = false ∧ approxEq Ieee.abs dtol nan nan = false := by decide +kernel
example : vmax [nan, dbl 1, dbl 2] = .ok (nan, 0) ∧ vmax [dbl 1, nan, dbl 2] = .ok (dbl 2, 2) ∧
    vmin [dbl 1, nan, inf true] = .ok (inf true, 2) := by decide +kernel
example : Util.allClose Ieee.abs (⟨1, 2, [nan, dbl 1]⟩ : Mat IDouble).toMB (⟨1, 2, [dbl 7, dbl 1]⟩ : Mat IDouble).toMB dtol = .ok true ∧
    Util.allClose Ieee.abs (⟨1, 1, [inf false]⟩ : Mat IDouble).toMB (⟨1, 1, [dbl 7]⟩ : Mat IDouble).toMB dtol = .ok false := by decide +kernel
example : infNorm Ieee.abs (⟨2, 1, [nan, dbl (-3)]⟩ : Mat IDouble).toMB = .ok (dbl 3) ∧
    infNorm Ieee.abs (⟨1, 1, [nan]⟩ : Mat IDouble).toMB = .ok 0 := by decide +kernel
example : log2Ceil Ieee.abs dhalf (⟨1, 1, [dbl 9]⟩ : Mat IDouble).toMB 9 = .ok (4, dbl (1 / 16)) := by decide +kernel
example : divS (⟨1, 3, [dbl 1, dbl (-1), dbl 0]⟩ : Mat IDouble).toMB (dbl 0) = .ok ⟨1, 3, [inf false, inf true, nan]⟩ := by decide +kernel
example : mul (⟨1, 2, [nan, dbl 1]⟩ : Mat IDouble).toMB (⟨2, 2, [dbl 0, dbl 1, dbl 2, dbl 3]⟩ : Mat IDouble).toMB = .ok ⟨1, 2, [nan, nan]⟩ := by
  decide +kernel
example : dot [dbl 0, dbl 1] [nan, dbl 1] = .ok nan ∧ Ops.sum [dbl 1, nan] = .ok nan := by decide +kernel
example : trace (⟨2, 2, [dbl 1, dbl 0, dbl 0, nan]⟩ : Mat IDouble).toMB = .ok nan ∧
    determinant dIsZero (⟨2, 2, [dbl 1, nan, dbl 0, dbl 1]⟩ : Mat IDouble).toMB = .ok nan := by decide +kernel

end Malg
