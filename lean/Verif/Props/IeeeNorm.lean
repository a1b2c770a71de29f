import Verif.Props.FloatNorm
import Verif.Props.IeeeC2d
/-!
# C132: norms of IEEE doubles
-/
namespace Malg
open Ops Ieee

namespace Ieee
variable {K : Type} [Field K] [LinearOrder K] [IsStrictOrderedRing K] [FloorRing K] {p : ℕ} {emin : ℤ} {emax : ℕ}

/-- What a sum of squares can be: NaN, the positive infinity, or a finite number without a sign. -/
def Unsigned (a : Ieee K p emin emax) : Prop := a.sign = false

theorem unsigned_val {a : Ieee K p emin emax} (h : a.Unsigned) : 0 ≤ a.val := by
  match a with
  | nan => exact le_rfl
  | inf s => exact le_rfl
  | fin x z hz hx =>
    have h : (z || decide (x.val < 0)) = false := h
    rw [Bool.or_eq_false_iff] at h
    exact not_lt.1 (of_decide_eq_false h.2)

theorem mk_unsigned {r : K} (h : 0 ≤ r) : (mk false r : Ieee K p emin emax).Unsigned := by
  unfold mk Unsigned
  split
  · show (false || decide (rnd p emin r < 0)) = false
    rw [Bool.false_or, decide_eq_false (not_lt.2 (rnd_nonneg h))]
  · rfl

theorem sq_unsigned (a : Ieee K p emin emax) : (a * a).Unsigned ∧ (a * a = nan ↔ a = nan) ∧ (∀ s, a = inf s → a * a = inf false) := by
  match a with
  | nan => exact ⟨rfl, by simp [nan_mul], fun s h => by cases h⟩
  | inf s => exact ⟨by cases s <;> rfl, ⟨fun h => (by cases s <;> cases h), fun h => by cases h⟩, fun t _ => by cases s <;> rfl⟩
  | fin x z hz hx =>
    have e : (fin x z hz hx * fin x z hz hx : Ieee K p emin emax) = mk ((fin x z hz hx : Ieee K p emin emax).sign ^^ (fin x z hz hx : Ieee K p emin emax).sign) (x.val * x.val) := rfl
    rw [e, Bool.xor_self]
    exact ⟨mk_unsigned (mul_self_nonneg _), ⟨fun h => absurd h (mk_ne_nan _ _), fun h => by cases h⟩, fun s h => by cases h⟩

theorem add_unsigned {a b : Ieee K p emin emax} (ha : a.Unsigned) (hb : b.Unsigned) : (a + b).Unsigned ∧ (a + b = nan ↔ a = nan ∨ b = nan) := by
  match a, b with
  | nan, b => exact ⟨rfl, by simp [nan_add]⟩
  | inf s, nan => exact ⟨rfl, by rw [add_nan]; simp⟩
  | fin .., nan => exact ⟨rfl, by rw [add_nan]; simp⟩
  | inf s, inf t =>
    obtain rfl : s = false := ha
    obtain rfl : t = false := hb
    exact ⟨rfl, ⟨nofun, fun h => by rcases h with h | h <;> cases h⟩⟩
  | inf s, fin x z hz hx =>
    obtain rfl : s = false := ha
    exact ⟨rfl, ⟨nofun, fun h => by rcases h with h | h <;> cases h⟩⟩
  | fin x z hz hx, inf s =>
    obtain rfl : s = false := hb
    exact ⟨rfl, ⟨nofun, fun h => by rcases h with h | h <;> cases h⟩⟩
  | fin x z hz hx, fin y w hw hy =>
    have h1 : 0 ≤ x.val := unsigned_val ha
    have h2 : 0 ≤ y.val := unsigned_val hb
    have e : (fin x z hz hx + fin y w hw hy : Ieee K p emin emax) = mk false (x.val + y.val) := by
      show mk (if x.val + y.val = 0 then (fin x z hz hx : Ieee K p emin emax).sign && (fin y w hw hy : Ieee K p emin emax).sign else decide (x.val + y.val < 0)) (x.val + y.val) = _
      rw [show (fin x z hz hx : Ieee K p emin emax).sign = false from ha, Bool.false_and, decide_eq_false (not_lt.2 (add_nonneg h1 h2)), ite_self]
    rw [e]
    exact ⟨mk_unsigned (add_nonneg h1 h2), ⟨fun h => absurd h (mk_ne_nan _ _), fun h => by rcases h with h | h <;> cases h⟩⟩

/-- Sums of squares, or of anything else without a sign. -/
theorem lsum_unsigned {t : Nat → Ieee K p emin emax} (n : Nat) (h : ∀ i, i < n → (t i).Unsigned) :
    (lsum n t).Unsigned ∧ (lsum n t = nan ↔ ∃ i, i < n ∧ t i = nan) := by
  induction n with
  | zero =>
    refine ⟨?_, ⟨fun h => (by cases h), fun ⟨i, h, _⟩ => by omega⟩⟩
    show (false || decide ((0 : Fl K p emin).val < 0)) = false
    rw [show (0 : Fl K p emin).val = 0 from rfl]; simp
  | succ n ih =>
    obtain ⟨h1, h2⟩ := ih fun i hi => h i (by omega)
    obtain ⟨g1, g2⟩ := add_unsigned h1 (h n (by omega))
    refine ⟨g1, ?_⟩
    rw [show lsum (n + 1) t = lsum n t + t n from rfl, g2, h2]
    constructor
    · rintro (⟨i, hi, e⟩ | e)
      · exact ⟨i, by omega, e⟩
      · exact ⟨n, by omega, e⟩
    · rintro ⟨i, hi, e⟩
      rcases Nat.lt_succ_iff_lt_or_eq.1 hi with hi | rfl
      · exact .inl ⟨i, hi, e⟩
      · exact .inr e

theorem unsigned_cases {a : Ieee K p emin emax} (h : a.Unsigned) : a = nan ∨ a = inf false ∨ a.Finite := by
  match a with
  | nan => exact .inl rfl
  | inf s => obtain rfl : s = false := h; exact .inr (.inl rfl)
  | fin .. => exact .inr (.inr rfl)

end Ieee

theorem sqrtQ_nonneg (k : ℕ) (x : ℚ) : 0 ≤ sqrtQ k x := by
  unfold sqrtQ
  dsimp only
  split <;> positivity

/-- The root of a number without a sign. -/
theorem sqrt_unsigned {a : IDouble} (h : a.Unsigned) : (Ieee.sqrt a).Unsigned ∧ (Ieee.sqrt a = nan ↔ a = nan) ∧ ((Ieee.sqrt a).Finite ↔ a.Finite) ∧
    (a = inf false → Ieee.sqrt a = inf false) := by
  have h0 := unsigned_val h
  match a with
  | nan => exact ⟨rfl, by simp [Ieee.sqrt], by simp [Ieee.sqrt], fun h => by cases h⟩
  | inf s => obtain rfl : s = false := h; exact ⟨rfl, by simp [Ieee.sqrt], by simp [Ieee.sqrt], fun _ => rfl⟩
  | fin x z hz hx =>
    have hf := (isqrt_val (a := fin x z hz hx) rfl h0).1
    refine ⟨?_, ⟨fun e => (by rw [e] at hf; cases hf), fun e => (by cases e)⟩, ⟨fun _ => rfl, fun _ => hf⟩, fun e => by cases e⟩
    have h0 : 0 ≤ x.val := h0
    unfold Ieee.sqrt
    dsimp only
    rw [if_neg (not_lt.2 h0)]
    split
    · exact h
    · exact mk_unsigned (sqrtQ_nonneg _ _)

theorem fl_real (x : Double) : ∃ y : RDouble, y.val = (x.val : ℝ) :=
  ⟨Fl.of 53 (-1074) (x.val : ℝ), by
    show rnd 53 (-1074) (x.val : ℝ) = _
    rw [← rnd_ratCast, rnd_exact (by decide) x.isFl]⟩

theorem sqrtRat_err (x : Double) (h : 0 ≤ (x.val : ℝ)) : |((Fl.sqrtRat x).val : ℝ) - √(x.val : ℝ)| ≤ 2 ^ (-((53 : ℕ) : ℤ)) * √(x.val : ℝ) := by
  obtain ⟨y, hy⟩ := fl_real x
  have h1 := Fl.sqrt_err (p := 53) (emin := -1074) (by norm_num) y (by rw [hy]; exact h)
  rw [hy] at h1
  rw [Fl.sqrtRat_val (by decide) x (by exact_mod_cast h)]
  rw [show y.sqrt.val = rnd 53 (-1074) √(y.val) from rfl, hy] at h1
  exact h1

set_option exponentiation.threshold 3000 in
/-- The root of a sum of squares in `double`. -/
theorem root_squares (f : Nat → IDouble) (n : Nat) :
    (Ieee.sqrt (lsum n fun i => f i * f i)).sign = false ∧
    (Ieee.sqrt (lsum n fun i => f i * f i) = nan ↔ ∃ i, i < n ∧ f i = nan) ∧
    ((Ieee.sqrt (lsum n fun i => f i * f i)).Finite → (∀ i, i < n → (f i).Finite) ∧ (n < 2 ^ 52 →
      |rval (Ieee.sqrt (lsum n fun i => f i * f i)) - √(∑ i ∈ Finset.range n, rval (f i) ^ 2)| ≤
        (n + 1) / 2 ^ 52 * √(∑ i ∈ Finset.range n, rval (f i) ^ 2) + √n / 2 ^ 536)) ∧
    ((∀ i, i < n → (f i).Finite) → n < 2 ^ 52 → √(∑ i ∈ Finset.range n, rval (f i) ^ 2) ≤ 2 ^ 511 → (Ieee.sqrt (lsum n fun i => f i * f i)).Finite) ∧
    ((∃ i, i < n ∧ (f i).Finite ∧ 2 ^ 512 ≤ |(f i).val|) → ¬ (Ieee.sqrt (lsum n fun i => f i * f i)).Finite) := by
  obtain ⟨u1, u2⟩ := lsum_unsigned n fun i _ => (sq_unsigned (f i)).1
  obtain ⟨v1, v2, v3, v4⟩ := sqrt_unsigned u1
  have hsum : ∑ i ∈ Finset.range n, rval (f i) ^ 2 = ((∑ i ∈ Finset.range n, |(f i).val| * |(f i).val| : ℚ) : ℝ) := by
    push_cast
    exact Finset.sum_congr rfl fun i _ => by rw [abs_mul_abs_self, rval, sq]
  obtain ⟨d1, d2⟩ := dot_finite (K := ℚ) (p := 53) (emin := -1074) (emax := 1024) (by decide) (by decide) (by decide) f f n
  refine ⟨v1, ?_, fun h => ⟨fun i hi => ((d1 (v3.1 h)).1 i hi).1, fun hn => ?_⟩, fun hf hn hs => v3.2 (d2 (fun i hi => ⟨hf i hi, hf i hi⟩) ?_), ?_⟩
  · rw [v2, u2]
    simp only [(sq_unsigned _).2.1]
  · have hS := v3.1 h
    have hx := (isqrt_val hS (unsigned_val u1)).2
    have hv : (lsum n fun i => f i * f i).flD = lsum n fun i => (f i).flD * (f i).flD :=
      hS.eq (ireads.rd_lsum fun i _ => ireads.rd_mul (rd_flD (f i)) (rd_flD (f i)))
    have h0 : 0 ≤ (lsum n fun i => (f i).flD * (f i).flD).val := by rw [← hv]; exact unsigned_val u1
    have hr := sqrt_lsum_err (T := Double) (val := fun x : Double => (x.val : ℝ)) (double_rounds) Sqrt.real (sqrt := Fl.sqrtRat)
      (fun a ha => (sqrtRat_err a ha).trans_eq (by norm_num)) (fun a => by
        have : 0 ≤ (a * a).val := rnd_nonneg (mul_self_nonneg a.val)
        exact_mod_cast this) (by norm_num) (fun i => (f i).flD) n
    rw [Fl.sqrtRat_val (by decide) _ h0, ← hv] at hr
    rw [hx]
    have e1 : ∑ i ∈ Finset.range n, rval (f i) ^ 2 = ∑ i ∈ Finset.range n, ((f i).flD.val : ℝ) * (f i).flD.val :=
      Finset.sum_congr rfl fun i _ => by rw [rval_flD, sq]
    rw [e1]
    refine hr.trans (add_le_add (mul_le_mul_of_nonneg_right ?_ (Real.sqrt_nonneg _)) ?_)
    · have := double_factor_real (k := n + 1) (by omega)
      rw [show (2 : ℝ) ^ (-((53 : ℕ) : ℤ)) = 1 / 2 ^ 53 by norm_num] at this
      push_cast at this ⊢
      exact this
    · have := underflow_le hn.le
      rw [show (2 : ℝ) ^ (-((53 : ℕ) : ℤ)) = 1 / 2 ^ 53 by norm_num, show (2 : ℝ) ^ (-1074 : ℤ) / 2 = 1 / 2 ^ 1075 by
        rw [zpow_neg, pow_succ, one_div, mul_inv, div_eq_mul_inv]; rfl] at this
      exact this
  · set S := ∑ i ∈ Finset.range n, |(f i).val| * |(f i).val| with hSd
    have hS0 : 0 ≤ S := Finset.sum_nonneg fun i _ => mul_nonneg (abs_nonneg _) (abs_nonneg _)
    have hS : S ≤ 2 ^ 1022 := by
      rw [hsum, Real.sqrt_le_left (by positivity), ← pow_mul] at hs
      exact_mod_cast hs
    have hfac : ∀ k, k ≤ n → (1 + 2 ^ (-((53 : ℕ) : ℤ)) : ℚ) ^ k ≤ 2 := fun k hk => by
      have h1 := double_factor (k := k) (by omega)
      rw [show (2 : ℚ) ^ (-((53 : ℕ) : ℤ)) = 1 / 2 ^ 53 by norm_num]
      have h2 : (k : ℚ) / 2 ^ 52 ≤ 1 := by
        rw [div_le_one (by positivity)]
        exact_mod_cast (by omega : k ≤ 2 ^ 52)
      linarith
    unfold headroom
    have h1 := mul_le_mul (hfac n le_rfl) hS hS0 zero_le_two
    have h2 : (n : ℚ) * (1 + 2 ^ (-((53 : ℕ) : ℤ))) ^ (n - 1) * (2 ^ (-1074 : ℤ) / 2) ≤ 2 ^ 52 * 2 * 1 := by
      apply mul_le_mul (mul_le_mul (by exact_mod_cast hn.le) (hfac _ (by omega)) (by positivity) (by positivity)) _ (by positivity) (by positivity)
      rw [zpow_neg]
      have : ((2 : ℚ) ^ (1074 : ℤ))⁻¹ ≤ 1 := inv_le_one_of_one_le₀ (one_le_zpow₀ (by norm_num) (by norm_num))
      linarith
    have h3 : (2 : ℚ) * 2 ^ 1022 + 2 ^ 52 * 2 * 1 < 2 ^ 1024 := by norm_num
    exact lt_of_le_of_lt (add_le_add h1 h2) h3
  · rintro ⟨i, hi, -, hbig⟩ h
    have hm := ireads.some_lsum (v3.1 h) i hi
    obtain ⟨x, y, h1, h2, h3, h4⟩ := fl_mul_some (Option.isSome_iff_exists.1 hm).choose_spec
    rw [h1] at h2
    obtain rfl := Option.some.inj h2
    have hx : (f i).val = x.val := by rw [Ieee.val, flD, h1]; rfl
    rw [hx] at hbig
    have h5 : (2 : ℚ) ^ 1024 ≤ x.val * x.val := by
      rw [← abs_mul_abs_self]
      calc (2 : ℚ) ^ 1024 = 2 ^ 512 * 2 ^ 512 := by norm_num
        _ ≤ _ := mul_le_mul hbig hbig (by positivity) (abs_nonneg _)
    have h6 := rnd_mono (p := 53) (by decide) (-1074) h5
    rw [rnd_exact (K := ℚ) (p := 53) (emin := -1074) (x := 2 ^ 1024) (by decide) ⟨1, 1024, by norm_num, by norm_num, by norm_num⟩] at h6
    have h7 : (2 : ℚ) ^ 1024 ≤ (x * x).val := h6
    exact absurd h4 (not_lt.2 (h7.trans (le_abs_self _)))

/-- Not underflowing: the absolute part of the bound is then below the relative one. -/
theorem norm_relative {x r : ℝ} {n : Nat} (hn : n < 2 ^ 50) (hr : 1 / 2 ^ 459 ≤ r) (h : |x - r| ≤ (n + 1) / 2 ^ 52 * r + √n / 2 ^ 536) :
    |x - r| ≤ (n + 2) / 2 ^ 52 * r := by
  have h1 : √(n : ℝ) ≤ 2 ^ 25 := by
    rw [Real.sqrt_le_left (by positivity), ← pow_mul]
    exact_mod_cast hn.le
  have h2 : √(n : ℝ) / 2 ^ 536 ≤ 1 / 2 ^ 52 * (1 / 2 ^ 459) := by
    rw [div_le_iff₀ (by positivity)]
    refine h1.trans ?_
    rw [show (2 : ℝ) ^ 536 = 2 ^ 52 * 2 ^ 459 * 2 ^ 25 by rw [← pow_add, ← pow_add]]
    generalize hq : (2 : ℝ) ^ 459 = q
    have : 0 < q := by rw [← hq]; positivity
    field_simp
    exact le_rfl
  generalize (1 : ℝ) / 2 ^ 459 = q at *
  generalize √(n : ℝ) / 2 ^ 536 = z at *
  refine h.trans ?_
  have : (1 : ℝ) / 2 ^ 52 * q ≤ 1 / 2 ^ 52 * r := mul_le_mul_of_nonneg_left hr (by positivity)
  have e : ((n : ℝ) + 2) / 2 ^ 52 * r = (n + 1) / 2 ^ 52 * r + 1 / 2 ^ 52 * r := by ring
  linarith

/-- C132: `square_norm(v)` of any `double`s. It has no sign; it is NaN exactly if an element is; if it is finite then so are the elements and it is the length up to the
bound of C107, which is relative unless the length is below `2^-459`. It is finite if the elements are and the length is at most `2^511`; it is infinite or NaN
if an element reaches `2^512`. -/
theorem C132_euclid_partial {v : List IDouble} {n : Nat} {f : Nat → IDouble} (hv : VRep v n f) :
    ∃ x, squareNormVec Ieee.sqrt v = .ok x ∧ (x = nan ∨ x = inf false ∨ x.Finite ∧ x.sign = false) ∧ (x = nan ↔ ∃ i, i < n ∧ f i = nan) ∧
      (x.Finite → ∀ i, i < n → (f i).Finite) ∧
      (x.Finite → n < 2 ^ 52 → |rval x - √(∑ i ∈ Finset.range n, rval (f i) ^ 2)| ≤ (n + 1) / 2 ^ 52 * √(∑ i ∈ Finset.range n, rval (f i) ^ 2) + √n / 2 ^ 536) ∧
      (x.Finite → n < 2 ^ 50 → 1 / 2 ^ 459 ≤ √(∑ i ∈ Finset.range n, rval (f i) ^ 2) →
        |rval x - √(∑ i ∈ Finset.range n, rval (f i) ^ 2)| ≤ (n + 2) / 2 ^ 52 * √(∑ i ∈ Finset.range n, rval (f i) ^ 2)) ∧
      ((∀ i, i < n → (f i).Finite) → n < 2 ^ 52 → √(∑ i ∈ Finset.range n, rval (f i) ^ 2) ≤ 2 ^ 511 → x.Finite) ∧
      ∀ i, i < n → (f i).Finite → 2 ^ 512 ≤ |(f i).val| → ¬ x.Finite := by
  obtain ⟨h1, h2, h3, h4, h5⟩ := root_squares f n
  refine ⟨Ieee.sqrt (lsum n fun i => f i * f i), ?_, ?_, h2, fun h => (h3 h).1, fun h => (h3 h).2, fun h hn hr => norm_relative hn hr ((h3 h).2 (hn.trans (by norm_num))),
    h4, fun i hi hf hb => h5 ⟨i, hi, hf, hb⟩⟩
  · unfold squareNormVec
    rw [hv.2.1, accum_eq (g := fun i => f i * f i) (fun i acc hi => by rw [hv.get hi]; rfl)]
    rfl
  · rcases unsigned_cases h1 with h | h | h
    · exact .inl h
    · exact .inr (.inl h)
    · exact .inr (.inr ⟨h, h1⟩)

theorem sum_rows {K : Type} [AddCommMonoid K] (n m : Nat) (g : Nat → Nat → K) :
    ∑ k ∈ Finset.range (n * m), g (k / m) (k % m) = ∑ i : Fin n, ∑ j : Fin m, g i j := by
  induction n with
  | zero => simp
  | succ n ih =>
    rw [Nat.succ_mul, Finset.sum_range_add, ih, Fin.sum_univ_castSucc, Finset.sum_range]
    congr 1
    exact Finset.sum_congr rfl fun j _ => by rw [lin_div j.2, lin_mod j.2]; rfl

/-- C132: the same for `square_norm(A)` of a matrix or view with `n * m` elements. -/
theorem C132_frobenius {A : MB IDouble} {n m : Nat} {M : Matrix (Fin n) (Fin m) IDouble} (hA : A.Is M) :
    ∃ x, squareNorm Ieee.sqrt A = .ok x ∧ (x = nan ∨ x = inf false ∨ x.Finite ∧ x.sign = false) ∧ (x = nan ↔ ∃ i j, M i j = nan) ∧
      (x.Finite → ∀ i j, (M i j).Finite) ∧
      (x.Finite → n * m < 2 ^ 52 → |rval x - √(∑ i, ∑ j, rval (M i j) ^ 2)| ≤ ((n * m : ℕ) + 1) / 2 ^ 52 * √(∑ i, ∑ j, rval (M i j) ^ 2) + √(n * m : ℕ) / 2 ^ 536) ∧
      (x.Finite → n * m < 2 ^ 50 → 1 / 2 ^ 459 ≤ √(∑ i, ∑ j, rval (M i j) ^ 2) →
        |rval x - √(∑ i, ∑ j, rval (M i j) ^ 2)| ≤ ((n * m : ℕ) + 2) / 2 ^ 52 * √(∑ i, ∑ j, rval (M i j) ^ 2)) ∧
      ((∀ i j, (M i j).Finite) → n * m < 2 ^ 52 → √(∑ i, ∑ j, rval (M i j) ^ 2) ≤ 2 ^ 511 → x.Finite) ∧
      ∀ i j, (M i j).Finite → 2 ^ 512 ≤ |(M i j).val| → ¬ x.Finite := by
  obtain ⟨e, h, rfl⟩ := hA
  obtain ⟨h1, h2, h3, h4, h5⟩ := root_squares (fun k => e (k / m) (k % m)) (n * m)
  have hs := sum_rows n m fun i j => rval (e i j) ^ 2
  rw [hs] at h3 h4
  have hpos : ∀ k, k < n * m → k / m < n ∧ k % m < m := fun k hk => by
    have h3 := lin_of_lt hk
    exact ⟨h3.1, h3.2.1⟩
  have hk : ∀ (i : Fin n) (j : Fin m), (i * m + j : ℕ) < n * m ∧ (i * m + j : ℕ) / m = i ∧ (i * m + j : ℕ) % m = j := fun i j => by
    refine ⟨?_, lin_div j.2, lin_mod j.2⟩
    calc (i * m + j : ℕ) < i * m + m := by omega
      _ = (i + 1) * m := by ring
      _ ≤ n * m := Nat.mul_le_mul_right _ i.2
  refine ⟨_, ?_, ?_, h2.trans ⟨fun ⟨k, hk, hn⟩ => ⟨⟨_, (hpos k hk).1⟩, ⟨_, (hpos k hk).2⟩, hn⟩, fun ⟨i, j, hn⟩ => ⟨i * m + j, (hk i j).1, ?_⟩⟩, fun h i j => ?_, fun h => (h3 h).2,
    fun h hn hr => norm_relative hn hr ((h3 h).2 (hn.trans (by norm_num))), fun hf => h4 fun k hk => hf ⟨_, (hpos k hk).1⟩ ⟨_, (hpos k hk).2⟩,
    fun i j hf hb => h5 ⟨i * m + j, (hk i j).1, ?_⟩⟩
  · unfold squareNorm
    rw [h.rows, h.cols, accum_rows (g := fun i j => e i j * e i j) (fun i j acc hi hj => by rw [h.get i j hi hj]; rfl)]
    rfl
  · rcases unsigned_cases h1 with h | h | h
    · exact .inl h
    · exact .inr (.inl h)
    · exact .inr (.inr ⟨h, h1⟩)
  · rw [(hk i j).2.1, (hk i j).2.2]; exact hn
  · have := (h3 h).1 _ (hk i j).1
    rw [(hk i j).2.1, (hk i j).2.2] at this
    exact this
  · rw [(hk i j).2.1, (hk i j).2.2]; exact ⟨hf, hb⟩

/-- C132: so the norm of a column of the range `r_start <= r < r_end` that `vector_length` computes. -/
theorem C132_column {A : MB IDouble} {n m : Nat} {e : Nat → Nat → IDouble} (hA : Rep A n m e) {c : Nat} (hc : c < m) {s t : Nat} (hst : s ≤ min t n) :
    ∃ x, vectorLength Ieee.sqrt A c s t = .ok x ∧ squareNormVec Ieee.sqrt (vtab (min t n - s) fun i => e (s + i) c) = .ok x := by
  refine ⟨Ieee.sqrt (lsum (min t n - s) fun i => e (s + i) c * e (s + i) c), ?_, ?_⟩
  · unfold vectorLength
    rw [hA.rows, forRange_eq hst (fun k => lsum (k - s) fun i => e (s + i) c * e (s + i) c)]
    · rfl
    · rw [Nat.sub_self]; rfl
    · intro r h1 h2
      rw [hA.get r c (by omega) hc, show r + 1 - s = (r - s) + 1 by omega, lsum, show s + (r - s) = r by omega]
      rfl
  · unfold squareNormVec
    rw [vtab_length, accum_eq (g := fun i => e (s + i) c * e (s + i) c) (fun i acc hi => by rw [vget_vtab hi]; rfl)]
    rfl

namespace Ieee
variable {K : Type} [Field K] [LinearOrder K] [IsStrictOrderedRing K] [FloorRing K] {p : ℕ} {emin : ℤ} {emax : ℕ}

theorem abs_unsigned (a : Ieee K p emin emax) : (abs a).Unsigned ∧ (abs a = nan ↔ a = nan) ∧ ((abs a).Finite ↔ a.Finite) ∧ (abs a).val = |a.val| := by
  match a with
  | nan => exact ⟨rfl, Iff.rfl, Iff.rfl, by rw [show (abs nan : Ieee K p emin emax).val = 0 from rfl, show (nan : Ieee K p emin emax).val = 0 from rfl, abs_zero]⟩
  | inf s => exact ⟨rfl, ⟨nofun, nofun⟩, Iff.rfl, by rw [show (abs (inf s) : Ieee K p emin emax).val = 0 from rfl, show (inf s : Ieee K p emin emax).val = 0 from rfl, abs_zero]⟩
  | fin x z hz hx =>
    obtain ⟨y, h1, h2⟩ := fl_abs (a := (fin x z hz hx : Ieee K p emin emax)) rfl
    refine ⟨?_, ⟨fun h => (by rw [h] at h1; cases h1), nofun⟩, ⟨fun _ => rfl, fun _ => Option.isSome_iff_exists.2 ⟨y, h1⟩⟩, ?_⟩
    · have e : abs (fin x z hz hx : Ieee K p emin emax) = if (z || decide (x.val < 0)) then -(fin x z hz hx) else fin x z hz hx := rfl
      rw [e]
      split
      · next hc =>
        show ((!z && decide (x.val = 0)) || decide ((-x).val < 0)) = false
        rw [show (-x).val = -x.val from rfl]
        rcases Bool.or_eq_true_iff.1 hc with hc | hc
        · rw [hc, hz hc]; simp
        · have := of_decide_eq_true hc
          simp [this.ne, this.le]
      · next hc => exact Bool.eq_false_iff.2 hc
    · rw [Ieee.val, flD, h1]; exact h2

/-- `std::max` of numbers without a sign: a NaN on the right is passed over. -/
theorem max_unsigned {a b : Ieee K p emin emax} (ha : a.Unsigned) (hn : a ≠ nan) (hb : b.Unsigned) :
    (max a b).Unsigned ∧ max a b ≠ nan ∧ (max a b = a ∨ max a b = b) ∧
    ((max a b).Finite → a.Finite ∧ a.val ≤ (max a b).val ∧ (b = nan ∨ b.Finite ∧ b.val ≤ (max a b).val)) ∧
    (a.Finite → b = nan ∨ b.Finite → (max a b).Finite) := by
  have e : max a b = if lt a b = true then b else a := rfl
  match a, b with
  | nan, b => exact absurd rfl hn
  | inf s, b =>
    obtain rfl : s = false := ha
    have : max (inf false) b = inf false := by rw [e, if_neg]; cases b <;> simp [lt]
    rw [this]
    exact ⟨rfl, nofun, .inl rfl, nofun, nofun⟩
  | fin x z hz hx, nan => exact ⟨ha, nofun, .inl rfl, fun _ => ⟨rfl, le_rfl, .inl rfl⟩, fun _ _ => rfl⟩
  | fin x z hz hx, inf s =>
    obtain rfl : s = false := hb
    exact ⟨rfl, nofun, .inr rfl, nofun, fun _ h => by rcases h with h | h <;> cases h⟩
  | fin x z hz hx, fin y w hw hy =>
    rw [e]
    by_cases h : x.val < y.val
    · rw [if_pos (by exact decide_eq_true h)]
      exact ⟨hb, nofun, .inr rfl, fun _ => ⟨rfl, h.le, .inr ⟨rfl, le_rfl⟩⟩, fun _ _ => rfl⟩
    · rw [if_neg (by exact fun hc => h (of_decide_eq_true hc))]
      exact ⟨ha, nofun, .inl rfl, fun _ => ⟨rfl, le_rfl, .inr ⟨rfl, not_lt.1 h⟩⟩, fun _ _ => rfl⟩

/-- The largest of numbers without a sign, starting with one that is not NaN. -/
theorem fold_max {s : Nat → Ieee K p emin emax} (hs : ∀ i, (s i).Unsigned) {a : Ieee K p emin emax} (ha : a.Unsigned) (hn : a ≠ nan) (n : Nat) :
    let x := Nat.rec (motive := fun _ => Ieee K p emin emax) a (fun i acc => max acc (s i)) n
    x.Unsigned ∧ x ≠ nan ∧ (x = a ∨ ∃ i, i < n ∧ x = s i) ∧ (x.Finite → a.Finite ∧ a.val ≤ x.val ∧ ∀ i, i < n → s i ≠ nan → (s i).Finite ∧ (s i).val ≤ x.val) ∧
    (a.Finite → (∀ i, i < n → s i = nan ∨ (s i).Finite) → x.Finite) := by
  induction n with
  | zero => exact ⟨ha, hn, .inl rfl, fun h => ⟨h, le_rfl, fun i hi => absurd hi (Nat.not_lt_zero i)⟩, fun h _ => h⟩
  | succ n ih =>
    obtain ⟨h1, h2, h3, h4, h5⟩ := ih
    dsimp only at h1 h2 h3 h4 h5 ⊢
    set y := Nat.rec (motive := fun _ => Ieee K p emin emax) a (fun i acc => max acc (s i)) n
    obtain ⟨g1, g2, g3, g4, g5⟩ := max_unsigned h1 h2 (hs n)
    refine ⟨g1, g2, ?_, fun h => ?_, fun hf hall => g5 (h5 hf fun i hi => hall i (by omega)) (hall n (by omega))⟩
    · rcases g3 with e | e
      · rw [e]; exact h3.imp id fun ⟨i, hi, e⟩ => ⟨i, by omega, e⟩
      · exact .inr ⟨n, by omega, e⟩
    · obtain ⟨k1, k2, k3⟩ := g4 h
      obtain ⟨m1, m2, m3⟩ := h4 k1
      refine ⟨m1, m2.trans k2, fun i hi hne => ?_⟩
      rcases Nat.lt_succ_iff_lt_or_eq.1 hi with hi | rfl
      · exact ⟨(m3 i hi hne).1, (m3 i hi hne).2.trans k2⟩
      · exact k3.resolve_left hne

end Ieee

/-- C132: `infinity_norm(v)` does not round and does not overflow. It is NaN if the first element is; otherwise the elements that are NaN are passed over, and it is
the largest modulus of the others. -/
theorem C132_infinity_vector {v : List IDouble} {n : Nat} {f : Nat → IDouble} (hv : VRep v n f) (hn : 0 < n) :
    ∃ x, infNormVec Ieee.abs v = .ok x ∧ (f 0 = nan → x = nan) ∧
      (f 0 ≠ nan → (∃ i, i < n ∧ f i ≠ nan ∧ x = Ieee.abs (f i)) ∧
        (x.Finite ↔ ∀ i, i < n → f i = nan ∨ (f i).Finite) ∧ (x.Finite → ∀ i, i < n → f i ≠ nan → |(f i).val| ≤ x.val)) := by
  set X := fun k => Nat.rec (motive := fun _ => IDouble) (Ieee.abs (f 0)) (fun i acc => max acc (Ieee.abs (f (i + 1)))) k with hX
  have hrun : infNormVec Ieee.abs v = .ok (X (n - 1)) := by
    unfold infNormVec
    rw [hv.2.1, if_neg (by omega), hv.get hn, Res.ok_bind]
    refine forRange_eq (by omega) (fun k => X (k - 1)) rfl fun i h1 h2 => ?_
    rw [hv.get h2]
    obtain ⟨j, rfl⟩ : ∃ j, i = j + 1 := ⟨i - 1, by omega⟩
    rfl
  refine ⟨_, hrun, fun h0 => ?_, fun h0 => ?_⟩
  · have : ∀ k, X k = nan := fun k => by
      induction k with
      | zero => show Ieee.abs (f 0) = nan; rw [h0]; rfl
      | succ k ih =>
        show max (X k) _ = nan
        rw [ih]
        rfl
    exact this _
  · obtain ⟨a1, a2, a3, a4⟩ := abs_unsigned (f 0)
    obtain ⟨-, g2, g3, g4, g5⟩ := fold_max (s := fun i => Ieee.abs (f (i + 1))) (fun i => (abs_unsigned _).1) a1 (fun h => h0 (a2.1 h)) (n - 1)
    refine ⟨?_, ⟨fun hf i hi => ?_, fun hall => g5 (a3.2 ((hall 0 hn).resolve_left h0)) fun i hi => ?_⟩, fun hf i hi hne => ?_⟩
    · rcases g3 with e | ⟨i, hi, e⟩
      · exact ⟨0, hn, h0, e⟩
      · exact ⟨i + 1, by omega, fun hc => g2 (by rw [e, hc]; rfl), e⟩
    · by_cases hne : f i = nan
      · exact .inl hne
      · obtain ⟨m1, m2, m3⟩ := g4 hf
        right
        cases i with
        | zero => exact a3.1 m1
        | succ i => exact (abs_unsigned _).2.2.1.1 (m3 i (by omega) fun h => hne ((abs_unsigned _).2.1.1 h)).1
    · exact (hall (i + 1) (by omega)).imp (fun h => (abs_unsigned _).2.1.2 h) fun h => (abs_unsigned _).2.2.1.2 h
    · obtain ⟨m1, m2, m3⟩ := g4 hf
      cases i with
      | zero => rw [← a4]; exact m2
      | succ i => rw [← (abs_unsigned _).2.2.2]; exact (m3 i (by omega) fun h => hne ((abs_unsigned _).2.1.1 h)).2

/-- C132: `infinity_norm(A)` of a `Matrix`: rows with a NaN are passed over, and it is zero if all rows have one. If it is finite then so are the other rows; it is
the largest sum of moduli among them up to `m * 2^-52`. It is finite if the other rows are and their sums of moduli are at most `2^1022`. -/
theorem C132_infinity {A : Mat IDouble} {n m : Nat} {M : Matrix (Fin n) (Fin m) IDouble} (hA : A.toMB.Is M) (hn : 0 < n) (hm : 0 < m) (hm2 : m ≤ 2 ^ 52) :
    ∃ x, infNorm Ieee.abs A.toMB = .ok x ∧ (x = inf false ∨ x.Finite ∧ x.sign = false) ∧
      ((∀ i, ∃ j, M i j = nan) → x = 0) ∧
      (x.Finite → (∀ i, (∀ j, M i j ≠ nan) → (∀ j, (M i j).Finite) ∧ (1 - m / 2 ^ 52) * ∑ j, |(M i j).val| ≤ x.val) ∧
        (x = 0 ∨ ∃ i, (∀ j, (M i j).Finite) ∧ x.val ≤ (1 + m / 2 ^ 52) * ∑ j, |(M i j).val|)) ∧
      ((∀ i, (∃ j, M i j = nan) ∨ (∀ j, (M i j).Finite) ∧ ∑ j, |(M i j).val| ≤ 2 ^ 1022) → x.Finite) := by
  obtain ⟨e, h, rfl⟩ := hA
  set s : Nat → IDouble := fun i => lsum m fun j => Ieee.abs (e i j) with hs
  have hu : ∀ i, (s i).Unsigned ∧ (s i = nan ↔ ∃ j, j < m ∧ e i j = nan) := fun i => by
    have := lsum_unsigned (t := fun j => Ieee.abs (e i j)) m fun j _ => (abs_unsigned _).1
    simp only [(abs_unsigned _).2.1] at this
    exact this
  have hnan : ∀ i : Fin n, (∃ j, toM n m e i j = nan) ↔ s i = nan := fun i => by
    rw [(hu i).2]
    exact ⟨fun ⟨j, h⟩ => ⟨j, j.2, h⟩, fun ⟨j, hj, h⟩ => ⟨⟨j, hj⟩, h⟩⟩
  have hsum : ∀ i : Fin n, ∑ k ∈ Finset.range m, |(Ieee.abs (e i k)).val| = ∑ j, |(toM n m e i j).val| := fun i => by
    rw [Finset.sum_range]
    exact Finset.sum_congr rfl fun j _ => by rw [(abs_unsigned _).2.2.2, abs_abs]; rfl
  have hfac : (1 + 2 ^ (-((53 : ℕ) : ℤ)) : ℚ) ^ (m - 1) - 1 ≤ m / 2 ^ 52 := by
    have h1 := double_factor (k := m - 1) (by omega)
    rw [show (2 : ℚ) ^ (-((53 : ℕ) : ℤ)) = 1 / 2 ^ 53 by norm_num]
    refine h1.trans (div_le_div_of_nonneg_right ?_ (by positivity))
    exact_mod_cast Nat.sub_le m 1
  have hrow : ∀ i : Fin n, (s i).Finite → (∀ j, (toM n m e i j).Finite) ∧ |(s i).val - (∑ j, |(toM n m e i j).val|)| ≤ m / 2 ^ 52 * ∑ j, |(toM n m e i j).val| := fun i hf => by
    obtain ⟨g1, g2⟩ := (sum_finite (K := ℚ) (p := 53) (emin := -1074) (emax := 1024) (by decide) (by decide) (by decide) (fun j => Ieee.abs (e i j)) m).1 hf
    refine ⟨fun j => (abs_unsigned _).2.2.1.1 (g1 j j.2), ?_⟩
    rw [hsum i] at g2
    have e1 : ∑ k ∈ Finset.range m, (Ieee.abs (e i k)).val = ∑ j, |(toM n m e i j).val| := by
      rw [← hsum i]
      exact Finset.sum_congr rfl fun j _ => by rw [(abs_unsigned _).2.2.2, abs_abs]
    rw [e1] at g2
    exact g2.trans (mul_le_mul_of_nonneg_right hfac (Finset.sum_nonneg fun _ _ => abs_nonneg _))
  obtain ⟨g1, g2, g3, g4, g5⟩ := fold_max (fun i => (hu i).1) (a := (0 : IDouble)) (by show (0 : IDouble).sign = false; decide +kernel) nofun n
  refine ⟨_, infNorm_exec h hn hm, ?_, fun hall => ?_, fun hf => ⟨fun i hi => ?_, ?_⟩, fun hall => g5 rfl fun i hi => ?_⟩
  · rcases unsigned_cases g1 with h | h | h
    · exact absurd h g2
    · exact .inl h
    · exact .inr ⟨h, g1⟩
  · rcases g3 with h | ⟨i, hi, h⟩
    · exact h
    · exact absurd (h.trans ((hnan ⟨i, hi⟩).1 (hall ⟨i, hi⟩))) g2
  · obtain ⟨f1, f2⟩ := (g4 hf).2.2 i i.2 fun hc => by
      obtain ⟨j, hj⟩ := (hnan i).2 hc
      exact hi j hj
    obtain ⟨r1, r2⟩ := hrow i f1
    refine ⟨r1, ?_⟩
    have := (abs_le.1 r2).1
    linarith
  · rcases g3 with h | ⟨i, hi, h⟩
    · exact .inl h
    · rw [h] at hf ⊢
      obtain ⟨r1, r2⟩ := hrow ⟨i, hi⟩ hf
      refine .inr ⟨⟨i, hi⟩, r1, ?_⟩
      have := (abs_le.1 r2).2
      have e : (s (⟨i, hi⟩ : Fin n)).val = (s i).val := rfl
      rw [e] at this
      linarith
  · rcases hall ⟨i, hi⟩ with h | ⟨h, hb⟩
    · exact .inl ((hnan ⟨i, hi⟩).1 h)
    · refine .inr ((sum_finite (K := ℚ) (p := 53) (emin := -1074) (emax := 1024) (by decide) (by decide) (by decide) (fun j => Ieee.abs (e i j)) m).2
        (fun j hj => (abs_unsigned _).2.2.1.2 (h ⟨j, hj⟩)) ?_)
      have e2 := hsum ⟨i, hi⟩
      rw [show ∑ k ∈ Finset.range m, |(Ieee.abs (e i k)).val| = _ from e2]
      have hm1 : (m : ℚ) / 2 ^ 52 ≤ 1 := by
        rw [div_le_one (by positivity)]
        exact_mod_cast hm2
      have h2 : (1 + 2 ^ (-((53 : ℕ) : ℤ)) : ℚ) ^ (m - 1) ≤ 2 := (sub_le_iff_le_add.1 (hfac.trans hm1)).trans_eq (by norm_num)
      refine lt_of_le_of_lt (mul_le_mul h2 hb (Finset.sum_nonneg fun _ _ => abs_nonneg _) zero_le_two) ?_
      rw [← pow_succ']
      exact pow_lt_pow_right₀ (by norm_num) (by norm_num)

/-- C132 is false at the ends of the range: with `std::sqrt` as IEEE defines it, the computed length of a vector with the single element `2^512` is infinite and that of
one with `2^-538` is zero, although both lengths are doubles. -/
theorem C132_range_false : squareNormVec Ieee.sqrt [dbl (2 ^ 512)] = .ok (.inf false) ∧ (dbl (2 ^ 512)).Finite ∧
    squareNormVec Ieee.sqrt [dbl (1 / 2 ^ 538)] = .ok 0 ∧ (dbl (1 / 2 ^ 538)).val = 1 / 2 ^ 538 := by
  decide +kernel

/-- C132 is false of `infinity_norm` with NaN: a matrix of NaN has norm zero, and the norm of a vector depends on where the NaN is. -/
theorem C132_nan_false : infNorm Ieee.abs (Mat.ofFn 1 1 fun _ _ => (nan : IDouble)).toMB = .ok 0 ∧
    infNormVec Ieee.abs [nan, dbl 1] = .ok nan ∧ infNormVec Ieee.abs [dbl 1, nan] = .ok (dbl 1) := by
  decide +kernel

set_option maxRecDepth 100000 in
/-- The length of `(3, 4)` and of `(1, 1)`, and a NaN. -/
example : squareNormVec Ieee.sqrt [dbl 3, dbl (-4)] = .ok (dbl 5) ∧ squareNormVec Ieee.sqrt [dbl 1, dbl 1] = .ok (dbl (6369051672525773 / 2 ^ 52)) ∧
    squareNormVec Ieee.sqrt [.inf true, dbl 1] = .ok (.inf false) ∧ squareNormVec Ieee.sqrt [.inf true, nan] = .ok (nan : IDouble) := by
  decide +kernel

end Malg
