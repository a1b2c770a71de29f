import Verif.Props.Scale
import Verif.Model.FloatWide
import Verif.Props.Special
import Mathlib.Algebra.Group.Prod
import Mathlib.Algebra.Group.Int.Units
import Mathlib.Data.Int.Cast.Lemmas
/-!
# Property C144: the numbers that can be rescaled

Exact numbers by any factor; floating point numbers by powers of two and signs as long as nothing underflows or overflows; doubles by signs in every case.
-/
namespace Malg
open Ops Lin Control Feq

/-- Numbers that stand for elements of a field, with operations rounded by `f`, can be rescaled by the factors `f` commutes with. -/
theorem Scaling.of_val {T K G : Type} [Field K] [CommGroup G] [Zero T] [One T] [Add T] [Sub T] [Mul T] [Neg T] [CDiv T] {isz : T → Bool} (val : T → K) (f : K → K)
    (φ : G →* Kˣ) (hf : ∀ g x, f (φ g * x) = φ g * f x) (zero : val 0 = 0) (neg : ∀ x, val (-x) = -val x) (add : ∀ x y, val (x + y) = f (val x + val y))
    (sub : ∀ x y, val (x - y) = f (val x - val y)) (mul : ∀ x y, val (x * y) = f (val x * val y))
    (div : ∀ x y, val y ≠ 0 → ∃ z, cdiv x y = .ok z ∧ val z = f (val x / val y)) (hz : ∀ x, isz x = true ↔ val x = 0) :
    Scaling isz (fun g x y => val y = φ g * val x) fun x => val x ≠ 0 where
  refl x := by rw [map_one, Units.val_one, one_mul]
  zero g := by rw [zero, mul_zero]
  neg {g x y} h := by rw [neg, neg, h, mul_neg]
  add {g x y x' y'} h h' := by rw [add, add, h, h', ← mul_add, hf]
  sub {g x y x' y'} h h' := by rw [sub, sub, h, h', ← mul_sub, hf]
  mul {g k x y x' y'} h h' := by rw [mul, mul, h, h', mul_mul_mul_comm, ← Units.val_mul, ← map_mul, hf]
  div {g k x y x' y'} h h' hy := by
    obtain ⟨z, h1, h2⟩ := div x y hy
    have hy' : val y' ≠ 0 := by rw [h']; exact mul_ne_zero (Units.ne_zero _) hy
    obtain ⟨z', h3, h4⟩ := div x' y' hy'
    have e1 : quo x y = z := by unfold quo; rw [h1]
    have e2 : quo x' y' = z' := by unfold quo; rw [h3]
    rw [e1, e2, h2, h4, h, h', mul_div_mul_comm, ← Units.val_div_eq_div_val, ← map_div, hf]
  divisor {x} hx y := by
    obtain ⟨z, h1, -⟩ := div y x hx
    unfold quo; rw [h1]
  dvd {g x y} h hx := by rw [h]; exact mul_ne_zero (Units.ne_zero _) hx
  same {g x y} h := by rw [Bool.eq_iff_iff, hz, hz, h, mul_eq_zero, or_iff_right (Units.ne_zero _)]
  nz {x} h hx := by rw [(hz x).2 hx] at h; cases h

/-- C144: exact numbers can be rescaled by every factor. -/
theorem C144_field {K : Type} [Field K] [DecidableEq K] {isz : K → Bool} (hz : ∀ x, isz x = true ↔ x = 0) :
    Scaling isz (fun (g : Kˣ) x y => y = g * x) fun x => x ≠ 0 :=
  Scaling.of_val (fun x => x) id (MonoidHom.id Kˣ) (fun _ _ => rfl) rfl (fun _ => rfl) (fun _ _ => rfl) (fun _ _ => rfl) (fun _ _ => rfl)
    (fun x _ hy => ⟨_, cdiv_ok x hy, rfl⟩) hz

section
variable {K : Type} [Field K] [LinearOrder K] [IsStrictOrderedRing K] [FloorRing K] {p : ℕ} {emin : ℤ}

/-- The factors for floating point numbers: a sign and a power of two. -/
def signPow (K : Type) [Field K] [CharZero K] : ℤˣ × Multiplicative ℤ →* Kˣ :=
  (Units.map (Int.castRingHom K).toMonoidHom).coprod (zpowersHom Kˣ (Units.mk0 2 two_ne_zero))

theorem signPow_val (g : ℤˣ × Multiplicative ℤ) : (signPow K g : K) = (g.1 : ℤ) * 2 ^ g.2.toAdd := by
  simp [signPow, zpowersHom_apply]

theorem rndW_neg (x : K) : rndW p (-x) = -rndW p x := by
  unfold rndW
  rw [abs_neg, neg_div, rne_neg]; push_cast; ring

theorem log_two_zpow_mul {x : K} (hx : 0 < x) (k : ℤ) : Int.log 2 (2 ^ k * x) = k + Int.log 2 x := by
  have h2 : (0 : K) < 2 ^ k := two_zpow_pos k
  refine le_antisymm ?_ ?_
  · rw [← Int.lt_add_one_iff, ← Int.lt_zpow_iff_log_lt (by norm_num) (mul_pos h2 hx), add_assoc, zpow_add₀ (by norm_num)]
    push_cast
    exact mul_lt_mul_of_pos_left (by exact_mod_cast Int.lt_zpow_succ_log_self (b := 2) (by norm_num) x) h2
  · rw [← Int.zpow_le_iff_le_log (by norm_num) (mul_pos h2 hx), zpow_add₀ (by norm_num)]
    push_cast
    exact mul_le_mul_of_nonneg_left (by exact_mod_cast Int.zpow_log_le_self (b := 2) (by norm_num) hx) h2.le

/-- Without limits for the exponent powers of two do not disturb the rounding. -/
theorem rndW_two_zpow (k : ℤ) (x : K) : rndW p (2 ^ k * x) = 2 ^ k * rndW p x := by
  by_cases hx : x = 0
  · subst hx; simp [rndW, rne]
  have h2 : (0 : K) < 2 ^ k := two_zpow_pos k
  unfold rndW
  rw [abs_mul, abs_of_pos h2, log_two_zpow_mul (abs_pos.2 hx), show k + Int.log 2 |x| + 1 - p = k + (Int.log 2 |x| + 1 - p) by ring, zpow_add₀ two_ne_zero,
    mul_div_mul_left _ _ h2.ne']
  ring

theorem rndW_signPow (g : ℤˣ × Multiplicative ℤ) (x : K) : rndW p (signPow K g * x) = signPow K g * rndW p x := by
  rw [signPow_val]
  rcases Int.units_eq_one_or g.1 with h | h <;> rw [h]
  · push_cast; rw [one_mul, rndW_two_zpow]
  · push_cast; rw [neg_one_mul, neg_mul, neg_mul, rndW_neg, rndW_two_zpow]

/-- C144: floating point numbers can be rescaled by signs and powers of two as long as no result is too small or too large. -/
theorem C144_wide {isz : Wide K p → Bool} (hz : ∀ x, isz x = true ↔ x.val = 0) :
    Scaling isz (fun (g : ℤˣ × Multiplicative ℤ) x y => y.val = (g.1 : ℤ) * 2 ^ g.2.toAdd * x.val) fun x => x.val ≠ 0 := by
  have := Scaling.of_val (isz := isz) Wide.val (rndW p) (signPow K) rndW_signPow rfl (fun _ => rfl) (fun _ _ => rfl) (fun _ _ => rfl) (fun _ _ => rfl)
    (fun _ _ hy => ⟨_, if_neg hy, rfl⟩) hz
  simpa only [signPow_val] using this

/-- The test for zero of the library. -/
theorem Wide.approxZero_iff (hp : 1 ≤ p) {t : Wide K p} (h0 : 0 < t.val) (h1 : t.val ≤ 1 / 4) (x : Wide K p) : approxZero Wide.abs t x = true ↔ x.val = 0 := by
  have ha : (Wide.abs x).val = |x.val| := by
    unfold Wide.abs
    split
    · rename_i h; rw [abs_of_neg h]; rfl
    · rename_i h; rw [abs_of_nonneg (not_lt.1 h)]
  have hd : approxZero Wide.abs t x = true ↔ (Wide.abs x).val ≤ rndW p (t.val * (Wide.abs x).val) := decide_eq_true_iff
  rw [hd, ha]
  constructor
  · intro h
    by_contra hx
    have hx' := abs_pos.2 hx
    set y := t.val * |x.val| with hy
    have hy0 : 0 < y := mul_pos h0 hx'
    have hr : |rndW p y - y| ≤ y / 2 := by
      have e := rnd_err_ulp p (Int.log 2 |y| + 1 - p) y
      have hl : lastExp p (Int.log 2 |y| + 1 - p) y = Int.log 2 |y| + 1 - p := max_self _
      have hw : rnd p (Int.log 2 |y| + 1 - p) y = rndW p y := by unfold rnd rndW; rw [hl]
      rw [hw, hl] at e
      refine e.trans ?_
      have h2 : (2 : K) ^ (Int.log 2 |y| + 1 - p) ≤ 2 ^ Int.log 2 |y| := zpow_le_zpow_right₀ one_le_two (by omega)
      have h3 : (2 : K) ^ Int.log 2 |y| ≤ |y| := by exact_mod_cast Int.zpow_log_le_self (b := 2) (by norm_num) (abs_pos.2 hy0.ne')
      rw [abs_of_pos hy0] at h3 h2
      rw [abs_of_pos hy0]
      linarith
    have h4 := (abs_le.1 hr).2
    have h5 : y ≤ 1 / 4 * |x.val| := mul_le_mul_of_nonneg_right h1 hx'.le
    linarith
  · intro h
    rw [h, abs_zero, mul_zero]
    simp [rndW, rne]

/-- C144: floating point numbers can be rescaled by signs, also if results are small. -/
theorem C144_signs {isz : Fl K p emin → Bool} (hz : ∀ x, isz x = true ↔ x.val = 0) :
    Scaling isz (fun (g : ℤˣ) x y => y.val = (g : ℤ) * x.val) fun x => x.val ≠ 0 := by
  refine Scaling.of_val (isz := isz) Fl.val (rnd p emin) (Units.map (Int.castRingHom K).toMonoidHom) (fun g x => ?_) rfl (fun _ => rfl) (fun _ _ => rfl)
    (fun _ _ => rfl) (fun _ _ => rfl) (fun _ _ hy => ⟨_, if_neg hy, rfl⟩) hz
  rcases Int.units_eq_one_or g with h | h <;> rw [h]
  · simp
  · simp [rnd_neg]
end

namespace Ieee
variable {K : Type} [Field K] [LinearOrder K] [IsStrictOrderedRing K] [FloorRing K] {p : ℕ} {emin : ℤ} {emax : ℕ}

/-- The same number up to the sign `s`, whatever the sign of zeros. -/
def UpTo (s : ℤˣ) : Ieee K p emin emax → Ieee K p emin emax → Prop
  | nan, b => b = nan
  | inf a, b => b = inf (a ^^ decide (s = -1))
  | fin x _ _ _, b => ∃ y z h1 h2, b = fin y z h1 h2 ∧ y.val = (s : ℤ) * x.val

/-- Not a zero. -/
def NonZero : Ieee K p emin emax → Prop
  | fin x _ _ _ => x.val ≠ 0
  | _ => True

instance : DecidablePred (NonZero : Ieee K p emin emax → Prop)
  | nan => isTrue trivial
  | inf _ => isTrue trivial
  | fin x _ _ _ => inferInstanceAs (Decidable (x.val ≠ 0))

theorem upTo_mk {s : ℤˣ} {a b : Bool} {x : K} (h : x ≠ 0 → b = (a ^^ decide (s = -1))) : UpTo s (mk a x : Ieee K p emin emax) (mk b ((s : ℤ) * x)) := by
  have hv : rnd p emin ((s : ℤ) * x) = (s : ℤ) * rnd p emin x := by
    rcases Int.units_eq_one_or s with h | h <;> rw [h]
    · simp
    · simp [rnd_neg]
  have ha : |(Fl.of p emin ((s : ℤ) * x)).val| = |(Fl.of p emin x).val| := by
    show |rnd p emin ((s : ℤ) * x)| = |rnd p emin x|
    rw [hv, abs_mul]
    rcases Int.units_eq_one_or s with h | h <;> rw [h] <;> simp
  unfold mk
  by_cases hc : |(Fl.of p emin x).val| < 2 ^ emax
  · rw [dif_pos hc, dif_pos (by rw [ha]; exact hc)]
    exact ⟨_, _, _, _, rfl, hv⟩
  · rw [dif_neg hc, dif_neg (by rw [ha]; exact hc)]
    have hx : x ≠ 0 := by
      rintro rfl
      apply hc
      show |rnd p emin 0| < _
      simp [rnd, rne]
    rw [h hx]; rfl

/-- The sign of a number that is not zero. -/
theorem sign_of {x : Fl K p emin} {z : Bool} {hz} {hx : |x.val| < 2 ^ emax} (h : x.val ≠ 0) : (fin x z hz hx).sign = decide (x.val < 0) := by
  cases z
  · rfl
  · exact absurd (hz rfl) h

theorem lt_of_sign {s : ℤˣ} {x : K} (h : x ≠ 0) : decide (((s : ℤ) : K) * x < 0) = (decide (x < 0) ^^ decide (s = -1)) := by
  rcases Int.units_eq_one_or s with hs | hs <;> rw [hs]
  · simp
  · rw [decide_eq_true rfl, Bool.xor_true, Bool.eq_iff_iff]
    simp only [Units.val_neg, Units.val_one, Int.cast_neg, Int.cast_one, neg_mul, one_mul, Left.neg_neg_iff, decide_eq_true_iff, Bool.not_eq_true', decide_eq_false_iff_not,
      not_lt]
    exact ⟨le_of_lt, fun h' => lt_of_le_of_ne h' (Ne.symm h)⟩

theorem sign_upTo {s : ℤˣ} {x y : Fl K p emin} {z z' : Bool} {h1 h2 h3 h4} (h : x.val ≠ 0) (hy : y.val = (s : ℤ) * x.val) :
    (fin y z' h3 h4 : Ieee K p emin emax).sign = ((fin x z h1 h2 : Ieee K p emin emax).sign ^^ decide (s = -1)) := by
  have h0 : y.val ≠ 0 := by
    rw [hy]
    exact mul_ne_zero (by rcases Int.units_eq_one_or s with hs | hs <;> rw [hs] <;> simp) h
  rw [sign_of h, sign_of h0, hy, lt_of_sign h]

theorem eq_neg_one_mul (s t : ℤˣ) : decide (s * t = -1) = (decide (s = -1) ^^ decide (t = -1)) := by
  rcases Int.units_eq_one_or s with rfl | rfl <;> rcases Int.units_eq_one_or t with rfl | rfl <;> decide

theorem eq_neg_one_div (s t : ℤˣ) : decide (s / t = -1) = (decide (s = -1) ^^ decide (t = -1)) := by
  rcases Int.units_eq_one_or s with rfl | rfl <;> rcases Int.units_eq_one_or t with rfl | rfl <;> decide

theorem xor4 (a b c d : Bool) : ((a ^^ b) ^^ (c ^^ d)) = ((a ^^ c) ^^ (b ^^ d)) := by
  cases a <;> cases b <;> cases c <;> cases d <;> rfl

theorem units_ne {s : ℤˣ} : ((s : ℤ) : K) ≠ 0 := by
  rcases Int.units_eq_one_or s with hs | hs <;> rw [hs] <;> simp

theorem UpTo.neg {s : ℤˣ} {a b : Ieee K p emin emax} (h : UpTo s a b) : UpTo s (-a) (-b) := by
  match a, h with
  | nan, h => rw [show b = nan from h]; rfl
  | inf t, h =>
    rw [show b = inf (t ^^ decide (s = -1)) from h]
    show (inf (!(t ^^ decide (s = -1))) : Ieee K p emin emax) = inf ((!t) ^^ decide (s = -1))
    rw [Bool.not_xor]
  | fin x z hz hx, h =>
    obtain ⟨y, z', h1, h2, rfl, hy⟩ := h
    refine ⟨_, _, _, _, rfl, ?_⟩
    show -y.val = (s : ℤ) * -x.val
    rw [hy, mul_neg]

theorem UpTo.add {s : ℤˣ} {a b a' b' : Ieee K p emin emax} (h : UpTo s a a') (h' : UpTo s b b') : UpTo s (a + b) (a' + b') := by
  match a, b, h, h' with
  | nan, b, h, h' => rw [show a' = nan from h]; rfl
  | inf t, nan, h, h' => rw [show b' = nan from h', show a' = inf (t ^^ decide (s = -1)) from h]; rfl
  | fin x z hz hx, nan, h, h' =>
    obtain ⟨y, z', h1, h2, rfl, hy⟩ := h
    rw [show b' = nan from h']; rfl
  | inf t, inf t', h, h' =>
    rw [show a' = inf (t ^^ decide (s = -1)) from h, show b' = inf (t' ^^ decide (s = -1)) from h']
    show UpTo s (if t = t' then inf t else nan) (if (t ^^ decide (s = -1)) = (t' ^^ decide (s = -1)) then inf (t ^^ decide (s = -1)) else nan)
    by_cases h0 : t = t'
    · rw [if_pos h0, if_pos (by rw [h0])]; rfl
    · rw [if_neg h0, if_neg (by rwa [Bool.xor_left_inj])]; rfl
  | inf t, fin x z hz hx, h, h' =>
    obtain ⟨y, z', h1, h2, rfl, hy⟩ := h'
    rw [show a' = inf (t ^^ decide (s = -1)) from h]; rfl
  | fin x z hz hx, inf t, h, h' =>
    obtain ⟨y, z', h1, h2, rfl, hy⟩ := h
    rw [show b' = inf (t ^^ decide (s = -1)) from h']; rfl
  | fin x z hz hx, fin w z' hw hx', h, h' =>
    obtain ⟨y, z1, h1, h2, rfl, hy⟩ := h
    obtain ⟨v, z2, h3, h4, rfl, hv⟩ := h'
    show UpTo s (mk _ (x.val + w.val)) (mk _ (y.val + v.val))
    rw [hy, hv, ← mul_add]
    refine upTo_mk fun h0 => ?_
    rw [if_neg h0, if_neg (mul_ne_zero units_ne h0), lt_of_sign h0]

theorem UpTo.mul {s t : ℤˣ} {a b a' b' : Ieee K p emin emax} (h : UpTo s a a') (h' : UpTo t b b') : UpTo (s * t) (a * b) (a' * b') := by
  match a, b, h, h' with
  | nan, b, h, h' => rw [show a' = nan from h]; rfl
  | inf _, nan, h, h' => rw [show b' = nan from h', show a' = inf _ from h]; rfl
  | fin x z hz hx, nan, h, h' =>
    obtain ⟨y, z', h1, h2, rfl, hy⟩ := h
    rw [show b' = nan from h']; rfl
  | inf i, inf i', h, h' =>
    rw [show a' = inf (i ^^ decide (s = -1)) from h, show b' = inf (i' ^^ decide (t = -1)) from h']
    show (inf ((i ^^ decide (s = -1)) ^^ (i' ^^ decide (t = -1))) : Ieee K p emin emax) = inf ((i ^^ i') ^^ decide (s * t = -1))
    rw [eq_neg_one_mul, xor4]
  | inf i, fin x z hz hx, h, h' =>
    obtain ⟨y, z', h1, h2, rfl, hy⟩ := h'
    rw [show a' = inf (i ^^ decide (s = -1)) from h]
    show UpTo (s * t) (if x.val = 0 then nan else inf (i ^^ (fin x z hz hx).sign)) (if y.val = 0 then nan else inf ((i ^^ decide (s = -1)) ^^ (fin y z' h1 h2).sign))
    by_cases h0 : x.val = 0
    · rw [if_pos h0, if_pos (by rw [hy, h0, mul_zero])]; rfl
    · rw [if_neg h0, if_neg (by rw [hy]; exact mul_ne_zero units_ne h0), sign_upTo (z := z) (h1 := hz) (h2 := hx) h0 hy]
      show (inf _ : Ieee K p emin emax) = inf _
      rw [eq_neg_one_mul, xor4]
  | fin x z hz hx, inf i, h, h' =>
    obtain ⟨y, z', h1, h2, rfl, hy⟩ := h
    rw [show b' = inf (i ^^ decide (t = -1)) from h']
    show UpTo (s * t) (if x.val = 0 then nan else inf ((fin x z hz hx).sign ^^ i)) (if y.val = 0 then nan else inf ((fin y z' h1 h2).sign ^^ (i ^^ decide (t = -1))))
    by_cases h0 : x.val = 0
    · rw [if_pos h0, if_pos (by rw [hy, h0, mul_zero])]; rfl
    · rw [if_neg h0, if_neg (by rw [hy]; exact mul_ne_zero units_ne h0), sign_upTo (z := z) (h1 := hz) (h2 := hx) h0 hy]
      show (inf _ : Ieee K p emin emax) = inf _
      rw [eq_neg_one_mul, xor4]
  | fin x z hz hx, fin w z' hw hx', h, h' =>
    obtain ⟨y, z1, h1, h2, rfl, hy⟩ := h
    obtain ⟨v, z2, h3, h4, rfl, hv⟩ := h'
    show UpTo (s * t) (mk _ (x.val * w.val)) (mk _ (y.val * v.val))
    have e : y.val * v.val = ((s * t : ℤˣ) : ℤ) * (x.val * w.val) := by rw [hy, hv]; push_cast; ring
    rw [e]
    refine upTo_mk fun h0 => ?_
    rw [sign_upTo (z := z) (h1 := hz) (h2 := hx) (left_ne_zero_of_mul h0) hy, sign_upTo (z := z') (h1 := hw) (h2 := hx') (right_ne_zero_of_mul h0) hv, eq_neg_one_mul, xor4]

theorem UpTo.div {s t : ℤˣ} {a b a' b' : Ieee K p emin emax} (h : UpTo s a a') (h' : UpTo t b b') (hb : NonZero b) : UpTo (s / t) (div a b) (div a' b') := by
  match a, b, h, h', hb with
  | nan, b, h, h', _ => rw [show a' = nan from h]; rfl
  | inf _, nan, h, h', _ => rw [show b' = nan from h', show a' = inf _ from h]; rfl
  | fin x z hz hx, nan, h, h', _ =>
    obtain ⟨y, z', h1, h2, rfl, hy⟩ := h
    rw [show b' = nan from h']; rfl
  | inf i, inf i', h, h', _ =>
    rw [show a' = inf (i ^^ decide (s = -1)) from h, show b' = inf (i' ^^ decide (t = -1)) from h']
    rfl
  | inf i, fin x z hz hx, h, h', h0 =>
    obtain ⟨y, z', h1, h2, rfl, hy⟩ := h'
    rw [show a' = inf (i ^^ decide (s = -1)) from h]
    show UpTo (s / t) (inf (i ^^ (fin x z hz hx).sign)) (inf ((i ^^ decide (s = -1)) ^^ (fin y z' h1 h2).sign))
    rw [sign_upTo (z := z) (h1 := hz) (h2 := hx) h0 hy]
    show (inf _ : Ieee K p emin emax) = inf _
    rw [eq_neg_one_div, xor4]
  | fin x z hz hx, inf i, h, h', _ =>
    obtain ⟨y, z', h1, h2, rfl, hy⟩ := h
    rw [show b' = inf (i ^^ decide (t = -1)) from h']
    show UpTo (s / t) (mk _ 0) (mk _ 0)
    have := upTo_mk (p := p) (emin := emin) (emax := emax) (s := s / t) (a := (fin x z hz hx).sign ^^ i) (b := (fin y z' h1 h2).sign ^^ (i ^^ decide (t = -1))) (x := (0 : K)) (fun h => absurd rfl h)
    rwa [mul_zero] at this
  | fin x z hz hx, fin w z' hw hx', h, h', hb =>
    obtain ⟨y, z1, h1, h2, rfl, hy⟩ := h
    obtain ⟨v, z2, h3, h4, rfl, hv⟩ := h'
    have hb' : w.val ≠ 0 := hb
    have hv' : v.val ≠ 0 := by rw [hv]; exact mul_ne_zero units_ne hb'
    show UpTo (s / t) (if w.val = 0 then _ else mk _ (x.val / w.val)) (if v.val = 0 then _ else mk _ (y.val / v.val))
    rw [if_neg hb', if_neg hv']
    have e : y.val / v.val = ((s / t : ℤˣ) : ℤ) * (x.val / w.val) := by
      rw [hy, hv, mul_div_mul_comm]
      congr 1
      rcases Int.units_eq_one_or s with rfl | rfl <;> rcases Int.units_eq_one_or t with rfl | rfl <;> simp
    rw [e]
    refine upTo_mk fun h0 => ?_
    have hx0 : x.val ≠ 0 := fun hc => h0 (by rw [hc, zero_div])
    rw [sign_upTo (z := z) (h1 := hz) (h2 := hx) hx0 hy, sign_upTo (z := z') (h1 := hw) (h2 := hx') hb' hv, eq_neg_one_div, xor4]

theorem UpTo.refl (a : Ieee K p emin emax) : UpTo 1 a a := by
  match a with
  | nan => rfl
  | inf s => cases s <;> rfl
  | fin x z hz hx => exact ⟨_, _, _, _, rfl, by simp⟩

/-- Equality, for numbers that are not zero. -/
theorem UpTo.eq {a b : Ieee K p emin emax} (h : UpTo 1 a b) (h0 : NonZero a) : b = a := by
  match a, h, h0 with
  | nan, h, _ => exact h
  | inf t, h, _ => cases t <;> exact h
  | fin x z hz hx, h, h0 =>
    obtain ⟨y, z', h1, h2, rfl, hy⟩ := h
    obtain rfl : y = x := Fl.ext (by rw [hy]; simp)
    cases z
    · cases z'
      · rfl
      · exact absurd (h1 rfl) h0
    · exact absurd (hz rfl) h0

theorem UpTo.neg_eq {a b : Ieee K p emin emax} (h : UpTo (-1) a b) (h0 : NonZero a) : b = -a := by
  match a, h, h0 with
  | nan, h, _ => exact h
  | inf t, h, _ => cases t <;> exact h
  | fin x z hz hx, h, h0 =>
    obtain ⟨y, z', h1, h2, rfl, hy⟩ := h
    obtain rfl : y = -x := Fl.ext (by rw [hy]; simp; rfl)
    cases z
    · cases z'
      · have : decide (x.val = 0) = false := decide_eq_false h0
        show fin _ _ _ _ = fin _ (!false && decide (x.val = 0)) _ _
        simp only [this]; rfl
      · exact absurd (neg_eq_zero.1 (h1 rfl)) h0
    · exact absurd (hz rfl) h0
end Ieee

open Ieee in
/-- C144: IEEE numbers can be rescaled by signs, with infinities and NaNs, up to the sign of zeros; with the library's test for zero. -/
theorem C144_ieee {K : Type} [Field K] [LinearOrder K] [IsStrictOrderedRing K] [FloorRing K] {p : ℕ} {emin : ℤ} {emax : ℕ} (hp : 1 ≤ p) {t : Ieee K p emin emax}
    (ht : Tol t) : Scaling (approxZero Ieee.abs t) UpTo NonZero where
  refl := UpTo.refl
  zero g := ⟨_, _, _, _, rfl, (mul_zero _).symm⟩
  neg := UpTo.neg
  add := UpTo.add
  sub h h' := h.add h'.neg
  mul := UpTo.mul
  div h h' h0 := h.div h' h0
  divisor _ := divisor_ieee _
  dvd {g x y} h h0 := by
    match x, h, h0 with
    | nan, h, _ => rw [show y = nan from h]; trivial
    | inf t, h, _ => rw [show y = inf _ from h]; trivial
    | fin x z hz hx, h, h0 =>
      obtain ⟨y, z', h1, h2, rfl, hy⟩ := h
      show y.val ≠ 0
      rw [hy]; exact mul_ne_zero units_ne h0
  same {g x y} h := by
    rw [Bool.eq_iff_iff, approxZero_iff hp ht, approxZero_iff hp ht]
    match x, h with
    | nan, h => rw [show y = nan from h]
    | inf t, h => rw [show y = inf _ from h]; exact ⟨fun _ => .inr ⟨_, rfl⟩, fun _ => .inr ⟨_, rfl⟩⟩
    | fin x z hz hx, h =>
      obtain ⟨y, z', h1, h2, rfl, hy⟩ := h
      have e : y.val = 0 ↔ x.val = 0 := by rw [hy, mul_eq_zero, or_iff_right units_ne]
      constructor
      · rintro (⟨-, h⟩ | ⟨s, h⟩)
        · exact .inl ⟨rfl, e.2 h⟩
        · cases h
      · rintro (⟨-, h⟩ | ⟨s, h⟩)
        · exact .inl ⟨rfl, e.1 h⟩
        · cases h
  nz {x} h := by
    match x with
    | nan => trivial
    | inf t => trivial
    | fin x z hz hx =>
      intro h0
      have := (approxZero_iff hp ht (fin x z hz hx)).2 (.inl ⟨rfl, h0⟩)
      rw [this] at h
      cases h

section
open Ieee

/-- C144: which entries of an `L` are divisors, for the numbers above. -/
theorem C144_divisors {K : Type} [Field K] [LinearOrder K] [IsStrictOrderedRing K] [FloorRing K] {p : ℕ} {emin : ℤ} {emax : ℕ} :
    (∀ y : K, Divisor y ∨ ∀ x, cdiv x y = .ub .divZero) ∧ (∀ y : Wide K p, Divisor y ∨ ∀ x, cdiv x y = .ub .divZero) ∧
    (∀ y : Fl K p emin, Divisor y ∨ ∀ x, cdiv x y = .ub .divZero) ∧ ∀ y : Ieee K p emin emax, Divisor y := by
  have key : ∀ {T : Type} [Zero T] [CDiv T] (val : T → K) (q : T → T → T), (∀ x y, cdiv x y = if val y = 0 then .ub .divZero else .ok (q x y)) →
      ∀ y : T, Divisor y ∨ ∀ x, cdiv x y = .ub .divZero := by
    intro T _ _ val q h y
    by_cases hy : val y = 0
    · exact .inr fun x => by rw [h, if_pos hy]
    · refine .inl fun x => ?_
      unfold quo; rw [h, if_neg hy]
  exact ⟨key (fun x => x) (fun x y => x / y) fun _ _ => rfl, key Wide.val (fun x y => Wide.of p (x.val / y.val)) fun _ _ => rfl,
    key Fl.val (fun x y => Fl.of p emin (x.val / y.val)) fun _ _ => rfl, divisor_ieee⟩

/-- The matrix of the examples: rows and columns in units that differ by signs. -/
def flip5 (r s : List ℚ) : Mat IDouble :=
  Mat.ofFn 5 5 fun i j => dbl (r.getD i 0 * s.getD j 0 *
    ([1, 1/10, 3, 0, 2, 1/10, 1/50, 1, 7, 1, 0, 1/3, 2, 1, 5, 4, 0, 1/7, 2, 1, 1, 1, 1, 1, 1/9] : List ℚ).getD (5 * i + j) 0)

set_option maxRecDepth 100000 in
/-- A determinant found by elimination with rounding: three changes of sign give the same digits with the other sign. -/
example : (do let x ← determinant dIsZero (flip5 [1, 1, 1, 1, 1] [1, 1, 1, 1, 1]).toMB; Res.ok (-x)) =
    determinant dIsZero (flip5 [1, -1, 1, 1, -1] [1, 1, -1, 1, 1]).toMB ∧
    determinant dIsZero (flip5 [1, 1, 1, 1, 1] [1, 1, 1, 1, 1]).toMB ≠ determinant dIsZero (flip5 [1, -1, 1, 1, -1] [1, 1, -1, 1, 1]).toMB := by
  decide +kernel

/-- Pole placement with milliseconds of `2^-10` seconds: the matrices and the poles are multiplied by `2^-10`, the gains have the same digits, with rounding. -/
example : acker dIsZero (⟨2, 2, [1/10, 1, -3/10, 1/7].map fun x => dbl (x / 2 ^ 10)⟩ : Mat IDouble).toMB (⟨2, 1, [1/3, 1].map fun x => dbl (x / 2 ^ 10)⟩ : Mat IDouble).toMB
      (⟨1, 2, [-1/10, -7/10].map fun x => dbl (x / 2 ^ 10)⟩ : Mat IDouble).toMB =
    acker dIsZero (⟨2, 2, [1/10, 1, -3/10, 1/7].map dbl⟩ : Mat IDouble).toMB (⟨2, 1, [1/3, 1].map dbl⟩ : Mat IDouble).toMB
      (⟨1, 2, [-1/10, -7/10].map dbl⟩ : Mat IDouble).toMB := by decide +kernel

/-- With factors other than powers of two the digits change. -/
example : acker dIsZero (⟨2, 2, [1/10, 1, -3/10, 1/7].map fun x => dbl (x / 1000)⟩ : Mat IDouble).toMB (⟨2, 1, [1/3, 1].map fun x => dbl (x / 1000)⟩ : Mat IDouble).toMB
      (⟨1, 2, [-1/10, -7/10].map fun x => dbl (x / 1000)⟩ : Mat IDouble).toMB ≠
    acker dIsZero (⟨2, 2, [1/10, 1, -3/10, 1/7].map dbl⟩ : Mat IDouble).toMB (⟨2, 1, [1/3, 1].map dbl⟩ : Mat IDouble).toMB
      (⟨1, 2, [-1/10, -7/10].map dbl⟩ : Mat IDouble).toMB := by decide +kernel

/-- A 3x3 matrix in other units: rows in units of `1, 2, 1/8`, columns in units of `4, -1, 1`. -/
def units3 (u v : List ℚ) : Mat IDouble :=
  ⟨3, 3, (List.range 9).map fun k => dbl (u.getD (k / 3) 0 / v.getD (k % 3) 0 * ([1/3, 2, 1/7, 1, 1/10, 5, 3/10, 1, 1] : List ℚ).getD k 0)⟩

/-- The entries of a matrix in other units, exactly. -/
def rescaled3 (u v : List ℚ) (X : Mat IDouble) : Mat IDouble :=
  ⟨3, 3, (List.range 9).map fun k => dbl (u.getD (k / 3) 0 / v.getD (k % 3) 0 * (X.data.getD k 0).val)⟩

/-- Inverses, decompositions and products have the same digits in both units. -/
example : (do let X ← inverse dIsZero (units3 [1, 1, 1] [1, 1, 1]).toMB; Res.ok (rescaled3 [4, -1, 1] [1, 2, 1/8] X)) =
      inverse dIsZero (units3 [1, 2, 1/8] [4, -1, 1]).toMB ∧
    (do let X ← lu (units3 [1, 1, 1] [1, 1, 1]).toMB; Res.ok (rescaled3 [1, 2, 1/8] [4, -1, 1] X.1, rescaled3 [4, -1, 1] [4, -1, 1] X.2)) =
      lu (units3 [1, 2, 1/8] [4, -1, 1]).toMB ∧
    (do let X ← mul (units3 [1, 1, 1] [1, 1, 1]).toMB (units3 [1, 1, 1] [1, 1, 1]).toMB; Res.ok (rescaled3 [1, 2, 1/8] [1, 1, -16] X)) =
      mul (units3 [1, 2, 1/8] [4, -1, 1]).toMB (units3 [4, -1, 1] [1, 1, -16]).toMB ∧
    (do let c ← polyMat (units3 [1, 1, 1] [1, 1, 1]).toMB; Res.ok ((List.range 4).map fun i => dbl (2 ^ i * (c.getD i 0).val))) =
      (do let c ← polyMat (units3 [8, -2, 2] [4, -1, 1]).toMB; Res.ok c) := by decide +kernel

/-- C144 does not hold for determinants of singular matrices: the elimination stops at a column without pivot and returns the product so far, whatever happens to
the rows and columns that were not reached. -/
theorem C144_singular_false : ¬ ∀ (A A' : Mat IDouble) (M M' : Matrix (Fin 5) (Fin 5) IDouble) (r s : Nat → ℤˣ), A.toMB.Is M → A'.toMB.Is M' →
    InUnits UpTo r s M M' → ∃ x x', determinant dIsZero A.toMB = .ok x ∧ determinant dIsZero A'.toMB = .ok x' ∧
      UpTo (∏ i ∈ Finset.range 5, r i / s i) x x' := by
  intro h
  have hf : Fits 5 5 := by decide +kernel
  have hR := ofFn_rep (e := fun i j => if i = 0 ∧ j = 0 then (1 : IDouble) else 0) hf
  obtain ⟨x, x', h1, h2, h3⟩ := h _ _ _ _ (fun i => if i = 4 then -1 else 1) (fun _ => 1) ⟨_, hR, rfl⟩ ⟨_, hR, rfl⟩ (by
    intro i j
    dsimp only
    split
    · rename_i hi
      obtain rfl : i = 4 := Fin.ext hi
      exact ⟨_, _, _, _, rfl, (mul_zero _).symm⟩
    · rw [div_one]; exact UpTo.refl _)
  have hd : determinant dIsZero (Mat.ofFn 5 5 fun i j => if i = 0 ∧ j = 0 then (1 : IDouble) else 0).toMB = .ok 1 := by decide +kernel
  rw [hd] at h1 h2
  cases h1; cases h2
  have hp : (∏ i ∈ Finset.range 5, (if i = 4 then -1 else 1 : ℤˣ) / 1) = -1 := by decide
  rw [hp] at h3
  have := h3.neg_eq (by decide +kernel)
  exact absurd this (by decide +kernel)

/-- The matrix of `C123_tiny_pivot_false` with `x` in the last place. -/
def tiny5 (x : ℚ) : Mat IDouble := ⟨5, 5, [1 / 2 ^ 60, 1, 1, 0, 0, 1, 1, 1, 0, 0, 1, 1, 0, 0, 0, 0, 0, 0, 1, 0, 0, 0, 0, 0, x].map dbl⟩

/-- C144 does not hold for determinants of all regular matrices either: if rounding turns a pivot into zero the rows that follow do not count. -/
theorem C144_regular_false : (!![1 / 2 ^ 60, 1, 1, 0, 0; 1, 1, 1, 0, 0; 1, 1, 0, 0, 0; 0, 0, 0, 1, 0; 0, 0, 0, 0, 1] : Matrix (Fin 5) (Fin 5) ℚ).det = 1 - 1 / 2 ^ 60 ∧
    determinant dIsZero (tiny5 1).toMB = .ok (dbl (-1)) ∧ determinant dIsZero (tiny5 (-1)).toMB = .ok (dbl (-1)) := by
  refine ⟨?_, ?_, ?_⟩ <;> decide +kernel
end
end Malg
