import Verif.Model.Float
import Mathlib.Analysis.Real.Sqrt
/-!
# `std::sqrt` for `double`

IEEE 754-2008 (section 5.4.1) asks for the exact root, rounded once. The root is computed here with enough binary digits, and a
last digit that tells whether something was cut off; `Fl.sqrtRat_val` proves that the result is the real root, rounded once.
-/
namespace Malg

/-- The integer square root of `n < 4 ^ f`, one binary digit at a time. -/
def isqrt : (f n : Nat) → Nat
  | 0, _ => 0
  | f + 1, n => if (2 * isqrt f (n / 4) + 1) * (2 * isqrt f (n / 4) + 1) ≤ n then 2 * isqrt f (n / 4) + 1 else 2 * isqrt f (n / 4)

theorem isqrt_spec (f n : Nat) (h : n < 4 ^ f) : isqrt f n * isqrt f n ≤ n ∧ n < (isqrt f n + 1) * (isqrt f n + 1) := by
  induction f generalizing n with
  | zero => simp [isqrt] at *; omega
  | succ f ih =>
    obtain ⟨h1, h2⟩ := ih (n / 4) (by rw [pow_succ] at h; omega)
    have h3 : 4 * (isqrt f (n / 4) * isqrt f (n / 4)) ≤ n := by omega
    have h4 : n < 4 * ((isqrt f (n / 4) + 1) * (isqrt f (n / 4) + 1)) := by omega
    unfold isqrt
    split
    · exact ⟨by assumption, by nlinarith⟩
    · exact ⟨by nlinarith, by nlinarith⟩

/-- The root of `x` up to `2 ^ -k`, exact if it has `k` digits after the point, otherwise in the middle of two multiples. -/
def sqrtQ (k : ℕ) (x : ℚ) : ℚ :=
  let n := ⌊x * 4 ^ k⌋.toNat
  let s := isqrt (Nat.log2 n + 1) n
  if ((s * s : ℕ) : ℚ) = x * 4 ^ k then (s : ℚ) / 2 ^ k else (2 * s + 1 : ℚ) / 2 ^ (k + 1)

/-- `std::sqrt` of a number that is not negative. -/
def Fl.sqrtRat {p : ℕ} {emin : ℤ} (x : Fl ℚ p emin) : Fl ℚ p emin := Fl.of p emin (sqrtQ (1 - emin).toNat x.val)

theorem log_ratCast (q : ℚ) : Int.log 2 (q : ℝ) = Int.log 2 q := by
  rcases le_or_gt q 0 with h | h
  · rw [Int.log_of_right_le_zero _ h, Int.log_of_right_le_zero _ (by exact_mod_cast h)]
  · have hr : (0 : ℝ) < q := by exact_mod_cast h
    refine le_antisymm ?_ ?_
    · rw [← Int.zpow_le_iff_le_log (by norm_num) h]
      have := Int.zpow_log_le_self (b := 2) (by norm_num) hr
      rw [← Rat.cast_le (K := ℝ)]
      push_cast at this ⊢
      exact this
    · rw [← Int.zpow_le_iff_le_log (by norm_num) hr]
      have := Int.zpow_log_le_self (b := 2) (by norm_num) h
      rw [← Rat.cast_le (K := ℝ)] at this
      push_cast at this ⊢
      exact this

theorem rne_ratCast (q : ℚ) : rne (q : ℝ) = rne q := by
  unfold rne
  have h1 : ((q : ℝ) - (⌊q⌋ : ℤ) < 1 / 2) ↔ (q - (⌊q⌋ : ℤ) < 1 / 2) := by
    rw [← Rat.cast_lt (K := ℝ)]; push_cast; rfl
  have h2 : (1 / 2 < (q : ℝ) - (⌊q⌋ : ℤ)) ↔ (1 / 2 < q - (⌊q⌋ : ℤ)) := by
    rw [← Rat.cast_lt (K := ℝ)]; push_cast; rfl
  simp only [Rat.floor_cast, h1, h2]

theorem rnd_ratCast (p : ℕ) (emin : ℤ) (q : ℚ) : ((rnd p emin q : ℚ) : ℝ) = rnd p emin (q : ℝ) := by
  have hl : lastExp p emin (q : ℝ) = lastExp p emin q := by
    unfold lastExp
    rw [← Rat.cast_abs, log_ratCast]
  unfold rnd
  rw [hl, show (q : ℝ) / 2 ^ lastExp p emin q = ((q / 2 ^ lastExp p emin q : ℚ) : ℝ) by push_cast; rfl, rne_ratCast]
  push_cast; rfl

/-- Two numbers between the same neighbouring multiples of `2 ^ -k`, neither of them a multiple, are rounded alike: the numbers of the format
and the points in the middle between two of them are multiples of `2 ^ -k`. -/
theorem rnd_sticky {p : ℕ} (hp : 1 ≤ p) {emin : ℤ} {k : ℕ} (hk : 1 - emin ≤ k) {m : ℕ} {y z : ℝ} (hy : (m : ℝ) < y * 2 ^ k)
    (hy' : y * 2 ^ k < m + 1) (hz : (m : ℝ) < z * 2 ^ k) (hz' : z * 2 ^ k < m + 1) : rnd p emin y = rnd p emin z := by
  have h2k : (0 : ℝ) < 2 ^ k := by positivity
  have hm : (0 : ℝ) ≤ m := Nat.cast_nonneg m
  have y0 : 0 < y := by by_contra h; nlinarith
  have z0 : 0 < z := by by_contra h; nlinarith
  -- an integer multiple `c` of `2 ^ (-k)` is on the same side of both
  have side : ∀ c : ℤ, ((c : ℝ) ≤ y * 2 ^ k ↔ (c : ℝ) ≤ z * 2 ^ k) := by
    intro c
    have aux : ∀ t : ℝ, (m : ℝ) < t → t < m + 1 → ((c : ℝ) ≤ t ↔ c ≤ m) := by
      intro t h1 h2
      constructor
      · intro h
        have : (c : ℝ) < ((m + 1 : ℤ) : ℝ) := by push_cast; linarith
        have := Int.cast_lt.1 this
        omega
      · intro h
        have : (c : ℝ) ≤ ((m : ℤ) : ℝ) := Int.cast_le.2 h
        push_cast at this; linarith
    rw [aux _ hy hy', aux _ hz hz']
  have side' : ∀ c : ℤ, (y * 2 ^ k ≤ c ↔ z * 2 ^ k ≤ c) := by
    intro c
    have aux : ∀ t : ℝ, (m : ℝ) < t → t < m + 1 → (t ≤ c ↔ (m : ℤ) < c) := by
      intro t h1 h2
      constructor
      · intro h
        have : (((m : ℤ)) : ℝ) < (c : ℝ) := by push_cast; linarith
        exact Int.cast_lt.1 this
      · intro h
        have : ((m + 1 : ℤ) : ℝ) ≤ c := Int.cast_le.2 h
        push_cast at this; linarith
    rw [aux _ hy hy', aux _ hz hz']
  have pw : ∀ e : ℤ, -(k : ℤ) ≤ e → (2 : ℝ) ^ e * 2 ^ k = ((2 ^ (e + k).toNat : ℤ) : ℝ) := by
    intro e he
    push_cast
    rw [← zpow_natCast, ← zpow_natCast, ← zpow_add₀ two_ne_zero]
    congr 1
    omega
  have hle : ∀ {s t : ℝ}, 0 < s → 0 < t → (∀ c : ℤ, (c : ℝ) ≤ s * 2 ^ k → (c : ℝ) ≤ t * 2 ^ k) →
      lastExp p emin s ≤ lastExp p emin t := by
    intro s t hs ht h
    by_contra hc
    have h1 : emin < lastExp p emin s := by
      have : emin ≤ lastExp p emin t := le_max_right _ _
      omega
    have h2 : lastExp p emin s = Int.log 2 s + 1 - p := by
      unfold lastExp at h1 ⊢
      rw [abs_of_pos hs] at h1 ⊢
      omega
    have h3 : (2 : ℝ) ^ Int.log 2 s ≤ s := by exact_mod_cast Int.zpow_log_le_self (b := 2) (by norm_num) hs
    have h4 : (2 : ℝ) ^ Int.log 2 s ≤ t := by
      have h5 := pw (Int.log 2 s) (by omega)
      have h6 := h (2 ^ (Int.log 2 s + k).toNat) (by rw [← h5]; exact mul_le_mul_of_nonneg_right h3 h2k.le)
      rw [← h5] at h6
      exact le_of_mul_le_mul_right h6 h2k
    have h5 : Int.log 2 s ≤ Int.log 2 t := (Int.zpow_le_iff_le_log (by norm_num) ht).1 (by exact_mod_cast h4)
    have h6 : Int.log 2 t + 1 - p ≤ lastExp p emin t := by
      unfold lastExp
      rw [abs_of_pos ht]
      exact le_max_left _ _
    omega
  have hexp : lastExp p emin y = lastExp p emin z :=
    le_antisymm (hle y0 z0 fun c => (side c).1) (hle z0 y0 fun c => (side c).2)
  have hemin : emin ≤ lastExp p emin z := le_max_right _ _
  unfold rnd
  rw [hexp]
  set e := lastExp p emin z with he
  clear_value e
  have h2e := two_zpow_pos (K := ℝ) e
  have hfl : ∀ c : ℤ, ((c : ℝ) ≤ y / 2 ^ e ↔ (c : ℝ) ≤ z / 2 ^ e) := by
    intro c
    have aux : ∀ t : ℝ, ((c : ℝ) ≤ t / 2 ^ e ↔ ((c * 2 ^ (e + k).toNat : ℤ) : ℝ) ≤ t * 2 ^ k) := by
      intro t
      rw [le_div_iff₀ h2e, Int.cast_mul, ← pw e (by omega), ← mul_assoc, mul_le_mul_iff_left₀ h2k]
    rw [aux, aux, side]
  have hhalf : ∀ c : ℤ, ((y / 2 ^ e - c < 1 / 2) ↔ (z / 2 ^ e - c < 1 / 2)) ∧ ((1 / 2 < y / 2 ^ e - c) ↔ (1 / 2 < z / 2 ^ e - c)) := by
    intro c
    have hs : (2 : ℝ) ^ e = 2 * 2 ^ (e - 1) := by
      rw [← zpow_one_add₀ two_ne_zero]; congr 1; omega
    have aux : ∀ t : ℝ, ((t / 2 ^ e - c < 1 / 2) ↔ ¬ (((2 * c + 1) * 2 ^ (e - 1 + k).toNat : ℤ) : ℝ) ≤ t * 2 ^ k) ∧
        ((1 / 2 < t / 2 ^ e - c) ↔ ¬ t * 2 ^ k ≤ (((2 * c + 1) * 2 ^ (e - 1 + k).toNat : ℤ) : ℝ)) := by
      intro t
      rw [Int.cast_mul, ← pw (e - 1) (by omega), ← mul_assoc, mul_le_mul_iff_left₀ h2k, mul_le_mul_iff_left₀ h2k, not_le, not_le,
        sub_lt_iff_lt_add, lt_sub_iff_add_lt, div_lt_iff₀ h2e, lt_div_iff₀ h2e, hs]
      push_cast
      constructor <;> (constructor <;> intro h <;> linarith)
    rw [(aux y).1, (aux y).2, (aux z).1, (aux z).2, side, side']
    exact ⟨Iff.rfl, Iff.rfl⟩
  have hfloor : ⌊y / 2 ^ e⌋ = ⌊z / 2 ^ e⌋ := le_antisymm
    (Int.le_floor.2 ((hfl _).1 (Int.floor_le _))) (Int.le_floor.2 ((hfl _).2 (Int.floor_le _)))
  congr 2
  unfold rne
  rw [hfloor]
  simp only [(hhalf ⌊z / 2 ^ e⌋).1, (hhalf ⌊z / 2 ^ e⌋).2]

/-- The result is the real root, rounded once. -/
theorem Fl.sqrtRat_val {p : ℕ} (hp : 1 ≤ p) {emin : ℤ} (x : Fl ℚ p emin) (h0 : 0 ≤ x.val) :
    ((Fl.sqrtRat x).val : ℝ) = rnd p emin (√(x.val : ℝ)) := by
  show ((rnd p emin (sqrtQ (1 - emin).toNat x.val) : ℚ) : ℝ) = _
  rw [rnd_ratCast]
  set k := (1 - emin).toNat with hk
  have hx0 : (0 : ℝ) ≤ (x.val : ℝ) := by exact_mod_cast h0
  have h2k : (0 : ℝ) < 2 ^ k := by positivity
  have h4 : (4 : ℝ) ^ k = 2 ^ k * 2 ^ k := by rw [← mul_pow]; norm_num
  have hroot : √(x.val : ℝ) * 2 ^ k = √((x.val : ℝ) * 4 ^ k) := by
    rw [h4, Real.sqrt_mul hx0, Real.sqrt_mul_self h2k.le]
  unfold sqrtQ
  set n := ⌊x.val * 4 ^ k⌋.toNat with hn
  obtain ⟨hs1, hs2⟩ := isqrt_spec (Nat.log2 n + 1) n (by
    have h : n < 2 ^ (Nat.log2 n + 1) := Nat.lt_log2_self
    exact h.trans_le (Nat.pow_le_pow_left (by norm_num) _))
  set s := isqrt (Nat.log2 n + 1) n with hsd
  clear_value s
  have hp0 : (0 : ℚ) ≤ x.val * 4 ^ k := by positivity
  have hnz : ((n : ℤ) : ℚ) = (⌊x.val * 4 ^ k⌋ : ℤ) := by
    rw [hn, Int.toNat_of_nonneg (Int.floor_nonneg.2 hp0)]
  have hb1 : ((n : ℕ) : ℚ) ≤ x.val * 4 ^ k := by
    have := Int.floor_le (x.val * 4 ^ k)
    rw [← hnz] at this; exact_mod_cast this
  have hb2 : x.val * 4 ^ k < (n : ℚ) + 1 := by
    have := Int.lt_floor_add_one (x.val * 4 ^ k)
    rw [← hnz] at this; exact_mod_cast this
  have hc1 : ((s * s : ℕ) : ℝ) ≤ (x.val : ℝ) * 4 ^ k := by
    have : ((s * s : ℕ) : ℚ) ≤ x.val * 4 ^ k := le_trans (by exact_mod_cast hs1) hb1
    exact_mod_cast this
  have hc2 : (x.val : ℝ) * 4 ^ k < (((s + 1) * (s + 1) : ℕ) : ℝ) := by
    have : x.val * 4 ^ k < (((s + 1) * (s + 1) : ℕ) : ℚ) := hb2.trans_le (by exact_mod_cast hs2)
    exact_mod_cast this
  dsimp only
  rw [← hsd]
  split
  · rename_i h
    have h' : (s : ℝ) * s = (x.val : ℝ) * 4 ^ k := by
      rw [← Rat.cast_inj (α := ℝ)] at h
      push_cast at h
      exact h
    congr 1
    have h1 : √(x.val : ℝ) * 2 ^ k = s := by
      rw [hroot, ← h', Real.sqrt_mul_self (Nat.cast_nonneg s)]
    push_cast
    rw [← h1]
    field_simp
  · rename_i h
    have h' : (s : ℝ) * s ≠ (x.val : ℝ) * 4 ^ k := by
      rw [← Rat.cast_inj (α := ℝ)] at h
      push_cast at h
      exact h
    apply rnd_sticky hp (k := k) (by omega) (m := s)
    · push_cast; rw [pow_succ]; field_simp; linarith
    · push_cast; rw [pow_succ]; field_simp; linarith
    · rw [hroot]
      apply Real.lt_sqrt_of_sq_lt
      push_cast at hc1
      rw [sq]
      exact lt_of_le_of_ne hc1 h'
    · rw [hroot, Real.sqrt_lt' (by positivity), sq]
      push_cast at hc2
      exact hc2

end Malg
