import Verif.Model.Basis
import Verif.Lemmas.Loops
import Verif.Lemmas.Float
import Mathlib.Data.Nat.Log
import Mathlib.Tactic.Ring
/-!
# Property C74: the radix of the number format
-/
namespace Malg
open Basis

theorem digits_eq {n k : Nat} (h1 : 2 ^ k ≤ n) (h2 : n < 2 ^ (k + 1)) : digits n = k + 1 := by
  have h0 : 0 < n := Nat.lt_of_lt_of_le (Nat.two_pow_pos k) h1
  rw [digits, if_neg (Nat.ne_of_gt h0), (Nat.log2_eq_iff (Nat.ne_of_gt h0)).2 ⟨h1, h2⟩]

/-- Numbers with at most `p` digits are not changed. -/
theorem round_exact {p n : Nat} (h : n < 2 ^ p) : round p n = n := by
  have hd : digits n ≤ p := by
    unfold digits
    split
    · omega
    · rename_i h0
      exact (Nat.log2_lt h0).2 h
  have hu : digits n - p = 0 := by omega
  unfold Basis.round
  rw [hu]
  simp [Nat.mod_one]

theorem round_pow (p k : Nat) (hp : 1 ≤ p) : round p (2 ^ k) = 2 ^ k := by
  by_cases hk : k < p
  · exact round_exact (Nat.pow_lt_pow_right (by omega) hk)
  have hd : digits (2 ^ k) = k + 1 := digits_eq (Nat.le_refl _) (Nat.pow_lt_pow_right (by omega) (by omega))
  have hm : 2 ^ k % 2 ^ (k + 1 - p) = 0 := Nat.mod_eq_zero_of_dvd (Nat.pow_dvd_pow 2 (by omega))
  unfold Basis.round
  rw [hd]
  simp only [hm]
  rw [if_pos (by simp), Nat.div_mul_cancel (Nat.pow_dvd_pow 2 (by omega))]

theorem roundInt_nat (p n : Nat) : roundInt p (n : Int) = (round p n : Nat) := by
  unfold roundInt
  rw [if_neg (by omega)]; rfl

/-- `2^p + 1` lies between two neighbours; the rounded sum differs from `2^p` by zero or two. -/
theorem round_tie {p : Nat} (hp : 1 ≤ p) : round p (2 ^ p + 1) = if p = 1 then 4 else 2 ^ p := by
  have hd : digits (2 ^ p + 1) = p + 1 := by
    apply digits_eq (by omega)
    have : 2 ≤ 2 ^ p := Nat.pow_le_pow_right (n := 2) (by omega) hp
    rw [Nat.pow_succ]; omega
  obtain ⟨q, rfl⟩ : ∃ q, p = q + 1 := ⟨p - 1, by omega⟩
  unfold Basis.round
  rw [hd]
  have e1 : q + 1 + 1 - (q + 1) = 1 := by omega
  have e2 : (2 ^ (q + 1) + 1) / 2 = 2 ^ q := by rw [Nat.pow_succ]; omega
  have e3 : (2 ^ (q + 1) + 1) % 2 = 1 := by rw [Nat.pow_succ]; omega
  simp only [e1, Nat.pow_one, e2, e3]
  rw [if_neg (by omega), if_neg (by omega)]
  cases q with
  | zero => simp
  | succ r =>
    have e4 : 2 ^ (r + 1) % 2 = 0 := by rw [Nat.pow_succ]; omega
    rw [if_pos e4, if_neg (by omega), ← Nat.pow_succ]

theorem round_two {p : Nat} (hp : 2 ≤ p) : round p (2 ^ p + 2) = 2 ^ p + 2 := by
  have h4 : 4 ≤ 2 ^ p := Nat.pow_le_pow_right (n := 2) (by omega) hp
  have hd : digits (2 ^ p + 2) = p + 1 := by
    apply digits_eq (by omega)
    rw [Nat.pow_succ]; omega
  obtain ⟨q, rfl⟩ : ∃ q, p = q + 1 := ⟨p - 1, by omega⟩
  unfold Basis.round
  rw [hd]
  have e1 : q + 1 + 1 - (q + 1) = 1 := by omega
  have e3 : (2 ^ (q + 1) + 2) % 2 = 0 := by rw [Nat.pow_succ]; omega
  simp only [e1, Nat.pow_one, e3]
  rw [if_pos (by omega), Nat.div_mul_cancel (Nat.dvd_of_mod_eq_zero e3)]

theorem float_add (p a b : Nat) : (float p).add (a : Int) (b : Int) = .ok ((round p (a + b) : Nat) : Int) := by
  show Res.ok (roundInt p (a + b)) = _
  rw [← Int.natCast_add, roundInt_nat]
theorem float_sub (p a b : Nat) (h : b ≤ a) : (float p).sub (a : Int) (b : Int) = .ok ((round p (a - b) : Nat) : Int) := by
  show Res.ok (roundInt p (a - b)) = _
  rw [← Int.ofNat_sub h, roundInt_nat]
theorem float_mul (p a b : Nat) : (float p).mul (a : Int) (b : Int) = .ok ((round p (a * b) : Nat) : Int) := by
  show Res.ok (roundInt p (a * b)) = _
  rw [← Int.natCast_mul, roundInt_nat]

/-- The first loop stops at `2^p`. -/
theorem float_first {p : Nat} (hp : 1 ≤ p) (j : Nat) : ∀ k fuel, k + j = p → j < fuel →
    whileFuel (fun x : Int => do
      let s ← (float p).add x (float p).one
      let d ← (float p).sub s x
      if d = (float p).one then do
        let x ← (float p).mul x (float p).two
        return some x
      else return none) fuel (((2 ^ k : Nat)) : Int) = .ok (((2 ^ p : Nat)) : Int) := by
  have h2p : 2 ≤ 2 ^ p := Nat.pow_le_pow_right (n := 2) (by omega) hp
  induction j with
  | zero =>
    intro k fuel hk hf
    obtain ⟨f, rfl⟩ : ∃ f, fuel = f + 1 := ⟨fuel - 1, by omega⟩
    have : k = p := by omega
    subst this
    refine whileFuel_none ?_ _
    have e1 : (float k).add ((2 ^ k : Nat) : Int) (float k).one = .ok ((round k (2 ^ k + 1) : Nat) : Int) := float_add k (2 ^ k) 1
    have e2 : (float k).sub ((round k (2 ^ k + 1) : Nat) : Int) ((2 ^ k : Nat) : Int) = .ok ((round k (round k (2 ^ k + 1) - 2 ^ k) : Nat) : Int) := by
      apply float_sub
      rw [round_tie hp]; split
      · rename_i h; subst h; decide
      · exact Nat.le_refl _
    rw [e1, Res.ok_bind, e2, Res.ok_bind, if_neg]
    · rfl
    · rw [round_tie hp]
      show ¬ _ = ((1 : Nat) : Int)
      rw [Int.natCast_inj]
      split
      · rename_i h; subst h; decide
      · rw [Nat.sub_self, round_exact (by omega)]; omega
  | succ j ih =>
    intro k fuel hk hf
    obtain ⟨f, rfl⟩ : ∃ f, fuel = f + 1 := ⟨fuel - 1, by omega⟩
    have hlt : 2 ^ k + 1 < 2 ^ p ∨ 2 ^ k + 1 = 2 ^ p := by
      have : 2 ^ k < 2 ^ p := Nat.pow_lt_pow_right (by omega) (by omega)
      omega
    have hsum : round p (2 ^ k + 1) = 2 ^ k + 1 := by
      rcases hlt with h | h
      · exact round_exact h
      · rw [h]; exact round_pow p p hp
    have e1 : (float p).add ((2 ^ k : Nat) : Int) (float p).one = .ok ((round p (2 ^ k + 1) : Nat) : Int) := float_add p (2 ^ k) 1
    have e2 : (float p).sub ((2 ^ k + 1 : Nat) : Int) ((2 ^ k : Nat) : Int) = .ok ((1 : Nat) : Int) := by
      rw [float_sub p _ _ (by omega), Nat.add_sub_cancel_left, round_exact (by omega)]
    have e3 : (float p).mul ((2 ^ k : Nat) : Int) (float p).two = .ok ((2 ^ (k + 1) : Nat) : Int) := by
      show (float p).mul ((2 ^ k : Nat) : Int) ((2 : Nat) : Int) = _
      rw [float_mul, ← Nat.pow_succ, round_pow p _ hp]
    rw [whileFuel_some (s' := ((2 ^ (k + 1) : Nat) : Int))]
    · exact ih (k + 1) f (by omega) (by omega)
    · rw [e1, Res.ok_bind, hsum, e2, Res.ok_bind, if_pos (by rfl), e3]
      rfl

/-- C74: for every binary floating point format the answer is two, and it is found after at most as many steps as the
format has digits. -/
theorem C74_float_partial {p : Nat} (hp : 1 ≤ p) {fuel : Nat} (hf : p + 1 < fuel) : basis (float p) fuel = .ok 2 := by
  have h2p : 2 ≤ 2 ^ p := Nat.pow_le_pow_right (n := 2) (by omega) hp
  unfold basis
  have := float_first hp p 0 fuel (by omega) (by omega)
  rw [show ((2 ^ 0 : Nat) : Int) = (float p).one from rfl] at this
  rw [this, Res.ok_bind]
  obtain ⟨f, rfl⟩ : ∃ f, fuel = f + 2 := ⟨fuel - 2, by omega⟩
  have a1 : (float p).add ((2 ^ p : Nat) : Int) (float p).one = .ok ((round p (2 ^ p + 1) : Nat) : Int) := float_add p (2 ^ p) 1
  by_cases h1 : p = 1
  · subst h1; rw [whileFuel_none (by rfl)]; rfl
  have hp2 : 2 ≤ p := by omega
  rw [round_tie hp, if_neg h1] at a1
  have m1 : (float p).mul (float p).one (float p).two = .ok ((2 : Nat) : Int) := by
    show (float p).mul ((1 : Nat) : Int) ((2 : Nat) : Int) = _
    rw [float_mul]
    have := round_pow p 1 hp
    rw [show 1 * 2 = 2 ^ 1 from rfl, this]; rfl
  have a2 : (float p).add ((2 ^ p : Nat) : Int) ((2 : Nat) : Int) = .ok ((2 ^ p + 2 : Nat) : Int) := by
    rw [float_add, round_two hp2]
  rw [whileFuel_some (s' := ((2 : Nat) : Int)), whileFuel_none, Res.ok_bind, a2, Res.ok_bind]
  · rw [float_sub p _ _ (by omega), Nat.add_sub_cancel_left]
    have := round_pow p 1 hp
    rw [show 2 = 2 ^ 1 from rfl, this]
    rfl
  · rw [a2, Res.ok_bind, if_neg (by rw [Int.natCast_inj]; omega)]; rfl
  · rw [a1, Res.ok_bind, if_pos rfl, m1]; rfl

/-- C74 is false for unsigned integer types: the loop never ends. -/
theorem C74_unsigned_false {w : Nat} (hw : 1 < w) (fuel : Nat) : basis (unsigned w) fuel = .diverge := by
  have hM : 4 ≤ 2 ^ w := Nat.pow_le_pow_right (n := 2) (by omega) hw
  have : ∀ fuel x, x < 2 ^ w → whileFuel (fun x => do
      let s ← (unsigned w).add x (unsigned w).one
      let d ← (unsigned w).sub s x
      if d = (unsigned w).one then do
        let x ← (unsigned w).mul x (unsigned w).two
        return some x
      else return none) fuel x = .diverge := by
    intro fuel
    induction fuel with
    | zero => intro x _; rfl
    | succ f ih =>
      intro x hx
      have e : ((x + 1) % 2 ^ w + (2 ^ w - x)) % 2 ^ w = 1 := by
        rcases Nat.lt_or_ge (x + 1) (2 ^ w) with h | h
        · rw [Nat.mod_eq_of_lt h, show x + 1 + (2 ^ w - x) = 1 + 2 ^ w by omega, Nat.add_mod_right, Nat.mod_eq_of_lt (by omega)]
        · rw [show x + 1 = 2 ^ w by omega, Nat.mod_self, Nat.zero_add, Nat.mod_eq_of_lt (by omega)]; omega
      rw [whileFuel_some (s' := x * (2 % 2 ^ w) % 2 ^ w)]
      · exact ih _ (Nat.mod_lt _ (by omega))
      · show (if ((x + 1) % 2 ^ w + (2 ^ w - x)) % 2 ^ w = 1 then _ else _) = _
        rw [if_pos e]; rfl
  unfold basis
  rw [this fuel (unsigned w).one (by show 1 < 2 ^ w; omega)]
  rfl

/-- C74 is false for signed integer types: the loop overflows. -/
theorem C74_signed_false {w : Nat} (hw : 1 < w) {fuel : Nat} (hf : w ≤ fuel) : basis (signed w) fuel = .ub .overflow := by
  obtain ⟨v, rfl⟩ : ∃ v, w = v + 2 := ⟨w - 2, by omega⟩
  have key : ∀ j k fuel, k + j = v → j < fuel → whileFuel (fun x : Int => do
      let s ← (signed (v + 2)).add x (signed (v + 2)).one
      let d ← (signed (v + 2)).sub s x
      if d = (signed (v + 2)).one then do
        let x ← (signed (v + 2)).mul x (signed (v + 2)).two
        return some x
      else return none) fuel ((2 ^ k : Nat) : Int) = .ub .overflow := by
    have hp : ∀ k, k ≤ v + 1 → 2 ^ k ≤ 2 ^ (v + 1) := fun k hk => Nat.pow_le_pow_right (n := 2) (by omega) hk
    have fitok : ∀ m : Nat, m < 2 ^ (v + 1) → fit (v + 2) (m : Int) = .ok (m : Int) := by
      intro m hm
      have : ((2 : Int) ^ (v + 2 - 1)) = ((2 ^ (v + 1) : Nat) : Int) := by rw [Int.natCast_pow]; rfl
      unfold fit
      rw [this, if_pos (by omega)]
    have fitno : ∀ m : Nat, 2 ^ (v + 1) ≤ m → fit (v + 2) (m : Int) = .ub .overflow := by
      intro m hm
      have : ((2 : Int) ^ (v + 2 - 1)) = ((2 ^ (v + 1) : Nat) : Int) := by rw [Int.natCast_pow]; rfl
      unfold fit
      rw [this, if_neg (by omega)]
    have a : ∀ k, (signed (v + 2)).add ((2 ^ k : Nat) : Int) (signed (v + 2)).one = fit (v + 2) ((2 ^ k + 1 : Nat) : Int) := fun k => rfl
    have m : ∀ k, (signed (v + 2)).mul ((2 ^ k : Nat) : Int) (signed (v + 2)).two = fit (v + 2) ((2 ^ (k + 1) : Nat) : Int) := fun k => by
      show fit (v + 2) (((2 ^ k : Nat) : Int) * ((2 : Nat) : Int)) = _
      rw [← Int.natCast_mul, ← Nat.pow_succ]
    have s : ∀ k, (signed (v + 2)).sub ((2 ^ k + 1 : Nat) : Int) ((2 ^ k : Nat) : Int) = .ok 1 := fun k => by
      show fit (v + 2) (((2 ^ k + 1 : Nat) : Int) - ((2 ^ k : Nat) : Int)) = _
      rw [← Int.ofNat_sub (by omega), Nat.add_sub_cancel_left, fitok 1]
      · rfl
      · have := hp 1 (by omega); omega
    intro j
    induction j with
    | zero =>
      intro k fuel hk hf
      obtain ⟨f, rfl⟩ : ∃ f, fuel = f + 1 := ⟨fuel - 1, by omega⟩
      have : k = v := by omega
      subst this
      rw [whileFuel]
      rw [a]
      rcases Nat.lt_or_ge (2 ^ k + 1) (2 ^ (k + 1)) with h | h
      · rw [fitok _ h, Res.ok_bind, s, Res.ok_bind, if_pos (by rfl), m, fitno _ (Nat.le_refl _)]
        rfl
      · rw [fitno _ h]; rfl
    | succ j ih =>
      intro k fuel hk hf
      obtain ⟨f, rfl⟩ : ∃ f, fuel = f + 1 := ⟨fuel - 1, by omega⟩
      have hk1 : 2 ^ (k + 1) < 2 ^ (v + 1) := Nat.pow_lt_pow_right (by omega) (by omega)
      have hk2 : 2 ^ k + 1 ≤ 2 ^ (k + 1) := by
        have := Nat.two_pow_pos k
        rw [Nat.pow_succ]; omega
      rw [whileFuel_some (s' := ((2 ^ (k + 1) : Nat) : Int))]
      · exact ih (k + 1) f (by omega) (by omega)
      · rw [a, fitok _ (by omega), Res.ok_bind, s, Res.ok_bind, if_pos (by rfl), m, fitok _ hk1]
        rfl
  unfold basis
  have := key v 0 fuel (by omega) (by omega)
  rw [show ((2 ^ 0 : Nat) : Int) = (signed (v + 2)).one from rfl] at this
  rw [this]; rfl

/- `float`, `double`, `int`, and the roundings behind them. -/
example : basis (float 24) 26 = .ok 2 := by decide +kernel
example : basis (float 53) 55 = .ok 2 := by decide +kernel
example : basis (signed 32) 32 = .ub .overflow := by decide +kernel
example : round 3 9 = 8 ∧ round 3 11 = 12 ∧ round 3 10 = 10 ∧ round 3 7 = 7 ∧ round 3 15 = 16 := by decide

theorem round_eq_rnd {p : Nat} (hp : 1 ≤ p) {emin : ℤ} (he : emin ≤ 0) (n : Nat) : ((Basis.round p n : Nat) : ℚ) = rnd p emin (n : ℚ) := by
  by_cases hn : n < 2 ^ p
  · rw [round_exact hn, rnd_exact hp ⟨n, 0, he, by rw [Nat.abs_cast]; exact_mod_cast hn.le, by simp⟩]
  have hnp : 2 ^ p ≤ n := by omega
  have hn0 : n ≠ 0 := by have := Nat.two_pow_pos p; omega
  have hd : digits n = Nat.log 2 n + 1 := by rw [digits, if_neg hn0, Nat.log2_eq_log_two]
  have hlog : p ≤ Nat.log 2 n := (Nat.le_log_iff_pow_le (by norm_num) hn0).2 hnp
  obtain ⟨k, hk⟩ : ∃ k, Nat.log 2 n + 1 = p + k := ⟨Nat.log 2 n + 1 - p, by omega⟩
  have hl : lastExp p emin (n : ℚ) = (k : ℤ) := by
    unfold lastExp
    rw [Nat.abs_cast, Int.log_natCast]
    have : ((Nat.log 2 n : ℕ) : ℤ) + 1 - p = k := by omega
    rw [this]
    exact max_eq_left (by omega)
  unfold Basis.round rnd
  rw [hl, hd, hk, Nat.add_sub_cancel_left, zpow_natCast]
  dsimp only
  have hu : (0 : ℚ) < 2 ^ k := by positivity
  have hdm := Nat.div_add_mod n (2 ^ k)
  have hml := Nat.mod_lt n (Nat.two_pow_pos k)
  generalize n / 2 ^ k = q at hdm ⊢
  generalize n % 2 ^ k = r at hdm hml ⊢
  have hx : (n : ℚ) / 2 ^ k = q + r / 2 ^ k := by
    rw [← hdm]; push_cast; field_simp
  have hrl : (r : ℚ) / 2 ^ k < 1 := by rw [div_lt_one hu]; exact_mod_cast hml
  have hr0 : (0 : ℚ) ≤ r / 2 ^ k := by positivity
  have hfl : ⌊(n : ℚ) / 2 ^ k⌋ = (q : ℤ) := by
    rw [hx, Int.floor_eq_iff]; push_cast; constructor <;> linarith
  unfold rne
  rw [hfl, hx]
  have e1 : (q : ℚ) + r / 2 ^ k - ((q : ℤ) : ℚ) = r / 2 ^ k := by push_cast; ring
  rw [e1]
  have c1 : (r : ℚ) / 2 ^ k < 1 / 2 ↔ 2 * r < 2 ^ k := by
    rw [div_lt_div_iff₀ hu (by norm_num), one_mul, mul_comm]; exact_mod_cast Iff.rfl
  have c2 : 1 / 2 < (r : ℚ) / 2 ^ k ↔ 2 ^ k < 2 * r := by
    rw [div_lt_div_iff₀ (by norm_num) hu, one_mul, mul_comm]; exact_mod_cast Iff.rfl
  simp only [c1, c2]
  have c3 : (q : ℤ) % 2 = 0 ↔ q % 2 = 0 := by omega
  simp only [c3]
  split_ifs <;> push_cast <;> rfl

/-- C74: the arithmetic assumed here is rounding to nearest, ties to even, with `p` digits. -/
theorem C74_rounding {p : Nat} (hp : 1 ≤ p) {emin : ℤ} (he : emin ≤ 0) (z : Int) : ((roundInt p z : Int) : ℚ) = rnd p emin (z : ℚ) := by
  unfold roundInt
  by_cases h : z < 0
  · rw [if_pos h]
    have : z = -(z.natAbs : Int) := by omega
    conv_rhs => rw [this]
    rw [Int.cast_neg, Int.cast_neg, rnd_neg, Int.cast_natCast, Int.cast_natCast, round_eq_rnd hp he]
  · rw [if_neg h]
    have : z = (z.natAbs : Int) := by omega
    conv_rhs => rw [this]
    rw [Int.cast_natCast, Int.cast_natCast, round_eq_rnd hp he]

/-- C74: the integer types assumed here: signed ones have a result whenever it is in their range, unsigned ones the remainder, and a
floating point number is converted to `int` when it is in the range of `int`, an unsigned one always, to the `int` that has the same
remainder. -/
theorem C74_types (w p : Nat) :
    (∀ x y z : Int, ((signed w).add x y = .ok z ↔ z = x + y ∧ -2 ^ (w - 1) ≤ z ∧ z < 2 ^ (w - 1)) ∧
      ((signed w).sub x y = .ok z ↔ z = x - y ∧ -2 ^ (w - 1) ≤ z ∧ z < 2 ^ (w - 1)) ∧
      ((signed w).mul x y = .ok z ↔ z = x * y ∧ -2 ^ (w - 1) ≤ z ∧ z < 2 ^ (w - 1))) ∧
    (∀ x y : Nat, y < 2 ^ w → ∃ a s m, (unsigned w).add x y = .ok a ∧ (unsigned w).sub x y = .ok s ∧ (unsigned w).mul x y = .ok m ∧
      (a : Int) = (x + y : Int) % 2 ^ w ∧ (s : Int) = (x - y : Int) % 2 ^ w ∧ (m : Int) = (x * y : Int) % 2 ^ w) ∧
    (∀ x z : Int, (float p).toInt x = .ok z ↔ z = x ∧ -2 ^ 31 ≤ z ∧ z < 2 ^ 31) ∧
    ∀ (x : Nat) (z : Int), (unsigned w).toInt x = .ok z ↔ (2 ^ 32 : Int) ∣ z - x ∧ -2 ^ 31 ≤ z ∧ z < 2 ^ 31 := by
  have hfit : ∀ t z : Int, fit w t = .ok z ↔ z = t ∧ -2 ^ (w - 1) ≤ z ∧ z < 2 ^ (w - 1) := by
    intro t z
    unfold fit
    split
    · rename_i h
      constructor
      · intro e; cases e; exact ⟨rfl, h⟩
      · rintro ⟨rfl, -⟩; rfl
    · rename_i h
      constructor
      · intro e; cases e
      · rintro ⟨rfl, h1⟩; exact absurd h1 h
  refine ⟨fun x y z => ⟨hfit _ z, hfit _ z, hfit _ z⟩, fun x y hy => ⟨_, _, _, rfl, rfl, rfl, ?_, ?_, ?_⟩, fun x z => ?_, fun x z => ?_⟩
  · push_cast; rfl
  · push_cast
    rw [Nat.cast_sub hy.le]
    push_cast
    rw [show (x : Int) + (2 ^ w - y) = x - y + 2 ^ w by ring, Int.add_emod_right]
  · push_cast; rfl
  · show (if -2 ^ 31 ≤ x ∧ x < 2 ^ 31 then Res.ok x else .ub .badCast) = .ok z ↔ _
    split
    · rename_i h
      constructor
      · intro e; cases e; exact ⟨rfl, h⟩
      · rintro ⟨rfl, -⟩; rfl
    · rename_i h
      constructor
      · intro e; cases e
      · rintro ⟨rfl, h1⟩; exact absurd h1 h
  · show Res.ok (if x % 2 ^ 32 < 2 ^ 31 then ((x % 2 ^ 32 : Nat) : Int) else ((x % 2 ^ 32 : Nat) : Int) - 2 ^ 32) = .ok z ↔ _
    rw [Res.ok.injEq]
    split <;> omega

example : (unsigned 32).toInt (2 ^ 31) = .ok (-2 ^ 31) ∧ (unsigned 64).toInt (2 ^ 32 + 5) = .ok 5 := by decide +kernel
example : roundInt 3 13 = 12 ∧ roundInt 3 (-15) = -16 ∧ roundInt 3 14 = 14 ∧ roundInt 2 5 = 4 := by decide +kernel

end Malg
