import Verif.Props.FloatLu
import Verif.Props.Det
import Mathlib.Algebra.Order.Ring.Int
/-!
# Property C85: determinants and inverses of integer matrices in floating point
-/
namespace Malg
open Ops Lin

/-- The closed formulas of `determinant`, over any number type. -/
def closedDet {T : Type} [One T] [Add T] [Sub T] [Mul T] (e : Nat → Nat → T) : Nat → T
  | 1 => e 0 0
  | 2 => e 0 0 * e 1 1 - e 0 1 * e 1 0
  | 3 => e 0 0 * (e 1 1 * e 2 2 - e 2 1 * e 1 2) - e 0 1 * (e 1 0 * e 2 2 - e 1 2 * e 2 0) + e 0 2 * (e 1 0 * e 2 1 - e 1 1 * e 2 0)
  | 4 => e 0 3 * e 1 2 * e 2 1 * e 3 0 - e 0 2 * e 1 3 * e 2 1 * e 3 0 -
    e 0 3 * e 1 1 * e 2 2 * e 3 0 + e 0 1 * e 1 3 * e 2 2 * e 3 0 +
    e 0 2 * e 1 1 * e 2 3 * e 3 0 - e 0 1 * e 1 2 * e 2 3 * e 3 0 -
    e 0 3 * e 1 2 * e 2 0 * e 3 1 + e 0 2 * e 1 3 * e 2 0 * e 3 1 +
    e 0 3 * e 1 0 * e 2 2 * e 3 1 - e 0 0 * e 1 3 * e 2 2 * e 3 1 -
    e 0 2 * e 1 0 * e 2 3 * e 3 1 + e 0 0 * e 1 2 * e 2 3 * e 3 1 +
    e 0 3 * e 1 1 * e 2 0 * e 3 2 - e 0 1 * e 1 3 * e 2 0 * e 3 2 -
    e 0 3 * e 1 0 * e 2 1 * e 3 2 + e 0 0 * e 1 3 * e 2 1 * e 3 2 +
    e 0 1 * e 1 0 * e 2 3 * e 3 2 - e 0 0 * e 1 1 * e 2 3 * e 3 2 -
    e 0 2 * e 1 1 * e 2 0 * e 3 3 + e 0 1 * e 1 2 * e 2 0 * e 3 3 +
    e 0 2 * e 1 0 * e 2 1 * e 3 3 - e 0 0 * e 1 2 * e 2 1 * e 3 3 -
    e 0 1 * e 1 0 * e 2 2 * e 3 3 + e 0 0 * e 1 1 * e 2 2 * e 3 3
  | _ => 1

theorem determinant_closed {T : Type} [Zero T] [One T] [Add T] [Sub T] [Mul T] [Neg T] [CDiv T] (isz : T → Bool) {A : MB T} {N : Nat}
    {e : Nat → Nat → T} (h : Rep A N N e) (hN : N ≤ 4) : determinant isz A = .ok (closedDet e N) := by
  have g := h.get
  unfold determinant
  rw [isSquare_eq h.toRepAt, h.cols, beq_self_eq_true, Bool.not_true, if_neg Bool.false_ne_true]
  obtain rfl | rfl | rfl | rfl | rfl : N = 0 ∨ N = 1 ∨ N = 2 ∨ N = 3 ∨ N = 4 := by omega
  · simp only [Nat.zero_ne_one, if_false, OfNat.zero_ne_ofNat]
    rw [Mat.ofMB_eq h]; rfl
  · rw [if_pos rfl, g 0 0 (by omega) (by omega)]; rfl
  · rw [if_neg (by omega), if_pos rfl, g 0 0 (by omega) (by omega), g 0 1 (by omega) (by omega), g 1 0 (by omega) (by omega), g 1 1 (by omega) (by omega)]; rfl
  · rw [if_neg (by omega), if_neg (by omega), if_pos rfl, g 0 0 (by omega) (by omega), g 0 1 (by omega) (by omega), g 0 2 (by omega) (by omega), g 1 0 (by omega) (by omega), g 1 1 (by omega) (by omega), g 1 2 (by omega) (by omega), g 2 0 (by omega) (by omega), g 2 1 (by omega) (by omega), g 2 2 (by omega) (by omega)]; rfl
  · rw [if_neg (by omega), if_neg (by omega), if_neg (by omega), if_pos rfl, g 0 0 (by omega) (by omega), g 0 1 (by omega) (by omega), g 0 2 (by omega) (by omega), g 0 3 (by omega) (by omega), g 1 0 (by omega) (by omega), g 1 1 (by omega) (by omega), g 1 2 (by omega) (by omega), g 1 3 (by omega) (by omega), g 2 0 (by omega) (by omega), g 2 1 (by omega) (by omega), g 2 2 (by omega) (by omega), g 2 3 (by omega) (by omega), g 3 0 (by omega) (by omega), g 3 1 (by omega) (by omega), g 3 2 (by omega) (by omega), g 3 3 (by omega) (by omega)]; rfl

/-- Over a commutative ring the closed formulas are the determinant. -/
theorem closedDet_eq {L : Type} [CommRing L] (z : Nat → Nat → L) {N : Nat} (hN : N ≤ 4) : closedDet z N = (toM N N z).det := by
  let _ : CDiv L := ⟨fun _ _ => .ub .divZero⟩
  have hf : Fits N N := by
    have : Fits 4 4 := by unfold Fits; rw [allocMax_eq, W_eq]; decide
    exact this.mono hN hN
  have h := ofFn_rep hf z
  have h1 := determinant_closed (fun _ => false) h hN
  rw [determinant_small _ h hN] at h1
  injection h1 with h1
  exact h1.symm

section
variable {K : Type} [Field K] [LinearOrder K] [IsStrictOrderedRing K] [FloorRing K] {p : ℕ} {emin : ℤ} (hp : 1 ≤ p) (he : emin ≤ 0)

/-- `x` is the integer `z`, of size at most `B`. -/
def IntVal (x : Fl K p emin) (z B : ℤ) : Prop := x.val = z ∧ |z| ≤ B

include hp he in
theorem IntVal.add {x y : Fl K p emin} {a b A B : ℤ} (hx : IntVal x a A) (hy : IntVal y b B) (h : A + B ≤ 2 ^ p) :
    IntVal (x + y) (a + b) (A + B) := by
  have hb : |a + b| ≤ A + B := (abs_add_le a b).trans (add_le_add hx.2 hy.2)
  refine ⟨?_, hb⟩
  show rnd p emin (x.val + y.val) = _
  rw [hx.1, hy.1, ← Int.cast_add]
  exact rnd_intCast hp he (hb.trans h)

include hp he in
theorem IntVal.sub {x y : Fl K p emin} {a b A B : ℤ} (hx : IntVal x a A) (hy : IntVal y b B) (h : A + B ≤ 2 ^ p) :
    IntVal (x - y) (a - b) (A + B) := by
  have hb : |a - b| ≤ A + B := (abs_sub a b).trans (add_le_add hx.2 hy.2)
  refine ⟨?_, hb⟩
  show rnd p emin (x.val - y.val) = _
  rw [hx.1, hy.1, ← Int.cast_sub]
  exact rnd_intCast hp he (hb.trans h)

include hp he in
theorem IntVal.mul {x y : Fl K p emin} {a b A B : ℤ} (hx : IntVal x a A) (hy : IntVal y b B) (h : A * B ≤ 2 ^ p) :
    IntVal (x * y) (a * b) (A * B) := by
  have hb : |a * b| ≤ A * B := by
    rw [abs_mul]; exact mul_le_mul hx.2 hy.2 (abs_nonneg b) ((abs_nonneg a).trans hx.2)
  refine ⟨?_, hb⟩
  show rnd p emin (x.val * y.val) = _
  rw [hx.1, hy.1, ← Int.cast_mul]
  exact rnd_intCast hp he (hb.trans h)

include hp he in
/-- The closed formulas do not round. -/
theorem closedDet_exact {e : Nat → Nat → Fl K p emin} {z : Nat → Nat → ℤ} {N : Nat} (hN : N ≤ 4) {m : ℤ} (hm : 1 ≤ m)
    (hb : N.factorial * m ^ N ≤ 2 ^ p) (h : ∀ i j, i < N → j < N → IntVal (e i j) (z i j) m) :
    IntVal (closedDet e N) (closedDet z N) (N.factorial * m ^ N) := by
  have h2 : m ≤ m ^ 2 := le_self_pow₀ hm (by norm_num)
  have h3 : m ^ 2 ≤ m ^ 3 := pow_le_pow_right₀ hm (by norm_num)
  have h4 : m ^ 3 ≤ m ^ 4 := pow_le_pow_right₀ hm (by norm_num)
  obtain rfl | rfl | rfl | rfl | rfl : N = 0 ∨ N = 1 ∨ N = 2 ∨ N = 3 ∨ N = 4 := by omega
  · have := rnd_intCast (K := K) (z := 1) hp he (by simpa using hb)
    rw [Int.cast_one] at this
    exact ⟨by rw [show closedDet z 0 = 1 from rfl, Int.cast_one]; exact this, by simp [closedDet]⟩
  · simpa [closedDet] using h 0 0 (by omega) (by omega)
  · have e2 : ((Nat.factorial 2 : ℕ) : ℤ) = 2 := rfl
    rw [e2] at hb ⊢
    have m2 : ∀ i j k l, i < 2 → j < 2 → k < 2 → l < 2 → IntVal (e i j * e k l) (z i j * z k l) (m * m) :=
      fun i j k l h1 h2 h3 h4 => (h i j h1 h2).mul hp he (h k l h3 h4) (by nlinarith)
    have := (m2 0 0 1 1 (by omega) (by omega) (by omega) (by omega)).sub hp he (m2 0 1 1 0 (by omega) (by omega) (by omega) (by omega)) (by nlinarith)
    exact ⟨this.1, this.2.trans (by nlinarith)⟩
  · have e3 : ((Nat.factorial 3 : ℕ) : ℤ) = 6 := rfl
    rw [e3] at hb ⊢
    have m2 : ∀ i j k l, i < 3 → j < 3 → k < 3 → l < 3 → IntVal (e i j * e k l) (z i j * z k l) (m * m) :=
      fun i j k l h1 h2 h3 h4 => (h i j h1 h2).mul hp he (h k l h3 h4) (by nlinarith)
    have d2 : ∀ i j k l i' j' k' l', i < 3 → j < 3 → k < 3 → l < 3 → i' < 3 → j' < 3 → k' < 3 → l' < 3 →
        IntVal (e i j * e k l - e i' j' * e k' l') (z i j * z k l - z i' j' * z k' l') (m * m + m * m) :=
      fun i j k l i' j' k' l' h1 h2 h3 h4 h5 h6 h7 h8 => (m2 i j k l h1 h2 h3 h4).sub hp he (m2 i' j' k' l' h5 h6 h7 h8) (by nlinarith)
    have t0 := (h 0 0 (by omega) (by omega)).mul hp he (d2 1 1 2 2 2 1 1 2 (by omega) (by omega) (by omega) (by omega) (by omega) (by omega) (by omega) (by omega)) (by nlinarith)
    have t1 := (h 0 1 (by omega) (by omega)).mul hp he (d2 1 0 2 2 1 2 2 0 (by omega) (by omega) (by omega) (by omega) (by omega) (by omega) (by omega) (by omega)) (by nlinarith)
    have t2 := (h 0 2 (by omega) (by omega)).mul hp he (d2 1 0 2 1 1 1 2 0 (by omega) (by omega) (by omega) (by omega) (by omega) (by omega) (by omega) (by omega)) (by nlinarith)
    have := (t0.sub hp he t1 (by nlinarith)).add hp he t2 (by nlinarith)
    exact ⟨this.1, this.2.trans (by nlinarith)⟩
  · have e4 : ((Nat.factorial 4 : ℕ) : ℤ) = 24 := rfl
    rw [e4] at hb ⊢
    have m4' : ∀ i j k l i' j' k' l', i < 4 → j < 4 → k < 4 → l < 4 → i' < 4 → j' < 4 → k' < 4 → l' < 4 →
        IntVal (e i j * e k l * e i' j' * e k' l') (z i j * z k l * z i' j' * z k' l') (m ^ 4) := by
      intro i j k l i' j' k' l' h1 h2 h3 h4 h5 h6 h7 h8
      have := ((((h i j h1 h2).mul hp he (h k l h3 h4) (by nlinarith)).mul hp he (h i' j' h5 h6) (by nlinarith)).mul hp he (h k' l' h7 h8) (by nlinarith))
      exact ⟨this.1, this.2.trans (by nlinarith)⟩
    have m4 : ∀ i j k l i' j' k' l' : Fin 4, IntVal (e i j * e k l * e i' j' * e k' l') (z i j * z k l * z i' j' * z k' l') (m ^ 4) :=
      fun i j k l i' j' k' l' => m4' i j k l i' j' k' l' i.2 j.2 k.2 l.2 i'.2 j'.2 k'.2 l'.2
    have s1 := m4 0 3 1 2 2 1 3 0
    have s2 := s1.sub hp he (m4 0 2 1 3 2 1 3 0) (by nlinarith)
    have s3 := s2.sub hp he (m4 0 3 1 1 2 2 3 0) (by nlinarith)
    have s4 := s3.add hp he (m4 0 1 1 3 2 2 3 0) (by nlinarith)
    have s5 := s4.add hp he (m4 0 2 1 1 2 3 3 0) (by nlinarith)
    have s6 := s5.sub hp he (m4 0 1 1 2 2 3 3 0) (by nlinarith)
    have s7 := s6.sub hp he (m4 0 3 1 2 2 0 3 1) (by nlinarith)
    have s8 := s7.add hp he (m4 0 2 1 3 2 0 3 1) (by nlinarith)
    have s9 := s8.add hp he (m4 0 3 1 0 2 2 3 1) (by nlinarith)
    have s10 := s9.sub hp he (m4 0 0 1 3 2 2 3 1) (by nlinarith)
    have s11 := s10.sub hp he (m4 0 2 1 0 2 3 3 1) (by nlinarith)
    have s12 := s11.add hp he (m4 0 0 1 2 2 3 3 1) (by nlinarith)
    have s13 := s12.add hp he (m4 0 3 1 1 2 0 3 2) (by nlinarith)
    have s14 := s13.sub hp he (m4 0 1 1 3 2 0 3 2) (by nlinarith)
    have s15 := s14.sub hp he (m4 0 3 1 0 2 1 3 2) (by nlinarith)
    have s16 := s15.add hp he (m4 0 0 1 3 2 1 3 2) (by nlinarith)
    have s17 := s16.add hp he (m4 0 1 1 0 2 3 3 2) (by nlinarith)
    have s18 := s17.sub hp he (m4 0 0 1 1 2 3 3 2) (by nlinarith)
    have s19 := s18.sub hp he (m4 0 2 1 1 2 0 3 3) (by nlinarith)
    have s20 := s19.add hp he (m4 0 1 1 2 2 0 3 3) (by nlinarith)
    have s21 := s20.add hp he (m4 0 2 1 0 2 1 3 3) (by nlinarith)
    have s22 := s21.sub hp he (m4 0 0 1 2 2 1 3 3) (by nlinarith)
    have s23 := s22.sub hp he (m4 0 1 1 0 2 2 3 3) (by nlinarith)
    have s24 := s23.add hp he (m4 0 0 1 1 2 2 3 3) (by nlinarith)
    exact ⟨s24.1, s24.2.trans (by linarith)⟩

end

section
variable {T : Type} [Zero T] [One T] [Add T] [Sub T] [Mul T] [Neg T] [CDiv T] {isz : T → Bool}

/-- `adjoint` over any number type, from the values that `determinant` returns for the minors. -/
theorem adjoint_exec {A : MB T} {N : Nat} {e} (h : RepAt A N N e) (hN : N ≠ 1)
    {D : Nat → Nat → T} (hD : ∀ i j, i < N → j < N → determinant isz (A.cofactor i j) = .ok (D i j)) :
    adjoint isz A = .ok (Mat.ofFn N N fun r c => (if (c + r) % 2 = 0 then 1 else -1) * D c r) := by
  unfold adjoint
  rw [isSquare_eq h, h.cols, beq_self_eq_true, Bool.not_true, if_neg Bool.false_ne_true, if_neg hN, Mat.new_eq h.fits,
    Res.ok_bind]
  have := fill_transposed h.fits (A := Mat.ofFn N N fun _ _ => (0 : T)) rfl (e := fun r c => (if (r + c) % 2 = 0 then 1 else -1) * D r c)
    (g := fun r c => determinant isz (A.cofactor r c) >>= fun d => .ok ((if (r + c) % 2 = 0 then 1 else -1) * d))
    (fun r c hr hc => by rw [hD r c hr hc, Res.ok_bind])
  simpa only [bind_assoc, Res.ok_bind] using this

/-- `inverse` over any number type, from the value of `determinant` and of `adjoint`. -/
theorem inverse_exec {A : MB T} {N : Nat} {e : Nat → Nat → T} (h : RepAt A N N e) {d : T} {M' : Matrix (Fin N) (Fin N) T}
    (hd : determinant isz A = .ok d) (h0 : isz d = false) (hq : Divisor d) (ha : Yields (adjoint isz A) M') :
    Yields (inverse isz A) (M'.map fun x => quo x d) := by
  unfold inverse
  rw [isSquare_eq h, beq_self_eq_true, Bool.not_true, if_neg Bool.false_ne_true, hd, Res.ok_bind,
    if_neg (by rw [h0]; exact Bool.false_ne_true), ha.eq, Res.ok_bind, h.rows, h.cols, Mat.new_eq h.fits, Res.ok_bind]
  have := fill_pure h.fits (A := Mat.ofFn N N fun _ _ => (0 : T)) (f0 := fun _ _ => 0) rfl
    (e := fun r c => quo (tab M' r c) d)
    (g := fun r c => (Mat.ofFn N N (tab M')).at_ r c >>= fun x => cdiv x d)
    (fun r c hr hc => by rw [ofFn_at h.fits hr hc, Res.ok_bind, hq])
  simp only [bind_assoc] at this
  refine (Yields.of_eq h.fits this).congr ?_
  funext i j
  rw [toM_apply, tab_lt _ i.2 j.2]; rfl

end

section
variable {K : Type} [Field K] [LinearOrder K] [IsStrictOrderedRing K] [FloorRing K] {p : ℕ} {emin : ℤ} (hp : 1 ≤ p) (he : emin ≤ 0)

include hp he in
theorem determinant_intVal (isz : Fl K p emin → Bool) {A : MB (Fl K p emin)} {e : Nat → Nat → Fl K p emin} {z : Nat → Nat → ℤ} {N : Nat}
    (hA : Rep A N N e) (hN : N ≤ 4) {m : ℤ} (hm : 1 ≤ m) (hb : N.factorial * m ^ N ≤ 2 ^ p)
    (h : ∀ i j, i < N → j < N → IntVal (e i j) (z i j) m) :
    ∃ d, determinant isz A = .ok d ∧ IntVal d (toM N N z).det (N.factorial * m ^ N) :=
  ⟨_, determinant_closed isz hA hN, closedDet_eq z hN ▸ closedDet_exact hp he hN hm hb h⟩

/-- A table of integers of size at most `m`. -/
theorem intVal_of {N : Nat} {e : Nat → Nat → Fl K p emin} {Z : Matrix (Fin N) (Fin N) ℤ} {m : ℤ}
    (hv : ∀ i j, (toM N N e i j).val = Z i j) (hz : ∀ i j, |Z i j| ≤ m) :
    ∀ i j, i < N → j < N → IntVal (e i j) (tab Z i j) m := fun i j hi hj => by
  rw [tab_lt Z hi hj]
  exact ⟨hv ⟨i, hi⟩ ⟨j, hj⟩, hz _ _⟩

include hp he in
/-- C85: the determinant of an integer matrix up to 4×4 is exact, as long as `N! m^N ≤ 2^p` for a bound `m` of the entries. -/
theorem C85_determinant (isz : Fl K p emin → Bool) {A : MB (Fl K p emin)} {N : Nat} {M : Matrix (Fin N) (Fin N) (Fl K p emin)} (hA : A.Is M)
    {Z : Matrix (Fin N) (Fin N) ℤ} (hv : ∀ i j, (M i j).val = Z i j) (hN : N ≤ 4) {m : ℤ} (hm : 1 ≤ m) (hz : ∀ i j, |Z i j| ≤ m)
    (hb : N.factorial * m ^ N ≤ 2 ^ p) : ∃ d, determinant isz A = .ok d ∧ d.val = Z.det := by
  obtain ⟨e, h, rfl⟩ := hA
  obtain ⟨d, h1, h2⟩ := determinant_intVal hp he isz h hN hm hb (intVal_of hv hz)
  exact ⟨d, h1, by rw [h2.1, toM_tab]⟩

include hp he in
/-- C85: so is the adjoint, up to 5×5. -/
theorem C85_adjoint (isz : Fl K p emin → Bool) {A : MB (Fl K p emin)} {N : Nat} {M : Matrix (Fin N) (Fin N) (Fl K p emin)} (hA : A.Is M)
    {Z : Matrix (Fin N) (Fin N) ℤ} (hv : ∀ i j, (M i j).val = Z i j) (hN : N ≤ 5) {m : ℤ} (hm : 1 ≤ m) (hz : ∀ i j, |Z i j| ≤ m)
    (hb : (N - 1).factorial * m ^ (N - 1) ≤ 2 ^ p) :
    ∃ M' : Matrix (Fin N) (Fin N) (Fl K p emin), Yields (adjoint isz A) M' ∧ ∀ i j, (M' i j).val = Z.adjugate i j := by
  obtain ⟨e, h, rfl⟩ := hA
  have hone := (C84_float (K := K) hp he).1
  by_cases h1 : N = 1
  · subst h1
    have : adjoint isz A = .ok (Mat.ofFn 1 1 fun _ _ => 1) := by
      unfold adjoint
      rw [isSquare_eq h.toRepAt, h.cols, beq_self_eq_true, Bool.not_true, if_neg Bool.false_ne_true, if_pos rfl,
        Mat.new_eq h.fits]
    refine ⟨_, Yields.of_eq h.fits this, fun i j => ?_⟩
    rw [Matrix.adjugate_fin_one, Subsingleton.elim i 0, Subsingleton.elim j 0, Matrix.one_apply_eq, Int.cast_one]
    exact hone
  have hi := intVal_of hv hz
  have hs : ∀ i n, i < N → n < N - 1 → skip i n < N := fun i n h1 h2 => by unfold skip; split <;> omega
  have key : ∀ i j, ∃ d, i < N → j < N → determinant isz (A.cofactor i j) = .ok d ∧
      IntVal d (toM (N - 1) (N - 1) fun r c => tab Z (skip i r) (skip j c)).det ((N - 1).factorial * m ^ (N - 1)) := by
    intro i j
    by_cases hN0 : 0 < N
    · obtain ⟨d, h2, h3⟩ := determinant_intVal hp he isz (cofactor_rep h.toRepAt hN0 i j) (by omega) hm hb
        (z := fun r c => tab Z (skip i r) (skip j c)) (m := m)
        (fun r c hr hc => by
          by_cases hij : i < N ∧ j < N
          · exact hi _ _ (hs i r hij.1 hr) (hs j c hij.2 hc)
          · exact hi _ _ (by unfold skip; split <;> omega) (by unfold skip; split <;> omega))
      exact ⟨d, fun _ _ => ⟨h2, h3⟩⟩
    · exact ⟨0, fun h _ => absurd h (by omega)⟩
  choose D hD using key
  refine ⟨_, Yields.of_eq h.fits (adjoint_exec h.toRepAt h1 fun i j hi hj => (hD i j hi hj).1), fun i j => ?_⟩
  have hN0 : 0 < N := by have := i.2; omega
  have h2 := (hD j i j.2 i.2).2
  have h3 := adjugate_eq hN0 (tab Z) j.2 i.2
  rw [toM_tab] at h3
  rw [toM_apply, h3]
  by_cases h4 : (j.1 + i.1) % 2 = 0
  · rw [if_pos h4, Even.neg_one_pow (Nat.even_iff.2 h4)]
    exact (IntVal.mul hp he (x := (1 : Fl K p emin)) (a := 1) (A := 1) ⟨by rw [hone, Int.cast_one], by simp⟩ h2 (by rw [one_mul]; exact hb)).1
  · rw [if_neg h4, Odd.neg_one_pow (Nat.odd_iff.2 (by omega))]
    exact (IntVal.mul hp he (x := (-1 : Fl K p emin)) (a := -1) (A := 1)
      ⟨by rw [show (-1 : Fl K p emin).val = -(1 : Fl K p emin).val from rfl, hone]; simp, by simp⟩ h2 (by rw [one_mul]; exact hb)).1

include hp in
/-- The test for zero used by `inverse`, in floating point. -/
theorem approxZero_fl {tol : Fl K p emin} (ht : |tol.val| ≤ 1 / 4) (x : Fl K p emin) : Feq.approxZero Fl.abs tol x = true ↔ x.val = 0 := by
  have habs : (Fl.abs x).val = |x.val| := by
    unfold Fl.abs
    by_cases hx : x < 0
    · rw [if_pos hx, abs_of_neg (show x.val < 0 from hx)]; rfl
    · rw [if_neg hx, abs_of_nonneg (not_lt.1 (show ¬ x.val < 0 from hx))]
  have hle : Feq.approxZero Fl.abs tol x = true ↔ |x.val| ≤ rnd p emin (tol.val * |x.val|) := by
    unfold Feq.approxZero
    rw [decide_eq_true_iff, ← habs]
    exact Iff.rfl
  rw [hle]
  constructor
  · intro h
    by_contra h0
    have hx := abs_pos.2 h0
    have hmin : (2 : K) ^ emin ≤ |x.val| := by
      obtain ⟨m, e, h1, -, h3⟩ := x.isFl
      have hm : m ≠ 0 := by rintro rfl; exact h0 (by rw [h3]; simp)
      have hm1 : (1 : K) ≤ |(m : K)| := by exact_mod_cast Int.one_le_abs hm
      rw [h3, abs_mul, abs_of_pos (two_zpow_pos (K := K) e)]
      calc (2 : K) ^ emin ≤ 2 ^ e := zpow_le_zpow_right₀ one_le_two h1
        _ ≤ _ := le_mul_of_one_le_left (two_zpow_pos _).le hm1
    have hu : (2 : K) ^ (-(p : ℤ)) ≤ 1 / 2 := by
      have : (2 : K) ^ (-(p : ℤ)) ≤ 2 ^ (-1 : ℤ) := zpow_le_zpow_right₀ one_le_two (by omega)
      rwa [zpow_neg_one, ← one_div] at this
    have h1 := (abs_le.1 (rnd_err p emin (tol.val * |x.val|))).2
    have h2 : |tol.val * (|x.val|)| ≤ 1 / 4 * |x.val| := by
      rw [abs_mul, abs_abs]; exact mul_le_mul_of_nonneg_right ht hx.le
    have h3 := le_abs_self (tol.val * |x.val|)
    have h4 : (2 : K) ^ (-(p : ℤ)) * |tol.val * (|x.val|)| ≤ 1 / 2 * (1 / 4 * |x.val|) :=
      mul_le_mul hu h2 (abs_nonneg _) (by norm_num)
    linarith
  · intro h
    rw [h, abs_zero, mul_zero, rnd_exact hp (isFl_zero p emin)]

include hp he in
/-- C85: up to 4×4 a singular integer matrix is reported (the empty matrix is returned), and every entry of the inverse of a regular
one is the exact value, rounded once. -/
theorem C85_inverse {tol : Fl K p emin} (ht : |tol.val| ≤ 1 / 4) {A : MB (Fl K p emin)} {N : Nat} {M : Matrix (Fin N) (Fin N) (Fl K p emin)}
    (hA : A.Is M) {Z : Matrix (Fin N) (Fin N) ℤ} (hv : ∀ i j, (M i j).val = Z i j) (hN : N ≤ 4) {m : ℤ} (hm : 1 ≤ m) (hz : ∀ i j, |Z i j| ≤ m)
    (hb : N.factorial * m ^ N ≤ 2 ^ p) :
    (Z.det = 0 → inverse (Feq.approxZero Fl.abs tol) A = .ok Mat.empty0) ∧
    (Z.det ≠ 0 → ∃ M' : Matrix (Fin N) (Fin N) (Fl K p emin), Yields (inverse (Feq.approxZero Fl.abs tol) A) M' ∧
      ∀ i j, (M' i j).val = rnd p emin ((Z.map (Int.cast : ℤ → K))⁻¹ i j)) := by
  obtain ⟨d, hd, hdv⟩ := C85_determinant hp he (Feq.approxZero Fl.abs tol) hA hv hN hm hz hb
  have hb' : ((N - 1).factorial : ℤ) * m ^ (N - 1) ≤ 2 ^ p := by
    refine le_trans (mul_le_mul ?_ (pow_le_pow_right₀ hm (by omega)) (by positivity) (by positivity)) hb
    exact_mod_cast Nat.factorial_le (by omega)
  obtain ⟨M', ha, hav⟩ := C85_adjoint hp he (Feq.approxZero Fl.abs tol) hA hv (by omega) hm hz hb'
  have hA' := hA
  obtain ⟨e, h, rfl⟩ := hA'
  constructor
  · intro h0
    unfold inverse
    rw [isSquare_eq h.toRepAt, beq_self_eq_true, Bool.not_true, if_neg Bool.false_ne_true, hd, Res.ok_bind,
      if_pos ((approxZero_fl hp ht d).2 (by rw [hdv, h0, Int.cast_zero]))]
    rfl
  · intro h0
    have h1 : d.val ≠ 0 := by rw [hdv]; exact_mod_cast h0
    have hq : ∀ x, cdiv x d = .ok (Fl.of p emin (x.val / d.val)) := fun x => if_neg h1
    have hdq : Divisor d := fun x => by rw [hq x]; unfold quo; rw [hq x]
    refine ⟨_, inverse_exec h.toRepAt hd (by rw [Bool.eq_false_iff]; exact fun hc => h1 ((approxZero_fl hp ht d).1 hc)) hdq ha, fun i j => ?_⟩
    rw [Matrix.map_apply, show quo (M' i j) d = _ by unfold quo; rw [hq]]
    show rnd p emin ((M' i j).val / d.val) = _
    rw [hav, hdv, Matrix.inv_def, Ring.inverse_eq_inv', Matrix.smul_apply, smul_eq_mul, ← div_eq_inv_mul]
    congr 2
    · rw [show Z.map (Int.cast : ℤ → K) = (Int.castRingHom K).mapMatrix Z from rfl, ← RingHom.map_adjugate]; rfl
    · rw [show Z.map (Int.cast : ℤ → K) = (Int.castRingHom K).mapMatrix Z from rfl, ← RingHom.map_det]; rfl

end

/-- The default tolerance of `feq`. -/
def doubleTol : Double := Fl.of 53 (-1074) (1 / 10 ^ 9)

/-- The inverse of `[3 1; 1 2]`: the entries are 2/5, -1/5 and 3/5, rounded. -/
example : inverse (Feq.approxZero Fl.abs doubleTol) (⟨2, 2, doubles [3, 1, 1, 2]⟩ : Mat Double).toMB =
    .ok ⟨2, 2, doubles [2 / 5, -1 / 5, -1 / 5, 3 / 5]⟩ := by decide +kernel
/-- A singular matrix of size three is reported. -/
example : inverse (Feq.approxZero Fl.abs doubleTol) (⟨3, 3, doubles [1, 2, 3, 4, 5, 6, 7, 8, 9]⟩ : Mat Double).toMB = .ok Mat.empty0 := by
  decide +kernel
/-- The limits of C85 for `double`: entries up to 67108864, 114501 and 4401. -/
example : Nat.factorial 2 * 67108864 ^ 2 ≤ 2 ^ 53 ∧ Nat.factorial 3 * 114501 ^ 3 ≤ 2 ^ 53 ∧ Nat.factorial 4 * 4401 ^ 4 ≤ 2 ^ 53 := by
  decide +kernel

/-- C85: this ends at size five, where the ratios of the elimination are rounded: `C85_determinant` does not extend to this matrix of
determinant -1, for which the result is `-1 + 2^-52`. -/
theorem C85_five_rounds : ∃ Z : Matrix (Fin 5) (Fin 5) ℤ, (∀ i j, |Z i j| ≤ 10) ∧
    ∃ d, determinant (Feq.approxZero Fl.abs doubleTol) (Mat.ofFn 5 5 fun i j => Fl.of 53 (-1074) ((tab Z i j : ℤ) : ℚ) : Mat Double).toMB = .ok d ∧
      d.val ≠ Z.det := by
  refine ⟨!![3, 1, 0, 0, 0; 4, 1, 0, 0, 0; 0, 0, 1, 0, 0; 0, 0, 0, 1, 0; 0, 0, 0, 0, 1], by decide +kernel, ?_⟩
  exact ⟨Fl.of 53 (-1074) (-1 + 1 / 2 ^ 52), by decide +kernel, by decide +kernel⟩

end Malg
