import Verif.Model.IntInv
import Verif.Props.SignedInt
import Verif.Props.Mixed
import Verif.Props.Rounding
/-!
# Property C118: `inverse` and `div` of matrices with integer elements
-/
namespace Malg
open Ops Lin

/-- A loop one of whose iterations is undefined, while the others run through or are undefined in the same way. -/
theorem forRange_ub_at {σ : Type} {u : UB} {I : σ → Prop} {lo hi k : Nat} {s : σ} {body : Nat → σ → Res σ} (h0 : I s) (hk : lo ≤ k) (hk' : k < hi)
    (hs : ∀ i s, lo ≤ i → i < hi → I s → body i s = .ub u ∨ ∃ s', body i s = .ok s' ∧ I s') (hb : ∀ s, I s → body k s = .ub u) :
    forRange lo hi s body = .ub u := by
  induction h : k - lo generalizing lo s with
  | zero =>
    obtain rfl : k = lo := by omega
    rw [forRange_lt hk', hb s h0]; rfl
  | succ n ih =>
    rw [forRange_lt (by omega)]
    obtain h1 | ⟨s', h1, h2⟩ := hs lo s le_rfl (by omega) h0
    · rw [h1]; rfl
    · rw [h1, Res.ok_bind]
      exact ih h2 (by omega) (fun i s h3 h4 h5 => hs i s (by omega) h4 h5) (by omega)

theorem forRange_or {σ : Type} {u : UB} {I : σ → Prop} {lo hi : Nat} {s : σ} {body : Nat → σ → Res σ} (h0 : I s)
    (hs : ∀ i s, lo ≤ i → i < hi → I s → body i s = .ub u ∨ ∃ s', body i s = .ok s' ∧ I s') :
    forRange lo hi s body = .ub u ∨ ∃ s', forRange lo hi s body = .ok s' ∧ I s' := by
  induction h : hi - lo generalizing lo s with
  | zero => exact .inr ⟨s, forRange_ge (by omega) s body, h0⟩
  | succ n ih =>
    rw [forRange_lt (by omega)]
    obtain h1 | ⟨s', h1, h2⟩ := hs lo s le_rfl (by omega) h0
    · rw [h1]; exact .inl rfl
    · rw [h1, Res.ok_bind]
      exact ih h2 (fun i s h3 h4 h5 => hs i s (by omega) h4 h5) (by omega)

section
variable {X : Type} [One X] [Add X] [Sub X] [Mul X] {P : X → ℤ → ℤ → Prop} {L : ℤ}

/-- The closed formulas, for a relation between results and integers of bounded size that operations keep as long as the bound is at
most `L`. -/
theorem closedDet_bound (hone : 1 ≤ L → P 1 1 1) (hmono : ∀ {x z A B}, P x z A → A ≤ B → P x z B)
    (hadd : ∀ {x y a b A B}, P x a A → P y b B → A + B ≤ L → P (x + y) (a + b) (A + B))
    (hsub : ∀ {x y a b A B}, P x a A → P y b B → A + B ≤ L → P (x - y) (a - b) (A + B))
    (hmul : ∀ {x y a b A B}, P x a A → P y b B → A * B ≤ L → P (x * y) (a * b) (A * B))
    {e : Nat → Nat → X} {z : Nat → Nat → ℤ} {N : Nat} (hN : N ≤ 4) {m : ℤ} (hm : 1 ≤ m)
    (hb : N.factorial * m ^ N ≤ L) (h : ∀ i j, i < N → j < N → P (e i j) (z i j) m) :
    P (closedDet e N) (closedDet z N) (N.factorial * m ^ N) := by
  have h2 : m ≤ m ^ 2 := le_self_pow₀ hm (by norm_num)
  have h3 : m ^ 2 ≤ m ^ 3 := pow_le_pow_right₀ hm (by norm_num)
  have h4 : m ^ 3 ≤ m ^ 4 := pow_le_pow_right₀ hm (by norm_num)
  obtain rfl | rfl | rfl | rfl | rfl : N = 0 ∨ N = 1 ∨ N = 2 ∨ N = 3 ∨ N = 4 := by omega
  · simpa [closedDet] using hone (by simpa using hb)
  · simpa [closedDet] using h 0 0 (by omega) (by omega)
  · have e2 : ((Nat.factorial 2 : ℕ) : ℤ) = 2 := rfl
    rw [e2] at hb ⊢
    have m2 : ∀ i j k l : Fin 2, P (e i j * e k l) (z i j * z k l) (m * m) :=
      fun i j k l => hmul (h i j i.2 j.2) (h k l k.2 l.2) (by nlinarith)
    exact hmono (hsub (m2 0 0 1 1) (m2 0 1 1 0) (by nlinarith)) (by nlinarith)
  · have e3 : ((Nat.factorial 3 : ℕ) : ℤ) = 6 := rfl
    rw [e3] at hb ⊢
    have m2 : ∀ i j k l : Fin 3, P (e i j * e k l) (z i j * z k l) (m * m) :=
      fun i j k l => hmul (h i j i.2 j.2) (h k l k.2 l.2) (by nlinarith)
    have d2 : ∀ i j k l i' j' k' l' : Fin 3, P (e i j * e k l - e i' j' * e k' l') (z i j * z k l - z i' j' * z k' l') (m * m + m * m) :=
      fun i j k l i' j' k' l' => hsub (m2 i j k l) (m2 i' j' k' l') (by nlinarith)
    have t0 := hmul (h 0 0 (by omega) (by omega)) (d2 1 1 2 2 2 1 1 2) (by nlinarith)
    have t1 := hmul (h 0 1 (by omega) (by omega)) (d2 1 0 2 2 1 2 2 0) (by nlinarith)
    have t2 := hmul (h 0 2 (by omega) (by omega)) (d2 1 0 2 1 1 1 2 0) (by nlinarith)
    exact hmono (hadd (hsub t0 t1 (by nlinarith)) t2 (by nlinarith)) (by nlinarith)
  · have e4 : ((Nat.factorial 4 : ℕ) : ℤ) = 24 := rfl
    rw [e4] at hb ⊢
    have m4 : ∀ i j k l i' j' k' l' : Fin 4, P (e i j * e k l * e i' j' * e k' l') (z i j * z k l * z i' j' * z k' l') (m ^ 4) := by
      intro i j k l i' j' k' l'
      exact hmono (hmul (hmul (hmul (h i j i.2 j.2) (h k l k.2 l.2) (by nlinarith)) (h i' j' i'.2 j'.2) (by nlinarith))
        (h k' l' k'.2 l'.2) (by nlinarith)) (by nlinarith)
    have s1 := m4 0 3 1 2 2 1 3 0
    have s2 := hsub s1 (m4 0 2 1 3 2 1 3 0) (by nlinarith)
    have s3 := hsub s2 (m4 0 3 1 1 2 2 3 0) (by nlinarith)
    have s4 := hadd s3 (m4 0 1 1 3 2 2 3 0) (by nlinarith)
    have s5 := hadd s4 (m4 0 2 1 1 2 3 3 0) (by nlinarith)
    have s6 := hsub s5 (m4 0 1 1 2 2 3 3 0) (by nlinarith)
    have s7 := hsub s6 (m4 0 3 1 2 2 0 3 1) (by nlinarith)
    have s8 := hadd s7 (m4 0 2 1 3 2 0 3 1) (by nlinarith)
    have s9 := hadd s8 (m4 0 3 1 0 2 2 3 1) (by nlinarith)
    have s10 := hsub s9 (m4 0 0 1 3 2 2 3 1) (by nlinarith)
    have s11 := hsub s10 (m4 0 2 1 0 2 3 3 1) (by nlinarith)
    have s12 := hadd s11 (m4 0 0 1 2 2 3 3 1) (by nlinarith)
    have s13 := hadd s12 (m4 0 3 1 1 2 0 3 2) (by nlinarith)
    have s14 := hsub s13 (m4 0 1 1 3 2 0 3 2) (by nlinarith)
    have s15 := hsub s14 (m4 0 3 1 0 2 1 3 2) (by nlinarith)
    have s16 := hadd s15 (m4 0 0 1 3 2 1 3 2) (by nlinarith)
    have s17 := hadd s16 (m4 0 1 1 0 2 3 3 2) (by nlinarith)
    have s18 := hsub s17 (m4 0 0 1 1 2 3 3 2) (by nlinarith)
    have s19 := hsub s18 (m4 0 2 1 1 2 0 3 3) (by nlinarith)
    have s20 := hadd s19 (m4 0 1 1 2 2 0 3 3) (by nlinarith)
    have s21 := hadd s20 (m4 0 2 1 0 2 1 3 3) (by nlinarith)
    have s22 := hsub s21 (m4 0 0 1 2 2 1 3 3) (by nlinarith)
    have s23 := hsub s22 (m4 0 1 1 0 2 2 3 3) (by nlinarith)
    have s24 := hadd s23 (m4 0 0 1 1 2 2 3 3) (by nlinarith)
    exact hmono s24 (by linarith)

end

namespace SInt
variable {w : ℕ}

/-- `x` is the integer `z`, of size at most `B`. -/
def Small (x : SInt w) (z B : ℤ) : Prop := x.get = some z ∧ |z| ≤ B

theorem small_lift {f : ℤ → ℤ → ℤ} {x y : SInt w} {a b A B C : ℤ} (hx : x.Small a A) (hy : y.Small b B) (hf : |f a b| ≤ C)
    (h : C ≤ 2 ^ (w - 1) - 1) : (lift f x y).Small (f a b) C :=
  ⟨get_lift hx.1 hy.1 (inRange_of_abs (by omega)), hf⟩

/-- Up to four rows the closed formulas do not overflow if `N! m^N` is in range for a bound `m` of the entries. -/
theorem closedDet_small (hw : 2 ≤ w) {e : Nat → Nat → SInt w} {z : Nat → Nat → ℤ} {N : Nat} (hN : N ≤ 4) {m : ℤ} (hm : 1 ≤ m)
    (hb : N.factorial * m ^ N < 2 ^ (w - 1)) (h : ∀ i j, i < N → j < N → (e i j).Small (z i j) m) :
    (closedDet e N).Small (closedDet z N) (N.factorial * m ^ N) :=
  closedDet_bound (P := Small) (L := 2 ^ (w - 1) - 1) (fun _ => ⟨get_of (inRange_one hw), by simp⟩) (fun h1 h2 => ⟨h1.1, h1.2.trans h2⟩)
    (fun hx hy hL => small_lift hx hy ((abs_add_le _ _).trans (add_le_add hx.2 hy.2)) hL)
    (fun hx hy hL => small_lift hx hy ((abs_sub _ _).trans (add_le_add hx.2 hy.2)) hL)
    (fun hx hy hL => small_lift hx hy (by rw [abs_mul]; exact mul_le_mul hx.2 hy.2 (abs_nonneg _) ((abs_nonneg _).trans hx.2)) hL)
    hN hm (by omega) h

theorem toFl_defined {p : ℕ} {emin : ℤ} {x : SInt w} (h : x.Defined) : toFl p emin x = .ok (Fl.of p emin (x.toInt : ℚ)) := by
  match x with
  | val z hz => rfl
  | over => cases h

theorem toFl_over {p : ℕ} {emin : ℤ} {x : SInt w} (h : ¬ x.Defined) : toFl p emin x = .ub .overflow := by
  match x with
  | val z hz => exact absurd rfl h
  | over => rfl

end SInt

section
variable {S T : Type} [Zero S] [One S] [Add S] [Sub S] [Mul S] [Neg S] [CDiv S] [Zero T] [CDiv T] {iszS : S → Bool} {isz : T → Bool}
  {conv : S → Res T}

/-- The cases of `inverseC`, from the values of `determinant` and `adjoint`. -/
theorem inverseC_exec {A : MB S} {N : Nat} {e : Nat → Nat → S} (h : RepAt A N N e) {d : S} {t : T} {E : Matrix (Fin N) (Fin N) S} {u : UB}
    (hd : determinant iszS A = .ok d) (ht : conv d = .ok t) (ha : Yields (adjoint iszS A) E)
    (hq : isz t = false → ∀ x, ∃ y, cdiv x t = .ok y) (hc : ∀ x, conv x = .ub u ∨ ∃ y, conv x = .ok y) :
    (isz t = true → inverseC iszS isz conv A = .ok Mat.empty0) ∧
    (isz t = false → (∃ i j, conv (E i j) = .ub u) → inverseC iszS isz conv A = .ub u) ∧
    (isz t = false → ∀ F : Matrix (Fin N) (Fin N) T, (∀ i j, (conv (E i j) >>= fun x => cdiv x t) = .ok (F i j)) →
      Yields (inverseC iszS isz conv A) F) := by
  have key : inverseC iszS isz conv A = if isz t then .ok Mat.empty0 else
      forRange 0 N (Mat.ofFn N N fun _ _ => (0 : T)) fun r inv => forRange 0 N inv fun c inv =>
        (((Mat.ofFn N N (tab E)).at_ r c >>= fun x => conv x >>= fun x => cdiv x t) >>= fun y => inv.setAt r c y) := by
    unfold inverseC
    rw [isSquare_eq h, beq_self_eq_true, Bool.not_true, if_neg Bool.false_ne_true, hd, Res.ok_bind, ht, Res.ok_bind]
    cases isz t
    · rw [if_neg Bool.false_ne_true, if_neg Bool.false_ne_true, ha.eq, Res.ok_bind, h.rows, h.cols, Mat.new_eq h.fits, Res.ok_bind]
      simp only [bind_assoc]
    · rfl
  refine ⟨fun h0 => by rw [key, if_pos h0], fun h0 hex => ?_, fun h0 F hF => ?_⟩
  · obtain ⟨i, j, hij⟩ := hex
    rw [key, if_neg (by rw [h0]; exact Bool.false_ne_true)]
    have step : ∀ r c (s : Mat T), r < N → c < N → (∃ f, s = Mat.ofFn N N f) →
        ((((Mat.ofFn N N (tab E)).at_ r c >>= fun x => conv x >>= fun x => cdiv x t) >>= fun y => s.setAt r c y) = .ub u ∨
        ∃ s', (((Mat.ofFn N N (tab E)).at_ r c >>= fun x => conv x >>= fun x => cdiv x t) >>= fun y => s.setAt r c y) = .ok s' ∧
          ∃ f, s' = Mat.ofFn N N f) := by
      rintro r c s hr hcN ⟨f, rfl⟩
      rw [ofFn_at h.fits hr hcN, Res.ok_bind]
      obtain h1 | ⟨y, h1⟩ := hc (tab E r c)
      · rw [h1]; exact .inl rfl
      · obtain ⟨z, h2⟩ := hq h0 y
        rw [h1, Res.ok_bind, h2, Res.ok_bind, ofFn_setAt h.fits hr hcN]
        exact .inr ⟨_, rfl, _, rfl⟩
    refine forRange_ub_at (I := fun s => ∃ f, s = Mat.ofFn N N f) (k := i.1) ⟨_, rfl⟩ (Nat.zero_le _) i.2 ?_ ?_
    · intro r s _ hr hs
      exact forRange_or (I := fun s => ∃ f, s = Mat.ofFn N N f) hs fun c s _ hcN hs => step r c s hr hcN hs
    · intro s hs
      refine forRange_ub_at (I := fun s => ∃ f, s = Mat.ofFn N N f) (k := j.1) hs (Nat.zero_le _) j.2 (fun c s _ hcN hs => step i.1 c s i.2 hcN hs) ?_
      intro s _
      rw [ofFn_at h.fits i.2 j.2, Res.ok_bind, tab_lt _ i.2 j.2, hij]; rfl
  · rw [key, if_neg (by rw [h0]; exact Bool.false_ne_true)]
    have := fill_pure h.fits (A := Mat.ofFn N N fun _ _ => (0 : T)) (f0 := fun _ _ => 0) rfl (e := tab F)
      (g := fun r c => (Mat.ofFn N N (tab E)).at_ r c >>= fun x => conv x >>= fun x => cdiv x t)
      (fun r c hr hc => by rw [ofFn_at h.fits hr hc, Res.ok_bind, tab_lt _ hr hc, tab_lt _ hr hc]; exact hF _ _)
    refine (Yields.of_eq h.fits this).congr ?_
    rw [toM_tab]

end

/-- For elements that are of floating point type already, `inverseC` is `inverse`. -/
theorem inverseC_same {T : Type} [Zero T] [One T] [Add T] [Sub T] [Mul T] [Neg T] [CDiv T] (isz : T → Bool) (A : MB T) :
    inverseC isz isz .ok A = inverse isz A := by
  unfold inverseC inverse
  simp only [Res.ok_bind]

open SInt

section
variable {w p : ℕ} {emin : ℤ}

/-- The three outcomes, with the reason for an overflow. -/
theorem inverseC_int (hw : 2 ≤ w) (hp : w - 1 ≤ p) (he : emin ≤ 0) {tol : Fl ℚ p emin} (ht : |tol.val| ≤ 1 / 4) (iszS : SInt w → Bool)
    {A : MB (SInt w)} {N : Nat} {M : Matrix (Fin N) (Fin N) (SInt w)} (hA : A.Is M) (hN : N ≤ 4)
    {Z : Matrix (Fin N) (Fin N) ℤ} (hZ : ∀ i j, (M i j).toInt = Z i j) {d : SInt w} (hd : determinant iszS A = .ok d)
    {E : Matrix (Fin N) (Fin N) (SInt w)} (ha : Yields (adjoint iszS A) E) :
    (inverseC iszS (Feq.approxZero Fl.abs tol) (toFl p emin) A = .ub .overflow ∧ (¬ d.Defined ∨ ∃ i j, ¬ (E i j).Defined)) ∨
    (Z.det = 0 ∧ inverseC iszS (Feq.approxZero Fl.abs tol) (toFl p emin) A = .ok Mat.empty0) ∨
    (Z.det ≠ 0 ∧ ∃ F : Matrix (Fin N) (Fin N) (Fl ℚ p emin), Yields (inverseC iszS (Feq.approxZero Fl.abs tol) (toFl p emin) A) F ∧
      ∀ i j, (F i j).val = rnd p emin ((Z.map (Int.cast : ℤ → ℚ))⁻¹ i j)) := by
  have hp1 : 1 ≤ p := by omega
  obtain rfl : M.map toInt = Z := by ext i j; exact hZ i j
  obtain ⟨d', hd', hdv⟩ := C94_determinant_partial hw hA hN iszS
  obtain rfl : d = d' := by rw [hd] at hd'; injection hd'
  obtain ⟨E', ha', hav⟩ := C94_adjoint_partial hw hA (by omega) iszS
  obtain rfl := ha.inj ha'
  have hA' := hA
  obtain ⟨e, h, -⟩ := hA'
  have exact_ : ∀ x : SInt w, x.Defined → (Fl.of p emin (x.toInt : ℚ)).val = x.toInt := fun x hx => by
    refine rnd_intCast hp1 he ?_
    have h1 := hx.inRange
    have h2 : (2 : ℤ) ^ (w - 1) ≤ 2 ^ p := pow_le_pow_right₀ one_le_two hp
    exact abs_le.2 ⟨by have := h1.1; omega, by have := h1.2; omega⟩
  by_cases hdd : d.Defined
  swap
  · left
    refine ⟨?_, .inl hdd⟩
    unfold inverseC
    rw [isSquare_eq h.toRepAt, beq_self_eq_true, Bool.not_true, if_neg Bool.false_ne_true, hd, Res.ok_bind, toFl_over hdd]; rfl
  set t : Fl ℚ p emin := Fl.of p emin (d.toInt : ℚ) with htd
  have htv : t.val = d.toInt := exact_ d hdd
  have hz := approxZero_fl hp1 ht t
  have hq : Feq.approxZero Fl.abs tol t = false → ∀ x, cdiv x t = .ok (Fl.of p emin (x.val / t.val)) := fun h0 x =>
    if_neg fun h1 => by rw [hz.2 h1] at h0; cases h0
  obtain ⟨c1, c2, c3⟩ := inverseC_exec (isz := Feq.approxZero Fl.abs tol) (u := .overflow) h.toRepAt hd (toFl_defined hdd) ha (fun h0 x => ⟨_, hq h0 x⟩)
    (fun x => by by_cases hx : x.Defined; exacts [.inr ⟨_, toFl_defined hx⟩, .inl (toFl_over hx)])
  have hdet := (hdv hdd).2
  by_cases h0 : d.toInt = 0
  · right; left
    exact ⟨hdet ▸ h0, c1 (hz.2 (by rw [htv, h0, Int.cast_zero]))⟩
  · have hf : Feq.approxZero Fl.abs tol t = false := by
      rw [Bool.eq_false_iff]
      intro hc
      have := hz.1 hc
      rw [htv] at this
      exact h0 (by exact_mod_cast this)
    by_cases hE : ∀ i j, (E i j).Defined
    · right; right
      refine ⟨hdet ▸ h0, _, c3 hf (fun i j => Fl.of p emin ((E i j).toInt / d.toInt : ℚ)) fun i j => ?_, fun i j => ?_⟩
      · rw [toFl_defined (hE i j), Res.ok_bind, hq hf, exact_ _ (hE i j), htv]
      · show rnd p emin _ = _
        rw [hav i j (hE i j), hdet, Matrix.inv_def, Ring.inverse_eq_inv', Matrix.smul_apply, smul_eq_mul, ← div_eq_inv_mul]
        congr 2
        · rw [show (M.map toInt).map (Int.cast : ℤ → ℚ) = (Int.castRingHom ℚ).mapMatrix (M.map toInt) from rfl, ← RingHom.map_adjugate]; rfl
        · rw [show (M.map toInt).map (Int.cast : ℤ → ℚ) = (Int.castRingHom ℚ).mapMatrix (M.map toInt) from rfl, ← RingHom.map_det]; rfl
    · left
      push Not at hE
      obtain ⟨i, j, hij⟩ := hE
      exact ⟨c2 hf ⟨i, j, toFl_over hij⟩, .inr ⟨i, j, hij⟩⟩

/-- C118: the inverse of an integer matrix of up to four rows. Either some intermediate result overflows, or singular matrices are reported
and the entries of the inverse of a regular one are the exact values, rounded to `double` once. -/
theorem C118_inverse_partial (hw : 2 ≤ w) (hp : w - 1 ≤ p) (he : emin ≤ 0) {tol : Fl ℚ p emin} (ht : |tol.val| ≤ 1 / 4) (iszS : SInt w → Bool)
    {A : MB (SInt w)} {N : Nat} {M : Matrix (Fin N) (Fin N) (SInt w)} (hA : A.Is M) (hN : N ≤ 4)
    {Z : Matrix (Fin N) (Fin N) ℤ} (hZ : ∀ i j, (M i j).toInt = Z i j) :
    inverseC iszS (Feq.approxZero Fl.abs tol) (toFl p emin) A = .ub .overflow ∨
    (Z.det = 0 ∧ inverseC iszS (Feq.approxZero Fl.abs tol) (toFl p emin) A = .ok Mat.empty0) ∨
    (Z.det ≠ 0 ∧ ∃ F : Matrix (Fin N) (Fin N) (Fl ℚ p emin), Yields (inverseC iszS (Feq.approxZero Fl.abs tol) (toFl p emin) A) F ∧
      ∀ i j, (F i j).val = rnd p emin ((Z.map (Int.cast : ℤ → ℚ))⁻¹ i j)) := by
  obtain ⟨d, hd, -⟩ := C94_determinant_partial hw hA hN iszS
  obtain ⟨E, ha, -⟩ := C94_adjoint_partial hw hA (by omega) iszS
  exact (inverseC_int hw hp he ht iszS hA hN hZ hd ha).imp_left And.left

/-- C118: no overflow happens if `N! m^N` is in range for a bound `m` of the entries. -/
theorem C118_in_range_partial (hw : 2 ≤ w) (hp : w - 1 ≤ p) (he : emin ≤ 0) {tol : Fl ℚ p emin} (ht : |tol.val| ≤ 1 / 4) (iszS : SInt w → Bool)
    {A : MB (SInt w)} {N : Nat} {M : Matrix (Fin N) (Fin N) (SInt w)} (hA : A.Is M) (hN : N ≤ 4) (hD : ∀ i j, (M i j).Defined)
    {Z : Matrix (Fin N) (Fin N) ℤ} (hZ : ∀ i j, (M i j).toInt = Z i j) {m : ℤ} (hm : 1 ≤ m) (hz : ∀ i j, |Z i j| ≤ m)
    (hb : N.factorial * m ^ N < 2 ^ (w - 1)) :
    (Z.det = 0 → inverseC iszS (Feq.approxZero Fl.abs tol) (toFl p emin) A = .ok Mat.empty0) ∧
    (Z.det ≠ 0 → ∃ F : Matrix (Fin N) (Fin N) (Fl ℚ p emin), Yields (inverseC iszS (Feq.approxZero Fl.abs tol) (toFl p emin) A) F ∧
      ∀ i j, (F i j).val = rnd p emin ((Z.map (Int.cast : ℤ → ℚ))⁻¹ i j)) := by
  obtain ⟨e, h, rfl⟩ := id hA
  have hs : ∀ i j, i < N → j < N → (e i j).Small (e i j).toInt m := fun i j hi hj =>
    ⟨(hD ⟨i, hi⟩ ⟨j, hj⟩).get_eq, by have := hz ⟨i, hi⟩ ⟨j, hj⟩; rwa [← hZ] at this⟩
  have hdef : ∀ {x : SInt w} {z B}, x.Small z B → x.Defined := fun hx => by unfold Defined; rw [hx.1]; rfl
  have hd := determinant_closed iszS h hN
  have hdd := hdef (closedDet_small hw hN hm hb hs)
  obtain ⟨E, ha, hE⟩ : ∃ E : Matrix (Fin N) (Fin N) (SInt w), Yields (adjoint iszS A) E ∧ ∀ i j, (E i j).Defined := by
    have h1D : (1 : SInt w).Small 1 1 := ⟨get_of (inRange_one hw), by simp⟩
    have hnD : (-1 : SInt w).Small (-1) 1 := by
      refine ⟨?_, by simp⟩
      have h2 : InRange w (0 - 1) := inRange_of_abs (by
        have : (2 : ℤ) ^ 1 ≤ 2 ^ (w - 1) := pow_le_pow_right₀ one_le_two (by omega)
        norm_num at this ⊢; omega)
      exact get_lift (f := (· - ·)) (get_of inRange_zero) (get_of (inRange_one hw)) h2
    by_cases h1 : N = 1
    · subst h1
      have : adjoint iszS A = .ok (Mat.ofFn 1 1 fun _ _ => 1) := by
        unfold adjoint
        rw [isSquare_eq h.toRepAt, h.cols, beq_self_eq_true, Bool.not_true, if_neg Bool.false_ne_true, if_pos rfl, Mat.new_eq h.fits]
      exact ⟨_, Yields.of_eq h.fits this, fun i j => hdef h1D⟩
    by_cases hN0 : 0 < N
    · refine ⟨_, Yields.of_eq h.fits (adjoint_exec h.toRepAt h1 fun i j _ _ => determinant_closed iszS (cofactor_rep h.toRepAt hN0 i j) (by omega)),
        fun i j => ?_⟩
      have hb' : ((N - 1).factorial : ℤ) * m ^ (N - 1) < 2 ^ (w - 1) := by
        refine lt_of_le_of_lt (mul_le_mul ?_ (pow_le_pow_right₀ hm (by omega)) (by positivity) (by positivity)) hb
        exact_mod_cast Nat.factorial_le (by omega)
      have hc := closedDet_small (e := fun r c => e (skip j.1 r) (skip i.1 c)) hw (by omega : N - 1 ≤ 4) hm hb'
        (fun r c hr hc => hs _ _ (skip_lt hr) (skip_lt hc))
      rw [toM_apply]
      have hsm : ((if (j.1 + i.1) % 2 = 0 then 1 else -1 : SInt w)).Small (if (j.1 + i.1) % 2 = 0 then 1 else -1) 1 := by
        split
        exacts [h1D, hnD]
      refine hdef (small_lift (f := (· * ·)) (C := 1 * ((N - 1).factorial * m ^ (N - 1))) hsm hc ?_ (by omega))
      rw [abs_mul]
      exact mul_le_mul hsm.2 hc.2 (abs_nonneg _) zero_le_one
    · obtain rfl : N = 0 := by omega
      exact ⟨_, Yields.of_eq h.fits (adjoint_exec h.toRepAt h1 (D := fun _ _ => 0) fun i j hi => absurd hi (Nat.not_lt_zero i)), fun i => i.elim0⟩
  obtain ⟨-, h1 | ⟨i, j, h1⟩⟩ | ⟨h1, h2⟩ | ⟨h1, h2⟩ := inverseC_int hw hp he ht iszS hA hN hZ hd ha
  · exact absurd hdd h1
  · exact absurd (hE i j) h1
  · exact ⟨fun _ => h2, fun h => absurd h1 h⟩
  · exact ⟨fun h => absurd h h1, fun _ => h2⟩

/-- C118: the quotient of integer matrices, for a divisor as in `C118_in_range_partial`. Its error is that of a product with an inverse
whose entries are rounded once. -/
theorem C118_div_partial (hw : 2 ≤ w) (hp : w - 1 ≤ p) (he : emin ≤ 0) {tol : Fl ℚ p emin} (ht : |tol.val| ≤ 1 / 4) (iszS : SInt w → Bool)
    {A B : MB (SInt w)} {n N : Nat} {L : Matrix (Fin n) (Fin N) (SInt w)} {M : Matrix (Fin N) (Fin N) (SInt w)} (hA : A.Is L) (hB : B.Is M)
    (hN : N ≤ 4) (hL : ∀ i j, (L i j).Defined) (hD : ∀ i j, (M i j).Defined)
    {Y : Matrix (Fin n) (Fin N) ℚ} (hY : ∀ i j, ((L i j).toInt : ℚ) = Y i j) {Z : Matrix (Fin N) (Fin N) ℤ} (hZ : ∀ i j, (M i j).toInt = Z i j)
    {m : ℤ} (hm : 1 ≤ m) (hz : ∀ i j, |Z i j| ≤ m) (hb : N.factorial * m ^ N < 2 ^ (w - 1)) (h0 : Z.det ≠ 0) :
    ∃ F : Matrix (Fin n) (Fin N) (Fl ℚ p emin),
      Yields (divC iszS (Feq.approxZero Fl.abs tol) (toFl p emin) (fun x => Fl.of p emin (x.toInt : ℚ)) A B) F ∧
      ∀ i j, |(F i j).val - (Y * (Z.map (Int.cast : ℤ → ℚ))⁻¹) i j| ≤
        ((1 + 2 ^ (-(p : ℤ))) ^ (N + 1) - 1) * (Y.map abs * (Z.map (Int.cast : ℤ → ℚ))⁻¹.map abs) i j +
          ((1 + 2 ^ (-(p : ℤ))) ^ N * ∑ l, |Y i l| + N * (1 + 2 ^ (-(p : ℤ))) ^ (N - 1)) * (2 ^ emin / 2) := by
  have hp1 : 1 ≤ p := by omega
  obtain ⟨X, hX, hv⟩ := (C118_in_range_partial hw hp he ht iszS hB hN hD hZ hm hz hb).2 h0
  obtain ⟨I, hI, hwf, hIs⟩ := hX
  obtain ⟨e, hA, rfl⟩ := hA
  obtain ⟨f, hf, rfl⟩ := hIs
  have hA' : (A.conv fun x => (Fl.of p emin (x.toInt : ℚ))).Is (toM n N fun i j => Fl.of p emin ((e i j).toInt : ℚ)) := ⟨_, hA.conv _, rfl⟩
  have hI' : (I.toMB.conv id).Is (toM N N f) := ⟨_, hf.conv _, rfl⟩
  obtain ⟨F, hF, hE⟩ := C79_product (Fl.rounds ℚ hp1 emin) hA' hI' hA.fits
  refine ⟨F, ?_, fun i j => ?_⟩
  · unfold divC
    rw [hI, Res.ok_bind, Mixed.mul_conv]
    exact hF
  have hYv : ∀ l, (toM n N (fun i j => Fl.of p emin ((e i j).toInt : ℚ)) i l).val = Y i l := fun l => by
    rw [← hY i l]
    have h1 : InRange w (e i l).toInt := (hL i l).inRange
    have h2 : (2 : ℤ) ^ (w - 1) ≤ 2 ^ p := pow_le_pow_right₀ one_le_two hp
    exact rnd_intCast hp1 he (abs_le.2 ⟨by have := h1.1; omega, by have := h1.2; omega⟩)
  have h := hE i j
  generalize (Z.map (Int.cast : ℤ → ℚ))⁻¹ = V at hv ⊢
  rw [Matrix.mul_apply, Matrix.mul_apply] at h
  simp only [Matrix.map_apply, hYv, hv] at h
  rw [Matrix.mul_apply, Matrix.mul_apply]
  simp only [Matrix.map_apply]
  set u : ℚ := 2 ^ (-(p : ℤ)) with hu
  set η : ℚ := 2 ^ emin / 2 with hη
  have hu0 : 0 ≤ u := (two_zpow_pos _).le
  have hpow : (0 : ℚ) ≤ (1 + u) ^ N - 1 := by
    have : (1 : ℚ) ≤ (1 + u) ^ N := one_le_pow₀ (by linarith)
    linarith
  have h1 : ∑ l, |Y i l| * |rnd p emin (V l j)| ≤ (1 + u) * ∑ l, |Y i l| * |V l j| + (∑ l, |Y i l|) * η := by
    rw [Finset.mul_sum, Finset.sum_mul, ← Finset.sum_add_distrib]
    refine Finset.sum_le_sum fun l _ => ?_
    have h2 : |rnd p emin (V l j) - V l j| ≤ u * |V l j| + η := rnd_err p emin (V l j)
    have h3 : |rnd p emin (V l j)| ≤ |V l j| + (u * |V l j| + η) := by
      have := abs_sub_abs_le_abs_sub (rnd p emin (V l j)) (V l j)
      linarith
    have := mul_le_mul_of_nonneg_left h3 (abs_nonneg (Y i l))
    linarith
  have h2 : |∑ l, Y i l * rnd p emin (V l j) - ∑ l, Y i l * V l j| ≤ u * ∑ l, |Y i l| * |V l j| + (∑ l, |Y i l|) * η := by
    rw [← Finset.sum_sub_distrib, Finset.mul_sum, Finset.sum_mul, ← Finset.sum_add_distrib]
    refine (Finset.abs_sum_le_sum_abs _ _).trans (Finset.sum_le_sum fun l _ => ?_)
    rw [← mul_sub, abs_mul]
    have h2 : |rnd p emin (V l j) - V l j| ≤ u * |V l j| + η := rnd_err p emin (V l j)
    have := mul_le_mul_of_nonneg_left h2 (abs_nonneg (Y i l))
    linarith
  have h3 := mul_le_mul_of_nonneg_left h1 hpow
  have h4 := abs_sub_le (F i j).val (∑ l, Y i l * rnd p emin (V l j)) (∑ l, Y i l * V l j)
  have h5 : (1 + u) ^ (N + 1) = (1 + u) ^ N * (1 + u) := pow_succ _ _
  rw [h5]
  nlinarith [h, h2, h3, h4]

end

/-- The tolerance that the tests set. -/
def tol6 : Double := Fl.of 53 (-1074) (1 / 10 ^ 6)

/-- `inverse` of a matrix of `int`. -/
def inverseInt (A : MB CInt) : Res (Mat Double) := inverseC (SInt.isZero tol6) (Feq.approxZero Fl.abs tol6) (toFl 53 (-1074)) A

/-- `div` of matrices of integers of `w` bits. -/
def divInt {w : ℕ} (A B : MB (SInt w)) : Res (Mat Double) :=
  divC (SInt.isZero tol6) (Feq.approxZero Fl.abs tol6) (toFl 53 (-1074)) (fun x => Fl.of 53 (-1074) (x.toInt : ℚ)) A B

/-- The inverse of `[3 1; 1 2]`: the entries are 2/5, -1/5 and 3/5, rounded. -/
example : inverseInt (⟨2, 2, [of 3, of 1, of 1, of 2]⟩ : Mat CInt).toMB = .ok ⟨2, 2, doubles [2 / 5, -1 / 5, -1 / 5, 3 / 5]⟩ := by
  decide +kernel
/-- A singular matrix, and one whose determinant is 1 although its computation overflows. -/
example : inverseInt (⟨2, 2, [of 3, of 1, of 6, of 2]⟩ : Mat CInt).toMB = .ok Mat.empty0 ∧
    inverseInt (⟨2, 2, [of 65536, of 65535, of 65537, of 65536]⟩ : Mat CInt).toMB = .ub .overflow := by decide +kernel
/-- A pivot that overflows during the elimination is not taken for zero. -/
example : inverseInt (⟨5, 5, [1, 2 ^ 30, 0, 0, 0, 4, 0, 0, 0, 0, 0, 0, 1, 0, 0, 0, 0, 0, 1, 0, 0, 0, 0, 0, 1].map of⟩ : Mat CInt).toMB = .ub .overflow := by
  decide +kernel
/-- A quotient. -/
example : divInt (⟨1, 2, [of 7, of 1]⟩ : Mat CInt).toMB (⟨2, 2, [of 2, of 0, of 0, of 4]⟩ : Mat CInt).toMB =
    .ok ⟨1, 2, doubles [7 / 2, 1 / 4]⟩ := by decide +kernel
/-- The limits of C118 for `int`: entries up to 32767, 709 and 97. -/
example : Nat.factorial 2 * 32767 ^ 2 < 2 ^ 31 ∧ Nat.factorial 3 * 709 ^ 3 < 2 ^ 31 ∧ Nat.factorial 4 * 97 ^ 4 < 2 ^ 31 := by decide +kernel

/-- C118 is false for five rows: `determinant` eliminates with integer quotients. This matrix of determinant -1 has an inverse of integers;
nothing overflows, and what is returned is no inverse. -/
theorem C118_five_false : ∃ (Z Z' : Matrix (Fin 5) (Fin 5) ℤ) (F : Mat Double), Z * Z' = 1 ∧ Z.det = -1 ∧ (∀ i j, |Z i j| ≤ 3) ∧
    inverseInt (Mat.ofFn 5 5 fun i j => of (tab Z i j) : Mat CInt).toMB = .ok F ∧ F.data.map Fl.val ≠ (List.finRange 5).flatMap fun i => (List.finRange 5).map fun j => (Z' i j : ℚ) := by
  refine ⟨!![2, 1, 0, 0, 0; 3, 1, 0, 0, 0; 0, 0, 1, 0, 0; 0, 0, 0, 1, 0; 0, 0, 0, 0, 1],
    !![-1, 1, 0, 0, 0; 3, -2, 0, 0, 0; 0, 0, 1, 0, 0; 0, 0, 0, 1, 0; 0, 0, 0, 0, 1],
    ⟨5, 5, doubles [1 / 2, -1 / 2, 0, 0, 0, -3 / 2, 1, 0, 0, 0, 0, 0, -1 / 2, 0, 0, 0, 0, 0, -1 / 2, 0, 0, 0, 0, 0, -1 / 2]⟩,
    by decide +kernel, by decide +kernel, by decide +kernel, by decide +kernel, by decide +kernel⟩

/-- The matrices of `test_int`, `tests/test_math.cpp:8-22` and `46-52`. -/
def testIntA (w : ℕ) : Mat (SInt w) := ⟨5, 5, [-77, 43, 81, -60, -33, -95, -40, 14, 41, 13, 0, 41, 93, -89, -17, -60, 1, -74, -53, 69, -9, 10, -89, 30, -72].map of⟩
@[inherit_doc testIntA]
def testIntB (w : ℕ) : Mat (SInt w) := ⟨5, 5, [67, 38, 34, 88, 28, 0, -12, -12, 42, -69, 20, -54, 15, -27, -20, 77, 16, 54, -18, 18, -8, 93, 88, -40, -9].map of⟩
@[inherit_doc testIntA]
def testIntDiv : Mat Double := ⟨5, 5, doubles [-0.724101333, 0.959172965, -3.50660292, 3.52737442, -3.30035297, -3.87515054, 3.01491411, -6.44053984, 7.70150764, -2.09035033,
  0.609014897, 0.368501698, -1.70527853, -0.311900352, -2.16473747, 1.87805156, 1.93870341, 2.98797968, -0.462939925, 1.27233358,
  2.98660079, -4.03525548, 5.63094744, -3.59205073, 1.89608685]⟩

/-- `false` is the zero of `bool`. -/
local instance zeroBoolInt : Zero Bool := ⟨false⟩

/-- The test's matrices with results that wrap around. -/
def testIntWrap : Res (Mat Double) :=
  divC (fun x => Feq.approxZero Fl.abs tol6 (Fl.of 53 (-1074) |(x.val : ℚ)|)) (Feq.approxZero Fl.abs tol6)
    (fun x : WInt 32 => .ok (Fl.of 53 (-1074) x.val)) (fun x => Fl.of 53 (-1074) x.val)
    (⟨5, 5, (testIntA 32).data.map fun x => WInt.of (x.get.getD 0)⟩ : Mat (WInt 32)).toMB
    (⟨5, 5, (testIntB 32).data.map fun x => WInt.of (x.get.getD 0)⟩ : Mat (WInt 32)).toMB

/-- The test's matrices with elements of type `double`. -/
def testIntDouble : Res (Mat Double) :=
  div (Feq.approxZero Fl.abs tol6)
    (⟨5, 5, (testIntA 32).data.map fun x => Fl.of 53 (-1074) (x.get.getD 0)⟩ : Mat Double).toMB
    (⟨5, 5, (testIntB 32).data.map fun x => Fl.of 53 (-1074) (x.get.getD 0)⟩ : Mat Double).toMB

/-- `malg::all(x == div)`, `tests/test_math.cpp:64`. -/
def testIntEq (x : Res (Mat Double)) : Res Bool := do
  let x ← x
  let e ← cmp (eqApprox Fl.abs tol6) x.toMB testIntDiv.toMB
  Ops.all e.toMB

/-- C118 is false for the test of the project itself: `div` of its two `int` matrices overflows. With results that wrap around, as a
processor computes them, it gives the values which the test expects. They are not the quotient: with 64 bits nothing overflows and
the result is another one, and it is a third one for the same matrices of `double`. -/
theorem C118_own_test_false : divInt (testIntA 32).toMB (testIntB 32).toMB = .ub .overflow ∧
    testIntEq testIntWrap = .ok true ∧
    testIntEq (divInt (testIntA 64).toMB (testIntB 64).toMB) = .ok false ∧
    testIntEq testIntDouble = .ok false := by
  refine ⟨?_, ?_, ?_, ?_⟩ <;> decide +kernel

/-- The values which the test expects, multiplied exactly by the second matrix, do not give the first one: the first entry of the product is
larger than 170, the first entry of the first matrix is -77. -/
theorem C118_reference_false : (testIntA 32).data.head? = some (of (-77)) ∧
    (do let P ← mul (⟨5, 5, testIntDiv.data.map Fl.val⟩ : Mat ℚ).toMB (⟨5, 5, (testIntB 32).data.map fun x : SInt 32 => ((x.get.getD 0 : ℤ) : ℚ)⟩ : Mat ℚ).toMB
        let x ← P.at_ 0 0
        return decide (170 < x)) = .ok true := by
  constructor <;> decide +kernel

end Malg
