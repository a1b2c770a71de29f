import Verif.Props.FloatInv
import Verif.Props.IeeeAcc
import Verif.Props.Special
import Verif.Props.IeeeExpm
/-!
# Property C128: `inverse` on IEEE numbers

C113 bounds the error of `inverse` without largest number. Here the numbers are IEEE numbers, where the determinant, a minor or a quotient may overflow.
-/
namespace Malg
open Ops Lin Ieee

set_option exponentiation.threshold 3000

section
variable {K : Type} [Field K] [LinearOrder K] [IsStrictOrderedRing K] [FloorRing K] {p : Nat} {emin : ℤ} {emax : Nat}

/-- A finite quotient by a finite number comes from a finite number. -/
theorem fl_div_some {a b : Ieee K p emin emax} (hb : b.Finite) {c : Fl K p emin} (h : (Ieee.div a b).fl = some c) :
    a.Finite ∧ c = Fl.of p emin (a.val / b.val) := by
  match a, b, hb with
  | nan, fin .., _ => cases h
  | inf _, fin .., _ => cases h
  | fin x _ _ _, fin y _ _ _, _ =>
    refine ⟨rfl, ?_⟩
    have h' : (if y.val = 0 then (if x.val = 0 then nan else inf _) else mk _ (x.val / y.val) : Ieee K p emin emax).fl = some c := h
    split at h'
    · split at h' <;> cases h'
    · exact (fl_mk_some h').1

theorem div_by_nan (a : Ieee K p emin emax) : Ieee.div a nan = nan := by cases a <;> rfl

/-- What is divided by a number other than zero. -/
theorem fl_div {a b : Ieee K p emin emax} {x y : Fl K p emin} (ha : a.fl = some x) (hb : b.fl = some y) (h0 : y.val ≠ 0)
    (h : |(Fl.of p emin (x.val / y.val)).val| < 2 ^ emax) : (Ieee.div a b).fl = some (Fl.of p emin (x.val / y.val)) := by
  match a, b, ha, hb with
  | fin x' _ _ _, fin y' _ _ _, ha, hb =>
    obtain rfl : x' = x := Option.some.inj ha
    obtain rfl : y' = y := Option.some.inj hb
    show (if y'.val = 0 then _ else mk _ (x'.val / y'.val) : Ieee K p emin emax).fl = _
    rw [if_neg h0]
    exact fl_mk h

theorem quo_ieee (a b : Ieee K p emin emax) : quo a b = Ieee.div a b := rfl
theorem divisor_ieee (b : Ieee K p emin emax) : Divisor b := fun _ => rfl

/-- The signs in `adjoint`. -/
theorem rd_signed (hp : 1 ≤ p) (he : emin ≤ 0) (hx : 1 ≤ emax) (q : Nat) {d : Ieee K p emin emax} {d' : Fl K p emin} (h : Rd fl d d') :
    Rd fl ((if q % 2 = 0 then 1 else -1) * d) ((if q % 2 = 0 then 1 else -1) * d') := by
  have R := reads (K := K) hp he hx
  refine R.rd_mul ?_ h
  split
  · exact R.rd_one
  · intro c hc
    rw [fl_neg, R.one] at hc
    exact (Option.some.inj hc).symm

/-- What `adjoint` computes up to 5×5. -/
def adjTable {T : Type} [One T] [Add T] [Sub T] [Mul T] [Neg T] (n : Nat) (e : Nat → Nat → T) (r c : Nat) : T :=
  if n = 0 then 1 else (if (c + r) % 2 = 0 then 1 else -1) * closedDet (fun i j => e (skip c i) (skip r j)) n

theorem adjoint_table {T : Type} [Zero T] [One T] [Add T] [Sub T] [Mul T] [Neg T] [CDiv T] (isz : T → Bool) {A : MB T} {n : Nat} {e : Nat → Nat → T}
    (h : Rep A (n + 1) (n + 1) e) (hn : n ≤ 4) : adjoint isz A = .ok (Mat.ofFn (n + 1) (n + 1) (adjTable n e)) := by
  by_cases h1 : n = 0
  · subst h1
    unfold adjoint
    rw [isSquare_eq h.toRepAt, h.cols, beq_self_eq_true, Bool.not_true, if_neg Bool.false_ne_true, if_pos rfl, Mat.new_eq h.fits]
    rfl
  · have := adjoint_exec h.toRepAt (by omega) (D := fun i j => closedDet (fun r c => e (skip i r) (skip j c)) n)
      (fun i j _ _ => determinant_closed isz (cofactor_rep h.toRepAt (Nat.succ_pos n) i j) hn)
    rw [this]
    congr 2
    funext r c
    rw [adjTable, if_neg h1]

/-- The finite elements of `adjoint` are those computed without largest number. -/
theorem adjoint_ieee (hp : 1 ≤ p) (he : emin ≤ 0) (hx : 1 ≤ emax) (n : Nat) (e : Nat → Nat → Ieee K p emin emax) (r c : Nat) :
    Rd fl (adjTable n e r c) (adjTable n (fun i j => (e i j).flD) r c) := by
  have R := reads (K := K) hp he hx
  unfold adjTable
  split
  · exact R.rd_one
  · exact rd_signed hp he hx _ (R.rd_closedDet (fun _ _ => rd_flD _) n)

/-- C128: `inverse` of IEEE numbers up to 4×4. If the computed determinant is zero or infinite, the result is the empty matrix; if it is NaN, all elements
are NaN. Otherwise all elements of `A` are finite, and each finite element of the result satisfies the bound of C113. -/
theorem C128_inverse (hp : 1 ≤ p) (he : emin ≤ 0) (hx : 1 ≤ emax) {t : Ieee K p emin emax} (ht : Tol t) {A : MB (Ieee K p emin emax)} {n : Nat}
    {M : Matrix (Fin (n + 1)) (Fin (n + 1)) (Ieee K p emin emax)} (hA : A.Is M) (hn : n ≤ 3) :
    ∃ d, determinant (Feq.approxZero Ieee.abs t) A = .ok d ∧
      ((d.Finite ∧ d.val = 0 ∨ ∃ s, d = inf s) → inverse (Feq.approxZero Ieee.abs t) A = .ok Mat.empty0) ∧
      (d = nan → Yields (inverse (Feq.approxZero Ieee.abs t) A) (fun _ _ => nan : Matrix (Fin (n + 1)) (Fin (n + 1)) (Ieee K p emin emax))) ∧
      (d.Finite → d.val ≠ 0 → (∀ i j, (M i j).Finite) ∧
        ∃ V : Matrix (Fin (n + 1)) (Fin (n + 1)) (Ieee K p emin emax), Yields (inverse (Feq.approxZero Ieee.abs t) A) V ∧
          ∀ {m u η β : K}, (∀ i j, |(M i j).val| ≤ m) → u = 2 ^ (-(p : ℤ)) → η = 2 ^ emin / 2 →
            β = detErr u η m (n + 1) (M.map (|val ·|)).permanent → β < |(M.map val).det| → ∀ i j, (V i j).Finite →
            |(V i j).val - (M.map val)⁻¹ i j| ≤ u * |(M.map val)⁻¹ i j| +
              (1 + u) * ((detErr u η m n ((M.map (|val ·|)).submatrix j.succAbove i.succAbove).permanent + |(M.map val)⁻¹ i j| * β) /
                (|(M.map val).det| - β)) + η) := by
  have R := reads (K := K) hp he hx
  obtain ⟨e, h, rfl⟩ := hA
  have h' := ofFn_rep h.fits fun i j => (e i j).flD
  have hdet := determinant_closed (Feq.approxZero Ieee.abs t) h (show n + 1 ≤ 4 by omega)
  have hdet' := fun isz => determinant_closed isz h' (show n + 1 ≤ 4 by omega)
  have hrd := R.rd_closedDet (fun i j => rd_flD (e i j)) (n + 1)
  have ha := adjoint_table (Feq.approxZero Ieee.abs t) h (by omega)
  have hb := adjoint_table (Feq.approxZero Fl.abs (0 : Fl K p emin)) h' (by omega)
  have hab := adjoint_ieee hp he hx n e
  set a := adjTable n e
  set b := adjTable n fun i j => (e i j).flD
  refine ⟨_, hdet, fun hz => ?_, fun hz => ?_, fun hfin h0 => ⟨fun i j => R.some_closedDet (by omega) hfin i.2 j.2, ?_⟩⟩
  · unfold inverse
    rw [if_neg (by rw [Lin.isSquare_eq h.toRepAt]; simp), hdet, Res.ok_bind, if_pos ((approxZero_iff hp ht _).2 hz)]
    rfl
  · have h0 : Feq.approxZero Ieee.abs t (closedDet e (n + 1)) = false := by
      rw [Bool.eq_false_iff, Ne, approxZero_iff hp ht, hz]
      rintro (⟨h1, -⟩ | ⟨s, h1⟩) <;> cases h1
    have := inverse_exec h.toRepAt hdet h0 (divisor_ieee _) (Yields.of_eq h.fits ha)
    have hE : (fun _ _ => nan : Matrix (Fin (n + 1)) (Fin (n + 1)) (Ieee K p emin emax)) = (toM (n + 1) (n + 1) a).map fun x => quo x (closedDet e (n + 1)) := by
      funext i j
      rw [Matrix.map_apply, quo_ieee, hz, div_by_nan]
    rw [hE]
    exact this
  · have h1 : Feq.approxZero Ieee.abs t (closedDet e (n + 1)) = false := by
      rw [Bool.eq_false_iff, Ne, approxZero_iff hp ht]
      rintro (⟨-, h1⟩ | ⟨s, h1⟩)
      · exact h0 h1
      · rw [h1] at hfin; cases hfin
    refine ⟨_, inverse_exec h.toRepAt hdet h1 (divisor_ieee _) (Yields.of_eq h.fits ha), fun {m u η β} hm hu hη hβ hd i j hf => ?_⟩
    obtain ⟨B, hB, hBe⟩ := C113_inverse_partial hp he (tol := (0 : Fl K p emin)) (by
      rw [show (0 : Fl K p emin).val = 0 from rfl, abs_zero]; norm_num) h'.is (by omega) (m := m) hm hu hη hβ hd
    have hdv : (closedDet (fun i j => (e i j).flD) (n + 1)).val = (closedDet e (n + 1)).val := congrArg Fl.val (hfin.eq hrd).symm
    have hdn : (closedDet (fun i j => (e i j).flD) (n + 1)).val ≠ 0 := by rw [hdv]; exact h0
    have hq : ∀ x, cdiv x (closedDet (fun i j => (e i j).flD) (n + 1)) = .ok (Fl.of p emin (x.val / (closedDet (fun i j => (e i j).flD) (n + 1)).val)) :=
      fun x => if_neg hdn
    have hB' := Yields.inj hB (inverse_exec h'.toRepAt (hdet' _) (by
      rw [Bool.eq_false_iff]
      exact fun hc => hdn ((approxZero_fl hp (by rw [show (0 : Fl K p emin).val = 0 from rfl, abs_zero]; norm_num) _).1 hc))
      (fun x => by rw [hq x]; unfold quo; rw [hq x]) (Yields.of_eq h.fits hb))
    have key : ((toM (n + 1) (n + 1) a).map (fun x => quo x (closedDet e (n + 1))) i j).val = (B i j).val := by
      obtain ⟨g1, g2⟩ := fl_div_some hfin (hf.fl_eq)
      have g3 : (a i j).flD = b i j := g1.eq (hab i j)
      show (Ieee.flD _).val = _
      rw [g2, hB']
      show _ = (quo (b i j) _).val
      unfold quo
      rw [hq, hdv]
      show _ = (Fl.of p emin ((b i j).val / _)).val
      rw [← g3]
      rfl
    rw [key]
    exact hBe i j

end

/-- `a` is the finite number `x`, of absolute value at most `2^e`. -/
def Sz (a : IDouble) (x : Double) (e : Nat) : Prop := a.fl = some x ∧ |x.val| ≤ 2 ^ e

theorem rnd_pow {v : ℚ} {e : Nat} (h : |v| ≤ 2 ^ e) : |rnd 53 (-1074) v| ≤ 2 ^ e := by
  have h2 : rnd (K := ℚ) 53 (-1074) (2 ^ e) = 2 ^ e := rnd_exact (by decide) ⟨1, e, by omega, by norm_num, by rw [Int.cast_one, one_mul, zpow_natCast]⟩
  obtain ⟨h3, h4⟩ := abs_le.1 h
  refine abs_le.2 ⟨?_, ?_⟩
  · have := rnd_mono (p := 53) (by decide) (-1074) h3
    rwa [rnd_neg, h2] at this
  · have := rnd_mono (p := 53) (by decide) (-1074) h4
    rwa [h2] at this

theorem pow_lt_max {e : Nat} (h : e < 1024) : (2 : ℚ) ^ e < 2 ^ 1024 := pow_lt_pow_right₀ (by norm_num) h

theorem Sz.mono {a : IDouble} {x : Double} {e f : Nat} (h : Sz a x e) (hf : e ≤ f) : Sz a x f :=
  ⟨h.1, h.2.trans (pow_le_pow_right₀ (by norm_num) hf)⟩

theorem Sz.mul {a b : IDouble} {x y : Double} {e f : Nat} (ha : Sz a x e) (hb : Sz b y f) (hg : e + f < 1024) : Sz (a * b) (x * y) (e + f) := by
  have h : |(x * y).val| ≤ 2 ^ (e + f) := rnd_pow (by
    rw [abs_mul, pow_add]; exact mul_le_mul ha.2 hb.2 (abs_nonneg _) (by positivity))
  exact ⟨fl_mul ha.1 hb.1 (h.trans_lt (pow_lt_max hg)), h⟩

theorem Sz.add {a b : IDouble} {x y : Double} {e : Nat} (hg : e + 1 < 1024) (ha : Sz a x e) (hb : Sz b y e) : Sz (a + b) (x + y) (e + 1) := by
  have h : |(x + y).val| ≤ 2 ^ (e + 1) := rnd_pow ((abs_add_le _ _).trans (by rw [pow_succ]; linarith [ha.2, hb.2]))
  exact ⟨fl_add ha.1 hb.1 (h.trans_lt (pow_lt_max hg)), h⟩

theorem Sz.sub {a b : IDouble} {x y : Double} {e : Nat} (hg : e + 1 < 1024) (ha : Sz a x e) (hb : Sz b y e) : Sz (a - b) (x - y) (e + 1) := by
  have h : |(x - y).val| ≤ 2 ^ (e + 1) := rnd_pow ((abs_sub _ _).trans (by rw [pow_succ]; linarith [ha.2, hb.2]))
  exact ⟨fl_sub ha.1 hb.1 (h.trans_lt (pow_lt_max hg)), h⟩

theorem Sz.one : Sz 1 1 0 := ⟨(reads (K := ℚ) (p := 53) (emin := -1074) (emax := 1024) (by decide) (by decide) (by decide)).one, by
  rw [show (1 : Double).val = 1 by decide +kernel]; norm_num⟩

theorem Sz.neg {a : IDouble} {x : Double} {e : Nat} (ha : Sz a x e) : Sz (-a) (-x) e := by
  refine ⟨by rw [fl_neg, ha.1]; rfl, ?_⟩
  rw [show (-x).val = -x.val from rfl, abs_neg]; exact ha.2

theorem closedDet_sz {a : Nat → Nat → IDouble} {x : Nat → Nat → Double} {N : Nat} (hN : N ≤ 4) (h : ∀ i j, i < N → j < N → Sz (a i j) (x i j) 200) :
    Sz (closedDet a N) (closedDet x N) 823 := by
  obtain rfl | rfl | rfl | rfl | rfl : N = 0 ∨ N = 1 ∨ N = 2 ∨ N = 3 ∨ N = 4 := by omega
  · exact Sz.one.mono (by norm_num)
  · exact (h 0 0 (by omega) (by omega)).mono (by norm_num)
  · have p2 : ∀ {i j k l}, i < 2 → j < 2 → k < 2 → l < 2 → Sz (a i j * a k l) (x i j * x k l) 400 := fun hi hj hk hl => (h _ _ hi hj).mul (h _ _ hk hl) (by norm_num)
    exact Sz.mono (Sz.sub (by norm_num) (p2 (by omega) (by omega) (by omega) (by omega)) (p2 (by omega) (by omega) (by omega) (by omega))) (by norm_num)
  · have p2 : ∀ {i j k l}, i < 3 → j < 3 → k < 3 → l < 3 → Sz (a i j * a k l) (x i j * x k l) 400 := fun hi hj hk hl => (h _ _ hi hj).mul (h _ _ hk hl) (by norm_num)
    have p3 : ∀ {i j k l k' l' u v u' v'}, i < 3 → j < 3 → k < 3 → l < 3 → k' < 3 → l' < 3 → u < 3 → v < 3 → u' < 3 → v' < 3 →
        Sz (a i j * (a k l * a k' l' - a u v * a u' v')) (x i j * (x k l * x k' l' - x u v * x u' v')) 601 := fun hi hj hk hl hk' hl' hu hv hu' hv' =>
      (h _ _ hi hj).mul (Sz.sub (by norm_num) (p2 hk hl hk' hl') (p2 hu hv hu' hv')) (by norm_num)
    refine Sz.mono (Sz.add (e := 602) (by norm_num) (Sz.sub (by norm_num) (p3 ?_ ?_ ?_ ?_ ?_ ?_ ?_ ?_ ?_ ?_) (p3 ?_ ?_ ?_ ?_ ?_ ?_ ?_ ?_ ?_ ?_))
      ((p3 ?_ ?_ ?_ ?_ ?_ ?_ ?_ ?_ ?_ ?_).mono (by norm_num))) (by norm_num) <;> omega
  · have p4 : ∀ {i j k l i' j' k' l' c}, i < 4 → j < 4 → k < 4 → l < 4 → i' < 4 → j' < 4 → k' < 4 → l' < 4 → 800 ≤ c →
        Sz (a i j * a k l * a i' j' * a k' l') (x i j * x k l * x i' j' * x k' l') c := fun hi hj hk hl hi' hj' hk' hl' hc =>
      ((((h _ _ hi hj).mul (h _ _ hk hl) (by norm_num)).mul (h _ _ hi' hj') (by norm_num)).mul (h _ _ hk' hl') (by norm_num)).mono hc
    unfold closedDet
    repeat first
      | refine Sz.sub (by norm_num) ?_ (p4 (by omega) (by omega) (by omega) (by omega) (by omega) (by omega) (by omega) (by omega) (by norm_num))
      | refine Sz.add (by norm_num) ?_ (p4 (by omega) (by omega) (by omega) (by omega) (by omega) (by omega) (by omega) (by omega) (by norm_num))
    exact p4 (by omega) (by omega) (by omega) (by omega) (by omega) (by omega) (by omega) (by omega) (by norm_num)

theorem skip_le {i r n : Nat} (h : r < n) : skip i r < n + 1 := skip_lt h

theorem adjTable_sz {a : Nat → Nat → IDouble} {x : Nat → Nat → Double} {n : Nat} (hn : n ≤ 4) (h : ∀ i j, i < n + 1 → j < n + 1 → Sz (a i j) (x i j) 200) (r c : Nat) :
    Sz (adjTable n a r c) (adjTable n x r c) 823 := by
  unfold adjTable
  split
  · exact Sz.one.mono (by norm_num)
  · have h1 := closedDet_sz hn fun i j hi hj => h (skip c i) (skip r j) (skip_le hi) (skip_le hj)
    have h2 : Sz (if (c + r) % 2 = 0 then 1 else -1) (if (c + r) % 2 = 0 then 1 else -1) 0 := by
      split
      · exact Sz.one
      · exact Sz.one.neg
    exact (h2.mul h1 (by norm_num)).mono (by norm_num)

/-- C128: `inverse` in `double` up to 4×4 without overflow: if the entries are at most `2^200` and the determinant exceeds its error by `2^-200`, all elements of
the result are finite and satisfy the bound of C113. -/
theorem C128_inverse_double {A : MB IDouble} {n : Nat} {M : Matrix (Fin (n + 1)) (Fin (n + 1)) IDouble} (hA : A.Is M) (hn : n ≤ 3)
    (hM : ∀ i j, (M i j).Finite) {m β : ℚ} (hm : ∀ i j, |(M i j).val| ≤ m) (hm2 : m ≤ 2 ^ 200)
    (hβ : β = detErr (1 / 2 ^ 53) (1 / 2 ^ 1075) m (n + 1) (M.map (|val ·|)).permanent) (hd : β + 1 / 2 ^ 200 ≤ |(M.map val).det|) :
    ∃ V : Matrix (Fin (n + 1)) (Fin (n + 1)) IDouble, Yields (inverse dIsZero A) V ∧ ∀ i j, (V i j).Finite ∧
      |(V i j).val - (M.map val)⁻¹ i j| ≤ 1 / 2 ^ 53 * |(M.map val)⁻¹ i j| +
        (1 + 1 / 2 ^ 53) * ((detErr (1 / 2 ^ 53) (1 / 2 ^ 1075) m n ((M.map (|val ·|)).submatrix j.succAbove i.succAbove).permanent + |(M.map val)⁻¹ i j| * β) /
          (|(M.map val).det| - β)) + 1 / 2 ^ 1075 := by
  obtain ⟨e, h, rfl⟩ := id hA
  have q1 : (1 / 2 ^ 53 : ℚ) = 2 ^ (-((53 : ℕ) : ℤ)) := by norm_num
  have q2 : (1 / 2 ^ 1075 : ℚ) = 2 ^ (-1074 : ℤ) / 2 := by norm_num
  have hsz : ∀ i j, i < n + 1 → j < n + 1 → Sz (e i j) (e i j).flD 200 := fun i j hi hj =>
    ⟨(hM ⟨i, hi⟩ ⟨j, hj⟩).fl_eq, (hm ⟨i, hi⟩ ⟨j, hj⟩).trans hm2⟩
  have hdsz := closedDet_sz (show n + 1 ≤ 4 by omega) hsz
  have hfin : (closedDet e (n + 1)).Finite := Option.isSome_iff_exists.2 ⟨_, hdsz.1⟩
  have hval : (closedDet e (n + 1)).val = (closedDet (fun i j => (e i j).flD) (n + 1)).val := by rw [Ieee.val, Ieee.flD, hdsz.1]; rfl
  have hdet := determinant_closed dIsZero h (show n + 1 ≤ 4 by omega)
  have hlow : 1 / 2 ^ 200 ≤ |(closedDet e (n + 1)).val| := by
    obtain ⟨d', g1, g2⟩ := determinant_err (K := ℚ) (p := 53) (emin := -1074) (by decide) (by decide) (fun _ => false) (ofFn_rep h.fits fun i j => (e i j).flD)
      (show n + 1 ≤ 4 by omega) (m := m) (fun i j hi hj => hm ⟨i, hi⟩ ⟨j, hj⟩)
    rw [determinant_closed _ (ofFn_rep h.fits fun i j => (e i j).flD) (show n + 1 ≤ 4 by omega)] at g1
    obtain rfl := Res.ok.inj g1
    rw [← q1, ← q2, ← hval] at g2
    have g3 := (abs_sub_abs_le_abs_sub _ _).trans ((abs_sub_comm _ _).trans_le (g2.trans hβ.ge))
    have g4 := hd.trans_eq (show |((toM (n + 1) (n + 1) e).map val).det| = |(toM (n + 1) (n + 1) fun i j => (e i j).flD.val).det| from rfl)
    linarith
  have h0 : (closedDet e (n + 1)).val ≠ 0 := by
    intro hc
    rw [hc, abs_zero] at hlow
    norm_num at hlow
  obtain ⟨d, g1, -, -, g4⟩ := C128_inverse (K := ℚ) (p := 53) (emin := -1074) (emax := 1024) (by decide) (by decide) (by decide) dtol_ok hA hn
  obtain rfl := Res.ok.inj (hdet.symm.trans g1)
  obtain ⟨-, V, hV, g5⟩ := g4 hfin h0
  have hnz : dIsZero (closedDet e (n + 1)) = false := by
    rw [Bool.eq_false_iff, Ne, dIsZero_iff hdsz.1, ← hval]; exact h0
  have hV' := Yields.inj hV (inverse_exec h.toRepAt hdet hnz (divisor_ieee _) (Yields.of_eq h.fits (adjoint_table dIsZero h (by omega))))
  refine ⟨V, hV, fun i j => ?_⟩
  have hf : (V i j).Finite := by
    have ha := adjTable_sz (show n ≤ 4 by omega) hsz i j
    rw [hV']
    refine Option.isSome_iff_exists.2 ⟨_, fl_div ha.1 hdsz.1 (by rw [← hval]; exact h0) ?_⟩
    refine lt_of_le_of_lt (rnd_pow (e := 1023) ?_) (pow_lt_max (by norm_num))
    rw [abs_div, ← hval, div_le_iff₀ (abs_pos.2 h0)]
    refine ha.2.trans ?_
    calc (2 : ℚ) ^ 823 = 2 ^ 1023 * (1 / 2 ^ 200) := by norm_num
      _ ≤ _ := mul_le_mul_of_nonneg_left hlow (by positivity)
  refine ⟨hf, ?_⟩
  exact g5 hm q1 q2 hβ (lt_of_lt_of_le (by have : (0 : ℚ) < 1 / 2 ^ 200 := by positivity
                                           linarith) hd) i j hf

/-- The elements that `inverse` computes in `double`. -/
theorem inverse_table {n : Nat} (hn : n ≤ 3) {e : Nat → Nat → IDouble} (h : dIsZero (closedDet e (n + 1)) = false) :
    inverse dIsZero (Mat.ofFn (n + 1) (n + 1) e).toMB =
      .ok (Mat.ofFn (n + 1) (n + 1) fun i j => Ieee.div (adjTable n e i j) (closedDet e (n + 1))) := by
  have hf : Fits (n + 1) (n + 1) := fits_small (by omega) (by omega)
  have hr := ofFn_rep hf e
  rw [(inverse_exec hr.toRepAt (determinant_closed dIsZero hr (by omega)) h (divisor_ieee _) (Yields.of_eq hf (adjoint_table dIsZero hr (by omega)))).eq]
  congr 1
  refine ofFn_congr fun i j hi hj => ?_
  rw [tab_lt _ hi hj]
  rfl

/-- A case without overflow. -/
example : inverse dIsZero (⟨2, 2, [dbl (2 ^ 100), dbl 1, dbl 0, dbl (2 ^ 20)]⟩ : Mat IDouble).toMB =
    .ok ⟨2, 2, [dbl (1 / 2 ^ 100), dbl (-1 / 2 ^ 120), -0, dbl (1 / 2 ^ 20)]⟩ := by
  rw [show (⟨2, 2, [dbl (2 ^ 100), dbl 1, dbl 0, dbl (2 ^ 20)]⟩ : Mat IDouble) =
    Mat.ofFn 2 2 fun i j => if i = 0 then (if j = 0 then dbl (2 ^ 100) else dbl 1) else if j = 0 then dbl 0 else dbl (2 ^ 20) by decide +kernel,
    inverse_table (by norm_num) (by decide +kernel)]
  decide +kernel

/-- A finite determinant does not suffice: of the inverse `diag (2^-600, 2^-600, 2^600)` the last element overflows. -/
example : inverse dIsZero (Mat.ofFn 3 3 fun i j => if i = j then (if i < 2 then dbl (2 ^ 600) else dbl (1 / 2 ^ 600)) else 0).toMB =
    .ok ⟨3, 3, [dbl (1 / 2 ^ 600), -0, 0, -0, dbl (1 / 2 ^ 600), -0, 0, -0, .inf false]⟩ := by
  rw [inverse_table (by norm_num) (by decide +kernel)]
  decide +kernel

end Malg
