import Verif.Model.IntDiv
import Verif.Lemmas.Float
import Verif.Lemmas.PolyReads
import Verif.Props.SignedInt
/-!
# C111: `poly` with integer elements
-/
namespace Malg
open Ops Control Polynomial SInt

theorem toDouble_int {z : ℤ} (h : |z| ≤ 2 ^ 53) : toDouble z = z :=
  rnd_exact (by norm_num) ⟨z, 0, by norm_num, h, by simp⟩

theorem quotDouble_exact {m : ℕ} {y : ℤ} (hm : 2 ≤ m) (hm' : m ≤ 2 ^ 53) (hx : |(m : ℤ) * y| ≤ 2 ^ 53) :
    quotDouble ((m : ℤ) * y) m = y := by
  have h0 : (m : ℚ) ≠ 0 := by positivity
  have hy : |y| ≤ 2 ^ 53 := by
    rw [abs_mul, Nat.abs_cast] at hx
    have := abs_nonneg y
    nlinarith
  unfold quotDouble
  dsimp only
  rw [toDouble_int hx, show ((m : ℚ)) = ((m : ℤ) : ℚ) from rfl, toDouble_int (z := (m : ℤ)) (by rw [Nat.abs_cast]; exact_mod_cast hm')]
  rw [Int.cast_mul, Int.cast_natCast, mul_div_cancel_left₀ _ h0, toDouble_int hy]
  split
  · exact Int.ceil_intCast y
  · exact Int.floor_intCast y

theorem divDouble_reads {w : ℕ} (hw : w ≤ 54) {m : ℕ} (hm : 2 ≤ m) (hm' : m ≤ 2 ^ 53) {t : SInt w} {y : ℤ} (ht : Rd get t (m * y)) :
    ∃ r, divDouble t m = .ok r ∧ Rd get r y := by
  match t with
  | over => exact ⟨over, rfl, (nomatch ·, ·)⟩
  | val x hx =>
    obtain rfl := ht x rfl
    have hb : |(m : ℤ) * y| ≤ 2 ^ 53 := by
      have : (2 : ℤ) ^ (w - 1) ≤ 2 ^ 53 := pow_le_pow_right₀ (by norm_num) (by omega)
      rw [abs_le]
      exact ⟨by linarith [hx.1], by linarith [hx.2]⟩
    have hy : InRange w y := by
      have h2 : (2 : ℤ) ≤ m := by exact_mod_cast hm
      have h3 := hx.1
      have h4 := hx.2
      have h5 : (0 : ℤ) < 2 ^ (w - 1) := by positivity
      constructor
      · by_contra h; push Not at h; nlinarith
      · by_contra h; push Not at h; nlinarith
    have hq := quotDouble_exact hm hm' hb
    refine ⟨val y hy, ?_, fun c hc => by injection hc with hc; exact hc.symm⟩
    unfold divDouble
    simp only [hq]
    exact dif_pos hy

/-- C111 (partial), `poly` of a square matrix of signed integers of up to 54 bits (`int`): there is a result, and every coefficient that
comes from computations without overflow is that of the characteristic polynomial. -/
theorem C111_square_partial {w : ℕ} (hw : 2 ≤ w) (hw' : w ≤ 54) {A : MB (SInt w)} {n : Nat} {M : Matrix (Fin n) (Fin n) (SInt w)} (hA : A.Is M) :
    ∃ c, polyMatD divDouble A = .ok c ∧ c.length = n + 1 ∧
      ∀ i x, c[i]? = some x → x.Defined → x.toInt = (M.map toInt).charpoly.coeff (n - i) := by
  obtain ⟨e, hA, rfl⟩ := hA
  have hn : n ≤ 2 ^ 53 := by
    have h1 := hA.fits.1
    rw [allocMax_eq] at h1
    by_contra h
    push Not at h
    have : 2 ^ 53 * 2 ^ 53 ≤ n * n := Nat.mul_le_mul h.le h.le
    omega
  obtain ⟨g, h1, h2⟩ := polyMat_reads (reads hw)
    (fun {a x} h => by
      have := (reads hw).rd_sub (reads hw).rd_zero h
      rw [zero_sub] at this; exact this)
    hA (M := (toM n n e).map toInt) (fun i j => Reads.rd_get _ (e i j)) (div := divDouble)
    (fun m t y hm hm' ht => divDouble_reads hw' hm (by omega) ht)
  refine ⟨_, h1, by simp, fun i x hx hd => ?_⟩
  by_cases hi : i < n + 1
  · rw [vtab, List.getElem?_map, List.getElem?_range hi] at hx
    injection hx with hx
    subst hx
    exact hd.toInt_eq (h2 i (by omega))
  · rw [List.getElem?_eq_none (by simp; omega)] at hx
    cases hx

/-- C111 (partial), `poly` of a vector of signed integers. -/
theorem C111_roots_partial {w : ℕ} (hw : 2 ≤ w) (a : List (SInt w)) (h : 1 + a.length < allocMax) :
    ∃ c : List (SInt w), polyRoots a = .ok c ∧ c.length = a.length + 1 ∧
      ∀ i x, c[i]? = some x → x.Defined → x.toInt = ((a.map fun r => (X - C r.toInt : ℤ[X])).prod).coeff (a.length - i) := by
  unfold polyRoots
  rw [initCoeff' h]
  obtain ⟨g, h1, h2⟩ := polyLoop_reads (reads hw) (n := a.length) (a := vget a) (f := fun i => a.getD i 0) (φ := fun i => (a.getD i 0).toInt)
    (fun j hj => by rw [vget_lt hj, List.getD_eq_getElem?_getD, List.getElem?_eq_getElem hj]; rfl) (fun j _ => Reads.rd_get _ _)
  refine ⟨_, h1, by simp, fun i x hx hd => ?_⟩
  by_cases hi : i < a.length + 1
  · rw [vtab, List.getElem?_map, List.getElem?_range hi] at hx
    injection hx with hx
    subst hx
    rw [hd.toInt_eq (h2 i (by omega))]
    have h3 := linProd_list (a.map toInt)
    rw [List.length_map, List.map_map] at h3
    rw [show (fun r : SInt w => (X - C r.toInt : ℤ[X])) = ((fun r : ℤ => X - C r) ∘ toInt) from rfl, ← h3]
    congr 1
    unfold linProd
    apply Finset.prod_congr rfl
    intro l hl
    have hl := Finset.mem_range.1 hl
    dsimp only
    rw [List.getD_eq_getElem?_getD, List.getD_eq_getElem?_getD, List.getElem?_map, List.getElem?_eq_getElem hl]
    rfl
  · rw [List.getElem?_eq_none (by simp; omega)] at hx
    cases hx

/-- C111 violated: `poly` divides by a `double`, so for 64 bit integers the coefficients are rounded to 53 binary digits although nothing
overflows. -/
theorem C111_wide_false : ∃ a : SInt 64, a.toInt = 134217729 ∧
    polyMatD divDouble (⟨2, 2, [a, 0, 0, a]⟩ : Mat (SInt 64)).toMB = .ok [1, of (-268435458), of 18014398777917440] ∧
    (!![(134217729 : ℤ), 0; 0, 134217729]).charpoly.coeff 0 = 18014398777917441 := by
  refine ⟨of 134217729, by decide +kernel, by decide +kernel, ?_⟩
  rw [Matrix.charpoly_fin_two]
  simp [Matrix.trace_fin_two, Matrix.det_fin_two]

example : polyMatD (divDoubleU 32) (⟨2, 2, [0, 5, 0, 0]⟩ : Mat (ZMod (2 ^ 32))).toMB = .ok [1, 0, 0] := by decide +kernel

/-- C111 violated: for unsigned elements the quotient of the wrapped trace is not the wrapped quotient; `poly` of the identity. -/
theorem C111_unsigned_false :
    polyMatD (divDoubleU 32) (⟨2, 2, [1, 0, 0, 1]⟩ : Mat (ZMod (2 ^ 32))).toMB = .ok [1, -2, 2 ^ 31 + 1] ∧
    (1 : Matrix (Fin 2) (Fin 2) (ZMod (2 ^ 32))).charpoly.coeff 0 = 1 := by
  refine ⟨by decide +kernel, ?_⟩
  have : Fact (1 < 2 ^ 32) := ⟨by norm_num⟩
  rw [Matrix.charpoly_fin_two]
  simp

example : polyMatD divDouble (⟨2, 2, [of 1, of 2, of 3, of 4]⟩ : Mat CInt).toMB = .ok [of 1, of (-5), of (-2)] := by decide +kernel
example : polyMatD divDouble (⟨3, 3, [of 2, of 0, of 0, of 0, of 3, of 0, of 0, of 0, of (-1)]⟩ : Mat CInt).toMB =
    .ok [of 1, of (-4), of 1, of 6] := by decide +kernel
example : polyMatD divDouble (⟨2, 2, [of 65536, of 0, of 0, of 65536]⟩ : Mat CInt).toMB = .ok [of 1, of (-131072), .over] := by decide +kernel
example : polyRoots [of 3, of (-2)] = .ok ([of 1, of (-1), of (-6)] : List CInt) := by decide +kernel

end Malg
