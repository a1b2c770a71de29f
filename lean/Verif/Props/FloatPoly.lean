import Verif.Props.FloatDet
import Verif.Props.FloatOrder
import Verif.Lemmas.PolyReads
import Verif.Props.Qr
/-!
# Property C115: powers, controllability matrices and characteristic polynomials of integer matrices in floating point
-/
namespace Malg
open Ops Lin Control Polynomial

section
variable {K : Type} [Field K] [LinearOrder K] [IsStrictOrderedRing K] [FloorRing K] {p : ℕ} {emin : ℤ} (hp : 1 ≤ p) (he : emin ≤ 0)

theorem IntVal.mono {x : Fl K p emin} {z B B' : ℤ} (h : IntVal x z B) (hB : B ≤ B') : IntVal x z B' := ⟨h.1, h.2.trans hB⟩

theorem IntVal.zero {B : ℤ} (hB : 0 ≤ B) : IntVal (0 : Fl K p emin) 0 B := ⟨by rw [Int.cast_zero]; rfl, by simpa using hB⟩

include hp he in
theorem IntVal.one : IntVal (1 : Fl K p emin) 1 1 := ⟨by rw [(C84_float hp he).1, Int.cast_one], by simp⟩

theorem IntVal.neg {x : Fl K p emin} {z B : ℤ} (h : IntVal x z B) : IntVal (-x) (-z) B :=
  ⟨by rw [show (-x).val = -x.val from rfl, h.1, Int.cast_neg], by rw [abs_neg]; exact h.2⟩

include hp he in
theorem IntVal.lsum {t : Nat → Fl K p emin} {z : Nat → ℤ} {k : Nat} {B : ℤ} (h : ∀ i, i < k → IntVal (t i) (z i) B)
    (hb : k * B ≤ 2 ^ p) : IntVal (lsum k t) (∑ i ∈ Finset.range k, z i) (k * B) := by
  have hs : ∑ i ∈ Finset.range k, |z i| ≤ k * B := by
    refine (Finset.sum_le_sum fun i hi => (h i (Finset.mem_range.1 hi)).2).trans ?_
    simp
  exact ⟨lsum_exact hp he (fun i hi => (h i hi).1) (hs.trans hb), (Finset.abs_sum_le_sum_abs _ _).trans hs⟩

include hp he in
theorem IntVal.div {x : Fl K p emin} {z B : ℤ} {m : Nat} (hm : 0 < m) (hm' : (m : ℤ) ≤ 2 ^ p) (hB : B ≤ 2 ^ p) (h : IntVal x (m * z) B) :
    ∃ r, cdiv x (m : Fl K p emin) = .ok r ∧ IntVal r z B := by
  have hmK : (m : K) ≠ 0 := by exact_mod_cast hm.ne'
  have hv : ((m : Nat) : Fl K p emin).val = m := by
    have := rnd_intCast (K := K) (z := m) hp he (by rwa [abs_of_nonneg (Int.natCast_nonneg m)])
    rw [Int.cast_natCast] at this
    exact this
  have hz : |z| ≤ B := by
    refine le_trans ?_ h.2
    rw [abs_mul, Nat.abs_cast]
    exact le_mul_of_one_le_left (abs_nonneg z) (by exact_mod_cast hm)
  refine ⟨_, if_neg (by rw [hv]; exact hmK), ?_, hz⟩
  show rnd p emin (x.val / ((m : Nat) : Fl K p emin).val) = _
  rw [hv, h.1, Int.cast_mul, Int.cast_natCast, mul_div_cancel_left₀ _ hmK]
  exact rnd_intCast hp he (hz.trans hB)

/-! ## Polynomials from their roots -/

include hp he in
theorem polyLoop_intVal {n : Nat} {a : Nat → Res (Fl K p emin)} {f : Nat → Fl K p emin} {φ : Nat → ℤ} {m : ℤ} (hm : 0 ≤ m)
    (ha : ∀ j, j < n → a j = .ok (f j)) (hf : ∀ j, j < n → IntVal (f j) (φ j) m) (hb : ∀ i, i ≤ n → (n.choose i) * m ^ i ≤ 2 ^ p) :
    ∃ g : Nat → Fl K p emin, polyLoop n a (vtab (n + 1) fun i => if i = 0 then 1 else 0) = .ok (vtab (n + 1) g) ∧
      ∀ i, i ≤ n → IntVal (g i) ((linProd φ n).coeff (n - i)) (n.choose i * m ^ i) := by
  unfold polyLoop
  obtain ⟨s, h1, g, rfl, h2⟩ := forRange_inv (lo := 0) (hi := n) (Nat.zero_le n)
    (fun j (c : List (Fl K p emin)) => ∃ g, c = vtab (n + 1) g ∧ ∀ i, i ≤ n → IntVal (g i) (partialCoeff φ j i) (j.choose i * m ^ i))
    (s := vtab (n + 1) fun i => if i = 0 then 1 else 0)
    (body := fun j c => forRange 0 (j + 1) c fun k c => do
      let i := j + 1 - k
      let z ← vget c i
      let x ← a j
      let y ← vget c (i - 1)
      vset c i (z - x * y))
    (by
      refine ⟨_, rfl, fun i hi => ?_⟩
      unfold partialCoeff linProd
      by_cases h : i = 0
      · subst h; simpa using IntVal.one hp he
      · rw [if_neg h, if_neg (by omega)]; exact IntVal.zero (by positivity))
    (by
      rintro j c - hj ⟨g, rfl, hg⟩
      obtain ⟨s, h1, g', rfl, h2⟩ := forRange_inv (lo := 0) (hi := j + 1) (Nat.zero_le _)
        (fun k (c : List (Fl K p emin)) => ∃ g, c = vtab (n + 1) g ∧ ∀ i, i ≤ n →
          if j + 1 - k < i ∧ i ≤ j + 1 then IntVal (g i) (partialCoeff φ (j + 1) i) ((j + 1).choose i * m ^ i)
          else IntVal (g i) (partialCoeff φ j i) (j.choose i * m ^ i))
        (s := vtab (n + 1) g)
        (body := fun k c => do
          let i := j + 1 - k
          let z ← vget c i
          let x ← a j
          let y ← vget c (i - 1)
          vset c i (z - x * y))
        (by refine ⟨_, rfl, fun i hi => ?_⟩; rw [if_neg (by omega)]; exact hg i hi)
        (by
          rintro k c - hk ⟨g, rfl, hg⟩
          obtain ⟨i, hi⟩ : ∃ i, j + 1 - k = i + 1 := ⟨j - k, by omega⟩
          dsimp only
          rw [hi, Nat.add_sub_cancel, vget_vtab (by omega), Res.ok_bind, ha j hj, Res.ok_bind, vget_vtab (by omega), Res.ok_bind,
            vset_vtab (by omega)]
          refine ⟨_, rfl, _, rfl, fun l hl => ?_⟩
          by_cases h : l = i + 1
          · subst h
            have e1 := hg (i + 1) hl
            have e2 := hg i (by omega)
            rw [if_neg (by omega)] at e1 e2
            rw [Function.update_self, if_pos ⟨by omega, by omega⟩, partialCoeff_step φ (by omega)]
            have hB : (j.choose (i + 1) : ℤ) * m ^ (i + 1) + m * (j.choose i * m ^ i) = (j + 1).choose (i + 1) * m ^ (i + 1) := by
              rw [Nat.choose_succ_succ]; push_cast; ring
            have hle : ((j + 1).choose (i + 1) : ℤ) * m ^ (i + 1) ≤ 2 ^ p := by
              refine le_trans (mul_le_mul_of_nonneg_right ?_ (by positivity)) (hb (i + 1) hl)
              exact_mod_cast Nat.choose_le_choose _ (by omega)
            have h3 : m * (j.choose i * m ^ i) ≤ 2 ^ p := by
              have : 0 ≤ (j.choose (i + 1) : ℤ) * m ^ (i + 1) := by positivity
              omega
            have := e1.sub hp he ((hf j hj).mul hp he e2 h3) (by rw [hB]; exact hle)
            rwa [hB] at this
          · rw [Function.update_of_ne h]
            have e := hg l hl
            by_cases h2 : i + 1 < l ∧ l ≤ j + 1
            · rw [if_pos ⟨by omega, h2.2⟩] at e; rw [if_pos ⟨by omega, h2.2⟩]; exact e
            · rw [if_neg (by omega)] at e; rw [if_neg (by omega)]; exact e)
      refine ⟨_, h1, _, rfl, fun i hi => ?_⟩
      have e := h2 i hi
      rw [Nat.sub_self] at e
      by_cases h0 : i = 0
      · subst h0; rw [if_neg (by omega)] at e; rw [partialCoeff_first]; simpa using e
      · by_cases h1 : i ≤ j + 1
        · rw [if_pos ⟨by omega, h1⟩] at e; exact e
        · rw [if_neg (by omega)] at e
          have : partialCoeff φ (j + 1) i = partialCoeff φ j i := by
            unfold partialCoeff; rw [if_neg (by omega), if_neg (by omega)]
          rw [this]
          refine e.mono (mul_le_mul_of_nonneg_right ?_ (by positivity))
          exact_mod_cast Nat.choose_le_choose _ (by omega))
  refine ⟨g, h1, fun i hi => ?_⟩
  have := h2 i hi
  unfold partialCoeff at this
  rw [if_pos hi] at this
  exact this

include hp he in
/-- C115: the polynomial with given integer roots is exact, as long as `n.choose i * m ^ i ≤ 2^p` for a bound `m` of the roots. -/
theorem C115_roots (a : List (Fl K p emin)) (r : List ℤ) (har : a.map Fl.val = r.map (Int.cast : ℤ → K)) (h : 1 + r.length < allocMax) {m : ℤ}
    (hm0 : 0 ≤ m) (hm : ∀ z ∈ r, |z| ≤ m) (hb : ∀ i, i ≤ r.length → (r.length.choose i) * m ^ i ≤ 2 ^ p) :
    ∃ c : List (Fl K p emin), polyRoots a = .ok c ∧ c.length = r.length + 1 ∧
      ∀ i, i ≤ r.length → (c.map Fl.val)[i]? = some ((((r.map fun z => (X - C z : ℤ[X])).prod).coeff (r.length - i) : ℤ) : K) := by
  have hl : a.length = r.length := by have := congrArg List.length har; simpa using this
  unfold polyRoots
  rw [hl, initCoeff' h]
  have hg : ∀ j, j < r.length → IntVal (a.getD j 0) (r.getD j 0) m := by
    intro j hj
    have e := congrArg (fun l => l[j]?) har
    simp only [List.getElem?_map, List.getElem?_eq_getElem hj, List.getElem?_eq_getElem (hl ▸ hj : j < a.length), Option.map_some] at e
    rw [List.getD_eq_getElem?_getD, List.getD_eq_getElem?_getD, List.getElem?_eq_getElem hj, List.getElem?_eq_getElem (hl ▸ hj : j < a.length)]
    exact ⟨Option.some.inj e, hm _ (List.getElem_mem hj)⟩
  obtain ⟨g, h1, h2⟩ := polyLoop_intVal hp he hm0 (a := vget a) (f := fun i => a.getD i 0) (φ := fun i => r.getD i 0)
    (fun j hj => by rw [vget_lt (hl ▸ hj), List.getD_eq_getElem?_getD, List.getElem?_eq_getElem (hl ▸ hj)]; rfl) hg hb
  refine ⟨_, h1, by simp, fun i hi => ?_⟩
  rw [← linProd_list r, ← (h2 i hi).1]
  rw [vtab, List.getElem?_map, List.getElem?_map, List.getElem?_range (by omega)]
  rfl

include hp he in
/-- A row or a column. -/
theorem polyRow_intVal {div : Fl K p emin → Nat → Res (Fl K p emin)} {A : MB (Fl K p emin)} {n l : Nat} {e : Nat → Nat → Fl K p emin}
    (hA : Rep A n l e) (hnm : (n = 1 ∧ 0 < l) ∨ (l = 1 ∧ 0 < n)) (h : 1 + n * l < allocMax) {φ : Nat → ℤ} {m : ℤ} (hm : 0 ≤ m)
    (hφ : ∀ i, i < n * l → IntVal (e (i / l) (i % l)) (φ i) m) (hb : ∀ i, i ≤ n * l → ((n * l).choose i) * m ^ i ≤ 2 ^ p) :
    ∃ g : Nat → Fl K p emin, polyMatD div A = .ok (vtab (n * l + 1) g) ∧
      ∀ i, i ≤ n * l → IntVal (g i) ((linProd φ (n * l)).coeff (n * l - i)) ((n * l).choose i * m ^ i) := by
  have hpos : n * l ≠ 0 := by rcases hnm with ⟨rfl, h⟩ | ⟨rfl, h⟩ <;> omega
  unfold polyMatD
  rw [hA.size, if_neg hpos, hA.rows, hA.cols, if_pos (by omega), initCoeff' h]
  exact polyLoop_intVal hp he hm (f := fun i => e (i / l) (i % l)) (fun j hj => hA.lin' hj) hφ hb

/-- The bound of the entries in step `k` of the algorithm of Faddeev and LeVerrier. -/
def flBound (n : Nat) (m : ℤ) (k : Nat) : ℤ := m * (n * (n + 1) * m) ^ (k - 1)

theorem flBound_succ (n : Nat) (m : ℤ) {k : Nat} (hk : 1 ≤ k) : flBound n m (k + 1) = n * (m * (flBound n m k + n * flBound n m k)) := by
  obtain ⟨k, rfl⟩ := Nat.exists_eq_add_of_le' hk
  unfold flBound
  rw [Nat.add_sub_cancel, Nat.add_sub_cancel, pow_succ]
  ring

theorem flBound_nonneg (n : Nat) {m : ℤ} (hm : 0 ≤ m) (k : Nat) : 0 ≤ flBound n m k := by unfold flBound; positivity

theorem flBound_mono {n : Nat} (hn : 1 ≤ n) {m : ℤ} (hm : 1 ≤ m) {k k' : Nat} (h : k ≤ k') : flBound n m k ≤ flBound n m k' := by
  unfold flBound
  refine mul_le_mul_of_nonneg_left (pow_le_pow_right₀ ?_ (by omega)) (by omega)
  have h1 : (1 : ℤ) ≤ n := by exact_mod_cast hn
  have h2 : (1 : ℤ) ≤ n * (n + 1) := by nlinarith
  nlinarith

include hp he in
/-- C115: `poly` of a square matrix of integers of absolute value at most `m` is the characteristic polynomial, as long as
`n m (n (n+1) m)^(n-1) ≤ 2^p`. -/
theorem C115_poly {A : MB (Fl K p emin)} {n : Nat} {M : Matrix (Fin n) (Fin n) (Fl K p emin)} (hA : A.Is M)
    {Z : Matrix (Fin n) (Fin n) ℤ} (hv : ∀ i j, (M i j).val = Z i j) {m : ℤ} (hm : 1 ≤ m) (hz : ∀ i j, |Z i j| ≤ m)
    (hb : n * (m * (n * (n + 1) * m) ^ (n - 1)) ≤ 2 ^ p) :
    ∃ c : List (Fl K p emin), polyMat A = .ok c ∧ c.length = n + 1 ∧
      ∀ i, i ≤ n → (c.map Fl.val)[i]? = some ((Z.charpoly.coeff (n - i) : ℤ) : K) := by
  obtain ⟨e, hA, rfl⟩ := hA
  have hM : ∀ i j : Fin n, IntVal (e i j) (Z i j) m := fun i j => ⟨hv i j, hz i j⟩
  suffices ∃ g : Nat → Fl K p emin, polyMat A = .ok (vtab (n + 1) g) ∧ ∀ i, i ≤ n → (g i).val = ((Z.charpoly.coeff (n - i) : ℤ) : K) by
    obtain ⟨g, h1, h2⟩ := this
    refine ⟨_, h1, by simp, fun i hi => ?_⟩
    rw [← h2 i hi, vtab, List.getElem?_map, List.getElem?_map, List.getElem?_range (by omega)]
    rfl
  have hf := hA.fits
  have hm0 : 0 ≤ m := by omega
  by_cases h0 : n = 0
  · subst h0
    refine ⟨fun _ => 1, ?_, fun i hi => ?_⟩
    · unfold polyMat polyMatD; rw [hA.size, if_pos rfl]; rfl
    · rw [Matrix.charpoly, Matrix.det_isEmpty, Nat.zero_sub, coeff_one_zero]; exact (IntVal.one hp he).1
  by_cases h1 : n = 1
  · subst h1
    have : (2 : Nat) < allocMax := by rw [allocMax_eq]; decide
    have h2p : (1 : ℤ) ≤ 2 ^ p := one_le_pow₀ (by norm_num)
    obtain ⟨g, e1, e2⟩ := polyRow_intVal hp he (div := fun t m => cdiv t (m : Fl K p emin)) hA (Or.inl ⟨rfl, Nat.one_pos⟩) this
      (φ := fun _ => Z 0 0) hm0
      (fun i hi => by obtain rfl : i = 0 := by omega
                      exact hM 0 0)
      (fun i hi => by
        obtain rfl | rfl : i = 0 ∨ i = 1 := by omega
        · simpa using h2p
        · simpa using hb)
    refine ⟨g, e1, fun i hi => ?_⟩
    have := (e2 i hi).1
    rw [Matrix.charpoly, Matrix.det_unique]
    simpa [linProd] using this
  have hn : 2 ≤ n := by omega
  have hnn : n + 1 ≤ n * n := by nlinarith
  have hna : n + 1 < allocMax := lt_of_le_of_lt hnn hf.1
  have hW := allocMax_lt_W
  have hbk : ∀ k, k ≤ n → n * flBound n m k ≤ 2 ^ p := fun k hk =>
    (mul_le_mul_of_nonneg_left (flBound_mono (by omega) hm hk) (Int.natCast_nonneg n)).trans hb
  have hnp : (n : ℤ) ≤ 2 ^ p := by
    have h1 := hbk 1 (by omega)
    have h2 : flBound n m 1 = m := by simp [flBound]
    rw [h2] at h1
    nlinarith
  unfold polyMat polyMatD
  have hpos : 0 < n * n := by positivity
  rw [hA.size, if_neg (by omega), hA.rows, hA.cols, if_neg (by omega)]
  have hsq : Util.isSquare A = true := by simp [Util.isSquare, hA.rows, hA.cols]
  rw [hsq, Bool.not_true, if_neg Bool.false_ne_true]
  dsimp only
  rw [wadd_eq (by omega), vnew_ok (by omega), Res.ok_bind, Mat.ofMB_eq hA, Res.ok_bind]
  dsimp only [id]
  have hB := ofFn_rep hf e
  set χ := Z.charpoly with hχ
  have htr : ∀ {b : Nat → Nat → Fl K p emin} {N : Matrix (Fin n) (Fin n) ℤ} {β : ℤ}, n * β ≤ 2 ^ p →
      (∀ i j : Fin n, IntVal (b i j) (N i j) β) → IntVal (lsum n fun i => b i i) (Matrix.trace N) (n * β) := by
    intro b N β hβ hb
    have := IntVal.lsum hp he (k := n) (t := fun i => b i i) (z := fun i => if h : i < n then N ⟨i, h⟩ ⟨i, h⟩ else 0)
      (fun i hi => by rw [dif_pos hi]; exact hb ⟨i, hi⟩ ⟨i, hi⟩) hβ
    rw [Finset.sum_range] at this
    simp only [Fin.is_lt, dif_pos] at this
    exact this
  have htr1 : Matrix.trace Z = - χ.coeff (n - 1) := by
    have := trace_mul_adjCoeff Z (m := 1) (by omega)
    rw [adjCoeff_top Z (by omega), Matrix.mul_one] at this
    rw [this]; simp [hχ]
  have hM1 : ∀ i j : Fin n, IntVal (e i j) (Z i j) (flBound n m 1) := by simpa [flBound] using hM
  have hl1 : IntVal (lsum n fun i => e i i) (- χ.coeff (n - 1)) (n * flBound n m 1) := htr1 ▸ htr (hbk 1 (by omega)) hM1
  rw [C41_trace_partial hB.toRepAt le_rfl, Res.ok_bind, replicate_eq_vtab, vset_vtab (by omega), Res.ok_bind,
    vset_vtab (by omega), Res.ok_bind]
  show ∃ g, (Util.identity n (1 : Fl K p emin) >>= _) = _ ∧ _
  have hI := ofFn_rep hf (fun r c => if r = c then (1 : Fl K p emin) else 0)
  rw [show Util.identity n (1 : Fl K p emin) = _ from Util.eye_eq (by omega : 0 < n) (by omega) hf 1, Res.ok_bind]
  generalize hId : Mat.ofFn n n (fun r c => if r = c then (1 : Fl K p emin) else 0) = I at hI
  obtain ⟨s, h1, ⟨g, h2, h3⟩, -, -⟩ := forRange_inv (lo := 2) (hi := n + 1) (by omega)
    (fun k (s : List (Fl K p emin) × Mat (Fl K p emin) × Fl K p emin) =>
      (∃ g, s.1 = vtab (n + 1) g ∧ ∀ i, i < k → (g i).val = ((χ.coeff (n - i) : ℤ) : K)) ∧
      (∃ b, Rep s.2.1.toMB n n b ∧ ∀ i j : Fin n, IntVal (b i j) ((Z * adjCoeff Z (n - (k - 1))) i j) (flBound n m (k - 1))) ∧
      IntVal s.2.2 (- χ.coeff (n - (k - 1))) (n * flBound n m (k - 1)))
    (s := (vtab (n + 1) (Function.update (Function.update (fun _ => (0 : Fl K p emin)) 0 1) 1 (- lsum n fun i => e i i)), Mat.ofFn n n e,
      lsum n fun i => e i i))
    (body := fun m s => do
      let J ← mulS I.toMB s.2.2
      let D ← sub s.2.1.toMB J.toMB
      let P ← mul A D.toMB
      let B := (s.2.1.moveAssign P).1
      let tr ← trace B.toMB
      let last ← cdiv tr (m : Fl K p emin)
      let c ← vset s.1 m (-last)
      return (c, B, last))
    (by
      refine ⟨⟨_, rfl, fun i hi => ?_⟩, ⟨e, hB, ?_⟩, hl1⟩
      · obtain rfl | rfl : i = 0 ∨ i = 1 := by omega
        · rw [Function.update_of_ne (by omega), Function.update_self, Nat.sub_zero, hχ, charpoly_coeff_top]; exact (IntVal.one hp he).1
        · rw [Function.update_self]
          have := hl1.neg.1
          rwa [neg_neg] at this
      · rw [adjCoeff_top Z (by omega), Matrix.mul_one]; exact hM1)
    (by
      rintro k ⟨c, B, last⟩ hm1 hm2 ⟨⟨g, hc, hg⟩, ⟨b, hBm, hb⟩, hl⟩
      dsimp only at hc hBm hl
      subst hc
      obtain ⟨J, eJ, hJ⟩ := (C33_scalar hI last).2.2.1
      obtain ⟨D, eD, hD⟩ := (C33_add_sub hBm hJ.rep).2
      obtain ⟨P, eP, hP⟩ := C35_entries hA.toRepAt hD.rep.toRepAt hf
      set β := flBound n m (k - 1) with hβ
      have hβ0 : 0 ≤ β := flBound_nonneg n hm0 _
      have hβk : flBound n m k = n * (m * (β + n * β)) := by
        rw [hβ, ← flBound_succ n m (by omega)]; congr 1; omega
      have hk := hbk k (by omega)
      have hn1 : (1 : ℤ) ≤ n := by exact_mod_cast (by omega : 1 ≤ n)
      have hk0 := flBound_nonneg n hm0 k
      have hk1 : flBound n m k ≤ 2 ^ p := le_trans (by nlinarith) hk
      have hk2 : m * (β + n * β) ≤ 2 ^ p := by
        have : 0 ≤ m * (β + n * β) := by positivity
        refine le_trans ?_ hk1
        rw [hβk]; nlinarith
      have hk3 : β + n * β ≤ 2 ^ p := by
        have : 0 ≤ β + n * β := by positivity
        refine le_trans ?_ hk2
        nlinarith
      have hk4 : 1 * (n * β) ≤ 2 ^ p := by rw [one_mul]; linarith
      have hadj : Z * adjCoeff Z (n - (k - 1)) - (- χ.coeff (n - (k - 1))) • (1 : Matrix (Fin n) (Fin n) ℤ) = adjCoeff Z (n - k) := by
        have : n - (k - 1) = (n - k) + 1 := by omega
        rw [adjCoeff_rec Z (n - k), this, neg_smul, sub_neg_eq_add]
      have hDr : ∀ i j : Fin n, IntVal (b i j - (if (i : Nat) = j then (1 : Fl K p emin) else 0) * last) (adjCoeff Z (n - k) i j)
          (β + n * β) := by
        intro i j
        rw [← hadj, Matrix.sub_apply, Matrix.smul_apply, smul_eq_mul, mul_comm, Matrix.one_apply]
        have h1 : IntVal (if (i : Nat) = j then (1 : Fl K p emin) else 0) (if i = j then 1 else 0) 1 := by
          by_cases h : i = j
          · rw [if_pos h, if_pos (by rw [h])]; exact IntVal.one hp he
          · rw [if_neg h, if_neg (fun h' => h (Fin.ext h'))]; exact IntVal.zero (by norm_num)
        have h2 := h1.mul hp he hl hk4
        rw [one_mul] at h2
        exact (hb i j).sub hp he h2 hk3
      have hPr : ∀ i j : Fin n, IntVal (lsum n fun k => e i k * (b k j - (if k = (j : Nat) then (1 : Fl K p emin) else 0) * last))
          ((Z * adjCoeff Z (n - k)) i j) (flBound n m k) := by
        intro i j
        have := IntVal.lsum hp he (k := n) (t := fun k => e i k * (b k j - (if k = (j : Nat) then (1 : Fl K p emin) else 0) * last))
          (z := fun l => if h : l < n then Z i ⟨l, h⟩ * adjCoeff Z (n - k) ⟨l, h⟩ j else 0) (B := m * (β + n * β))
          (fun l hl => by rw [dif_pos hl]; exact (hM i ⟨l, hl⟩).mul hp he (hDr ⟨l, hl⟩ j) hk2) (hβk ▸ hk1)
        rw [Finset.sum_range, ← hβk] at this
        simp only [Fin.is_lt, dif_pos] at this
        exact this
      obtain ⟨r, hr1, hr2⟩ := IntVal.div hp he (z := - χ.coeff (n - k)) (m := k) (by omega) (le_trans (by exact_mod_cast (by omega : k ≤ n)) hnp) hk
        ((trace_mul_adjCoeff Z (m := k) (by omega)) ▸
        htr hk (b := fun r c => lsum n fun k => e r k * (b k c - (if k = c then (1 : Fl K p emin) else 0) * last)) hPr)
      dsimp only
      rw [eJ, Res.ok_bind, eD, Res.ok_bind, eP, Res.ok_bind, moveAssign_fst (by rw [show P.size = n * n from hP.rep.size]; exact hpos),
        C41_trace_partial hP.rep.toRepAt le_rfl, Res.ok_bind, hr1, Res.ok_bind,
        vset_vtab (by omega), Res.ok_bind]
      refine ⟨_, rfl, ⟨_, rfl, fun i hi => ?_⟩, ⟨_, hP.rep, hPr⟩, hr2⟩
      by_cases h : i = k
      · subst h; rw [Function.update_self]
        have := hr2.neg.1
        rwa [neg_neg] at this
      · rw [Function.update_of_ne h]
        exact hg i (by omega))
  rw [h1, Res.ok_bind]
  exact ⟨g, by rw [h2]; rfl, fun i hi => h3 i (by omega)⟩


/-! ## Powers, controllability and observability -/

theorem abs_mul_le {n k l : Nat} (P : Matrix (Fin n) (Fin k) ℤ) (Q : Matrix (Fin k) (Fin l) ℤ) {P' : Matrix (Fin n) (Fin k) ℤ}
    (h : ∀ i j, |P i j| ≤ P' i j) (i : Fin n) (j : Fin l) : |(P * Q) i j| ≤ (P' * Q.map (|·|)) i j := by
  rw [Matrix.mul_apply, Matrix.mul_apply]
  refine (Finset.abs_sum_le_sum_abs _ _).trans (Finset.sum_le_sum fun x _ => ?_)
  rw [abs_mul, Matrix.map_apply]
  exact mul_le_mul_of_nonneg_right (h i x) (abs_nonneg _)

theorem abs_pow_le {n : Nat} (Z : Matrix (Fin n) (Fin n) ℤ) (k : Nat) (i j : Fin n) : |(Z ^ k) i j| ≤ (Z.map (|·|) ^ k) i j := by
  induction k generalizing i j with
  | zero =>
    rw [pow_zero, pow_zero, Matrix.one_apply]
    split <;> simp
  | succ k ih => rw [pow_succ, pow_succ]; exact abs_mul_le _ _ ih i j

include hp he in
/-- An entry of a product of integer matrices. -/
theorem lsum_matrix {n k l : Nat} {e f : Nat → Nat → Fl K p emin} {P P' : Matrix (Fin n) (Fin k) ℤ} {Q : Matrix (Fin k) (Fin l) ℤ}
    (he' : ∀ i j : Fin _, (e i j).val = P i j) (hf : ∀ i j : Fin _, (f i j).val = Q i j) (hP : ∀ i j, |P i j| ≤ P' i j) (i : Fin n) (j : Fin l)
    (hb : (P' * Q.map (|·|)) i j ≤ 2 ^ p) : (lsum k fun x => e i x * f x j).val = ((P * Q) i j : ℤ) := by
  have := lsum_mul_exact hp he (x := fun x => e i x) (y := fun x => f x j) (a := fun x => tab P i x) (b := fun x => tab Q x j) (k := k)
    (fun x hx => by rw [tab_lt _ i.2 hx]; exact he' i ⟨x, hx⟩) (fun x hx => by rw [tab_lt _ hx j.2]; exact hf ⟨x, hx⟩ j)
    (by
      rw [Finset.sum_range]
      refine le_trans ?_ hb
      rw [Matrix.mul_apply]
      refine Finset.sum_le_sum fun x _ => ?_
      rw [tab_lt _ i.2 x.2, tab_lt _ x.2 j.2]
      exact mul_le_mul_of_nonneg_right (hP i x) (abs_nonneg _))
  rw [Finset.sum_range] at this
  refine this.trans (congrArg _ ?_)
  rw [Matrix.mul_apply]
  exact Finset.sum_congr rfl fun x _ => by rw [tab_lt _ i.2 x.2, tab_lt _ x.2 j.2]

include hp he in
theorem powm_intVal {A : MB (Fl K p emin)} {n : Nat} {e : Nat → Nat → Fl K p emin} (hA : Rep A n n e) (hn : 0 < n) {Z : Matrix (Fin n) (Fin n) ℤ}
    (hv : ∀ i j : Fin n, (e i j).val = Z i j) (N : Nat) (hb : ∀ k, k ≤ N → ∀ i j, (Z.map (|·|) ^ k) i j ≤ 2 ^ p) :
    ∃ E, powm A N = .ok (Mat.ofFn n n E) ∧ ∀ i j : Fin n, (E i j).val = ((Z ^ N) i j : ℤ) := by
  unfold powm
  rw [hA.rows, hA.cols, Util.eye_eq hn hn hA.fits, Res.ok_bind]
  induction N with
  | zero =>
    refine ⟨_, rfl, fun i j => ?_⟩
    rw [pow_zero, Matrix.one_apply]
    by_cases h : i = j
    · rw [if_pos h, if_pos (by rw [h])]; exact (IntVal.one hp he).1
    · rw [if_neg h, if_neg (fun h' => h (Fin.ext h')), Int.cast_zero]; rfl
  | succ N ih =>
    obtain ⟨E, h1, h2⟩ := ih fun k hk => hb k (by omega)
    rw [forRange_succ_last (Nat.zero_le N), h1, Res.ok_bind, mulAssign_self hA.fits hA.toRepAt]
    refine ⟨_, rfl, fun i j => ?_⟩
    rw [pow_succ]
    exact lsum_matrix hp he h2 hv (abs_pow_le Z N) i j (by rw [← pow_succ]; exact hb _ le_rfl i j)

include hp he in
/-- C115: a power of an integer matrix is exact, as long as the powers of the matrix of the absolute values stay within `2^p`. -/
theorem C115_powm {A : MB (Fl K p emin)} {n : Nat} {M : Matrix (Fin n) (Fin n) (Fl K p emin)} (hA : A.Is M) (hn : 0 < n)
    {Z : Matrix (Fin n) (Fin n) ℤ} (hv : ∀ i j, (M i j).val = Z i j) (N : Nat) (hb : ∀ k, k ≤ N → ∀ i j, (Z.map (|·|) ^ k) i j ≤ 2 ^ p) :
    ∃ E : Matrix (Fin n) (Fin n) (Fl K p emin), Yields (powm A N) E ∧ ∀ i j, (E i j).val = ((Z ^ N) i j : ℤ) := by
  obtain ⟨e, hA, rfl⟩ := hA
  obtain ⟨E, h1, h2⟩ := powm_intVal hp he hA hn hv N hb
  exact ⟨_, Yields.of_eq hA.fits h1, h2⟩

/-- `ctrb` over any number type, from the values of the powers. -/
theorem ctrb_exec {T : Type} [Zero T] [One T] [Add T] [Mul T] {A B : MB T} {n m : Nat} {e f : Nat → Nat → T} (hA : Rep A n n e) (hB : Rep B n m f)
    (hn : 0 < n) (hf : Fits n (n * m)) {P : Nat → Nat → Nat → T} (hP : ∀ i, i < n → powm A i = .ok (Mat.ofFn n n (P i))) :
    ctrb A B = .ok (Mat.ofFn n (n * m) fun r c => if c / m = 0 then f r (c % m) else lsum n fun k => P (c / m) r k * f k (c % m)) := by
  have hfB := hB.fits
  unfold ctrb
  have hsq : Util.isSquare A = true := by rw [Lin.isSquare_eq hA.toRepAt, beq_self_eq_true]
  rw [hsq, Bool.not_true, if_neg Bool.false_ne_true, if_neg (by rw [hA.rows, hB.rows]; simp), Mat.ofMB_eq hB, Res.ok_bind, hA.rows]
  dsimp only [id]
  let g : Nat → Nat → Nat → T := fun i r c => if i = 0 then f r c else lsum n fun k => P i r k * f k c
  rw [forRange_eq (lo := 1) (by omega) (fun i => Mat.ofFn n (i * m) fun r c => g (c / m) r (c % m))]
  · rw [Nat.one_mul]
    apply ofFn_congr
    intro r c hr hc
    show f r c = g _ _ _
    rw [Nat.div_eq_of_lt hc, Nat.mod_eq_of_lt hc]; rfl
  · intro i h1 hi
    have hfi : Fits n ((i + 1) * m) := hf.mono (Nat.le_refl n) (Nat.mul_le_mul_right m (by omega))
    rw [hP i hi, Res.ok_bind]
    obtain ⟨Q, eQ, hQ⟩ := C35_entries (ofFn_rep hA.fits (P i)).toRepAt hB.toRepAt hfB
    rw [eQ, Res.ok_bind]
    rw [Util.hstack_eq (ofFn_rep (hfi.mono (Nat.le_refl n) (Nat.mul_le_mul_right m (Nat.le_succ i))) _).toRepAt
      hQ.rep.toRepAt (by rw [← Nat.succ_mul]; exact hfi), Res.ok_bind]
    by_cases hm : m = 0
    · subst hm
      show Res.ok _ = Res.ok _
      congr 1
    · show Res.ok _ = Res.ok _
      rw [moveAssign_fst (by
        show 0 < wmul n (i * m + m)
        rw [← Nat.succ_mul, hfi.wmul]
        exact Nat.mul_pos hn (Nat.mul_pos (Nat.succ_pos i) (Nat.pos_of_ne_zero hm)))]
      congr 1
      rw [← Nat.succ_mul]
      apply ofFn_congr
      intro r c hr hc
      by_cases hlt : c < i * m
      · rw [if_pos hlt]
      · rw [if_neg hlt]
        have hc' : c - i * m < m := by rw [Nat.succ_mul] at hc; omega
        have hdiv : c / m = i := by
          rw [Nat.div_eq_iff (Nat.pos_of_ne_zero hm)]; rw [Nat.succ_mul] at hc; constructor <;> omega
        have hmod' : c % m = c - i * m := by
          rw [Nat.mod_eq_sub_mul_div, hdiv, Nat.mul_comm]
        rw [hdiv, hmod']
        show _ = if i = 0 then _ else _
        rw [if_neg (by omega)]

/-- `obsv` over any number type. -/
theorem obsv_exec {T : Type} [Zero T] [One T] [Add T] [Mul T] {A C : MB T} {n m : Nat} {e f : Nat → Nat → T} (hA : Rep A n n e) (hC : Rep C m n f)
    (hn : 0 < n) (hf : Fits (n * m) n) {P : Nat → Nat → Nat → T} (hP : ∀ i, i < n → powm A i = .ok (Mat.ofFn n n (P i))) :
    obsv A C = .ok (Mat.ofFn (n * m) n fun r c => if r / m = 0 then f (r % m) c else lsum n fun k => f (r % m) k * P (r / m) k c) := by
  have hfC := hC.fits
  unfold obsv
  have hsq : Util.isSquare A = true := by rw [Lin.isSquare_eq hA.toRepAt, beq_self_eq_true]
  rw [hsq, Bool.not_true, if_neg Bool.false_ne_true, if_neg (by rw [hA.rows, hC.cols]; simp), Mat.ofMB_eq hC, Res.ok_bind, hA.rows]
  dsimp only [id]
  let g : Nat → Nat → Nat → T := fun i r c => if i = 0 then f r c else lsum n fun k => f r k * P i k c
  rw [forRange_eq (lo := 1) (by omega) (fun i => Mat.ofFn (i * m) n fun r c => g (r / m) (r % m) c)]
  · rw [Nat.one_mul]
    apply ofFn_congr
    intro r c hr hc
    show f r c = g _ _ _
    rw [Nat.div_eq_of_lt hr, Nat.mod_eq_of_lt hr]; rfl
  · intro i h1 hi
    have hfi : Fits ((i + 1) * m) n := hf.mono (Nat.mul_le_mul_right m (by omega)) (Nat.le_refl n)
    rw [hP i hi, Res.ok_bind]
    obtain ⟨Q, eQ, hQ⟩ := C35_entries hC.toRepAt (ofFn_rep hA.fits (P i)).toRepAt hfC
    rw [eQ, Res.ok_bind]
    rw [Util.vstack_eq (ofFn_rep (hfi.mono (Nat.mul_le_mul_right m (Nat.le_succ i)) (Nat.le_refl n)) _).toRepAt
      hQ.rep.toRepAt (by rw [← Nat.succ_mul]; exact hfi), Res.ok_bind]
    by_cases hm : m = 0
    · subst hm
      show Res.ok _ = Res.ok _
      congr 1
      unfold Mat.moveAssign
      rw [if_neg (by rw [Mat.size, ofFn_rows, ofFn_cols, Fits.wmul (by simpa using hfi)]; simp)]
      dsimp only
      simp only [Nat.mul_zero]
    · show Res.ok _ = Res.ok _
      rw [moveAssign_fst (by
        show 0 < wmul (i * m + m) n
        rw [← Nat.succ_mul, hfi.wmul]
        exact Nat.mul_pos (Nat.mul_pos (Nat.succ_pos i) (Nat.pos_of_ne_zero hm)) hn)]
      congr 1
      rw [← Nat.succ_mul]
      apply ofFn_congr
      intro r c hr hc
      by_cases hlt : r < i * m
      · rw [if_pos hlt]
      · rw [if_neg hlt]
        have hdiv : r / m = i := by
          rw [Nat.div_eq_iff (Nat.pos_of_ne_zero hm)]; rw [Nat.succ_mul] at hr; constructor <;> omega
        have hmod' : r % m = r - i * m := by
          rw [Nat.mod_eq_sub_mul_div, hdiv, Nat.mul_comm]
        rw [hdiv, hmod']
        show _ = if i = 0 then _ else _
        rw [if_neg (by omega)]

include hp he in
/-- C115: the controllability matrix is exact, as long as the powers of `|A|`, and their products with `|B|`, stay within `2^p`. -/
theorem C115_ctrb {A B : MB (Fl K p emin)} {n m : Nat} {M : Matrix (Fin n) (Fin n) (Fl K p emin)} {N : Matrix (Fin n) (Fin m) (Fl K p emin)}
    (hA : A.Is M) (hB : B.Is N) (hn : 0 < n) (hf : Fits n (n * m)) {Z : Matrix (Fin n) (Fin n) ℤ} {Y : Matrix (Fin n) (Fin m) ℤ}
    (hv : ∀ i j, (M i j).val = Z i j) (hw : ∀ i j, (N i j).val = Y i j) (hb : ∀ k, k < n → ∀ i j, (Z.map (|·|) ^ k) i j ≤ 2 ^ p)
    (hb' : ∀ k, k < n → ∀ i j, (Z.map (|·|) ^ k * Y.map (|·|)) i j ≤ 2 ^ p) :
    ∃ E : Matrix (Fin n) (Fin (n * m)) (Fl K p emin), Yields (ctrb A B) E ∧ ∀ i j, (E i j).val = (blockRow Z Y n i j : ℤ) := by
  obtain ⟨e, hA, rfl⟩ := hA
  obtain ⟨f, hB, rfl⟩ := hB
  have key : ∀ i, ∃ P, i < n → powm A i = .ok (Mat.ofFn n n P) ∧ ∀ r c : Fin n, (P r c).val = ((Z ^ i) r c : ℤ) := by
    intro i
    by_cases hi : i < n
    · obtain ⟨P, h⟩ := powm_intVal hp he hA hn hv i fun k hk => hb k (by omega)
      exact ⟨P, fun _ => h⟩
    · exact ⟨fun _ _ => 0, fun h => absurd h hi⟩
  choose P hP using key
  refine ⟨_, Yields.of_eq hf (ctrb_exec hA hB hn hf fun i hi => (hP i hi).1), fun i j => ?_⟩
  have hm : 0 < m := Nat.pos_of_ne_zero fun h => by have := j.2; simp [h] at this
  have hjm : j.1 % m < m := Nat.mod_lt _ hm
  have hjd : j.1 / m < n := Nat.div_lt_of_lt_mul (lt_of_lt_of_eq j.2 (Nat.mul_comm n m))
  rw [toM_apply]
  unfold blockRow
  by_cases h0 : j.1 / m = 0
  · rw [if_pos h0, h0, pow_zero, Matrix.one_mul]
    exact hw i ⟨_, hjm⟩
  · rw [if_neg h0]
    exact lsum_matrix hp he (f := f) (hP _ hjd).2 hw (abs_pow_le Z _) i ⟨_, hjm⟩ (hb' _ hjd _ _)

theorem abs_mul_pow {n k l : Nat} (P : Matrix (Fin n) (Fin k) ℤ) (Q Q' : Matrix (Fin k) (Fin l) ℤ) (h : ∀ i j, |Q i j| ≤ Q' i j) (i : Fin n)
    (j : Fin l) : (P.map (|·|) * Q.map (|·|)) i j ≤ (P.map (|·|) * Q') i j := by
  rw [Matrix.mul_apply, Matrix.mul_apply]
  exact Finset.sum_le_sum fun x _ => mul_le_mul_of_nonneg_left (h x j) (abs_nonneg _)

include hp he in
/-- C115: so is the observability matrix. -/
theorem C115_obsv {A C : MB (Fl K p emin)} {n m : Nat} {M : Matrix (Fin n) (Fin n) (Fl K p emin)} {N : Matrix (Fin m) (Fin n) (Fl K p emin)}
    (hA : A.Is M) (hC : C.Is N) (hn : 0 < n) (hf : Fits (n * m) n) {Z : Matrix (Fin n) (Fin n) ℤ} {Y : Matrix (Fin m) (Fin n) ℤ}
    (hv : ∀ i j, (M i j).val = Z i j) (hw : ∀ i j, (N i j).val = Y i j) (hb : ∀ k, k < n → ∀ i j, (Z.map (|·|) ^ k) i j ≤ 2 ^ p)
    (hb' : ∀ k, k < n → ∀ i j, (Y.map (|·|) * Z.map (|·|) ^ k) i j ≤ 2 ^ p) :
    ∃ E : Matrix (Fin (n * m)) (Fin n) (Fl K p emin), Yields (obsv A C) E ∧ ∀ i j, (E i j).val = (blockCol Z Y n i j : ℤ) := by
  obtain ⟨e, hA, rfl⟩ := hA
  obtain ⟨f, hC, rfl⟩ := hC
  have key : ∀ i, ∃ P, i < n → powm A i = .ok (Mat.ofFn n n P) ∧ ∀ r c : Fin n, (P r c).val = ((Z ^ i) r c : ℤ) := by
    intro i
    by_cases hi : i < n
    · obtain ⟨P, h⟩ := powm_intVal hp he hA hn hv i fun k hk => hb k (by omega)
      exact ⟨P, fun _ => h⟩
    · exact ⟨fun _ _ => 0, fun h => absurd h hi⟩
  choose P hP using key
  refine ⟨_, Yields.of_eq hf (obsv_exec hA hC hn hf fun i hi => (hP i hi).1), fun i j => ?_⟩
  have hm : 0 < m := Nat.pos_of_ne_zero fun h => by have := i.2; simp [h] at this
  have him : i.1 % m < m := Nat.mod_lt _ hm
  have hid : i.1 / m < n := Nat.div_lt_of_lt_mul (lt_of_lt_of_eq i.2 (Nat.mul_comm n m))
  rw [toM_apply]
  unfold blockCol
  by_cases h0 : i.1 / m = 0
  · rw [if_pos h0, h0, pow_zero, Matrix.mul_one]
    exact hw ⟨_, him⟩ j
  · rw [if_neg h0]
    exact lsum_matrix hp he (e := f) (P' := Y.map (|·|)) hw (hP _ hid).2 (fun i j => le_rfl) ⟨_, him⟩ j
      ((abs_mul_pow _ _ _ (abs_pow_le Z _) _ _).trans (hb' _ hid _ _))

end

/-- The limits of `C115_poly` for `double`: entries up to 27397079, 27523, 728, 74 and 15 for sizes two to six. -/
example : ∀ x ∈ [(2, 27397079), (3, 27523), (4, 728), (5, 74), (6, 15)], x.1 * (x.2 * (x.1 * (x.1 + 1) * x.2) ^ (x.1 - 1)) ≤ 2 ^ 53 := by
  decide +kernel
example : polyMat (⟨3, 3, doubles [2, -1, 7, 0, 3, 1, 4, 1, -5]⟩ : Mat Double).toMB = .ok (doubles [1, 0, -48, 120]) := by decide +kernel
example : polyRoots (doubles [3, -2, 1]) = .ok (doubles [1, -2, -5, 6]) := by decide +kernel
example : ctrb (⟨2, 2, doubles [1, 2, 3, 4]⟩ : Mat Double).toMB (⟨2, 1, doubles [1, -1]⟩ : Mat Double).toMB =
    .ok ⟨2, 2, doubles [1, -1, -1, -1]⟩ := by decide +kernel

/-- C115: beyond the bound the coefficients are rounded: `poly` of twice `134217729` times the identity, compare `C111_wide_false`. -/
theorem C115_large_rounds : ∃ a : Double, a.val = 134217729 ∧ ∃ c, polyMat (⟨2, 2, [a, 0, 0, a]⟩ : Mat Double).toMB = .ok c ∧
    (c.map Fl.val)[2]? = some 18014398777917440 ∧ (!![(134217729 : ℤ), 0; 0, 134217729]).charpoly.coeff 0 = 18014398777917441 := by
  refine ⟨Fl.of 53 (-1074) 134217729, by decide +kernel, doubles [1, -268435458, 18014398777917440], by decide +kernel, by decide +kernel, ?_⟩
  rw [Matrix.charpoly_fin_two]
  simp [Matrix.trace_fin_two, Matrix.det_fin_two]

end Malg
