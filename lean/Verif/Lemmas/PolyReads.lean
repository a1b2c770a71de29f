import Verif.Lemmas.Reads
import Verif.Props.Poly
/-!
# `poly` over number types with results that are no numbers
-/
namespace Malg
open Ops Control Polynomial

section
variable {X R : Type} [Zero X] [One X] [Add X] [Sub X] [Mul X] [CommRing R] {v : X → Option R}

theorem polyLoop_reads (H : Reads v) {n : Nat} {a : Nat → Res X} {f : Nat → X} {φ : Nat → R} (ha : ∀ j, j < n → a j = .ok (f j))
    (hf : ∀ j, j < n → Rd v (f j) (φ j)) :
    ∃ g : Nat → X, polyLoop n a (vtab (n + 1) fun i => if i = 0 then 1 else 0) = .ok (vtab (n + 1) g) ∧
      ∀ i, i ≤ n → Rd v (g i) ((linProd φ n).coeff (n - i)) := by
  unfold polyLoop
  obtain ⟨s, h1, g, rfl, h2⟩ := forRange_inv (lo := 0) (hi := n) (Nat.zero_le n)
    (fun j (c : List X) => ∃ g, c = vtab (n + 1) g ∧ ∀ i, i ≤ n → Rd v (g i) (partialCoeff φ j i))
    (s := vtab (n + 1) fun i => if i = 0 then 1 else 0)
    (body := fun j c => forRange 0 (j + 1) c fun k c => do
      let i := j + 1 - k
      let z ← vget c i
      let x ← a j
      let y ← vget c (i - 1)
      vset c i (z - x * y))
    (by
      refine ⟨_, rfl, fun i hi => ?_⟩
      unfold partialCoeff linProd
      by_cases h : i = 0
      · subst h; simpa using H.rd_one
      · rw [if_neg h, if_neg (by omega)]; exact H.rd_zero)
    (by
      rintro j c - hj ⟨g, rfl, hg⟩
      obtain ⟨s, h1, g', rfl, h2⟩ := forRange_inv (lo := 0) (hi := j + 1) (Nat.zero_le _)
        (fun k (c : List X) => ∃ g, c = vtab (n + 1) g ∧ ∀ i, i ≤ n →
          Rd v (g i) (if j + 1 - k < i ∧ i ≤ j + 1 then partialCoeff φ (j + 1) i else partialCoeff φ j i))
        (s := vtab (n + 1) g)
        (body := fun k c => do
          let i := j + 1 - k
          let z ← vget c i
          let x ← a j
          let y ← vget c (i - 1)
          vset c i (z - x * y))
        (by refine ⟨_, rfl, fun i hi => ?_⟩; rw [if_neg (by omega)]; exact hg i hi)
        (by
          rintro k c - hk ⟨g, rfl, hg⟩
          obtain ⟨i, hi⟩ : ∃ i, j + 1 - k = i + 1 := ⟨j - k, by omega⟩
          dsimp only
          rw [hi, Nat.add_sub_cancel, vget_vtab (by omega), Res.ok_bind, ha j hj, Res.ok_bind, vget_vtab (by omega), Res.ok_bind,
            vset_vtab (by omega)]
          refine ⟨_, rfl, _, rfl, fun l hl => ?_⟩
          by_cases h : l = i + 1
          · subst h
            have e1 := hg (i + 1) hl
            have e2 := hg i (by omega)
            rw [if_neg (by omega)] at e1 e2
            rw [Function.update_self, if_pos ⟨by omega, by omega⟩, partialCoeff_step φ (by omega)]
            exact H.rd_sub e1 (H.rd_mul (hf j hj) e2)
          · rw [Function.update_of_ne h]
            have e := hg l hl
            by_cases h2 : i + 1 < l ∧ l ≤ j + 1
            · rw [if_pos ⟨by omega, h2.2⟩] at e; rw [if_pos ⟨by omega, h2.2⟩]; exact e
            · rw [if_neg (by omega)] at e; rw [if_neg (by omega)]; exact e)
      refine ⟨_, h1, _, rfl, fun i hi => ?_⟩
      have e := h2 i hi
      rw [Nat.sub_self] at e
      by_cases h0 : i = 0
      · subst h0; rw [if_neg (by omega)] at e; rw [partialCoeff_first]; exact e
      · by_cases h1 : i ≤ j + 1
        · rw [if_pos ⟨by omega, h1⟩] at e; exact e
        · rw [if_neg (by omega)] at e
          have : partialCoeff φ (j + 1) i = partialCoeff φ j i := by
            unfold partialCoeff; rw [if_neg (by omega), if_neg (by omega)]
          rw [this]; exact e)
  refine ⟨g, h1, fun i hi => ?_⟩
  have := h2 i hi
  unfold partialCoeff at this
  rw [if_pos hi] at this
  exact this

omit [Add X] [Sub X] [Mul X] in
theorem initCoeff' {N : Nat} (hN : 1 + N < allocMax) (F : List X → Res (List X)) :
    (vnew (wadd N 1) (0 : X) >>= fun c => vset c 0 1 >>= F) = F (vtab (N + 1) fun i => if i = 0 then 1 else 0) := by
  rw [wadd_eq (by have := allocMax_lt_W; omega), vnew_ok (by omega), Res.ok_bind, replicate_eq_vtab, vset_vtab (by omega), Res.ok_bind]
  congr 1; apply vtab_congr; intro i _
  by_cases h : i = 0
  · subst h; simp
  · rw [Function.update_of_ne h, if_neg h]

/-- A row or a column. -/
theorem polyRow_reads [Neg X] (H : Reads v) {div : X → Nat → Res X} {A : MB X} {n m : Nat} {e : Nat → Nat → X} (hA : Rep A n m e)
    (hnm : (n = 1 ∧ 0 < m) ∨ (m = 1 ∧ 0 < n)) (h : 1 + n * m < allocMax) {φ : Nat → R}
    (hφ : ∀ i, i < n * m → Rd v (e (i / m) (i % m)) (φ i)) :
    ∃ g : Nat → X, polyMatD div A = .ok (vtab (n * m + 1) g) ∧ ∀ i, i ≤ n * m → Rd v (g i) ((linProd φ (n * m)).coeff (n * m - i)) := by
  have hpos : n * m ≠ 0 := by rcases hnm with ⟨rfl, h⟩ | ⟨rfl, h⟩ <;> omega
  unfold polyMatD
  rw [hA.size, if_neg hpos, hA.rows, hA.cols, if_pos (by omega), initCoeff' h]
  exact polyLoop_reads H (f := fun i => e (i / m) (i % m)) (fun j hj => hA.lin' hj) hφ

/-- A square matrix: every coefficient that is a number is the coefficient of the characteristic polynomial. -/
theorem polyMat_reads [Neg X] (H : Reads v) (hneg : ∀ {a x}, Rd v a x → Rd v (-a) (-x)) {div : X → Nat → Res X} {A : MB X} {n : Nat}
    {e : Nat → Nat → X} (hA : Rep A n n e) {M : Matrix (Fin n) (Fin n) R} (hM : ∀ i j : Fin n, Rd v (e i j) (M i j))
    (hdiv : ∀ (m : Nat) (t : X) (y : R), 2 ≤ m → m ≤ n → Rd v t ((m : R) * y) → ∃ r, div t m = .ok r ∧ Rd v r y) :
    ∃ g : Nat → X, polyMatD div A = .ok (vtab (n + 1) g) ∧ ∀ i, i ≤ n → Rd v (g i) (M.charpoly.coeff (n - i)) := by
  have hf := hA.fits
  by_cases h0 : n = 0
  · subst h0
    refine ⟨fun _ => 1, ?_, fun i hi => ?_⟩
    · unfold polyMatD; rw [hA.size, if_pos rfl]; rfl
    · rw [Matrix.charpoly, Matrix.det_isEmpty, Nat.zero_sub, coeff_one_zero]; exact H.rd_one
  by_cases h1 : n = 1
  · subst h1
    have : (2 : Nat) < allocMax := by rw [allocMax_eq]; decide
    obtain ⟨g, e1, e2⟩ := polyRow_reads H (div := div) hA (Or.inl ⟨rfl, Nat.one_pos⟩) this (φ := fun _ => M 0 0)
      (fun i hi => by obtain rfl : i = 0 := by omega
                      exact hM 0 0)
    refine ⟨g, e1, fun i hi => ?_⟩
    have := e2 i hi
    rw [Matrix.charpoly, Matrix.det_unique]
    simpa [linProd] using this
  have hn : 2 ≤ n := by omega
  have hnn : n + 1 ≤ n * n := by nlinarith
  have hna : n + 1 < allocMax := lt_of_le_of_lt hnn hf.1
  have hW := allocMax_lt_W
  unfold polyMatD
  have hpos : 0 < n * n := by positivity
  rw [hA.size, if_neg (by omega), hA.rows, hA.cols, if_neg (by omega)]
  have hsq : Util.isSquare A = true := by simp [Util.isSquare, hA.rows, hA.cols]
  rw [hsq, Bool.not_true, if_neg Bool.false_ne_true]
  dsimp only
  rw [wadd_eq (by omega), vnew_ok (by omega), Res.ok_bind, Mat.ofMB_eq hA, Res.ok_bind]
  dsimp only [id]
  have hB := ofFn_rep hf e
  set χ := M.charpoly with hχ
  have htr : ∀ {b : Nat → Nat → X} {N : Matrix (Fin n) (Fin n) R}, (∀ i j : Fin n, Rd v (b i j) (N i j)) →
      Rd v (lsum n fun i => b i i) (Matrix.trace N) := by
    intro b N hb
    have := H.rd_lsum (k := n) (t := fun i => b i i) (τ := fun i => if h : i < n then N ⟨i, h⟩ ⟨i, h⟩ else 0)
      (fun i hi => by rw [dif_pos hi]; exact hb ⟨i, hi⟩ ⟨i, hi⟩)
    rw [lsum_eq_sum] at this
    simp only [Fin.is_lt, dif_pos] at this
    exact this
  have htr1 : Matrix.trace M = - χ.coeff (n - 1) := by
    have := trace_mul_adjCoeff M (m := 1) (by omega)
    rw [adjCoeff_top M (by omega), Matrix.mul_one] at this
    rw [this]; simp [hχ]
  have hl1 : Rd v (lsum n fun i => e i i) (- χ.coeff (n - 1)) := htr1 ▸ htr hM
  rw [C41_trace_partial hB.toRepAt le_rfl, Res.ok_bind, replicate_eq_vtab, vset_vtab (by omega), Res.ok_bind,
    vset_vtab (by omega), Res.ok_bind]
  show ∃ g, (Util.identity n (1 : X) >>= _) = _ ∧ _
  have hI := ofFn_rep hf (fun r c => if r = c then (1 : X) else 0)
  rw [show Util.identity n (1 : X) = _ from Util.eye_eq (by omega : 0 < n) (by omega) hf 1, Res.ok_bind]
  generalize hId : Mat.ofFn n n (fun r c => if r = c then (1 : X) else 0) = I at hI
  obtain ⟨s, h1, ⟨g, h2, h3⟩, -, -⟩ := forRange_inv (lo := 2) (hi := n + 1) (by omega)
    (fun m (s : List X × Mat X × X) => (∃ g, s.1 = vtab (n + 1) g ∧ ∀ i, i < m → Rd v (g i) (χ.coeff (n - i))) ∧
      (∃ b, Rep s.2.1.toMB n n b ∧ ∀ i j : Fin n, Rd v (b i j) ((M * adjCoeff M (n - (m - 1))) i j)) ∧
      Rd v s.2.2 (- χ.coeff (n - (m - 1))))
    (s := (vtab (n + 1) (Function.update (Function.update (fun _ => (0 : X)) 0 1) 1 (- lsum n fun i => e i i)), Mat.ofFn n n e,
      lsum n fun i => e i i))
    (body := fun m s => do
      let J ← mulS I.toMB s.2.2
      let D ← sub s.2.1.toMB J.toMB
      let P ← mul A D.toMB
      let B := (s.2.1.moveAssign P).1
      let tr ← trace B.toMB
      let last ← div tr m
      let c ← vset s.1 m (-last)
      return (c, B, last))
    (by
      refine ⟨⟨_, rfl, fun i hi => ?_⟩, ⟨e, hB, ?_⟩, hl1⟩
      · obtain rfl | rfl : i = 0 ∨ i = 1 := by omega
        · rw [Function.update_of_ne (by omega), Function.update_self, Nat.sub_zero, hχ, charpoly_coeff_top]; exact H.rd_one
        · rw [Function.update_self]
          have := hneg hl1
          rwa [neg_neg] at this
      · rw [adjCoeff_top M (by omega), Matrix.mul_one]; exact hM)
    (by
      rintro m ⟨c, B, last⟩ hm1 hm2 ⟨⟨g, hc, hg⟩, ⟨b, hBm, hb⟩, hl⟩
      dsimp only at hc hBm hl
      subst hc
      obtain ⟨J, eJ, hJ⟩ := (C33_scalar hI last).2.2.1
      obtain ⟨D, eD, hD⟩ := (C33_add_sub hBm hJ.rep).2
      obtain ⟨P, eP, hP⟩ := C35_entries hA.toRepAt hD.rep.toRepAt hf
      have hadj : M * adjCoeff M (n - (m - 1)) - (- χ.coeff (n - (m - 1))) • (1 : Matrix (Fin n) (Fin n) R) = adjCoeff M (n - m) := by
        have : n - (m - 1) = (n - m) + 1 := by omega
        rw [adjCoeff_rec M (n - m), this, neg_smul, sub_neg_eq_add]
      have hDr : ∀ i j : Fin n, Rd v (b i j - (if (i : Nat) = j then (1 : X) else 0) * last) (adjCoeff M (n - m) i j) := by
        intro i j
        rw [← hadj, Matrix.sub_apply, Matrix.smul_apply, smul_eq_mul, mul_comm, Matrix.one_apply]
        refine H.rd_sub (hb i j) (H.rd_mul ?_ hl)
        by_cases h : i = j
        · rw [if_pos h, if_pos (by rw [h])]; exact H.rd_one
        · rw [if_neg h, if_neg (fun h' => h (Fin.ext h'))]; exact H.rd_zero
      have hPr : ∀ i j : Fin n, Rd v (lsum n fun k => e i k * (b k j - (if k = (j : Nat) then (1 : X) else 0) * last))
          ((M * adjCoeff M (n - m)) i j) := by
        intro i j
        have := H.rd_lsum (k := n) (t := fun k => e i k * (b k j - (if k = (j : Nat) then (1 : X) else 0) * last))
          (τ := fun k => if h : k < n then M i ⟨k, h⟩ * adjCoeff M (n - m) ⟨k, h⟩ j else 0)
          (fun k hk => by rw [dif_pos hk]; exact H.rd_mul (hM i ⟨k, hk⟩) (hDr ⟨k, hk⟩ j))
        rw [lsum_eq_sum] at this
        simp only [Fin.is_lt, dif_pos] at this
        exact this
      obtain ⟨r, hr1, hr2⟩ := hdiv m _ (- χ.coeff (n - m)) hm1 (by omega) ((trace_mul_adjCoeff M (m := m) (by omega)) ▸
        htr (b := fun r c => lsum n fun k => e r k * (b k c - (if k = c then (1 : X) else 0) * last)) hPr)
      dsimp only
      rw [eJ, Res.ok_bind, eD, Res.ok_bind, eP, Res.ok_bind, moveAssign_fst (by rw [show P.size = n * n from hP.rep.size]; exact hpos),
        C41_trace_partial hP.rep.toRepAt le_rfl, Res.ok_bind, hr1, Res.ok_bind,
        vset_vtab (by omega), Res.ok_bind]
      refine ⟨_, rfl, ⟨_, rfl, fun i hi => ?_⟩, ⟨_, hP.rep, hPr⟩, hr2⟩
      by_cases h : i = m
      · subst h; rw [Function.update_self]
        have := hneg hr2
        rwa [neg_neg] at this
      · rw [Function.update_of_ne h]
        exact hg i (by omega))
  rw [h1, Res.ok_bind]
  exact ⟨g, by rw [h2]; rfl, fun i hi => h3 i (by omega)⟩

end
end Malg
