import Mathlib.Data.List.TakeWhile
import Verif.Props.Arith
import Verif.Props.Reduce
import Verif.Lemmas.Poly
/-!
# C60 – C62: `poly` and `polyreduce`

`polyOf c` is the polynomial with the coefficients `c`, highest degree first.
-/
namespace Malg
open Ops Control Polynomial

/-! ## C60 -/

section
variable {R : Type} [CommRing R]

theorem initCoeff {N : Nat} (hN : 1 + N < allocMax) (F : List R → Res (List R)) :
    (vnew (wadd N 1) (0 : R) >>= fun c => vset c 0 1 >>= F) = F (vtab (N + 1) fun i => if i = 0 then 1 else 0) := by
  rw [wadd_eq (by have := allocMax_lt_W; omega), vnew_ok (by omega), Res.ok_bind, replicate_eq_vtab, vset_vtab (by omega), Res.ok_bind]
  congr 1; apply vtab_congr; intro i _
  by_cases h : i = 0
  · subst h; simp
  · rw [Function.update_of_ne h, if_neg h]

theorem monic_prod_X_sub_C (a : List R) : ((a.map fun r => X - C r).prod).Monic := by
  induction a with
  | nil => simp
  | cons r a ih => rw [List.map_cons, List.prod_cons]; exact (monic_X_sub_C r).mul ih

theorem linProd_of_prod (f : Nat → R) (n : Nat) : polyOf (vtab (n + 1) fun i => (linProd f n).coeff (n - i)) = linProd f n :=
  polyOf_vtab (linProd_degree f n) fun _ _ => rfl

/-- C60: `poly(a)` are the coefficients of the product of the linear factors. -/
theorem C60_roots (a : List R) (h : 1 + a.length < allocMax) :
    ∃ c, polyRoots a = .ok c ∧ c.length = a.length + 1 ∧ polyOf c = (a.map fun r => X - C r).prod := by
  unfold polyRoots
  rw [initCoeff h, polyLoop_eq (f := fun i => a.getD i 0) fun j hj => by
    rw [vget_lt hj, List.getD_eq_getElem?_getD, List.getElem?_eq_getElem hj]; rfl]
  exact ⟨_, rfl, by simp, by rw [linProd_of_prod, linProd_list]⟩

/-- C60: the same for the entries of a row or column matrix, in the order of the linear access. -/
theorem C60_row_column [CDiv R] {A : MB R} {n m : Nat} {e : Nat → Nat → R} (hA : Rep A n m e) (hnm : n = 1 ∨ m = 1)
    (h : 1 + n * m < allocMax) :
    ∃ c, polyMat A = .ok c ∧ c.length = n * m + 1 ∧
      polyOf c = ∏ i : Fin n, ∏ j : Fin m, (X - C (e i j)) := by
  unfold polyMat polyMatD
  by_cases hpos : n * m = 0
  · rw [hA.size, if_pos hpos, hpos]
    refine ⟨_, rfl, rfl, ?_⟩
    have h1 : (∏ i : Fin n, ∏ j : Fin m, (X - C (e i j)) : R[X]) = 1 := by
      rcases Nat.mul_eq_zero.1 hpos with rfl | rfl <;> simp
    rw [h1]
    simp [polyOf]
  rw [hA.size, if_neg hpos, hA.rows, hA.cols, if_pos (by omega), initCoeff h,
    polyLoop_eq (f := fun i => e (i / m) (i % m)) fun j hj => hA.lin' hj]
  refine ⟨_, rfl, by simp, ?_⟩
  rw [linProd_of_prod]
  unfold linProd
  rcases hnm with rfl | rfl
  · rw [Nat.one_mul, Finset.prod_range]
    simp only [Finset.univ_unique, Finset.prod_singleton]
    apply Finset.prod_congr rfl
    intro i _
    rw [Nat.div_eq_of_lt i.2, Nat.mod_eq_of_lt i.2]; rfl
  · rw [Nat.mul_one, Finset.prod_range]
    simp only [Finset.univ_unique, Finset.prod_singleton]
    apply Finset.prod_congr rfl
    intro i _
    rw [Nat.div_one, Nat.mod_one]; rfl

/-- C60: in an integral domain the roots, with multiplicity, are exactly the elements of `a`. -/
theorem C60_multiplicity [IsDomain R] (a : List R) (h : 1 + a.length < allocMax) :
    ∃ c, polyRoots a = .ok c ∧ (polyOf c).Monic ∧ (polyOf c).roots = a := by
  obtain ⟨c, h1, -, h2⟩ := C60_roots a h
  refine ⟨c, h1, ?_, ?_⟩
  · rw [h2]; exact monic_prod_X_sub_C a
  · rw [h2]
    have := Polynomial.roots_multiset_prod_X_sub_C (R := R) (a : Multiset R)
    simpa using this

end

example : polyRoots [1, 2, (3 : Int)] = .ok [1, -6, 11, -6] := by decide +kernel
example : polyMat (⟨1, 2, [5, -5]⟩ : Mat Int).toMB = .ok [1, 0, -25] := by decide +kernel

/-! ## C61 -/

theorem identity_yields {K : Type} [Semiring K] {n : Nat} (hn : 0 < n) (hf : Fits n n) :
    Yields (Util.identity n (1 : K)) (1 : Matrix (Fin n) (Fin n) K) :=
  (Returns.of_eq hf (Util.eye_eq hn hn hf 1)).yields.congr toM_one

theorem moveAssign_fst {T : Type} {A B : Mat T} (h : 0 < B.size) : (A.moveAssign B).1 = B := by
  unfold Mat.moveAssign; rw [if_pos h]

theorem Is.size {T : Type} {A : Mat T} {n m : Nat} {M : Matrix (Fin n) (Fin m) T} (h : A.toMB.Is M) : A.size = n * m := by
  obtain ⟨e, h, -⟩ := h; exact h.size

/-- C61 over every commutative ring in which the code can divide multiples of `1, …, n` exactly (fields of characteristic
zero, integers): `poly(A)` are the coefficients of the characteristic polynomial. -/
theorem C61_ring {R : Type} [CommRing R] [CDiv R] {A : MB R} {n : Nat} {M : Matrix (Fin n) (Fin n) R} (hA : A.Is M)
    (hdiv : ∀ (m : Nat) (x : R), 1 ≤ m → m ≤ n → cdiv ((m : R) * x) (m : R) = .ok x) :
    ∃ c, polyMat A = .ok c ∧ c.length = n + 1 ∧ polyOf c = M.charpoly := by
  have hf := hA.fits
  have hA' := hA
  obtain ⟨e, hrep, rfl⟩ := hA'
  by_cases h0 : n = 0
  · subst h0
    unfold polyMat polyMatD
    rw [hrep.size, if_pos rfl]
    refine ⟨_, rfl, rfl, ?_⟩
    rw [Matrix.charpoly, Matrix.det_isEmpty]; simp [polyOf]
  by_cases h1 : n = 1
  · subst h1
    have : (2 : Nat) < allocMax := by rw [allocMax_eq]; decide
    obtain ⟨c, e1, e2, e3⟩ := C60_row_column hrep (Or.inl rfl) this
    refine ⟨c, e1, e2, ?_⟩
    rw [e3, Matrix.charpoly, Matrix.det_unique]
    simp [toM_apply]
  have hn : 2 ≤ n := by omega
  have hnn : n + 1 ≤ n * n := by nlinarith
  have hna : n + 1 < allocMax := lt_of_le_of_lt hnn hf.1
  have hW := allocMax_lt_W
  unfold polyMat polyMatD
  have hpos : 0 < n * n := by positivity
  rw [hrep.size, if_neg (by omega), hrep.rows, hrep.cols, if_neg (by omega)]
  have hsq : Util.isSquare A = true := by simp [Util.isSquare, hrep.rows, hrep.cols]
  rw [hsq, Bool.not_true, if_neg Bool.false_ne_true]
  dsimp only
  rw [wadd_eq (by omega), vnew_ok (by omega), Res.ok_bind, Mat.ofMB_eq hrep, Res.ok_bind]
  dsimp only [id]
  set M := toM n n e with hM
  have hB : (Mat.ofFn n n e).toMB.Is M := ⟨e, ofFn_rep hf e, rfl⟩
  set χ := M.charpoly with hχ
  have htr1 : Matrix.trace M = - χ.coeff (n - 1) := by
    have := trace_mul_adjCoeff M (m := 1) (by omega)
    rw [adjCoeff_top M (by omega), Matrix.mul_one] at this
    rw [this]; simp [hχ]
  rw [C41_trace_square_partial hB, Res.ok_bind, htr1, replicate_eq_vtab, vset_vtab (by omega), Res.ok_bind,
    vset_vtab (by omega), Res.ok_bind]
  obtain ⟨I, eI, -, hI⟩ := identity_yields (K := R) (by omega : 0 < n) hf
  show ∃ c, (Util.identity n (1 : R) >>= _) = _ ∧ _
  rw [eI, Res.ok_bind]
  obtain ⟨s, h1, h2, -, -⟩ := forRange_inv (lo := 2) (hi := n + 1) (by omega)
    (fun m (s : List R × Mat R × R) => s.1 = vtab (n + 1) (fun i => if i < m then χ.coeff (n - i) else 0) ∧
      s.2.1.toMB.Is (M * adjCoeff M (n - (m - 1))) ∧ s.2.2 = - χ.coeff (n - (m - 1)))
    (s := (vtab (n + 1) (Function.update (Function.update (fun _ => (0 : R)) 0 1) 1 (- - χ.coeff (n - 1))), Mat.ofFn n n e,
      - χ.coeff (n - 1)))
    (body := fun m s => do
      let J ← mulS I.toMB s.2.2
      let D ← sub s.2.1.toMB J.toMB
      let P ← mul A D.toMB
      let B := (s.2.1.moveAssign P).1
      let tr ← trace B.toMB
      let last ← cdiv tr (m : R)
      let c ← vset s.1 m (-last)
      return (c, B, last))
    (by
      refine ⟨?_, ?_, rfl⟩
      · apply vtab_congr; intro i hi
        by_cases h1 : i = 1
        · subst h1; rw [Function.update_self, if_pos (by omega), neg_neg]
        · rw [Function.update_of_ne h1]
          by_cases h0 : i = 0
          · subst h0; rw [Function.update_self, if_pos (by omega), Nat.sub_zero, hχ, charpoly_coeff_top]
          · rw [Function.update_of_ne h0, if_neg (by omega)]
      · rw [adjCoeff_top M (by omega), Matrix.mul_one]; exact hB)
    (by
      rintro m ⟨c, B, last⟩ hm1 hm2 ⟨hc, hBm, hl⟩
      dsimp only at hc hBm hl
      subst hl
      have hJ : Yields (mulS I.toMB (- χ.coeff (n - (m - 1)))) ((- χ.coeff (n - (m - 1))) • (1 : Matrix (Fin n) (Fin n) R)) := by
        refine (C33_matrix hI hI _).2.2.congr ?_
        rw [op_smul_eq_smul]
      obtain ⟨J, eJ, -, hJ⟩ := hJ
      obtain ⟨D, eD, -, hD⟩ := (C33_matrix hBm hJ 0).2.1
      obtain ⟨P, eP, -, hP⟩ := C35_product hA hD hf
      have hadj : M * adjCoeff M (n - (m - 1)) - (- χ.coeff (n - (m - 1))) • (1 : Matrix (Fin n) (Fin n) R) = adjCoeff M (n - m) := by
        have : n - (m - 1) = (n - m) + 1 := by omega
        rw [adjCoeff_rec M (n - m), this, neg_smul, sub_neg_eq_add]
      rw [hadj] at hP
      dsimp only
      rw [eJ, Res.ok_bind, eD, Res.ok_bind, eP, Res.ok_bind, moveAssign_fst (by rw [Is.size hP]; exact hpos),
        C41_trace_square_partial hP, Res.ok_bind, trace_mul_adjCoeff M (by omega), hdiv m _ (by omega) (by omega), Res.ok_bind, hc,
        vset_vtab (by omega), Res.ok_bind]
      refine ⟨_, rfl, ?_, hP, rfl⟩
      apply vtab_congr; intro i hi
      by_cases h : i = m
      · subst h; rw [Function.update_self, if_pos (by omega), neg_neg]
      · rw [Function.update_of_ne h]
        by_cases h2 : i < m
        · rw [if_pos h2, if_pos (by omega)]
        · rw [if_neg h2, if_neg (by omega)])
  rw [h1, Res.ok_bind]
  refine ⟨_, rfl, by rw [h2]; simp, ?_⟩
  rw [h2]
  exact polyOf_vtab (charpoly_degree M) fun i hi => if_pos (by omega)

/-- C61: the characteristic polynomial of every square matrix over a field of characteristic zero. -/
theorem C61_charpoly {K : Type} [Field K] [CharZero K] [DecidableEq K] {A : MB K} {n : Nat} {M : Matrix (Fin n) (Fin n) K}
    (hA : A.Is M) : ∃ c, polyMat A = .ok c ∧ c.length = n + 1 ∧ polyOf c = M.charpoly :=
  C61_ring hA fun m x h1 _ => by
    have : (m : K) ≠ 0 := Nat.cast_ne_zero.2 (by omega)
    rw [cdiv_ok _ this, mul_div_cancel_left₀ _ this]

/-- C61 also holds for integer matrices: every division in the recursion is exact. -/
theorem C61_int {A : MB Int} {n : Nat} {M : Matrix (Fin n) (Fin n) Int} (hA : A.Is M) :
    ∃ c, polyMat A = .ok c ∧ c.length = n + 1 ∧ polyOf c = M.charpoly :=
  C61_ring hA fun m x h1 _ => by
    have h0 : (m : Int) ≠ 0 := by omega
    show (if (m : Int) = 0 then _ else _) = _
    rw [if_neg h0, Int.mul_tdiv_cancel_left _ h0]

/-- C61: other shapes throw. -/
theorem C61_throws {T : Type} [Zero T] [One T] [Add T] [Sub T] [Mul T] [Neg T] [NatCast T] [CDiv T] {A : MB T} {n m : Nat} {e}
    (hA : RepAt A n m e) (hn : 1 < n) (hm : 1 < m) (hne : n ≠ m) : polyMat A = .throw .runtimeError := by
  unfold polyMat polyMatD
  have hpos : 0 < n * m := Nat.mul_pos (by omega) (by omega)
  rw [hA.size, if_neg (by omega), hA.rows, hA.cols, if_neg (by omega), if_pos]
  simp [Util.isSquare, hA.rows, hA.cols, hne]

example : polyMat (⟨3, 3, [1, 2, 3, 4, 5, 6, 7, 8, 10]⟩ : Mat Int).toMB = .ok [1, -16, -12, 3] := by decide +kernel

/-! ## C62 -/

/-- C62: `polyreduce` drops exactly the leading zeros; `{0}` if nothing is left. -/
theorem C62_strip {T : Type} [Zero T] [DecidableEq T] (a : List T) (h : a.length < allocMax) :
    polyreduce a = .ok (if a.dropWhile (· = 0) = [] then [0] else a.dropWhile (· = 0)) := by
  have key : ∀ (z b : List T), (∀ x ∈ z, x = 0) → (b = [] ∨ ∃ x l, b = x :: l ∧ x ≠ 0) → a = z ++ b →
      polyreduce a = .ok (if b = [] then [0] else b) := by
    rintro z b hz hb rfl
    unfold polyreduce
    have hzero : ∀ i, i < z.length → vget (z ++ b) i = .ok 0 := by
      intro i hi
      rw [vget_ok_iff, List.getElem?_append_left hi, List.getElem?_eq_getElem hi, hz _ (List.getElem_mem hi)]
    rcases hb with rfl | ⟨x, l, rfl, hx⟩
    · rw [forSearch_none (fun i _ hi => by
        rw [hzero i (by simpa using hi), Res.ok_bind, if_neg (by simp)]; rfl), Res.ok_bind]
      dsimp only [Option.getD]
      rw [if_pos rfl, if_pos rfl]
    · have hl : z.length < (z ++ x :: l).length := by simp
      rw [forSearch_some (k := z.length) (b := z.length) (Nat.zero_le _) hl (fun i _ hi => by
          rw [hzero i hi, Res.ok_bind, if_neg (by simp)]; rfl) (by
          have : vget (z ++ x :: l) z.length = .ok x := by rw [vget_ok_iff]; simp
          rw [this, Res.ok_bind, if_pos hx]; rfl), Res.ok_bind]
      dsimp only [Option.getD]
      rw [if_neg (by simp), wsub_eq (by omega) (by have := allocMax_lt_W; omega), vnew_ok (by omega), Res.ok_bind, if_neg (by simp)]
      rw [Util.vfill_shift (e := fun i => (z ++ x :: l).getD i 0) (by omega) (by have := allocMax_lt_W; omega) (fun i _ hi => by
        rw [vget_lt hi, List.getD_eq_getElem?_getD, List.getElem?_eq_getElem hi]; rfl)]
      congr 1
      have hlen : (z ++ x :: l).length - z.length = (x :: l).length := by simp
      rw [hlen]
      conv_rhs => rw [list_eq_vtab_getD (x :: l) 0]
      apply vtab_congr; intro i hi
      rw [List.getD_eq_getElem?_getD, List.getD_eq_getElem?_getD, List.getElem?_append_right (by omega), Nat.add_sub_cancel_left]
  refine key (a.takeWhile (· = 0)) _ (fun x hx => by simpa using List.mem_takeWhile_imp hx) ?_ List.takeWhile_append_dropWhile.symm
  cases hd : a.dropWhile (· = 0) with
  | nil => left; rfl
  | cons x l =>
    right
    refine ⟨x, l, rfl, ?_⟩
    have := List.head?_dropWhile_not (· = 0) a
    rw [hd] at this
    simpa using this

/-- C62: the result represents the same polynomial, its first coefficient is non-zero unless it is `{0}`, and a second
call changes nothing. -/
theorem C62_polynomial {R : Type} [Semiring R] [DecidableEq R] (a : List R) (h : a.length < allocMax) :
    ∃ c, polyreduce a = .ok c ∧ polyOf c = polyOf a ∧ (c = [0] ∨ ∃ x l, c = x :: l ∧ x ≠ 0) ∧ polyreduce c = .ok c := by
  have hpoly : polyOf (a.dropWhile (· = 0)) = polyOf a := by
    clear h
    induction a with
    | nil => rfl
    | cons x l ih =>
      by_cases hx : x = 0
      · rw [List.dropWhile_cons_of_pos (by simpa using hx), ih, polyOf, hx, map_zero, zero_mul, zero_add]
      · rw [List.dropWhile_cons_of_neg (by simpa using hx)]
  have h1 : (1 : Nat) < allocMax := by rw [allocMax_eq]; decide
  rw [C62_strip a h]
  refine ⟨_, rfl, ?_⟩
  cases hd : a.dropWhile (· = 0) with
  | nil =>
    rw [hd] at hpoly
    rw [if_pos rfl]
    refine ⟨?_, Or.inl rfl, ?_⟩
    · rw [← hpoly]; simp [polyOf]
    · rw [C62_strip _ (by simpa using h1)]; simp
  | cons x l =>
    rw [hd] at hpoly
    rw [if_neg (by simp)]
    have hx : x ≠ 0 := by
      have := List.head?_dropWhile_not (· = 0) a
      rw [hd] at this
      simpa using this
    refine ⟨hpoly, Or.inr ⟨x, l, rfl, hx⟩, ?_⟩
    have hlen : (x :: l).length ≤ a.length := by rw [← hd]; exact (List.dropWhile_sublist _).length_le
    rw [C62_strip _ (by omega), List.dropWhile_cons_of_neg (by simpa using hx), if_neg (by simp)]

example : polyreduce [0, 0, 3, 0, (4 : Int)] = .ok [3, 0, 4] := by decide +kernel
example : polyreduce [0, (0 : Int)] = .ok [0] := by decide +kernel

end Malg
