import Verif.Spec.Matrix
import Verif.Lemmas.Construct
import Verif.Lemmas.Ref
/-!
# Tables and Mathlib matrices
-/
namespace Malg
variable {T : Type}

theorem lsum_congr [Zero T] [Add T] {k : Nat} {f g : Nat → T} (h : ∀ i, i < k → f i = g i) :
    lsum k f = lsum k g := by
  induction k with
  | zero => rfl
  | succ k ih => simp only [lsum]; rw [ih (fun i hi => h i (by omega)), h k (by omega)]

theorem lsum_eq_sum [AddCommMonoid T] (k : Nat) (g : Nat → T) : lsum k g = ∑ i : Fin k, g i := by
  induction k with
  | zero => rfl
  | succ k ih => rw [Fin.sum_univ_castSucc]; simp only [lsum, ih]; rfl

theorem lsum_eq_range [AddCommMonoid T] (k : Nat) (g : Nat → T) : lsum k g = ∑ i ∈ Finset.range k, g i := by
  induction k with
  | zero => rfl
  | succ k ih => rw [Finset.sum_range_succ]; simp only [lsum, ih]

/-- An accumulation loop. -/
theorem accum_eq [Zero T] [Add T] {k : Nat} {g : Nat → T} {body : Nat → T → Res T}
    (h : ∀ i acc, i < k → body i acc = .ok (acc + g i)) : forRange 0 k 0 body = .ok (lsum k g) := by
  rw [forRange_eq (Nat.zero_le k) (fun i => lsum i g)]
  · rfl
  · intro i _ hi; exact h i _ hi

/-- The table of a Mathlib matrix. -/
def tab [Zero T] {n m : Nat} (M : Matrix (Fin n) (Fin m) T) : Nat → Nat → T := fun i j =>
  if h : i < n ∧ j < m then M ⟨i, h.1⟩ ⟨j, h.2⟩ else 0

theorem tab_lt [Zero T] {n m : Nat} (M : Matrix (Fin n) (Fin m) T) {i j : Nat} (hi : i < n) (hj : j < m) :
    tab M i j = M ⟨i, hi⟩ ⟨j, hj⟩ := dif_pos ⟨hi, hj⟩

@[simp] theorem toM_tab [Zero T] {n m : Nat} (M : Matrix (Fin n) (Fin m) T) : toM n m (tab M) = M := by
  funext i j; exact tab_lt M i.2 j.2

theorem toM_apply {n m : Nat} (e : Nat → Nat → T) (i : Fin n) (j : Fin m) : toM n m e i j = e i j := rfl

theorem toM_inj {n m : Nat} {e f : Nat → Nat → T} :
    toM n m e = toM n m f ↔ ∀ i j, i < n → j < m → e i j = f i j := by
  constructor
  · intro h i j hi hj
    exact congrFun (congrFun h ⟨i, hi⟩) ⟨j, hj⟩
  · intro h; funext i j; exact h i j i.2 j.2

theorem is_iff_rep [Zero T] {n m : Nat} {b : MB T} {M : Matrix (Fin n) (Fin m) T} :
    b.Is M ↔ Rep b n m (tab M) := by
  constructor
  · rintro ⟨e, h, rfl⟩
    exact h.congr (fun r c hr hc => by rw [tab_lt _ hr hc]; rfl)
  · intro h; exact ⟨_, h, toM_tab M⟩

theorem Rep.is {n m : Nat} {b : MB T} {e} (h : Rep b n m e) : b.Is (toM n m e) := ⟨e, h, rfl⟩

theorem Mat.Holds.is {n m : Nat} {A : Mat T} {e} (h : A.Holds n m e) : A.toMB.Is (toM n m e) := h.rep.is

theorem Returns.yields {x : Res (Mat T)} {n m : Nat} {e} (h : Returns x n m e) : Yields x (toM n m e) := by
  obtain ⟨A, h1, h2⟩ := h; exact ⟨A, h1, h2.wf, h2.is⟩

theorem Yields.of_eq {x : Res (Mat T)} {n m : Nat} {e} (hf : Fits n m) (h : x = .ok (Mat.ofFn n m e)) :
    Yields x (toM n m e) := (Returns.of_eq hf h).yields

theorem Yields.returns [Zero T] {x : Res (Mat T)} {n m : Nat} {M : Matrix (Fin n) (Fin m) T} (h : Yields x M) :
    Returns x n m (tab M) := by
  obtain ⟨A, h1, h2, h3⟩ := h
  exact ⟨A, h1, h2, is_iff_rep.1 h3⟩

theorem Yields.eq [Zero T] {x : Res (Mat T)} {n m : Nat} {M : Matrix (Fin n) (Fin m) T} (h : Yields x M) :
    x = .ok (Mat.ofFn n m (tab M)) := h.returns.eq

/-- Two calls with the same mathematical result return identical objects. -/
theorem Yields.unique [Zero T] {x y : Res (Mat T)} {n m : Nat} {M : Matrix (Fin n) (Fin m) T} (hx : Yields x M)
    (hy : Yields y M) : x = y := by rw [hx.eq, hy.eq]

/-- A call has at most one mathematical result. -/
theorem Yields.inj [Zero T] {x : Res (Mat T)} {n m : Nat} {M M' : Matrix (Fin n) (Fin m) T} (h : Yields x M)
    (h' : Yields x M') : M = M' := by
  have h1 := h.eq.symm.trans h'.eq
  injection h1 with h1
  have h2 := ofFn_ext_iff.1 h1
  rw [← toM_tab M, ← toM_tab M']
  exact toM_inj.2 h2

theorem Yields.congr {x : Res (Mat T)} {n m : Nat} {M M' : Matrix (Fin n) (Fin m) T} (h : Yields x M)
    (e : M = M') : Yields x M' := e ▸ h

theorem MB.Is.fits {n m : Nat} {b : MB T} {M : Matrix (Fin n) (Fin m) T} (h : b.Is M) : Fits n m := by
  obtain ⟨e, h, -⟩ := h; exact h.fits

theorem Yields.fits {x : Res (Mat T)} {n m : Nat} {M : Matrix (Fin n) (Fin m) T} (h : Yields x M) : Fits n m := by
  obtain ⟨A, h1, h2, h3⟩ := h; exact h3.fits

theorem toM_mul [NonUnitalNonAssocSemiring T] {n k m : Nat} (e f : Nat → Nat → T) :
    toM n m (fun r c => lsum k (fun i => e r i * f i c)) = toM n k e * toM k m f := by
  funext i j; rw [Matrix.mul_apply, toM_apply, lsum_eq_sum]; rfl

/-- The identity as a table. -/
theorem toM_one [Zero T] [One T] {n : Nat} : toM n n (fun r c => if r = c then (1 : T) else 0) = 1 := by
  funext i j
  rw [Matrix.one_apply, toM_apply]
  apply if_congr _ rfl rfl
  exact ⟨fun h => Fin.ext h, fun h => by rw [h]⟩

end Malg
