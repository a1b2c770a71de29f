import Verif.Lemmas.MathOps
import Verif.Model.Field
import Mathlib.Tactic.Ring
/-!
# Properties C37 and C38: vectors
-/
namespace Malg
open Ops
variable {T : Type}

/-! ## C37 -/

/-- The loop shared by `A * b` and `dot(A, b)`. -/
theorem mulVec_eq [Zero T] [Add T] [Mul T] {A : MB T} {b : List T} {n m : Nat} {e : Nat → Nat → T} {f : Nat → T}
    (hA : RepAt A n m e) (hn : n < allocMax) (hb : ∀ i, i < m → vget b i = .ok (f i)) :
    mulVec A b = .ok (vtab n fun r => lsum m fun c => e r c * f c) := by
  unfold mulVec
  rw [hA.rows, hA.cols, vnew_ok hn, Res.ok_bind]
  rw [forRange_eq (Nat.zero_le n) (fun r => vtab n fun i => if i < r then lsum m (fun c => e i c * f c) else 0)]
  · congr 1; apply vtab_congr; intro i hi; rw [if_pos hi]
  · simp [vtab, List.map_const']
  · intro r _ hr
    rw [forRange_eq (Nat.zero_le m) (fun j => vtab n fun i =>
      if i < r then lsum m (fun c => e i c * f c) else if i = r then lsum j (fun c => e i c * f c) else 0)]
    · congr 1; apply vtab_congr; intro i hi
      by_cases h1 : i < r
      · rw [if_pos h1, if_pos (by omega)]
      · by_cases h2 : i = r
        · rw [if_neg h1, if_pos h2, if_pos (by omega)]
        · rw [if_neg h1, if_neg h2, if_neg (by omega)]
    · apply vtab_congr; intro i hi; dsimp only [lsum]; simp
    · intro j _ hj
      rw [vget_vtab hr, Res.ok_bind, hA.get r j hr hj, Res.ok_bind, hb j hj, Res.ok_bind, vset_vtab hr]
      congr 1; apply vtab_congr; intro i hi
      by_cases h2 : i = r
      · subst h2; simp [lsum]
      · rw [Function.update_of_ne h2]; simp only [if_neg h2]

/-- C37, the part that holds: with at least as many elements in `b` as columns in `A`, the result has one element per
row, the inner product with (the first elements of) `b`. Missing: other sizes are not rejected (`C37_long_false`,
`C37_short_false`). -/
theorem C37_entries_partial [Zero T] [Add T] [Mul T] {A : MB T} {b : List T} {n m p : Nat} {e : Nat → Nat → T}
    {f : Nat → T} (hA : RepAt A n m e) (hb : VRep b p f) (hp : m ≤ p) (hn : n < allocMax) :
    ReturnsVec (mulVec A b) n (fun r => lsum m fun c => e r c * f c) ∧
    ReturnsVec (dotMat A b) n (fun r => lsum m fun c => e r c * f c) :=
  have h := mulVec_eq hA hn (fun _ hi => hb.get (Nat.lt_of_lt_of_le hi hp))
  ⟨ReturnsVec.of_eq h, ReturnsVec.of_eq h⟩

/-- C37 over a semiring: the matrix–vector product of mathematics. -/
theorem C37_matrix_partial {K : Type} [NonUnitalNonAssocSemiring K] {A : MB K} {b : List K} {n m : Nat}
    {M : Matrix (Fin n) (Fin m) K} {f : Nat → K} (hA : A.Is M) (hb : VRep b m f) (hn : n < allocMax) :
    ∃ v, mulVec A b = .ok v ∧ dotMat A b = .ok v ∧ v.length = n ∧
      ∀ i : Fin n, v[i.1]? = some (M.mulVec (toV m f) i) := by
  obtain ⟨e, hA, rfl⟩ := hA
  obtain ⟨⟨v, h1, h2, h3⟩, -⟩ := C37_entries_partial hA.toRepAt hb (Nat.le_refl m) hn
  refine ⟨v, h1, h1, h2, fun i => ?_⟩
  rw [h3 i i.2]; dsimp only; rw [lsum_eq_sum]; rfl

/-- C37 is false: a longer vector is accepted and its tail ignored. -/
theorem C37_long_false : mulVec (⟨1, 2, [1, 2]⟩ : Mat Int).toMB [3, 4, 5] = .ok [11] ∧
    dotMat (⟨1, 2, [1, 2]⟩ : Mat Int).toMB [3, 4, 5] = .ok [11] := by decide +kernel

/-- C37 is false: with a shorter vector every non-empty product reads out of bounds. -/
theorem C37_short_false [Zero T] [Add T] [Mul T] {A : MB T} {b : List T} {n m p : Nat} {e : Nat → Nat → T} {f : Nat → T}
    (hA : RepAt A n m e) (hb : VRep b p f) (hp : p < m) (h0 : 0 < n) (hn : n < allocMax) :
    mulVec A b = .ub .oob ∧ dotMat A b = .ub .oob := by
  have : mulVec A b = .ub .oob := by
    unfold mulVec
    rw [hA.rows, hA.cols, vnew_ok hn, Res.ok_bind, forRange_lt h0, forRange_append (Nat.zero_le p) (Nat.le_of_lt hp)]
    obtain ⟨s, h1, h2⟩ := forRange_inv (Nat.zero_le p) (fun _ (v : List T) => v.length = n)
      (s := List.replicate n (0 : T)) (body := fun c result => do
        let z ← vget result 0
        let x ← A.at_ 0 c
        let y ← vget b c
        vset result 0 (z + x * y)) (by simp) (by
        intro i v _ hi hv
        rw [vget_lt (by omega), Res.ok_bind, hA.get 0 i h0 (by omega), Res.ok_bind, hb.get hi, Res.ok_bind,
          vset_lt (by omega)]
        exact ⟨_, rfl, by simp [hv]⟩)
    rw [h1, Res.ok_bind, forRange_lt hp, vget_lt (by omega), Res.ok_bind, hA.get 0 p h0 hp, Res.ok_bind,
      vget_ge (by rw [hb.2.1])]
    rfl
  exact ⟨this, this⟩

example : mulVec (⟨2, 2, [1, 2, 3, 4]⟩ : Mat Int).toMB [5, 6] = .ok [17, 39] := by decide +kernel

/-! ## C38 -/

/-- C38: vector–vector operators. -/
theorem C38_zip [Zero T] [Add T] [Sub T] [Mul T] {a b : List T} {n : Nat} {f g : Nat → T} (ha : VRep a n f)
    (hb : VRep b n g) : ReturnsVec (vadd a b) n (fun i => f i + g i) ∧ ReturnsVec (vsub a b) n (fun i => f i - g i) ∧
      ReturnsVec (vmul a b) n (fun i => f i * g i) :=
  ⟨ReturnsVec.of_eq (zipVec_eq ha hb fun _ _ => rfl), ReturnsVec.of_eq (zipVec_eq ha hb fun _ _ => rfl),
   ReturnsVec.of_eq (zipVec_eq ha hb fun _ _ => rfl)⟩

/-- C38: vector–scalar operators. -/
theorem C38_scalar [Zero T] [Add T] [Sub T] [Mul T] [CDiv T] {a : List T} {n : Nat} {f : Nat → T} (ha : VRep a n f)
    (s : T) : ReturnsVec (vaddS a s) n (fun i => f i + s) ∧ ReturnsVec (vsubS a s) n (fun i => f i - s) ∧
      ReturnsVec (vmulS a s) n (fun i => f i * s) ∧
      ∀ g : Nat → T, (∀ i, i < n → cdiv (f i) s = .ok (g i)) → ReturnsVec (vdivS a s) n g :=
  ⟨ReturnsVec.of_eq (mapVec_eq ha fun _ _ => rfl), ReturnsVec.of_eq (mapVec_eq ha fun _ _ => rfl),
   ReturnsVec.of_eq (mapVec_eq ha fun _ _ => rfl), fun _ hg => ReturnsVec.of_eq (mapVec_eq ha hg)⟩

/-- One in-place loop over vector variables. -/
theorem vassign_loop {op : T → T → T} {a b n : Nat} {s : VStore T} {f g : Nat → T} (ha : VRep (s a) n f)
    (hb : VRep (s b) n g) :
    ∃ s', forRange 0 n s (fun i s => do
        let x ← vget (s a) i
        let y ← vget (s b) i
        let v ← vset (s a) i (op x y)
        return VStore.put s a v) = .ok s' ∧ VRep (s' a) n (fun i => op (f i) (g i)) ∧ ∀ w, w ≠ a → s' w = s w := by
  rw [forRange_eq (Nat.zero_le n) (fun k => VStore.put s a (vtab n fun i => if i < k then op (f i) (g i) else f i))]
  · refine ⟨_, rfl, ?_, fun w hw => if_neg hw⟩
    show VRep (if a = a then _ else _) _ _
    rw [if_pos rfl]
    rw [vtab_congr (g := fun i => op (f i) (g i)) (fun i hi => if_pos hi)]
    exact vtab_vrep ha.1 _
  · funext w
    by_cases h : w = a
    · simp [VStore.put, h, ha.eq]
    · simp [VStore.put, h]
  · intro i _ hi
    have h1 : ∀ x, VStore.put s a x a = x := fun x => if_pos rfl
    have h2 : vget (VStore.put s a (vtab n fun j => if j < i then op (f j) (g j) else f j) b) i = .ok (g i) := by
      by_cases h : b = a
      · subst h
        rw [h1, vget_vtab hi, if_neg (by omega)]
        have := (ha.get hi).symm.trans (hb.get hi)
        exact this
      · rw [show VStore.put s a _ b = s b from if_neg h, hb.get hi]
    rw [h1, vget_vtab hi, Res.ok_bind, h2, Res.ok_bind, vset_vtab hi, Res.ok_bind]
    show Res.ok _ = _
    congr 1
    funext w
    by_cases h : w = a
    · subst h
      simp only [VStore.put, if_true]
      apply vtab_congr; intro j hj
      by_cases h3 : j = i
      · subst h3; simp
      · rw [Function.update_of_ne h3]
        by_cases h4 : j < i
        · rw [if_pos h4, if_pos (by omega)]
        · rw [if_neg h4, if_neg (by omega)]
    · simp [VStore.put, h]

/-- C38: `a += b` and `a -= b` on vector variables, also for `a` and `b` the same variable. -/
theorem C38_assign [Add T] [Sub T] {a b n : Nat} {s : VStore T} {f g : Nat → T} (ha : VRep (s a) n f)
    (hb : VRep (s b) n g) :
    (∃ s', vaddAssign a b s = .ok s' ∧ VRep (s' a) n (fun i => f i + g i) ∧ ∀ w, w ≠ a → s' w = s w) ∧
    (∃ s', vsubAssign a b s = .ok s' ∧ VRep (s' a) n (fun i => f i - g i) ∧ ∀ w, w ≠ a → s' w = s w) := by
  unfold vaddAssign vsubAssign
  have hc : ¬ (s a).length ≠ (s b).length := by rw [ha.2.1, hb.2.1]; simp
  rw [if_neg hc, if_neg hc, ha.2.1]
  exact ⟨vassign_loop ha hb, vassign_loop ha hb⟩

/-- C38: operands of different sizes throw; the in-place operators have not changed anything. -/
theorem C38_mismatch [Zero T] [Add T] [Sub T] [Mul T] (a b : List T) (h : a.length ≠ b.length) :
    vadd a b = .throw .invalidArgument ∧ vsub a b = .throw .invalidArgument ∧ vmul a b = .throw .invalidArgument ∧
    dot a b = .throw .invalidArgument ∧ ∀ (s : VStore T) (i j : Nat), s i = a → s j = b →
      vaddAssign i j s = .throw .invalidArgument ∧ vsubAssign i j s = .throw .invalidArgument := by
  refine ⟨if_pos h, if_pos h, if_pos h, if_pos h, ?_⟩
  rintro s i j rfl rfl
  exact ⟨if_pos h, if_pos h⟩

/-- C38: `dot` adds the products from left to right. -/
theorem C38_dot [Zero T] [Add T] [Mul T] {a b : List T} {n : Nat} {f g : Nat → T} (ha : VRep a n f)
    (hb : VRep b n g) : dot a b = .ok (lsum n fun i => f i * g i) := by
  unfold dot
  rw [if_neg (by rw [ha.2.1, hb.2.1]; simp), ha.2.1]
  apply accum_eq
  intro i acc hi
  rw [ha.get hi, hb.get hi]; rfl

/-- C38: `dot` over a semiring. -/
theorem C38_dot_sum {K : Type} [NonUnitalNonAssocSemiring K] {a b : List K} {n : Nat} {f g : Nat → K} (ha : VRep a n f)
    (hb : VRep b n g) : dot a b = .ok (∑ i : Fin n, f i * g i) := by rw [C38_dot ha hb, lsum_eq_sum]

/-- C38: `projection(a, b)` is a multiple of `b`, and the rest of `a` is orthogonal to `b` (real elements; `dot` does
not conjugate). -/
theorem C38_projection {K : Type} [Field K] [DecidableEq K] {a b : List K} {n : Nat} {f g : Nat → K} (ha : VRep a n f)
    (hb : VRep b n g) (h0 : ∑ i : Fin n, g i * g i ≠ 0) :
    ∃ q : K, ReturnsVec (projection a b) n (fun i => g i * q) ∧ ∑ i : Fin n, (f i - g i * q) * g i = 0 := by
  refine ⟨(∑ i : Fin n, f i * g i) / ∑ i : Fin n, g i * g i, ?_, ?_⟩
  · unfold projection
    rw [C38_dot_sum ha hb, C38_dot_sum hb hb, Res.ok_bind, Res.ok_bind, cdiv_ok _ h0, Res.ok_bind]
    exact ReturnsVec.of_eq (mapVec_eq hb fun _ _ => rfl)
  · simp only [sub_mul, Finset.sum_sub_distrib]
    have : ∀ q : K, ∑ i : Fin n, g i * q * g i = q * ∑ i : Fin n, g i * g i := by
      intro q; rw [Finset.mul_sum]; apply Finset.sum_congr rfl; intro i _; ring
    rw [this, div_mul_cancel₀ _ h0, sub_self]

example : vsub [5, 7] [1, (2 : Int)] = .ok [4, 5] := by decide +kernel
example : (vaddAssign 0 0 (fun _ => [1, (2 : Int)]) >>= fun s => .ok (s 0)) = .ok [2, 4] := by decide +kernel
example : projection [3, 4] [2, (0 : ℚ)] = .ok [3, 0] := by decide +kernel

end Malg
