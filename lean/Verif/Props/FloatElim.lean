import Verif.Lemmas.Det
import Verif.Props.FloatDetErr
import Verif.Props.FloatLu
import Verif.Props.FloatInv
/-!
# Property C123: `determinant` of 5×5 and larger matrices in floating point
-/
namespace Malg
open Ops Lin

/-- No entry of the working copy of `determinant` (before the first and after every iteration of the elimination) exceeds `G` in absolute
value. -/
def GrowthBound {T K : Type} [Zero T] [One T] [Sub T] [Mul T] [Neg T] [CDiv T] [Field K] [LinearOrder K] (val : T → K) (isz : T → Bool)
    (A : MB T) (G : K) : Prop :=
  ∀ B, Mat.ofMB A id = .ok B → ∀ c, c ≤ B.cols → ∀ s, forRange 0 c (⟨B, 1, false⟩ : ElimState T) (fun c s => elimStep isz B.cols c s) = .ok s →
    ∀ x ∈ s.A.data, |val x| ≤ G

section
variable {T K : Type} [Zero T] [One T] [Add T] [Sub T] [Mul T] [Neg T] [CDiv T] [Field K] [LinearOrder K] [IsStrictOrderedRing K]
  {val : T → K} {u η : K} {isz : T → Bool}

omit [Zero T] [One T] [Add T] [Sub T] [Mul T] [Neg T] [CDiv T] [IsStrictOrderedRing K] in
theorem pivotRow_val (hz : ∀ x, isz x = true ↔ val x = 0) {N c : Nat} (hf : Fits N N) (hc : c < N) (e : Nat → Nat → T) :
    (pivotRow isz (Mat.ofFn N N e) c = .ok none ∧ ∀ k, c < k → k < N → val (e k c) = 0) ∨
    ∃ k, pivotRow isz (Mat.ofFn N N e) c = .ok (some k) ∧ c < k ∧ k < N ∧ val (e k c) ≠ 0 := by
  unfold pivotRow
  by_cases h : ∃ k, c < k ∧ k < N ∧ val (e k c) ≠ 0
  · right
    classical
    obtain ⟨h1, h2, h3⟩ := Nat.find_spec h
    refine ⟨Nat.find h, forSearch_some h1 h2 (fun i hi1 hi2 => ?_) ?_, h1, h2, h3⟩
    · rw [ofFn_at hf (by omega) hc, Res.ok_bind]
      have := Nat.find_min h hi2
      have h0 : val (e i c) = 0 := by by_contra h'; exact this ⟨by omega, by omega, h'⟩
      rw [if_pos ((hz _).2 h0)]; rfl
    · rw [ofFn_at hf h2 hc, Res.ok_bind, if_neg (fun h' => h3 ((hz _).1 h'))]; rfl
  · left
    have h0 : ∀ k, c < k → k < N → val (e k c) = 0 := fun k h1 h2 => by by_contra h'; exact h ⟨k, h1, h2, h'⟩
    refine ⟨forSearch_none fun i h1 h2 => ?_, h0⟩
    have h2' : i < N := h2
    rw [ofFn_at hf h2' hc, Res.ok_bind, if_pos ((hz _).2 (h0 i (by omega) h2'))]; rfl

/-- The three ways an iteration of the elimination can go. -/
theorem elimStep_val (R : Rounds val u η) (hz : ∀ x, isz x = true ↔ val x = 0) {N c : Nat} (hf : Fits N N) (hc : c < N) (e : Nat → Nat → T) (d : T) :
    (elimStep isz N c ⟨Mat.ofFn N N e, d, false⟩ = .ok ⟨Mat.ofFn N N e, d, true⟩ ∧
      ∀ k, c ≤ k → k < N → val (e k c) = 0) ∨
    (val (e c c) ≠ 0 ∧ elimStep isz N c ⟨Mat.ofFn N N e, d, false⟩ =
      .ok ⟨Mat.ofFn N N (elimT e c fun r => quo (e r c) (e c c)), d * e c c, false⟩) ∨
    ∃ k, c < k ∧ k < N ∧ val (e k c) ≠ 0 ∧ elimStep isz N c ⟨Mat.ofFn N N e, d, false⟩ =
      .ok ⟨Mat.ofFn N N (elimT (swapT e c k) c fun r => quo (swapT e c k r c) (swapT e c k c c)),
        d * (-1) * swapT e c k c c, false⟩ := by
  have hq : ∀ x y : T, val y ≠ 0 → cdiv x y = .ok (quo x y) := by
    intro x y hy
    obtain ⟨z, h1, -⟩ := R.div x y hy
    rw [h1]; unfold quo; rw [h1]
  unfold elimStep
  rw [if_neg (by simp)]
  dsimp only
  rw [ofFn_at hf hc hc, Res.ok_bind]
  by_cases h0 : val (e c c) = 0
  · rw [if_pos ((hz _).2 h0)]
    rcases pivotRow_val hz hf hc e with ⟨h1, h2⟩ | ⟨k, h1, h2, h3, h4⟩
    · left
      rw [h1]
      refine ⟨rfl, fun k hk1 hk2 => ?_⟩
      rcases Nat.eq_or_lt_of_le hk1 with rfl | h
      · exact h0
      · exact h2 k h hk2
    · right; right
      refine ⟨k, h2, h3, h4, ?_⟩
      have hs : val (swapT e c k c c) ≠ 0 := by simpa [swapT] using h4
      rw [h1, Res.ok_bind]
      have hsw := swapRows_self hf (e := e) hc h3
      change _ = Res.ok (Mat.ofFn N N (swapT e c k)) at hsw
      simp only [hsw, Res.ok_bind]
      show ((Mat.ofFn N N (swapT e c k)).at_ c c >>= _) = _
      rw [ofFn_at hf hc hc, Res.ok_bind,
        eliminate_eq hf hc (q := fun r => quo (swapT e c k r c) (swapT e c k c c)) (fun r _ _ => hq _ _ hs)]
      rfl
  · right; left
    refine ⟨h0, ?_⟩
    rw [if_neg (fun h => h0 ((hz _).1 h))]
    show ((Mat.ofFn N N e).at_ c c >>= _) = _
    rw [ofFn_at hf hc hc, Res.ok_bind, eliminate_eq hf hc (q := fun r => quo (e r c) (e c c)) (fun r _ _ => hq _ _ h0)]
    rfl

/-- The values of a table with zeros below the diagonal in the first `c` columns. -/
def cleanT (val : T → K) (c : Nat) (e : Nat → Nat → T) : Nat → Nat → K := fun i j => if j < i ∧ j < c then 0 else val (e i j)

omit [One T] [Neg T] in
/-- The rounding error of one step of the elimination, in terms of the largest entry before and after it. -/
theorem elim_entry_err (R : Rounds val u η) (hu8 : u ≤ 1 / 8) {x q z : T} {G : K} (hx : |val x| ≤ G) (hy : |val (x - q * z)| ≤ G) :
    |val (x - q * z) - (val x - val q * val z)| ≤ 4 * u * G + 2 * η := by
  have hu := R.u_nonneg
  have hη := R.η_nonneg
  have h1 := R.sub x (q * z)
  have h2 := R.mul q z
  set y := val (q * z)
  set w := val q * val z
  set v := val (x - q * z)
  have h3 : |val x - y| ≤ |v - (val x - y)| + |v| := by
    have := abs_sub v (v - (val x - y))
    rw [sub_sub_cancel] at this
    linarith
  have h4 : |y| ≤ |val x| + |val x - y| := by
    have := abs_sub (val x) (val x - y)
    rwa [sub_sub_cancel] at this
  have h5 : |w| ≤ |y - w| + |y| := by
    have := abs_sub y (y - w)
    rw [sub_sub_cancel] at this
    linarith
  have hG : 0 ≤ G := (abs_nonneg _).trans hx
  have h6 : |v - (val x - w)| ≤ |v - (val x - y)| + |y - w| := by
    have e : v - (val x - w) = (v - (val x - y)) - (y - w) := by ring
    rw [e]; exact abs_sub _ _
  -- `a = |x - y|`, `b = |w|`
  have ha : |val x - y| ≤ 8 / 7 * G := by
    have : u * |val x - y| ≤ 1 / 8 * |val x - y| := mul_le_mul_of_nonneg_right hu8 (abs_nonneg _)
    linarith
  have hb : |w| ≤ 8 / 7 * (15 / 7 * G + η) := by
    have : u * |w| ≤ 1 / 8 * |w| := mul_le_mul_of_nonneg_right hu8 (abs_nonneg _)
    linarith
  have h7 := mul_le_mul_of_nonneg_left ha hu
  have h8 := mul_le_mul_of_nonneg_left hb hu
  have h9 : u * η ≤ 1 / 8 * η := mul_le_mul_of_nonneg_right hu8 hη
  have h10 : 0 ≤ u * G := mul_nonneg hu hG
  nlinarith

omit [One T] [Neg T] in
/-- The error of a ratio. -/
theorem elim_ratio_err (R : Rounds val u η) {x y : T} {G : K} (hy : val y ≠ 0) (hx : |val x| ≤ G) (hyG : |val y| ≤ G) :
    |val (quo x y) * val y - val x| ≤ u * G + η * G := by
  have hu := R.u_nonneg
  have hη := R.η_nonneg
  obtain ⟨z, h1, h2⟩ := R.div x y hy
  have e : quo x y = z := by unfold quo; rw [h1]
  rw [e]
  have hy' := abs_pos.2 hy
  have h3 := mul_le_mul_of_nonneg_right h2 hy'.le
  rw [← abs_mul, sub_mul, div_mul_cancel₀ _ hy, add_mul, mul_assoc, ← abs_mul, div_mul_cancel₀ _ hy] at h3
  exact h3.trans (add_le_add (mul_le_mul_of_nonneg_left hx hu) (mul_le_mul_of_nonneg_left hyG hη))

/-- Invariant of the elimination loop: the working copy with clean zeros, perturbed in the rows still to be eliminated, has the determinant
of a perturbation of the matrix up to a sign; `det` is about the product of the pivots. -/
def FlElimInv (val : T → K) (u η G ε : K) {N : Nat} (M : Matrix (Fin N) (Fin N) K) (c : Nat) (s : ElimState T) : Prop :=
  (s.stop = true ∧ ∃ E : Matrix (Fin N) (Fin N) K, (∀ i j, |E i j| ≤ N * ε) ∧ (M + E).det = 0) ∨
  ∃ (e : Nat → Nat → T) (E : Matrix (Fin N) (Fin N) K) (σ : Equiv.Perm (Fin N)) (g : K), s = ⟨Mat.ofFn N N e, s.det, false⟩ ∧
    (∀ i j, |E i j| ≤ c * ε) ∧ |g| = 1 ∧
    (∀ D : Matrix (Fin N) (Fin N) K, (∀ i j, i.1 < c → D i j = 0) → (M + E + D.submatrix σ id).det = g * (toM N N (cleanT val c e) + D).det) ∧
    |val s.det - g * ∏ i ∈ Finset.range c, val (e i i)| ≤
      ((1 + u) ^ c - 1) * |∏ i ∈ Finset.range c, val (e i i)| + c * ((1 + u) * (1 + G)) ^ c * η

omit [One T] [Neg T] in
/-- One step after the exchange of rows. -/
theorem flElim_step (R : Rounds val u η) (hu8 : u ≤ 1 / 8) {N : Nat} {G : K} (hG : 0 ≤ G) {c : Nat} (hc : c < N) {e : Nat → Nat → T}
    (h0 : val (e c c) ≠ 0) (hb : ∀ i j, i < N → j < N → |val (e i j)| ≤ G)
    (hb' : ∀ i j, i < N → j < N → |val (elimT e c (fun r => quo (e r c) (e c c)) i j)| ≤ G) :
    ∃ Δ : Matrix (Fin N) (Fin N) K, (∀ i j, |Δ i j| ≤ 4 * u * G + (2 + G) * η) ∧ (∀ i j, i.1 < c + 1 → Δ i j = 0) ∧
      ∀ D : Matrix (Fin N) (Fin N) K, (∀ i j, i.1 < c + 1 → D i j = 0) →
        (toM N N (cleanT val c e) + (Δ + D)).det = (toM N N (cleanT val (c + 1) (elimT e c fun r => quo (e r c) (e c c))) + D).det := by
  have hu := R.u_nonneg
  have hη := R.η_nonneg
  set e' := elimT e c fun r => quo (e r c) (e c c) with he'
  have hGη : 0 ≤ G * η := mul_nonneg hG hη
  have huG : 0 ≤ u * G := mul_nonneg hu hG
  refine ⟨toM N N fun i j => if c < i ∧ c < j then val (e' i j) - (val (e i j) - val (quo (e i c) (e c c)) * val (e c j))
    else if c < i ∧ c = j then val (quo (e i c) (e c c)) * val (e c c) - val (e i c) else 0, ?_, ?_, ?_⟩
  · intro i j
    rw [toM_apply]
    split_ifs with h1 h2
    · have : e' i j = e i j - quo (e i c) (e c c) * e c j := by rw [he']; exact if_pos ⟨h1.1, h1.2.le⟩
      rw [this]
      have h3 := hb' i j i.2 j.2
      rw [this] at h3
      have := elim_entry_err R hu8 (hb i j i.2 j.2) h3
      linarith
    · have := elim_ratio_err R h0 (hb i c i.2 hc) (hb c c hc hc)
      linarith
    · rw [abs_zero]
      positivity
  · intro i j hi
    rw [toM_apply, if_neg (by omega), if_neg (by omega)]
  · intro D hD
    symm
    refine Matrix.det_eq_of_forall_row_eq_smul_add_const (fun i => if c < i.1 then - val (quo (e i c) (e c c)) else 0) ⟨c, hc⟩ (by simp) ?_
    intro i j
    have hDc : D ⟨c, hc⟩ j = 0 := hD _ _ (Nat.lt_succ_self c)
    simp only [Matrix.add_apply, toM_apply, cleanT, hDc]
    by_cases h : c < i.1
    · rcases Nat.lt_trichotomy c j.1 with h2 | h2 | h2
      · simp only [h, h2, true_and, if_true, show ¬ (j.1 < i.1 ∧ j.1 < c + 1) by omega, show ¬ (j.1 < i.1 ∧ j.1 < c) by omega,
          show ¬ (j.1 < c ∧ j.1 < c) by omega, show ¬ (c < c) by omega, false_and, if_false]
        ring
      · simp only [h, ← h2, true_and, if_true, show ¬ (c < c) by omega, and_false, false_and, if_false, Nat.lt_succ_self]
        ring
      · simp only [h, show ¬ c < j.1 by omega, show ¬ c = j.1 by omega, and_false, if_false, h2, show j.1 < i.1 by omega,
          show j.1 < c + 1 by omega, and_self, if_true]
        ring
    · have e1 : e' i j = e i j := by rw [he']; exact if_neg (by omega)
      simp only [h, false_and, if_false, e1]
      have : (j.1 < i.1 ∧ j.1 < c + 1) ↔ (j.1 < i.1 ∧ j.1 < c) := by omega
      simp only [this]
      ring

omit [LinearOrder K] [IsStrictOrderedRing K] [Add T] [Sub T] [Mul T] [Neg T] [CDiv T] [Zero T] [One T] in
theorem cleanT_swap {N c k : Nat} (hc : c < N) (hk : k < N) (hck : c < k) (e : Nat → Nat → T) (X : Matrix (Fin N) (Fin N) K) :
    (toM N N (cleanT val c (swapT e c k)) + X).det =
      - (toM N N (cleanT val c e) + X.submatrix (Equiv.swap (⟨c, hc⟩ : Fin N) ⟨k, hk⟩) id).det := by
  have : toM N N (cleanT val c (swapT e c k)) + X =
      (toM N N (cleanT val c e) + X.submatrix (Equiv.swap (⟨c, hc⟩ : Fin N) ⟨k, hk⟩) id).submatrix (Equiv.swap (⟨c, hc⟩ : Fin N) ⟨k, hk⟩) id := by
    funext i j
    simp only [Matrix.add_apply, Matrix.submatrix_apply, id, Equiv.swap_apply_self, toM_apply]
    congr 1
    have e1 : ((Equiv.swap (⟨c, hc⟩ : Fin N) ⟨k, hk⟩) i).1 = if i.1 = c then k else if i.1 = k then c else i.1 := by
      rw [Equiv.swap_apply_def]
      by_cases h1 : i.1 = c
      · rw [if_pos h1, if_pos (Fin.ext h1)]
      · rw [if_neg h1, if_neg (fun h => h1 (congrArg Fin.val h))]
        by_cases h2 : i.1 = k
        · rw [if_pos h2, if_pos (Fin.ext h2)]
        · rw [if_neg h2, if_neg (fun h => h2 (congrArg Fin.val h))]
    unfold cleanT swapT
    rw [e1]
    apply if_congr _ rfl rfl
    split_ifs <;> omega
  rw [this, Matrix.det_permute, Equiv.Perm.sign_swap (fun h => by have := congrArg Fin.val h; dsimp only at this; omega)]
  simp

omit [LinearOrder K] [IsStrictOrderedRing K] [Add T] [Sub T] [Mul T] [Neg T] [CDiv T] [Zero T] [One T] in
theorem cleanT_singular {N c : Nat} (hc : c < N) {e : Nat → Nat → T} (h0 : ∀ k, c ≤ k → k < N → val (e k c) = 0) :
    (toM N N (cleanT val c e)).det = 0 := by
  refine det_singular hc (fun i j _ h1 h2 => if_pos ⟨h2, h1⟩) fun k h1 h2 => ?_
  unfold cleanT
  rw [if_neg (by omega)]
  exact h0 k h1 h2

omit [One T] [Neg T] in
/-- The error of the product of the pivots. -/
theorem pivot_prod_err (R : Rounds val u η) {d p : T} {P G : K} {c : Nat} (hp : |val p| ≤ G) {g : K} (hg : |g| = 1) 
    (h : |val d - g * P| ≤ ((1 + u) ^ c - 1) * |P| + c * ((1 + u) * (1 + G)) ^ c * η) :
    |val (d * p) - g * (P * val p)| ≤ ((1 + u) ^ (c + 1) - 1) * |P * val p| + (c + 1 : ℕ) * ((1 + u) * (1 + G)) ^ (c + 1) * η := by
  have hu := R.u_nonneg
  have hη := R.η_nonneg
  have hG : 0 ≤ G := (abs_nonneg _).trans hp
  have h1 := R.mul d p
  have hp0 := abs_nonneg (val p)
  have h2 : |val d * val p| ≤ (|val d - g * P| + |P|) * |val p| := by
    rw [abs_mul]
    apply mul_le_mul_of_nonneg_right _ hp0
    have := abs_add_le (val d - g * P) (g * P)
    rwa [sub_add_cancel, abs_mul g, hg, one_mul] at this
  have h3 : |val (d * p) - g * (P * val p)| ≤ |val (d * p) - val d * val p| + |val d - g * P| * |val p| := by
    rw [← abs_mul]
    have := abs_add_le (val (d * p) - val d * val p) ((val d - g * P) * val p)
    rwa [show val (d * p) - val d * val p + (val d - g * P) * val p = val (d * p) - g * (P * val p) by ring] at this
  have h4 : |val d - g * P| * |val p| ≤ (((1 + u) ^ c - 1) * |P| + c * ((1 + u) * (1 + G)) ^ c * η) * |val p| :=
    mul_le_mul_of_nonneg_right h hp0
  have h5 := mul_le_mul_of_nonneg_left h2 hu
  have h6 : 0 ≤ (c : K) * ((1 + u) * (1 + G)) ^ c * η := by positivity
  have h7 : (c : K) * ((1 + u) * (1 + G)) ^ c * η * |val p| ≤ c * ((1 + u) * (1 + G)) ^ c * η * (1 + G) :=
    mul_le_mul_of_nonneg_left (by linarith) h6
  have h8 : η ≤ ((1 + u) * (1 + G)) ^ (c + 1) * η := by
    apply le_mul_of_one_le_left hη
    apply one_le_pow₀
    nlinarith
  rw [abs_mul P]
  push_cast
  have e1 : ((1 + u) ^ (c + 1) - 1) * (|P| * |val p|) + (c + 1) * ((1 + u) * (1 + G)) ^ (c + 1) * η =
      (1 + u) * (((1 + u) ^ c - 1) * |P| * |val p|) + u * (|P| * |val p|) +
        (1 + u) * (c * ((1 + u) * (1 + G)) ^ c * η * (1 + G)) + ((1 + u) * (1 + G)) ^ (c + 1) * η := by ring
  rw [e1]
  have h9 := mul_le_mul_of_nonneg_left h4 (by linarith : 0 ≤ 1 + u)
  have h10 := mul_le_mul_of_nonneg_left h7 (by linarith : 0 ≤ 1 + u)
  linarith

theorem flElim_inv (R : Rounds val u η) (hneg : ∀ x : T, val (x * (-1)) = - val x) (hu8 : u ≤ 1 / 8) (hz : ∀ x, isz x = true ↔ val x = 0)
    {N : Nat} (hf : Fits N N) {G : K} (hG : 0 ≤ G)
    (M : Matrix (Fin N) (Fin N) K) {c : Nat} (hc : c < N) (s : ElimState T) (hb : ∀ x ∈ s.A.data, |val x| ≤ G)
    (hb' : ∀ s', elimStep isz N c s = .ok s' → ∀ x ∈ s'.A.data, |val x| ≤ G)
    (h : FlElimInv val u η G (4 * u * G + (2 + G) * η) M c s) :
    ∃ s', elimStep isz N c s = .ok s' ∧ FlElimInv val u η G (4 * u * G + (2 + G) * η) M (c + 1) s' := by
  have hu := R.u_nonneg
  have hη := R.η_nonneg
  have hε : 0 ≤ 4 * u * G + (2 + G) * η := by positivity
  generalize hεd : 4 * u * G + (2 + G) * η = ε at h hε ⊢
  have hmem : ∀ (e : Nat → Nat → T), (∀ x ∈ (Mat.ofFn N N e).data, |val x| ≤ G) → ∀ i j, i < N → j < N → |val (e i j)| ≤ G := by
    intro e he i j hi hj
    apply he
    rw [ofFn_data, vtab, List.mem_map]
    exact ⟨i * N + j, List.mem_range.2 (lin_lt hi hj), by rw [lin_div hj, lin_mod hj]⟩
  rcases h with ⟨h1, h2⟩ | ⟨e, E, σ, g, hs, hE, hg, hD, hd⟩
  · exact ⟨s, by rw [elimStep, if_pos h1], .inl ⟨h1, h2⟩⟩
  · obtain ⟨A, d, b⟩ := s
    obtain ⟨rfl, -, rfl⟩ : A = Mat.ofFn N N e ∧ d = d ∧ b = false := by simpa using hs
    dsimp only at hd hb
    have hbe := hmem e hb
    have key : ∀ (e' e1 : Nat → Nat → T) (τ : Equiv.Perm (Fin N)) (Δ : Matrix (Fin N) (Fin N) K) (g' : K) (d' : T), e' = elimT e1 c (fun r => quo (e1 r c) (e1 c c)) →
        |g'| = 1 → (∀ i j, |Δ i j| ≤ ε) → (∀ i j, i.1 < c + 1 → Δ i j = 0) →
        (∀ D : Matrix (Fin N) (Fin N) K, (∀ i j, i.1 < c + 1 → D i j = 0) →
          (toM N N (cleanT val c e) + (Δ + D).submatrix τ id).det = g' * (toM N N (cleanT val (c + 1) e') + D).det) →
        (∀ i : Fin N, i.1 < c → τ i = i) → (∀ i, i < c → e1 i i = e i i) → |val (e1 c c)| ≤ G →
        |val d' - (g * g') * ∏ i ∈ Finset.range c, val (e i i)| ≤
          ((1 + u) ^ c - 1) * |∏ i ∈ Finset.range c, val (e i i)| + c * ((1 + u) * (1 + G)) ^ c * η →
        FlElimInv val u η G ε M (c + 1) ⟨Mat.ofFn N N e', d' * e1 c c, false⟩ := by
      intro e' e1 τ Δ g' d' he' hg' hΔ hΔ0 hdet hτ he1 hpG hd'
      refine .inr ⟨e', E + Δ.submatrix (σ.trans τ) id, σ.trans τ, g * g', rfl, fun i j => ?_, by rw [abs_mul, hg, hg', one_mul], fun D hD0 => ?_, ?_⟩
      · refine (abs_add_le _ _).trans ?_
        have h1 := hE i j
        have h2 := hΔ (σ.trans τ i) j
        push_cast
        simp only [Matrix.submatrix_apply, id]
        linarith
      · have h1 := hD ((Δ + D).submatrix τ id) (fun i j hi => by
          simp only [Matrix.submatrix_apply, Matrix.add_apply, id, hτ i hi, hΔ0 i j (by omega), hD0 i j (by omega), add_zero])
        rw [hdet D hD0, ← mul_assoc] at h1
        rw [← h1]
        congr 1
        funext i j
        simp only [Matrix.add_apply, Matrix.submatrix_apply, id, Equiv.trans_apply]
        ring
      · have e2 : ∏ i ∈ Finset.range (c + 1), val (e' i i) = (∏ i ∈ Finset.range c, val (e i i)) * val (e1 c c) := by
          rw [Finset.prod_range_succ]
          congr 1
          · apply Finset.prod_congr rfl
            intro i hi
            have hi := Finset.mem_range.1 hi
            rw [he', ← he1 i hi]; unfold elimT; rw [if_neg (by omega)]
          · rw [he']; unfold elimT; rw [if_neg (by omega)]
        dsimp only
        rw [e2]
        exact pivot_prod_err R hpG (by rw [abs_mul, hg, hg', one_mul]) hd'
    rcases elimStep_val R hz hf hc e d with ⟨h1, h2⟩ | ⟨h0, h1⟩ | ⟨k, h2, h3, h4, h1⟩
    · refine ⟨_, h1, .inl ⟨rfl, E, fun i j => (hE i j).trans (mul_le_mul_of_nonneg_right (by exact_mod_cast hc.le) hε), ?_⟩⟩
      have := hD 0 (fun _ _ _ => rfl)
      rw [add_zero, cleanT_singular hc h2, mul_zero] at this
      rw [← this]; congr 1
      simp
    · obtain ⟨Δ, g1, g2, g3⟩ := flElim_step R hu8 hG hc h0 hbe (hmem _ (hb' _ h1))
      rw [hεd] at g1
      refine ⟨_, h1, key _ e (Equiv.refl _) Δ 1 d rfl abs_one g1 g2 (fun D hD0 => ?_) (fun _ _ => rfl) (fun _ _ => rfl) (hbe c c hc hc) (by rw [mul_one]; exact hd)⟩
      rw [one_mul, ← g3 D hD0]
      rfl
    · have h0 : val (swapT e c k c c) ≠ 0 := by simpa [swapT] using h4
      have hbs : ∀ i j, i < N → j < N → |val (swapT e c k i j)| ≤ G := by
        intro i j hi hj
        unfold swapT
        split_ifs
        · exact hbe k j h3 hj
        · exact hbe c j hc hj
        · exact hbe i j hi hj
      obtain ⟨Δ, g1, g2, g3⟩ := flElim_step R hu8 hG hc h0 hbs (hmem _ (hb' _ h1))
      rw [hεd] at g1
      refine ⟨_, h1, key _ (swapT e c k) (Equiv.swap ⟨c, hc⟩ ⟨k, h3⟩) Δ (-1) (d * (-1)) rfl (by rw [abs_neg, abs_one]) g1 g2 (fun D hD0 => ?_) (fun i hi => ?_)
        (fun i hi => ?_) (hbs c c hc hc) ?_⟩
      · rw [← g3 D hD0, cleanT_swap hc h3 h2]; ring
      · apply Equiv.swap_apply_of_ne_of_ne
        · intro h; rw [h] at hi; exact absurd hi (lt_irrefl _)
        · intro h; rw [h] at hi; dsimp only at hi; omega
      · unfold swapT; rw [if_neg (by omega), if_neg (by omega)]
      · rw [hneg]
        rw [show -val d - g * -1 * ∏ i ∈ Finset.range c, val (e i i) = -(val d - g * ∏ i ∈ Finset.range c, val (e i i)) by ring, abs_neg]
        exact hd

/-- C123, the part that holds: for matrices of any size above four the determinant is, up to `n` roundings, the determinant of a matrix that
differs from `A` by at most `n` times four roundings of the largest number that appears in the elimination; unless a matrix that close to `A` is singular. Missing: a
bound in terms of `A` alone, and the singular case. -/
theorem C123_growth_partial (R : Rounds val u η) (one : val 1 = 1) (hneg : ∀ x : T, val (x * (-1)) = - val x) (hu8 : u ≤ 1 / 8)
    (hz : ∀ x, isz x = true ↔ val x = 0) {A : MB T} {n : Nat} (hn : 4 < n) {M : Matrix (Fin n) (Fin n) T} (hA : A.Is M) {G : K}
    (hG : GrowthBound val isz A G) :
    ∃ d, determinant isz A = .ok d ∧ ∃ E : Matrix (Fin n) (Fin n) K, (∀ i j, |E i j| ≤ n * (4 * u * G + (2 + G) * η)) ∧
      ((M.map val + E).det = 0 ∨
        |val d - (M.map val + E).det| ≤ ((1 + u) ^ n - 1) * |(M.map val + E).det| + n * ((1 + u) * (1 + G)) ^ n * η) := by
  obtain ⟨e, h, rfl⟩ := hA
  have hB : Mat.ofMB A id = .ok (Mat.ofFn n n e) := Mat.ofMB_eq h id
  have hG' := hG _ hB
  have hG0 : 0 ≤ G := by
    refine (abs_nonneg _).trans (hG' 0 (Nat.zero_le _) _ (forRange_self _ _ _) (e 0 0) ?_)
    dsimp only
    rw [ofFn_data, vtab, List.mem_map]
    exact ⟨0, List.mem_range.2 (by positivity), by rw [Nat.zero_div, Nat.zero_mod]⟩
  obtain ⟨s, h1, h2, -⟩ := forRange_inv (Nat.zero_le n)
    (fun c s => FlElimInv val u η G (4 * u * G + (2 + G) * η) ((toM n n e).map val) c s ∧
      forRange 0 c (⟨Mat.ofFn n n e, 1, false⟩ : ElimState T) (fun c s => elimStep isz n c s) = .ok s)
    (s := ⟨Mat.ofFn n n e, 1, false⟩)
    (body := fun c s => elimStep isz n c s)
    ⟨.inr ⟨e, 0, Equiv.refl _, 1, rfl, fun i j => by simp, abs_one, fun D _ => by
      rw [add_zero, one_mul]; congr 1; funext i j
      show val (e i j) + D i j = cleanT val 0 e i j + D i j
      unfold cleanT; rw [if_neg (by omega)], by simp [one]⟩, forRange_self _ _ _⟩
    (fun c s _ hc h => by
      have hr : ∀ s', elimStep isz n c s = .ok s' → forRange 0 (c + 1) (⟨Mat.ofFn n n e, 1, false⟩ : ElimState T) (fun c s => elimStep isz n c s) = .ok s' := by
        intro s' hs'
        rw [forRange_succ_last (Nat.zero_le c), h.2, Res.ok_bind, hs']
      obtain ⟨s', g1, g2⟩ := flElim_inv R hneg hu8 hz (‹Rep A n n e›).fits hG0 _ hc s (hG' c hc.le s h.2) (fun s' hs' => hG' (c + 1) hc s' (hr s' hs')) h.1
      exact ⟨s', g1, g2, hr s' g1⟩)
  refine ⟨s.det, ?_, ?_⟩
  · unfold determinant
    rw [isSquare_eq h.toRepAt, h.cols, beq_self_eq_true, Bool.not_true, if_neg Bool.false_ne_true, if_neg (by omega), if_neg (by omega),
      if_neg (by omega), if_neg (by omega), hB, Res.ok_bind, h1]
    rfl
  · rcases h2 with ⟨-, E, g1, g2⟩ | ⟨e', E, σ, g, -, g1, g2, g3, g4⟩
    · exact ⟨E, g1, .inl g2⟩
    · refine ⟨E, g1, .inr ?_⟩
      have h3 := g3 0 (fun _ _ _ => rfl)
      rw [add_zero, det_lowZero (e := cleanT val n e') (fun i j _ h1 h2 => if_pos ⟨h2, h1⟩)] at h3
      have e1 : ∏ i ∈ Finset.range n, cleanT val n e' i i = ∏ i ∈ Finset.range n, val (e' i i) :=
        Finset.prod_congr rfl fun i _ => if_neg (by omega)
      have e2 : (toM n n e).map val + E + (0 : Matrix (Fin n) (Fin n) K).submatrix σ id = (toM n n e).map val + E := by
        funext i j; simp
      rw [e2, e1] at h3
      rw [h3, abs_mul, g2, one_mul]
      exact g4

/-- Products of perturbed numbers. -/
theorem prod_perturb {ι : Type} (s : Finset ι) {a b : ι → K} {G ε : K} (hG : 0 ≤ G) (hε : 0 ≤ ε) (ha : ∀ i, |a i| ≤ G) (hb : ∀ i, |b i| ≤ ε) :
    |∏ i ∈ s, (a i + b i) - ∏ i ∈ s, a i| ≤ (G + ε) ^ s.card - G ^ s.card ∧ |∏ i ∈ s, a i| ≤ G ^ s.card := by
  classical
  induction s using Finset.induction_on with
  | empty => simp
  | insert i s hi ih =>
    obtain ⟨h1, h2⟩ := ih
    rw [Finset.prod_insert hi, Finset.prod_insert hi, Finset.card_insert_of_notMem hi]
    have h3 : |a i + b i| ≤ G + ε := (abs_add_le _ _).trans (add_le_add (ha i) (hb i))
    constructor
    · have e : (a i + b i) * ∏ i ∈ s, (a i + b i) - a i * ∏ i ∈ s, a i =
          (a i + b i) * (∏ i ∈ s, (a i + b i) - ∏ i ∈ s, a i) + b i * ∏ i ∈ s, a i := by ring
      rw [e]
      refine (abs_add_le _ _).trans ?_
      rw [abs_mul, abs_mul]
      have h4 := mul_le_mul h3 h1 (abs_nonneg _) (by linarith)
      have h5 := mul_le_mul (hb i) h2 (abs_nonneg _) hε
      refine (add_le_add h4 h5).trans (le_of_eq ?_)
      ring
    · rw [abs_mul, pow_succ, mul_comm (G ^ _)]
      exact mul_le_mul (ha i) h2 (abs_nonneg _) hG

/-- Determinants of perturbed matrices. -/
theorem det_perturb {n : Nat} {M E : Matrix (Fin n) (Fin n) K} {G ε : K} (hG : 0 ≤ G) (hε : 0 ≤ ε) (hM : ∀ i j, |M i j| ≤ G) (hE : ∀ i j, |E i j| ≤ ε) :
    |(M + E).det - M.det| ≤ n.factorial * ((G + ε) ^ n - G ^ n) := by
  rw [Matrix.det_apply', Matrix.det_apply', ← Finset.sum_sub_distrib]
  refine (Finset.abs_sum_le_sum_abs _ _).trans ?_
  have : ∀ σ ∈ (Finset.univ : Finset (Equiv.Perm (Fin n))), |((Equiv.Perm.sign σ : ℤ) : K) * ∏ i, (M + E) (σ i) i - ((Equiv.Perm.sign σ : ℤ) : K) * ∏ i, M (σ i) i| ≤ (G + ε) ^ n - G ^ n := by
    intro σ _
    rw [← mul_sub, abs_mul]
    have h1 : |((Equiv.Perm.sign σ : ℤ) : K)| = 1 := by
      rcases Int.units_eq_one_or (Equiv.Perm.sign σ) with h | h <;> rw [h] <;> simp
    rw [h1, one_mul]
    have := (prod_perturb Finset.univ (a := fun i => M (σ i) i) (b := fun i => E (σ i) i) hG hε (fun i => hM _ _) (fun i => hE _ _)).1
    rwa [Finset.card_univ, Fintype.card_fin] at this
  refine (Finset.sum_le_sum this).trans (le_of_eq ?_)
  rw [Finset.sum_const, Finset.card_univ, Fintype.card_perm, Fintype.card_fin, nsmul_eq_mul]

omit [IsStrictOrderedRing K] [Add T] in
theorem GrowthBound.entries {A : MB T} {n : Nat} {M : Matrix (Fin n) (Fin n) T} (hA : A.Is M) {G : K} (hG : GrowthBound val isz A G) (i j : Fin n) :
    |val (M i j)| ≤ G := by
  obtain ⟨e, h, rfl⟩ := hA
  apply hG _ (Mat.ofMB_eq h id) 0 (Nat.zero_le _) _ (forRange_self _ _ _) (e i j)
  dsimp only
  rw [ofFn_data, vtab, List.mem_map]
  exact ⟨i * n + j, List.mem_range.2 (lin_lt i.2 j.2), by rw [lin_div j.2, lin_mod j.2]; rfl⟩

/-- C123, the part that holds, as an error of the result: if the determinant is larger than the effect of the backward error, the result is
right up to this effect and `n` roundings. -/
theorem C123_forward_partial (R : Rounds val u η) (one : val 1 = 1) (hneg : ∀ x : T, val (x * (-1)) = - val x) (hu8 : u ≤ 1 / 8)
    (hz : ∀ x, isz x = true ↔ val x = 0) {A : MB T} {n : Nat} (hn : 4 < n) {M : Matrix (Fin n) (Fin n) T} (hA : A.Is M) {G B : K}
    (hG : GrowthBound val isz A G) (hB : B = n.factorial * ((G + n * (4 * u * G + (2 + G) * η)) ^ n - G ^ n)) (hdet : B < |(M.map val).det|) :
    ∃ d, determinant isz A = .ok d ∧
      |val d - (M.map val).det| ≤ B + ((1 + u) ^ n - 1) * (|(M.map val).det| + B) + n * ((1 + u) * (1 + G)) ^ n * η := by
  have hu := R.u_nonneg
  have hη := R.η_nonneg
  obtain ⟨d, h1, E, h2, h3⟩ := C123_growth_partial R one hneg hu8 hz hn hA hG
  have hM := hG.entries hA
  have hG0 : 0 ≤ G := (abs_nonneg _).trans (hM ⟨0, by omega⟩ ⟨0, by omega⟩)
  have h4 := det_perturb (M := M.map val) (E := E) hG0 (by positivity) hM h2
  rw [← hB] at h4
  refine ⟨d, h1, ?_⟩
  rcases h3 with h3 | h3
  · rw [h3, zero_sub, abs_neg] at h4
    exact absurd h4 (not_le.2 hdet)
  · have h5 : |(M.map val + E).det| ≤ |(M.map val).det| + B := by
      have := abs_add_le ((M.map val + E).det - (M.map val).det) (M.map val).det
      rw [sub_add_cancel] at this
      linarith
    have h6 : 0 ≤ (1 + u) ^ n - 1 := sub_nonneg.2 (one_le_pow₀ (by linarith))
    have h7 := mul_le_mul_of_nonneg_left h5 h6
    have h8 := abs_add_le (val d - (M.map val + E).det) ((M.map val + E).det - (M.map val).det)
    rw [sub_add_sub_cancel] at h8
    linarith

end

/-- The hypotheses of C123 hold for all floating point formats with at least three digits. -/
theorem C123_float {K : Type} [Field K] [LinearOrder K] [IsStrictOrderedRing K] [FloorRing K] {p : ℕ} {emin : ℤ} (hp : 3 ≤ p) (he : emin ≤ 0)
    {tol : Fl K p emin} (ht : |tol.val| ≤ 1 / 4) :
    Rounds (Fl.val : Fl K p emin → K) (2 ^ (-(p : ℤ))) (2 ^ emin / 2) ∧ (1 : Fl K p emin).val = 1 ∧
      (∀ x : Fl K p emin, (x * (-1)).val = - x.val) ∧ (2 : K) ^ (-(p : ℤ)) ≤ 1 / 8 ∧ ∀ x, Feq.approxZero Fl.abs tol x = true ↔ x.val = 0 := by
  have h1 := (C84_float (K := K) (p := p) (emin := emin) (by omega) he).1
  refine ⟨Fl.rounds K (by omega) emin, h1, fun x => ?_, ?_, approxZero_fl (by omega) ht⟩
  · show rnd p emin (x.val * (-1 : Fl K p emin).val) = _
    have : (-1 : Fl K p emin).val = -1 := by show - (1 : Fl K p emin).val = -1; rw [h1]
    rw [this, mul_neg_one]
    exact rnd_exact (by omega) (-x).isFl
  · calc (2 : K) ^ (-(p : ℤ)) ≤ 2 ^ (-3 : ℤ) := zpow_le_zpow_right₀ (by norm_num) (by omega)
      _ = 1 / 8 := by norm_num

/-- C123 for `inverse` of 5×5 matrices: the errors of the minors as in C113, and the error of the determinant computed by elimination. -/
theorem C123_inverse_partial {K : Type} [Field K] [LinearOrder K] [IsStrictOrderedRing K] [FloorRing K] {p : ℕ} {emin : ℤ} (hp : 3 ≤ p)
    (he : emin ≤ 0) {tol : Fl K p emin} (ht : |tol.val| ≤ 1 / 4) {A : MB (Fl K p emin)} {M : Matrix (Fin 5) (Fin 5) (Fl K p emin)} (hA : A.Is M)
    {u η G B β : K} (hu : u = 2 ^ (-(p : ℤ))) (hη : η = 2 ^ emin / 2) (hG : GrowthBound Fl.val (Feq.approxZero Fl.abs tol) A G)
    (hB : B = 120 * ((G + 5 * (4 * u * G + (2 + G) * η)) ^ 5 - G ^ 5))
    (hβ : β = B + ((1 + u) ^ 5 - 1) * (|(M.map Fl.val).det| + B) + 5 * ((1 + u) * (1 + G)) ^ 5 * η) (hd : β < |(M.map Fl.val).det|) :
    ∃ X : Matrix (Fin 5) (Fin 5) (Fl K p emin), Yields (inverse (Feq.approxZero Fl.abs tol) A) X ∧ ∀ i j,
      |(X i j).val - (M.map Fl.val)⁻¹ i j| ≤ u * |(M.map Fl.val)⁻¹ i j| +
        (1 + u) * ((detErr u η G 4 ((M.map (|Fl.val ·|)).submatrix j.succAbove i.succAbove).permanent + |(M.map Fl.val)⁻¹ i j| * β) /
          (|(M.map Fl.val).det| - β)) + η := by
  obtain ⟨R, h1, h2, h3, h4⟩ := C123_float hp he ht
  rw [← hu] at R h3
  rw [← hη] at R
  have hu0 := R.u_nonneg
  have hη0 := R.η_nonneg
  have hM := hG.entries hA
  have hG0 : 0 ≤ G := (abs_nonneg _).trans (hM 0 0)
  have hB0 : 0 ≤ B := by
    rw [hB]
    have : G ^ 5 ≤ (G + 5 * (4 * u * G + (2 + G) * η)) ^ 5 := pow_le_pow_left₀ hG0 (le_add_of_nonneg_right (by positivity)) 5
    exact mul_nonneg (by norm_num) (sub_nonneg.2 this)
  have hBd : B < |(M.map Fl.val).det| := by
    refine lt_of_le_of_lt ?_ hd
    rw [hβ]
    have h6 : 0 ≤ (1 + u) ^ 5 - 1 := sub_nonneg.2 (one_le_pow₀ (by linarith))
    have h7 : 0 ≤ ((1 + u) ^ 5 - 1) * (|(M.map Fl.val).det| + B) := mul_nonneg h6 (by positivity)
    have h8 : 0 ≤ 5 * ((1 + u) * (1 + G)) ^ 5 * η := by positivity
    linarith
  obtain ⟨d, h5, h6⟩ := C123_forward_partial R h1 h2 h3 h4 (by norm_num) hA hG (B := B) (by rw [hB]; norm_num [Nat.factorial]) hBd
  exact inverse_of_det_err (by omega) he ht hA (le_refl 4) hM hu hη h5 (h6.trans (le_of_eq (by rw [hβ]; norm_num))) hd

/-- C123 is false: a tiny pivot is not exchanged, and the other rows are lost by rounding; the loop is left as if the matrix were singular,
with the product of the pivots so far. The determinant of the matrix is `1 - 2^-60`, the result is `-1`; the sum of the absolute values of the
products in the determinant is about three. -/
theorem C123_tiny_pivot_false :
    (!![1 / 2 ^ 60, 1, 1, 0, 0; 1, 1, 1, 0, 0; 1, 1, 0, 0, 0; 0, 0, 0, 1, 0; 0, 0, 0, 0, 1] : Matrix (Fin 5) (Fin 5) ℚ).det = 1 - 1 / 2 ^ 60 ∧
    (⟨5, 5, doubles [1 / 2 ^ 60, 1, 1, 0, 0, 1, 1, 1, 0, 0, 1, 1, 0, 0, 0, 0, 0, 0, 1, 0, 0, 0, 0, 0, 1]⟩ : Mat Double).data.map Fl.val =
      [1 / 2 ^ 60, 1, 1, 0, 0, 1, 1, 1, 0, 0, 1, 1, 0, 0, 0, 0, 0, 0, 1, 0, 0, 0, 0, 0, 1] ∧
    determinant (Feq.approxZero Fl.abs doubleTol)
      (⟨5, 5, doubles [1 / 2 ^ 60, 1, 1, 0, 0, 1, 1, 1, 0, 0, 1, 1, 0, 0, 0, 0, 0, 0, 1, 0, 0, 0, 0, 0, 1]⟩ : Mat Double).toMB = .ok (-1) := by
  refine ⟨?_, by decide +kernel, by decide +kernel⟩
  decide +kernel

/-- A computation that establishes `GrowthBound`. -/
theorem growthBound_check {T K : Type} [Zero T] [One T] [Sub T] [Mul T] [Neg T] [CDiv T] [Field K] [LinearOrder K] {val : T → K} {isz : T → Bool}
    {A : MB T} {G : K} (B : Mat T) (hB : Mat.ofMB A id = .ok B) (h : ((List.range (B.cols + 1)).all fun c =>
      match forRange 0 c (⟨B, 1, false⟩ : ElimState T) (fun c s => elimStep isz B.cols c s) with
      | .ok s => s.A.data.all fun x => decide (|val x| ≤ G)
      | _ => true) = true) : GrowthBound val isz A G := by
  intro B' hB' c hc s hs x hx
  rw [hB] at hB'
  injection hB' with e
  subst e
  have h1 := List.all_eq_true.1 h c (List.mem_range.2 (by omega))
  rw [hs] at h1
  exact of_decide_eq_true (List.all_eq_true.1 h1 x hx)

/-- C123: the matrix with `2` on the diagonal and `1` elsewhere does not grow beyond two, so `C123_growth_partial` applies with `G = 2`; the
determinant is 6. -/
example : GrowthBound Fl.val (Feq.approxZero Fl.abs doubleTol)
      (⟨5, 5, doubles [2, 1, 1, 1, 1, 1, 2, 1, 1, 1, 1, 1, 2, 1, 1, 1, 1, 1, 2, 1, 1, 1, 1, 1, 2]⟩ : Mat Double).toMB 2 ∧
    (!![2, 1, 1, 1, 1; 1, 2, 1, 1, 1; 1, 1, 2, 1, 1; 1, 1, 1, 2, 1; 1, 1, 1, 1, 2] : Matrix (Fin 5) (Fin 5) ℤ).det = 6 ∧
    determinant (Feq.approxZero Fl.abs doubleTol)
      (⟨5, 5, doubles [2, 1, 1, 1, 1, 1, 2, 1, 1, 1, 1, 1, 2, 1, 1, 1, 1, 1, 2, 1, 1, 1, 1, 1, 2]⟩ : Mat Double).toMB = .ok (Fl.of 53 (-1074) 6) :=
  ⟨growthBound_check ⟨5, 5, doubles [2, 1, 1, 1, 1, 1, 2, 1, 1, 1, 1, 1, 2, 1, 1, 1, 1, 1, 2, 1, 1, 1, 1, 1, 2]⟩ (by decide +kernel) (by decide +kernel),
    by decide +kernel, by decide +kernel⟩

/-- C123: for the growth two and the determinant six, the error of the determinant in `double` is below `2^-34`, so `C123_inverse_partial`
applies. -/
example {u η G B β : ℚ} (hu : u = 2 ^ (-53 : ℤ)) (hη : η = 2 ^ (-1074 : ℤ) / 2) (hG : G = 2)
    (hB : B = 120 * ((G + 5 * (4 * u * G + (2 + G) * η)) ^ 5 - G ^ 5))
    (hβ : β = B + ((1 + u) ^ 5 - 1) * (6 + B) + 5 * ((1 + u) * (1 + G)) ^ 5 * η) : β < 1 / 2 ^ 34 ∧ β < 6 := by
  subst hu hη hG hB hβ
  decide +kernel

end Malg
