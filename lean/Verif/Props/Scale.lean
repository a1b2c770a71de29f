import Verif.Props.IeeeAcker
import Verif.Props.FloatChar
import Verif.Props.ExpmEnds
/-!
# Property C144: a change of units
-/
namespace Malg
open Ops Lin Control

/-- Numbers that can be rescaled: `R g x y` says that `y` is `x` in units that are smaller by the factor `g`, `D x` that one may divide by `x`. Sums need
terms in the same unit, products and quotients have the product and the quotient of the units, zero is zero in every unit. -/
structure Scaling {G T : Type} [CommGroup G] [Zero T] [One T] [Add T] [Sub T] [Mul T] [Neg T] [CDiv T] (isz : T → Bool) (R : G → T → T → Prop)
    (D : T → Prop) : Prop where
  refl : ∀ x, R 1 x x
  zero : ∀ g, R g 0 0
  neg : ∀ {g x y}, R g x y → R g (-x) (-y)
  add : ∀ {g x y x' y'}, R g x x' → R g y y' → R g (x + y) (x' + y')
  sub : ∀ {g x y x' y'}, R g x x' → R g y y' → R g (x - y) (x' - y')
  mul : ∀ {g h x y x' y'}, R g x x' → R h y y' → R (g * h) (x * y) (x' * y')
  div : ∀ {g h x y x' y'}, R g x x' → R h y y' → D y → R (g / h) (quo x y) (quo x' y')
  divisor : ∀ {x}, D x → Divisor x
  dvd : ∀ {g x y}, R g x y → D x → D y
  same : ∀ {g x y}, R g x y → isz x = isz y
  nz : ∀ {x}, isz x = false → D x

namespace Scaling
variable {G T : Type} [CommGroup G] [Zero T] [One T] [Add T] [Sub T] [Mul T] [Neg T] [CDiv T] {isz : T → Bool} {R : G → T → T → Prop} {D : T → Prop}
  (S : Scaling isz R D)
include S

omit [CommGroup G] [Zero T] [One T] [Add T] [Sub T] [Mul T] [Neg T] [CDiv T] S in
theorem conv {g g' : G} {x y : T} (h : R g x y) (e : g = g') : R g' x y := e ▸ h

theorem lsum {g : G} {k : Nat} {t t' : Nat → T} (h : ∀ i, i < k → R g (t i) (t' i)) : R g (lsum k t) (Malg.lsum k t') := by
  induction k with
  | zero => exact S.zero g
  | succ k ih => exact S.add (ih fun i hi => h i (by omega)) (h k (by omega))

theorem lsub {g : G} {k : Nat} {x x' : T} (hx : R g x x') {t t' : Nat → T} (h : ∀ i, i < k → R g (t i) (t' i)) : R g (lsub x k t) (Malg.lsub x' k t') := by
  induction k with
  | zero => exact hx
  | succ k ih => exact S.sub (ih fun i hi => h i (by omega)) (h k (by omega))

theorem mul4 {g h k l m : G} {a b c d a' b' c' d' : T} (ha : R g a a') (hb : R h b b') (hc : R k c c') (hd : R l d d') (e : g * h * k * l = m) :
    R m (a * b * c * d) (a' * b' * c' * d') := conv (S.mul (S.mul (S.mul ha hb) hc) hd) e

/-- The closed formulas. -/
theorem closedDet {N : Nat} (hN : N ≤ 4) {d c : Nat → G} {e e' : Nat → Nat → T} (h : ∀ i j, i < N → j < N → R (d i * c j) (e i j) (e' i j)) :
    R (∏ i ∈ Finset.range N, d i * c i) (closedDet e N) (Malg.closedDet e' N) := by
  obtain rfl | rfl | rfl | rfl | rfl : N = 0 ∨ N = 1 ∨ N = 2 ∨ N = 3 ∨ N = 4 := by omega
  · exact S.refl 1
  · rw [Finset.prod_range_one]; exact h 0 0 (by omega) (by omega)
  · simp only [Finset.prod_range_succ, Finset.prod_range_zero, one_mul]
    refine S.sub (conv (S.mul (h 0 0 (by omega) (by omega)) (h 1 1 (by omega) (by omega))) rfl)
      (conv (S.mul (h 0 1 (by omega) (by omega)) (h 1 0 (by omega) (by omega))) ?_)
    simp only [mul_assoc, mul_comm, mul_left_comm]
  · have h' : ∀ i j, i < 3 → j < 3 → R (d i * c j) (e i j) (e' i j) := h
    have m3 : ∀ {g k l m : G} {x y z w v x' y' z' w' v' : T}, R g x x' → R k y y' → R l z z' → R m w w' → R (k * l / m) v v' →
        g * (k * l) = (d 0 * c 0 * (d 1 * c 1) * (d 2 * c 2)) → R (d 0 * c 0 * (d 1 * c 1) * (d 2 * c 2)) (x * (y * z - w * v)) (x' * (y' * z' - w' * v')) :=
      fun hx hy hz hw hv e => conv (S.mul hx (S.sub (S.mul hy hz) (conv (S.mul hw hv) (mul_div_cancel _ _)))) e
    simp only [Finset.prod_range_succ, Finset.prod_range_zero, one_mul]
    refine S.add (S.sub (m3 (h' 0 0 (by omega) (by omega)) (h' 1 1 (by omega) (by omega)) (h' 2 2 (by omega) (by omega)) (h' 2 1 (by omega) (by omega))
      (conv (h' 1 2 (by omega) (by omega)) ?_) ?_) (m3 (h' 0 1 (by omega) (by omega)) (h' 1 0 (by omega) (by omega)) (h' 2 2 (by omega) (by omega))
      (h' 1 2 (by omega) (by omega)) (conv (h' 2 0 (by omega) (by omega)) ?_) ?_)) (m3 (h' 0 2 (by omega) (by omega)) (h' 1 0 (by omega) (by omega))
      (h' 2 1 (by omega) (by omega)) (h' 1 1 (by omega) (by omega)) (conv (h' 2 0 (by omega) (by omega)) ?_) ?_)
    all_goals try rw [eq_div_iff_mul_eq']
    all_goals simp only [mul_assoc, mul_comm, mul_left_comm]
  · have h' : ∀ i j, i < 4 → j < 4 → R (d i * c j) (e i j) (e' i j) := h
    simp only [Finset.prod_range_succ, Finset.prod_range_zero, one_mul]
    unfold Malg.closedDet
    repeat' first
      | apply S.add
      | apply S.sub
      | refine S.mul4 (h' _ _ (by omega) (by omega)) (h' _ _ (by omega) (by omega)) (h' _ _ (by omega) (by omega)) (h' _ _ (by omega) (by omega)) ?_
    all_goals simp only [mul_assoc, mul_comm, mul_left_comm]

omit [Add T] S in
/-- The ways an iteration of the elimination can go, for any numbers. -/
theorem _root_.Malg.Lin.elimStep_cases (isz : T → Bool) (hz : ∀ x, isz x = false → Divisor x) {N c : Nat} (hf : Fits N N) (hc : c < N) (e : Nat → Nat → T) (d : T) :
    (isz (e c c) = false ∧ elimStep isz N c ⟨Mat.ofFn N N e, d, false⟩ =
      .ok ⟨Mat.ofFn N N (elimT e c fun r => quo (e r c) (e c c)), d * e c c, false⟩) ∨
    (isz (e c c) = true ∧ (∀ k, c < k → k < N → isz (e k c) = true) ∧ elimStep isz N c ⟨Mat.ofFn N N e, d, false⟩ = .ok ⟨Mat.ofFn N N e, d, true⟩) ∨
    (isz (e c c) = true ∧ ∃ k, c < k ∧ k < N ∧ isz (e k c) = false ∧ (∀ i, c < i → i < k → isz (e i c) = true) ∧
      elimStep isz N c ⟨Mat.ofFn N N e, d, false⟩ =
        .ok ⟨Mat.ofFn N N (elimT (swapT e c k) c fun r => quo (swapT e c k r c) (swapT e c k c c)), d * -1 * swapT e c k c c, false⟩) := by
  unfold elimStep
  rw [if_neg (by simp)]
  dsimp only
  rw [ofFn_at hf hc hc, Res.ok_bind]
  cases h0 : isz (e c c)
  · left
    refine ⟨rfl, ?_⟩
    rw [if_neg Bool.false_ne_true]
    show ((Mat.ofFn N N e).at_ c c >>= _) = _
    rw [ofFn_at hf hc hc, Res.ok_bind, eliminate_eq hf hc (q := fun r => quo (e r c) (e c c)) (fun r _ _ => hz _ h0 _)]
    rfl
  · right
    rw [if_pos rfl]
    by_cases h : ∃ k, c < k ∧ k < N ∧ isz (e k c) = false
    · classical
      right
      obtain ⟨h1, h2, h3⟩ := Nat.find_spec h
      have hb : ∀ i, c < i → i < Nat.find h → isz (e i c) = true := fun i hi1 hi2 => by
        have := Nat.find_min h hi2
        by_contra h'; exact this ⟨by omega, by omega, by simpa using h'⟩
      refine ⟨rfl, Nat.find h, h1, h2, h3, hb, ?_⟩
      generalize Nat.find h = k at *
      have hp : pivotRow isz (Mat.ofFn N N e) c = .ok (some k) := by
        unfold pivotRow
        refine forSearch_some h1 h2 (fun i hi1 hi2 => ?_) ?_
        · rw [ofFn_at hf (by omega) hc, Res.ok_bind, if_pos (hb i (by omega) hi2)]; rfl
        · rw [ofFn_at hf h2 hc, Res.ok_bind, if_neg (by rw [h3]; exact Bool.false_ne_true)]; rfl
      rw [hp, Res.ok_bind]
      have hsw := swapRows_self hf (e := e) hc h2
      change _ = Res.ok (Mat.ofFn N N (swapT e c k)) at hsw
      simp only [hsw, Res.ok_bind]
      show ((Mat.ofFn N N (swapT e c k)).at_ c c >>= _) = _
      have hs : swapT e c k c c = e k c := by unfold swapT; rw [if_pos rfl]
      rw [ofFn_at hf hc hc, Res.ok_bind,
        eliminate_eq hf hc (q := fun r => quo (swapT e c k r c) (swapT e c k c c)) (fun r _ _ => by rw [hs]; exact hz _ h3 _)]
      rfl
    · left
      have ha : ∀ k, c < k → k < N → isz (e k c) = true := fun k h1 h2 => by by_contra h'; exact h ⟨k, h1, h2, by simpa using h'⟩
      refine ⟨rfl, ha, ?_⟩
      have hp : pivotRow isz (Mat.ofFn N N e) c = .ok none := by
        unfold pivotRow
        refine forSearch_none fun i h1 h2 => ?_
        have h2' : i < N := h2
        rw [ofFn_at hf h2' hc, Res.ok_bind, if_pos (ha i (by omega) h2')]; rfl
      rw [hp]
      rfl

/-- One iteration of the elimination, on both matrices. -/
theorem elimT {N c : Nat} (hc : c < N) {d q : Nat → G} {e e' : Nat → Nat → T} (h : ∀ i j, i < N → j < N → R (d i * q j) (e i j) (e' i j)) (h0 : D (e c c)) :
    ∀ i j, i < N → j < N → R (d i * q j) (elimT e c (fun r => quo (e r c) (e c c)) i j) (Lin.elimT e' c (fun r => quo (e' r c) (e' c c)) i j) := by
  intro i j hi hj
  unfold Lin.elimT
  split
  · refine S.sub (h i j hi hj) (conv (S.mul (S.div (h i c hi hc) (h c c hc hc) h0) (h c j hc hj)) ?_)
    rw [mul_div_mul_right_eq_div, ← mul_assoc, div_mul_cancel]
  · exact h i j hi hj

/-- Both eliminations after `c` columns: the rows have been permuted alike. -/
def Elim (R : G → T → T → Prop) (N : Nat) (d q : Nat → G) (c : Nat) (s s' : ElimState T) : Prop :=
  ∃ (σ : Equiv.Perm ℕ) (e e' : Nat → Nat → T) (k : Nat), (∀ i, i < N → σ i < N) ∧ s.A = Mat.ofFn N N e ∧ s'.A = Mat.ofFn N N e' ∧
    (∀ i j, i < N → j < N → R (d (σ i) * q j) (e i j) (e' i j)) ∧ s'.stop = s.stop ∧ k ≤ c ∧ (s.stop = false → k = c) ∧
    R (∏ i ∈ Finset.range k, d (σ i) * q i) s.det s'.det

theorem elim_step {N c : Nat} (hf : Fits N N) (hc : c < N) {d q : Nat → G} {s s' : ElimState T} (h : Elim R N d q c s s') :
    ∃ t t', elimStep isz N c s = .ok t ∧ elimStep isz N c s' = .ok t' ∧ Elim R N d q (c + 1) t t' := by
  obtain ⟨σ, e, e', k, hσ, h1, h2, h3, h4, h5, h6, h7⟩ := h
  obtain ⟨A, det, stop⟩ := s
  obtain ⟨A', det', stop'⟩ := s'
  dsimp only at *
  subst h1 h2 h4
  cases stop'
  swap
  · exact ⟨⟨Mat.ofFn N N e, det, true⟩, ⟨Mat.ofFn N N e', det', true⟩, by rw [elimStep, if_pos rfl], by rw [elimStep, if_pos rfl], σ, e, e', k, hσ, rfl, rfl, h3, rfl, by omega, fun h => absurd h (by simp), h7⟩
  obtain rfl := h6 rfl
  have hz : ∀ x, isz x = false → Divisor x := fun x hx => S.divisor (S.nz hx)
  have hkk := S.same (h3 k k hc hc)
  rcases elimStep_cases isz hz hf hc e det with ⟨a1, a2⟩ | ⟨a1, a2, a3⟩ | ⟨a1, l, a2, a3, a4, a5, a6⟩ <;>
    rcases elimStep_cases isz hz hf hc e' det' with ⟨b1, b2⟩ | ⟨b1, b2, b3⟩ | ⟨b1, l', b2, b3, b4, b5, b6⟩
  any_goals (rw [a1, b1] at hkk; exact Bool.noConfusion hkk)
  · refine ⟨_, _, a2, b2, σ, _, _, k + 1, hσ, rfl, rfl, S.elimT hc h3 (S.nz a1), rfl, le_rfl, fun _ => rfl, ?_⟩
    rw [Finset.prod_range_succ]
    exact S.mul h7 (h3 k k hc hc)
  · exact ⟨_, _, a3, b3, σ, e, e', k, hσ, rfl, rfl, h3, rfl, by omega, fun h => absurd h (by simp), h7⟩
  · have := S.same (h3 l' k b3 hc)
    rw [a2 l' b2 b3, b4] at this
    exact absurd this (by simp)
  · have := S.same (h3 l k a3 hc)
    rw [b2 l a2 a3, a4] at this
    exact absurd this (by simp)
  · obtain rfl : l = l' := by
      rcases lt_trichotomy l l' with h | h | h
      · have := S.same (h3 l k a3 hc)
        rw [b5 l a2 h, a4] at this
        exact absurd this (by simp)
      · exact h
      · have := S.same (h3 l' k b3 hc)
        rw [a5 l' b2 h, b4] at this
        exact absurd this (by simp)
    have hrel : ∀ i j, i < N → j < N → R (d ((σ * Equiv.swap k l) i) * q j) (swapT e k l i j) (swapT e' k l i j) := by
      intro i j hi hj
      rw [Equiv.Perm.mul_apply, Equiv.swap_apply_def]
      unfold swapT
      refine h3 _ j ?_ hj
      split
      · exact a3
      · split <;> omega
    have hs : swapT e k l k k = e l k := by unfold swapT; rw [if_pos rfl]
    refine ⟨_, _, a6, b6, σ * Equiv.swap k l, _, _, k + 1, fun i hi => ?_, rfl, rfl, S.elimT hc hrel (S.nz (by rw [hs]; exact a4)), rfl, le_rfl,
      fun _ => rfl, ?_⟩
    · rw [Equiv.Perm.mul_apply, Equiv.swap_apply_def]
      split
      · exact hσ _ a3
      · split
        · exact hσ _ hc
        · exact hσ _ hi
    · rw [Finset.prod_range_succ, Finset.prod_congr rfl fun i hi => show d ((σ * Equiv.swap k l) i) * q i = d (σ i) * q i by
        have := Finset.mem_range.1 hi
        rw [Equiv.Perm.mul_apply, Equiv.swap_apply_of_ne_of_ne (by omega) (by omega)]]
      exact S.mul (conv (S.mul h7 (S.neg (S.refl 1))) (mul_one _)) (hrel k k hc hc)

/-- The loops over the columns. -/
theorem elim_loop {N : Nat} (hf : Fits N N) {d q : Nat → G} {e e' : Nat → Nat → T} (h : ∀ i j, i < N → j < N → R (d i * q j) (e i j) (e' i j)) {c : Nat} (hc : c ≤ N) :
    ∃ t t', forRange 0 c (⟨Mat.ofFn N N e, 1, false⟩ : ElimState T) (fun c s => elimStep isz N c s) = .ok t ∧
      forRange 0 c (⟨Mat.ofFn N N e', 1, false⟩ : ElimState T) (fun c s => elimStep isz N c s) = .ok t' ∧ Elim R N d q c t t' := by
  induction c with
  | zero => exact ⟨_, _, rfl, rfl, 1, e, e', 0, fun _ h => h, rfl, rfl, h, rfl, le_rfl, fun _ => rfl, S.refl 1⟩
  | succ c ih =>
    obtain ⟨t, t', h1, h2, h3⟩ := ih (by omega)
    obtain ⟨u, u', h4, h5, h6⟩ := S.elim_step hf (by omega) h3
    exact ⟨u, u', by rw [forRange_succ_last (Nat.zero_le c), h1, Res.ok_bind, h4], by rw [forRange_succ_last (Nat.zero_le c), h2, Res.ok_bind, h5], h6⟩

end Scaling

/-- The entries of `M'` are those of `M` in other units: `r` for the rows, `s` for the columns (the units of what the matrix is applied to). -/
def InUnits {G T : Type} [CommGroup G] (R : G → T → T → Prop) {n m : Nat} (r s : Nat → G) (M M' : Matrix (Fin n) (Fin m) T) : Prop :=
  ∀ (i : Fin n) (j : Fin m), R (r i / s j) (M i j) (M' i j)

/-- The elimination in `determinant` is not left by `break`, `linalg.hpp:174-176`. -/
def Uncut {T : Type} [One T] [Sub T] [Mul T] [Neg T] [CDiv T] [Zero T] (isz : T → Bool) (A : MB T) : Prop :=
  ∀ B, Mat.ofMB A id = .ok B → ∀ s, forRange 0 B.cols (⟨B, 1, false⟩ : ElimState T) (fun c s => elimStep isz B.cols c s) = .ok s → s.stop = false

theorem prod_skip {G : Type} [CommGroup G] (d : Nat → G) {n i : Nat} (hi : i < n) : (∏ r ∈ Finset.range (n - 1), d (skip i r)) * d i = ∏ r ∈ Finset.range n, d r := by
  obtain ⟨m, rfl⟩ : ∃ m, n = m + 1 := ⟨n - 1, by omega⟩
  rw [Nat.add_sub_cancel]
  induction m with
  | zero => obtain rfl : i = 0 := by omega
            simp
  | succ m ih =>
    by_cases h : i < m + 1
    · rw [Finset.prod_range_succ, Finset.prod_range_succ _ (m + 1), ← ih h]
      have : skip i m = m + 1 := by unfold skip; rw [if_neg (by omega)]
      rw [this, mul_right_comm]
    · obtain rfl : i = m + 1 := by omega
      rw [Finset.prod_range_succ _ (m + 1)]
      congr 1
      refine Finset.prod_congr rfl fun r hr => ?_
      have := Finset.mem_range.1 hr
      unfold skip
      rw [if_pos (by omega)]

namespace Scaling
variable {G T : Type} [CommGroup G] [Zero T] [One T] [Add T] [Sub T] [Mul T] [Neg T] [CDiv T] {isz : T → Bool} {R : G → T → T → Prop} {D : T → Prop}
  (S : Scaling isz R D)
include S

theorem determinant {A A' : MB T} {n : Nat} {e e' : Nat → Nat → T} (hA : Rep A n n e) (hA' : Rep A' n n e') {d q : Nat → G}
    (h : ∀ i j, i < n → j < n → R (d i * q j) (e i j) (e' i j)) :
    ∃ x x', determinant isz A = .ok x ∧ Lin.determinant isz A' = .ok x' ∧
      (∃ k ≤ n, ∃ I ⊆ Finset.range n, I.card = k ∧ R ((∏ i ∈ I, d i) * ∏ j ∈ Finset.range k, q j) x x') ∧
      (n ≤ 4 ∨ Uncut isz A → R (∏ i ∈ Finset.range n, d i * q i) x x') := by
  by_cases hN : n ≤ 4
  · have := S.closedDet hN h
    exact ⟨_, _, determinant_closed isz hA hN, determinant_closed isz hA' hN,
      ⟨n, le_rfl, Finset.range n, le_rfl, Finset.card_range n, by rwa [← Finset.prod_mul_distrib]⟩, fun _ => this⟩
  obtain ⟨t, t', h1, h2, σ, f, f', k, hσ, -, -, -, -, h3, h4, h5⟩ := S.elim_loop hA.fits h le_rfl
  have run : ∀ {A : MB T} {e : Nat → Nat → T} {t : ElimState T}, Rep A n n e →
      forRange 0 n (⟨Mat.ofFn n n e, 1, false⟩ : ElimState T) (fun c s => elimStep isz n c s) = .ok t → Lin.determinant isz A = .ok t.det := by
    intro A e t hA h1
    unfold Lin.determinant
    rw [isSquare_eq hA.toRepAt, hA.cols, beq_self_eq_true, Bool.not_true, if_neg Bool.false_ne_true]
    rw [if_neg (by omega), if_neg (by omega), if_neg (by omega), if_neg (by omega), Mat.ofMB_eq hA, Res.ok_bind]
    dsimp only [id]
    rw [h1]; rfl
  refine ⟨_, _, run hA h1, run hA' h2, ⟨k, h3, (Finset.range k).image σ, fun x hx => ?_, ?_, ?_⟩, fun hU => ?_⟩
  · obtain ⟨i, hi, rfl⟩ := Finset.mem_image.1 hx
    exact Finset.mem_range.2 (hσ i (lt_of_lt_of_le (Finset.mem_range.1 hi) h3))
  · rw [Finset.card_image_of_injective _ σ.injective, Finset.card_range]
  · rw [Finset.prod_image fun _ _ _ _ h => σ.injective h, ← Finset.prod_mul_distrib]
    exact h5
  · have hs := hU.resolve_left hN _ (Mat.ofMB_eq hA id) t (by exact h1)
    obtain rfl := h4 hs
    refine conv h5 ?_
    rw [Finset.prod_mul_distrib, Finset.prod_mul_distrib]
    congr 1
    have himg : (Finset.range k).image σ = Finset.range k := by
      refine Finset.eq_of_subset_of_card_le (fun x hx => ?_) ?_
      · obtain ⟨i, hi, rfl⟩ := Finset.mem_image.1 hx
        exact Finset.mem_range.2 (hσ i (Finset.mem_range.1 hi))
      · rw [Finset.card_image_of_injective _ σ.injective]
    rw [← Finset.prod_image (f := d) (g := σ) fun _ _ _ _ h => σ.injective h, himg]

theorem inverse {A A' : MB T} {n : Nat} {e e' : Nat → Nat → T} (hA : Rep A n n e) (hA' : Rep A' n n e') {d q : Nat → G}
    (h : ∀ i j, i < n → j < n → R (d i * q j) (e i j) (e' i j)) (hU : n ≤ 4 ∨ Uncut isz A) (hC : n ≤ 5 ∨ ∀ i j, i < n → j < n → Uncut isz (A.cofactor i j)) :
    ((∀ x, Lin.determinant isz A = .ok x → isz x = true) ∧ inverse isz A = .ok Mat.empty0 ∧ Lin.inverse isz A' = .ok Mat.empty0) ∨
    ∃ v v', Lin.inverse isz A = .ok (Mat.ofFn n n v) ∧ Lin.inverse isz A' = .ok (Mat.ofFn n n v') ∧
      ∀ i j, i < n → j < n → R (q i * d j)⁻¹ (v i j) (v' i j) := by
  obtain ⟨x, x', hx, hx', -, hR⟩ := S.determinant hA hA' h
  have hR := hR hU
  have hs := S.same hR
  cases h0 : isz x
  swap
  · left
    have key : ∀ {A : MB T} {e : Nat → Nat → T} {x : T}, Rep A n n e → Lin.determinant isz A = .ok x → isz x = true → Lin.inverse isz A = .ok Mat.empty0 := by
      intro A e x hA hx h0
      unfold Lin.inverse
      rw [isSquare_eq hA.toRepAt, beq_self_eq_true, Bool.not_true, if_neg Bool.false_ne_true, hx, Res.ok_bind, if_pos h0]
      rfl
    exact ⟨fun y hy => by rw [hx] at hy; rw [← Res.ok.inj hy, h0], key hA hx h0, key hA' hx' (by rw [← hs, h0])⟩
  right
  have h0' : isz x' = false := by rw [← hs, h0]
  obtain ⟨w, w', hw, hw', hr⟩ : ∃ w w', adjoint isz A = .ok (Mat.ofFn n n w) ∧ adjoint isz A' = .ok (Mat.ofFn n n w') ∧
      ∀ i j, i < n → j < n → R ((∏ i ∈ Finset.range n, d i * q i) / (q i * d j)) (w i j) (w' i j) := by
    by_cases h1 : n = 1
    · subst h1
      have key : ∀ {A : MB T} {e : Nat → Nat → T}, Rep A 1 1 e → adjoint isz A = .ok (Mat.ofFn 1 1 fun _ _ => 1) := by
        intro A e hA
        unfold adjoint
        rw [isSquare_eq hA.toRepAt, hA.cols, beq_self_eq_true, Bool.not_true, if_neg Bool.false_ne_true, if_pos rfl, Mat.new_eq hA.fits]
      refine ⟨_, _, key hA, key hA', fun i j hi hj => conv (S.refl 1) ?_⟩
      obtain rfl : i = 0 := by omega
      obtain rfl : j = 0 := by omega
      rw [Finset.prod_range_one, mul_comm (q 0), div_self']
    have hm : ∀ i j, ∃ z z', i < n → j < n → Lin.determinant isz (A.cofactor i j) = .ok z ∧ Lin.determinant isz (A'.cofactor i j) = .ok z' ∧
        R ((∏ i ∈ Finset.range n, d i * q i) / (q j * d i)) z z' := by
      intro i j
      by_cases hij : i < n ∧ j < n
      swap
      · exact ⟨0, 0, fun hi hj => absurd ⟨hi, hj⟩ hij⟩
      obtain ⟨hi, hj⟩ := hij
      obtain ⟨z, z', h1, h2, -, h3⟩ := S.determinant (cofactor_rep hA.toRepAt (by omega) i j) (cofactor_rep hA'.toRepAt (by omega) i j)
        (d := fun r => d (skip i r)) (q := fun c => q (skip j c)) (fun r c hr hc => h _ _ (skip_lt hr) (skip_lt hc))
      refine ⟨z, z', fun _ _ => ⟨h1, h2, conv (h3 ?_) ?_⟩⟩
      · rcases hC with hC | hC
        · exact .inl (by omega)
        · exact .inr (hC i j hi hj)
      · rw [eq_div_iff_mul_eq', Finset.prod_mul_distrib, Finset.prod_mul_distrib, ← prod_skip d hi, ← prod_skip q hj]
        simp only [mul_assoc, mul_comm, mul_left_comm]
    choose z z' hz using hm
    refine ⟨_, _, adjoint_exec hA.toRepAt h1 fun i j hi hj => (hz i j hi hj).1, adjoint_exec hA'.toRepAt h1 fun i j hi hj => (hz i j hi hj).2.1,
      fun i j hi hj => conv (S.mul ?_ (hz j i hj hi).2.2) (one_mul _)⟩
    split
    · exact S.refl _
    · exact S.neg (S.refl _)
  have fin : ∀ {A : MB T} {e w : Nat → Nat → T} {x : T}, Rep A n n e → Lin.determinant isz A = .ok x → isz x = false → adjoint isz A = .ok (Mat.ofFn n n w) →
      Lin.inverse isz A = .ok (Mat.ofFn n n fun i j => quo (w i j) x) := by
    intro A e w x hA hx h0 hw
    have := (inverse_exec hA.toRepAt hx h0 (S.divisor (S.nz h0)) (Yields.of_eq hA.fits hw)).eq
    rw [this]
    refine congrArg _ (ofFn_congr fun i j hi hj => ?_)
    rw [tab_lt _ hi hj]
    rfl
  refine ⟨_, _, fin hA hx h0 hw, fin hA' hx' h0' hw', fun i j hi hj => conv (S.div (hr i j hi hj) hR (S.nz h0)) ?_⟩
  rw [div_div, mul_comm, ← div_div, div_self', one_div]

/-- The factors of `lu_decomposition`, as far as both have been computed. -/
theorem lu_tables {N m : Nat} (hm : m ≤ N) {d q : Nat → G} {a a' l l' u u' : Nat → Nat → T} (h : ∀ i j, i < N → j < N → R (d i * q j) (a i j) (a' i j))
    (hl : ∀ j c, j < N → c < m → c ≤ j → l j c = Malg.lsub (a j c) c fun k => l j k * u k c)
    (hl' : ∀ j c, j < N → c < m → c ≤ j → l' j c = Malg.lsub (a' j c) c fun k => l' j k * u' k c)
    (hu : ∀ r c, r + 1 < m → c < N → r < c → u r c = Malg.lsub (quo (a r c) (l r r)) r fun k => quo (l r k * u k c) (l r r))
    (hu' : ∀ r c, r + 1 < m → c < N → r < c → u' r c = Malg.lsub (quo (a' r c) (l' r r)) r fun k => quo (l' r k * u' k c) (l' r r))
    (hD : ∀ r, r + 1 < N → D (l r r)) :
    (∀ j c, j < N → c < m → c ≤ j → R (d j * q c) (l j c) (l' j c)) ∧ (∀ r c, r + 1 < m → c < N → r < c → R (q c / q r) (u r c) (u' r c)) := by
  have key : ∀ i, i ≤ m → (∀ j c, j < N → c < i → c ≤ j → R (d j * q c) (l j c) (l' j c)) ∧
      (∀ r c, r < i → r + 1 < m → c < N → r < c → R (q c / q r) (u r c) (u' r c)) := by
    intro i
    induction i with
    | zero => exact fun _ => ⟨fun _ _ _ h => absurd h (by omega), fun _ _ h => absurd h (by omega)⟩
    | succ i ih =>
      intro hi
      obtain ⟨h1, h2⟩ := ih (by omega)
      have hcol : ∀ j, j < N → i ≤ j → R (d j * q i) (l j i) (l' j i) := by
        intro j hj hij
        rw [hl j i hj (by omega) hij, hl' j i hj (by omega) hij]
        refine S.lsub (h j i hj (by omega)) fun k hk => conv (S.mul (h1 j k hj hk (by omega)) (h2 k i hk (by omega) (by omega) hk)) ?_
        rw [mul_assoc, mul_div_cancel]
      refine ⟨fun j c hj hc hcj => ?_, fun r c hr hrm hc hrc => ?_⟩
      · rcases Nat.lt_succ_iff_lt_or_eq.1 hc with hc | rfl
        · exact h1 j c hj hc hcj
        · exact hcol j hj hcj
      · rcases Nat.lt_succ_iff_lt_or_eq.1 hr with hr | rfl
        · exact h2 r c hr hrm hc hrc
        · have hp := hcol r (by omega) le_rfl
          have hd := hD r (by omega)
          rw [hu r c hrm hc hrc, hu' r c hrm hc hrc]
          refine S.lsub (conv (S.div (h r c (by omega) hc) hp hd) (mul_div_mul_left_eq_div _ _ _)) fun k hk =>
            conv (S.div (S.mul (h1 r k (by omega) hk (by omega)) (h2 k c hk (by omega) hc (by omega))) hp hd) ?_
          rw [mul_assoc, mul_div_cancel, mul_div_mul_left_eq_div]
  exact ⟨(key m le_rfl).1, fun r c hr => (key m le_rfl).2 r c (by omega) hr⟩

theorem expPow {n : Nat} {g : G} {d : Nat → G} {e e' : Nat → Nat → T} (h : ∀ i j, i < n → j < n → R (g * d i / d j) (e i j) (e' i j)) (k : Nat) :
    ∀ i j, i < n → j < n → R (g ^ k * d i / d j) (expPow n e k i j) (Malg.expPow n e' k i j) := by
  induction k with
  | zero =>
    intro i j _ _
    unfold Malg.expPow
    split
    · subst_vars; exact conv (S.refl 1) (by rw [pow_zero, one_mul, div_self'])
    · exact S.zero _
  | succ k ih =>
    intro i j hi hj
    refine S.lsum fun l hl => conv (S.mul (ih i l hi hl) (h l j hl hj)) ?_
    rw [← mul_div_assoc, mul_comm g (d l), ← mul_assoc, div_mul_cancel, pow_succ, mul_right_comm]

end Scaling

namespace Scaling
variable {G T : Type} [CommGroup G] [Zero T] [One T] [Add T] [Sub T] [Mul T] [Neg T] [NatCast T] [CDiv T] {isz : T → Bool} {R : G → T → T → Prop} {D : T → Prop}
  (S : Scaling isz R D)
include S

theorem levStep {n : Nat} {g : G} {d : Nat → G} {e e' : Nat → Nat → T} (h : ∀ i j, i < n → j < n → R (g * d i / d j) (e i j) (e' i j))
    (hD : ∀ m, 2 ≤ m → m ≤ n → D (m : T)) (k : Nat) (hk : k < n) :
    (∀ i j, i < n → j < n → R (g ^ (k + 1) * d i / d j) ((levStep n e k).1 i j) ((Malg.levStep n e' k).1 i j)) ∧
      R (g ^ (k + 1)) (Malg.levStep n e k).2 (Malg.levStep n e' k).2 := by
  induction k with
  | zero =>
    rw [zero_add, pow_one]
    exact ⟨h, S.lsum fun i hi => conv (h i i hi hi) (mul_div_cancel_right _ _)⟩
  | succ k ih =>
    obtain ⟨h1, h2⟩ := ih (by omega)
    have hb : ∀ i j, i < n → j < n → R (g ^ (k + 2) * d i / d j)
        (Malg.lsum n fun l => e i l * ((Malg.levStep n e k).1 l j - (if l = j then 1 else 0) * (Malg.levStep n e k).2))
        (Malg.lsum n fun l => e' i l * ((Malg.levStep n e' k).1 l j - (if l = j then 1 else 0) * (Malg.levStep n e' k).2)) := by
      intro i j hi hj
      refine S.lsum fun l hl => conv (S.mul (h i l hi hl) (S.sub (h1 l j hl hj) ?_)) ?_
      · split
        · subst_vars
          refine conv (S.mul (S.refl 1) h2) ?_
          rw [one_mul, mul_div_cancel_right]
        · refine conv (S.mul (S.zero (d l / d j)) h2) ?_
          rw [mul_comm, mul_div_assoc]
      · rw [pow_succ' g (k + 1)]
        simp only [div_eq_mul_inv]
        rw [show g * d i * (d l)⁻¹ * (g ^ (k + 1) * d l * (d j)⁻¹) = g * g ^ (k + 1) * d i * (d j)⁻¹ * (d l * (d l)⁻¹) by
          simp only [mul_comm, mul_left_comm, mul_assoc], mul_inv_cancel, mul_one]
    refine ⟨hb, ?_⟩
    have hq : ∀ (t : T) (m : Nat), quot t m = quo t (m : T) := fun _ _ => rfl
    show R (g ^ (k + 1 + 1)) (quot _ (k + 2)) (quot _ (k + 2))
    rw [hq, hq]
    exact conv (S.div (S.lsum fun i hi => conv (hb i i hi hi) (mul_div_cancel_right _ _)) (S.refl _) (hD (k + 2) (by omega) (by omega))) (div_one _)

omit [NatCast T] in
theorem rootTab {g : G} {f f' : Nat → T} {n : Nat} (h : ∀ j, j < n → R g (f j) (f' j)) : ∀ k, k ≤ n → ∀ i, R (g ^ i) (rootTab f k i) (Malg.rootTab f' k i) := by
  intro k
  induction k with
  | zero =>
    intro _ i
    unfold Malg.rootTab
    split
    · subst_vars; exact conv (S.refl 1) (pow_zero g).symm
    · exact S.zero _
  | succ k ih =>
    intro hk i
    unfold Malg.rootTab
    split
    · exact ih (by omega) i
    · next hi =>
      obtain ⟨j, rfl⟩ : ∃ j, i = j + 1 := ⟨i - 1, by omega⟩
      exact S.sub (ih (by omega) _) (conv (S.mul (h k (by omega)) (ih (by omega) _)) (by rw [Nat.add_sub_cancel, pow_succ']))

omit [NatCast T] in
theorem ackerAcc {n : Nat} {g : G} {d : Nat → G} {a a' : Nat → Nat → T} (h : ∀ i j, i < n → j < n → R (g * d i / d j) (a i j) (a' i j)) {p p' : Nat → T}
    (hp : ∀ i, R (g ^ i) (p i) (p' i)) (k : Nat) (hk : k ≤ n + 1) :
    ∀ i j, i < n → j < n → R (g ^ n * d i / d j) (ackerAcc n a p k i j) (Malg.ackerAcc n a' p' k i j) := by
  induction k with
  | zero => exact fun _ _ _ _ => S.zero _
  | succ k ih =>
    intro i j hi hj
    refine S.add (ih (by omega) i j hi hj) (conv (S.mul (S.expPow h (n - k) i j hi hj) (hp k)) ?_)
    obtain ⟨l, hl⟩ : ∃ l, n = l + k := ⟨n - k, by omega⟩
    rw [hl, Nat.add_sub_cancel, pow_add, div_mul_eq_mul_div, mul_right_comm]

omit [NatCast T] in
theorem ackerGain {n : Nat} {s : G} {d c : Nat → G} {v v' w w' : Nat → Nat → T} (hv : ∀ i j, i < n → j < n → R (c i * d j)⁻¹ (v i j) (v' i j))
    (hw : ∀ i j, i < n → j < n → R (s * d i / d j) (w i j) (w' i j)) :
    ∀ j, j < n → R (s / (c (n - 1) * d j)) (ackerGain n v w 0 j) (Malg.ackerGain n v' w' 0 j) := by
  intro j hj
  refine S.lsum fun k hk => conv (S.mul (S.lsum (g := (c (n - 1) * d k)⁻¹) fun l hl => ?_) (hw k j hk hj)) ?_
  · by_cases h : l = n - 1
    · subst h
      exact conv (S.mul (by rw [if_pos ⟨rfl, rfl⟩]; exact S.refl 1) (hv _ k hl hk)) (one_mul _)
    · refine conv (S.mul (by rw [if_neg (fun hc => h hc.2)]; exact S.zero ((c (n - 1) * d k)⁻¹ * (c l * d k))) (hv l k hl hk)) ?_
      rw [mul_assoc, mul_inv_cancel, mul_one]
  · rw [eq_div_iff_mul_eq', mul_inv]
    simp only [div_eq_mul_inv]
    rw [show (c (n - 1))⁻¹ * (d k)⁻¹ * (s * d k * (d j)⁻¹) * (c (n - 1) * d j) =
      s * (c (n - 1) * (c (n - 1))⁻¹) * (d j * (d j)⁻¹) * (d k * (d k)⁻¹) by simp only [mul_comm, mul_left_comm, mul_assoc]]
    simp only [mul_inv_cancel, mul_one]

end Scaling

section claims
variable {G T : Type} [CommGroup G] [Zero T] [One T] [Add T] [Sub T] [Mul T] [Neg T] [CDiv T] {isz : T → Bool} {R : G → T → T → Prop} {D : T → Prop}
  (S : Scaling isz R D)
include S

/-- C144: products. If the columns of `A` and the rows of `B` have the same units, the product has the units of the rows of `A` and of the columns of `B`;
the digits are the same. -/
theorem C144_product {A A' B B' : MB T} {n k m : Nat} {M M' : Matrix (Fin n) (Fin k) T} {N N' : Matrix (Fin k) (Fin m) T} (hA : A.Is M) (hA' : A'.Is M')
    (hB : B.Is N) (hB' : B'.Is N') (hf : Fits n m) {r s t : Nat → G} (h : InUnits R r s M M') (h' : InUnits R s t N N') :
    ∃ P P' : Matrix (Fin n) (Fin m) T, Yields (mul A B) P ∧ Yields (mul A' B') P' ∧ InUnits R r t P P' := by
  obtain ⟨e, hA, rfl⟩ := hA
  obtain ⟨e', hA', rfl⟩ := hA'
  obtain ⟨f, hB, rfl⟩ := hB
  obtain ⟨f', hB', rfl⟩ := hB'
  refine ⟨_, _, (C35_entries hA.toRepAt hB.toRepAt hf).yields, (C35_entries hA'.toRepAt hB'.toRepAt hf).yields, fun i j =>
    S.lsum fun l hl => Scaling.conv (S.mul (h i ⟨l, hl⟩) (h' ⟨l, hl⟩ j)) (div_mul_div_cancel _ _ _)⟩

/-- C144: determinants. The determinant is multiplied by the units of all rows and divided by those of all columns, up to 4x4 and whenever the elimination
runs through all columns. In any case it is multiplied by the units of some of the rows and divided by those of as many columns. -/
theorem C144_determinant {A A' : MB T} {n : Nat} {M M' : Matrix (Fin n) (Fin n) T} (hA : A.Is M) (hA' : A'.Is M') {r s : Nat → G}
    (h : InUnits R r s M M') :
    ∃ x x', determinant isz A = .ok x ∧ determinant isz A' = .ok x' ∧
      (∃ k ≤ n, ∃ I ⊆ Finset.range n, I.card = k ∧ R ((∏ i ∈ I, r i) / ∏ j ∈ Finset.range k, s j) x x') ∧
      (n ≤ 4 ∨ Uncut isz A → R (∏ i ∈ Finset.range n, r i / s i) x x') := by
  obtain ⟨e, hA, rfl⟩ := hA
  obtain ⟨e', hA', rfl⟩ := hA'
  obtain ⟨x, x', h1, h2, ⟨k, h3, I, h4, h5, h6⟩, h7⟩ := S.determinant hA hA' (d := r) (q := fun j => (s j)⁻¹)
    (fun i j hi hj => Scaling.conv (h ⟨i, hi⟩ ⟨j, hj⟩) (div_eq_mul_inv _ _))
  exact ⟨x, x', h1, h2, ⟨k, h3, I, h4, h5, Scaling.conv h6 (by rw [Finset.prod_inv_distrib, div_eq_mul_inv])⟩,
    fun hU => Scaling.conv (h7 hU) (Finset.prod_congr rfl fun i _ => (div_eq_mul_inv _ _).symm)⟩

/-- C144: inverses. Rows and columns exchange their units; either both calls find the matrix singular or none. -/
theorem C144_inverse {A A' : MB T} {n : Nat} {M M' : Matrix (Fin n) (Fin n) T} (hA : A.Is M) (hA' : A'.Is M') {r s : Nat → G}
    (h : InUnits R r s M M') (hU : n ≤ 4 ∨ Uncut isz A) (hC : n ≤ 5 ∨ ∀ i j, i < n → j < n → Uncut isz (A.cofactor i j)) :
    (inverse isz A = .ok Mat.empty0 ∧ inverse isz A' = .ok Mat.empty0) ∨
    ∃ V V' : Matrix (Fin n) (Fin n) T, Yields (inverse isz A) V ∧ Yields (inverse isz A') V' ∧ InUnits R s r V V' := by
  obtain ⟨e, hA, rfl⟩ := hA
  obtain ⟨e', hA', rfl⟩ := hA'
  rcases S.inverse hA hA' (d := r) (q := fun j => (s j)⁻¹) (fun i j hi hj => Scaling.conv (h ⟨i, hi⟩ ⟨j, hj⟩) (div_eq_mul_inv _ _)) hU hC with ⟨-, h⟩ | ⟨v, v', h1, h2, h3⟩
  · exact .inl h
  refine .inr ⟨_, _, Yields.of_eq hA.fits h1, Yields.of_eq hA.fits h2, fun i j => Scaling.conv (h3 i j i.2 j.2) ?_⟩
  rw [mul_inv, inv_inv, div_eq_mul_inv]

/-- C144: LU decompositions. `L` has the units of the matrix, `U` those of its columns on both sides; the second decomposition exists if the first one does and
its pivots can be divided by. -/
theorem C144_lu (hd : ∀ y : T, Divisor y ∨ ∀ x, cdiv x y = .ub .divZero) {A A' : MB T} {n : Nat} {M M' : Matrix (Fin n) (Fin n) T} (hA : A.Is M)
    (hA' : A'.Is M') {r s : Nat → G} (h : InUnits R r s M M') {L U : Mat T} (hlu : lu A = .ok (L, U))
    (hD : ∀ i x, i + 1 < n → L.at_ i i = .ok x → D x) :
    ∃ L' U', lu A' = .ok (L', U') ∧ ∀ i j, i < n → j < n → ∃ l l' u u', L.at_ i j = .ok l ∧ L'.at_ i j = .ok l' ∧ U.at_ i j = .ok u ∧ U'.at_ i j = .ok u' ∧
      R (r i / s j) l l' ∧ R (s i / s j) u u' := by
  obtain ⟨a, hA, rfl⟩ := hA
  obtain ⟨a', hA', rfl⟩ := hA'
  have hf := hA.fits
  have h0 : ∀ i j, i < n → j < n → R (r i * (s j)⁻¹) (a i j) (a' i j) := fun i j hi hj => Scaling.conv (h ⟨i, hi⟩ ⟨j, hj⟩) (div_eq_mul_inv _ _)
  rcases lu_exec hA.toRepAt hd with ⟨l, u, h1, h2⟩ | h1
  swap
  · rw [h1] at hlu; cases hlu
  rw [h1] at hlu
  obtain ⟨rfl, rfl⟩ := Prod.mk.inj (Res.ok.inj hlu)
  have hD' : ∀ i, i + 1 < n → D (l i i) := fun i hi => hD i _ hi (ofFn_at hf (by omega) (by omega))
  rcases lu_exec_stop hA'.toRepAt hd with ⟨l', u', h3, h4⟩ | ⟨-, i, l', u', h4⟩
  · obtain ⟨h5, h6⟩ := S.lu_tables le_rfl h0 h2.l_low h4.l_low (fun r c hr hc => h2.u_up r c (by omega) hc) (fun r c hr hc => h4.u_up r c (by omega) hc) hD'
    refine ⟨_, _, h3, fun i j hi hj => ⟨_, _, _, _, ofFn_at hf hi hj, ofFn_at hf hi hj, ofFn_at hf hi hj, ofFn_at hf hi hj, ?_, ?_⟩⟩
    · by_cases hij : j ≤ i
      · exact Scaling.conv (h5 i j hi hj hij) (div_eq_mul_inv _ _).symm
      · rw [h2.l_up i j hi hj (by omega), h4.l_up i j hi hj (by omega)]
        exact S.zero _
    · rcases lt_trichotomy i j with hij | rfl | hij
      · exact Scaling.conv (h6 i j (by omega) hj hij) (by rw [div_inv_eq_mul, mul_comm, div_eq_mul_inv])
      · rw [h2.u_one i hi, h4.u_one i hi]
        exact Scaling.conv (S.refl 1) (div_self' _).symm
      · rw [h2.u_low i j hi hj hij, h4.u_low i j hi hj hij]
        exact S.zero _
  · exfalso
    have hi := h4.lt
    obtain ⟨h5, -⟩ := S.lu_tables (m := i + 1) (by omega) h0 (fun j c hj hc => h2.l_low j c hj (by omega)) (fun j c hj hc => h4.l_low j c hj (by omega))
      (fun r c hr hc => h2.u_up r c (by omega) hc) (fun r c hr hc => h4.u_up r c (by omega) hc) hD'
    exact h4.stop (S.divisor (S.dvd (h5 i i (by omega) (by omega) le_rfl) (hD' i hi)))

/-- C144: simulations. With units `r` for the states, `s` for the inputs and `t` for the outputs, the same steps are made at the same times and the digits of all
states and outputs are the same. -/
theorem C144_simulate {sys sys' : DiscreteStateSpace T} {n m p : Nat} {A A' : Matrix (Fin n) (Fin n) T} {B B' : Matrix (Fin n) (Fin m) T}
    {C C' : Matrix (Fin p) (Fin n) T} {E E' : Matrix (Fin p) (Fin m) T} (h : sys.toStateSpace.Is A B C E) (h' : sys'.toStateSpace.Is A' B' C' E')
    (hdt : sys'.sampleTime = sys.sampleTime) (hn : n < allocMax) (hm : m < allocMax) (hp : p < allocMax) {r s t : Nat → G}
    (hA : InUnits R r r A A') (hB : InUnits R r s B B') (hC : InUnits R t r C C')
    (hE : InUnits R t s E E') {toSize : T → Res Nat} {N k : Nat} {q st : T} (hq : cdiv st sys.sampleTime = .ok q) (hk : toSize q = .ok k)
    {w w' : Nat → Nat → T} {x0 x0' : Nat → T} (hw : ∀ l j, l < N → j < m → R (s j) (w l j) (w' l j)) (hx : ∀ i, i < n → R (r i) (x0 i) (x0' i)) :
    ∃ (ts : List T) (X X' Y Y' : Nat → Nat → T), simulate toSize sys (vtab N fun j => vtab m (w j)) st (vtab n x0) =
        .ok (ts, vtab (min N k + 1) (fun l => vtab n (X l)), vtab (min N k) fun l => vtab p (Y l)) ∧
      simulate toSize sys' (vtab N fun j => vtab m (w' j)) st (vtab n x0') =
        .ok (ts, vtab (min N k + 1) (fun l => vtab n (X' l)), vtab (min N k) fun l => vtab p (Y' l)) ∧
      (∀ l i, l ≤ min N k → i < n → R (r i) (X l i) (X' l i)) ∧ ∀ l i, l < min N k → i < p → R (t i) (Y l i) (Y' l i) := by
  obtain ⟨⟨a, ha, rfl⟩, ⟨b, hb, rfl⟩, ⟨c, hc, rfl⟩, ⟨d, hd, rfl⟩⟩ := h
  obtain ⟨⟨a', ha', rfl⟩, ⟨b', hb', rfl⟩, ⟨c', hc', rfl⟩, ⟨d', hd', rfl⟩⟩ := h'
  have hX : ∀ l, l ≤ min N k → ∀ i, i < n → R (r i) (stateSeq n m a b x0 w l i) (stateSeq n m a' b' x0' w' l i) := by
    intro l
    induction l with
    | zero => exact fun _ => hx
    | succ l ih =>
      intro hl i hi
      refine S.add (S.lsum fun j hj => Scaling.conv (S.mul (hA ⟨i, hi⟩ ⟨j, hj⟩) (ih (by omega) j hj)) (div_mul_cancel _ _))
        (S.lsum fun j hj => Scaling.conv (S.mul (hB ⟨i, hi⟩ ⟨j, hj⟩) (hw l j (by omega) hj)) (div_mul_cancel _ _))
  refine ⟨_, _, _, _, _, simulate_exec ha.toRepAt hb.toRepAt hc.toRepAt hd.toRepAt hn hm hp w x0 hq hk,
    by rw [simulate_exec ha'.toRepAt hb'.toRepAt hc'.toRepAt hd'.toRepAt hn hm hp w' x0' (by rw [hdt]; exact hq) hk, hdt], fun l i hl hi => hX l hl i hi,
    fun l i hl hi => ?_⟩
  exact S.add (S.lsum fun j hj => Scaling.conv (S.mul (hC ⟨i, hi⟩ ⟨j, hj⟩) (hX l (by omega) j hj)) (div_mul_cancel _ _))
    (S.lsum fun j hj => Scaling.conv (S.mul (hE ⟨i, hi⟩ ⟨j, hj⟩) (hw l j (by omega) hj)) (div_mul_cancel _ _))

end claims

section claims
variable {G T : Type} [CommGroup G] [Zero T] [One T] [Add T] [Sub T] [Mul T] [Neg T] [NatCast T] [CDiv T] {isz : T → Bool} {R : G → T → T → Prop} {D : T → Prop}
  (S : Scaling isz R D)
include S

/-- C144: characteristic polynomials do not depend on the units of the states, and change with the unit `g` of the inverse of time as they should. -/
theorem C144_poly {A A' : MB T} {n : Nat} {M M' : Matrix (Fin n) (Fin n) T} (hA : A.Is M) (hA' : A'.Is M') (hD : ∀ m : Nat, 2 ≤ m → m ≤ n → D (m : T)) {g : G}
    {r : Nat → G} (h : InUnits R (fun i => g * r i) r M M') :
    ∃ c c', polyMat A = .ok (vtab (n + 1) c) ∧ polyMat A' = .ok (vtab (n + 1) c') ∧ ∀ i, i ≤ n → R (g ^ i) (c i) (c' i) := by
  obtain ⟨e, hA, rfl⟩ := hA
  obtain ⟨e', hA', rfl⟩ := hA'
  obtain rfl | rfl | hn : n = 0 ∨ n = 1 ∨ 2 ≤ n := by omega
  · have key : ∀ {A : MB T} {e : Nat → Nat → T}, Rep A 0 0 e → polyMat A = .ok (vtab 1 fun _ => 1) := by
      intro A e hA
      unfold polyMat polyMatD
      rw [hA.size, if_pos rfl]
      rfl
    refine ⟨_, _, key hA, key hA', fun i hi => ?_⟩
    obtain rfl : i = 0 := by omega
    exact Scaling.conv (S.refl 1) (pow_zero g).symm
  · have key : ∀ {A : MB T} {e : Nat → Nat → T}, Rep A 1 1 e → polyMat A = .ok (vtab 2 fun i => if i = 0 then 1 else 0 - e 0 0 * 1) := by
      intro A e hA
      rw [polyMat_single hA]
      rfl
    refine ⟨_, _, key hA, key hA', fun i hi => ?_⟩
    obtain rfl | rfl : i = 0 ∨ i = 1 := by omega
    · exact Scaling.conv (S.refl 1) (pow_zero g).symm
    · refine S.sub (S.zero _) (Scaling.conv (S.mul (h 0 0) (S.refl 1)) ?_)
      rw [mul_one, pow_one]
      exact mul_div_cancel_right _ _
  · have hdiv : ∀ (t : T) (m : Nat), 2 ≤ m → m ≤ n → ∃ z, cdiv t (m : T) = .ok z := fun t m h1 h2 => ⟨_, S.divisor (hD m h1 h2) t⟩
    refine ⟨_, _, polyMat_tables hA hn hdiv, polyMat_tables hA' hn hdiv, fun i hi => ?_⟩
    rcases Nat.eq_zero_or_pos i with rfl | h0
    · exact Scaling.conv (S.refl 1) (pow_zero g).symm
    · rw [if_neg (by omega), if_neg (by omega)]
      exact S.neg (Scaling.conv (S.levStep (fun i j hi hj => h ⟨i, hi⟩ ⟨j, hj⟩) hD (i - 1) (by omega)).2 (by rw [Nat.sub_add_cancel h0]))

/-- C144: pole placement. With units `r` for the states, `b` for the input and `1 / g` for the time, either both calls accept the system or none, and the gains have
the same digits. -/
theorem C144_acker {A A' B B' P P' : MB T} {n : Nat} {M M' : Matrix (Fin n) (Fin n) T} {N N' : Matrix (Fin n) (Fin 1) T} {e e' : Nat → Nat → T} (hA : A.Is M)
    (hA' : A'.Is M') (hB : B.Is N) (hB' : B'.Is N') (hP : Rep P 1 n e) (hP' : Rep P' 1 n e') (hPe : P.empty = false) (hPe' : P'.empty = false) (hn : 0 < n)
    (hka : n + 1 < allocMax) {g b : G} {r : Nat → G} (h : InUnits R (fun i => g * r i) r M M') (hN : ∀ i : Fin n, R (r i * b) (N i 0) (N' i 0))
    (hp : ∀ j, j < n → R g (e 0 j) (e' 0 j))
    (hU : n ≤ 4 ∨ n ≤ 5 ∧ (∀ X, ctrb A B = .ok X → Uncut isz X.toMB) ∨ ∀ X, ctrb A B = .ok X → Uncut isz X.toMB ∧ ∀ i j, i < n → j < n → Uncut isz (X.toMB.cofactor i j)) :
    (acker isz A B P = .exit 1 ∧ acker isz A' B' P' = .exit 1) ∨
    ∃ K K' : Matrix (Fin 1) (Fin n) T, Yields (acker isz A B P) K ∧ Yields (acker isz A' B' P') K' ∧ ∀ j : Fin n, R (g / (b * r j)) (K 0 j) (K' 0 j) := by
  obtain ⟨a, hA, rfl⟩ := hA
  obtain ⟨a', hA', rfl⟩ := hA'
  obtain ⟨f, hB, rfl⟩ := hB
  obtain ⟨f', hB', rfl⟩ := hB'
  have hf := hA.fits
  have h0 : ∀ i j, i < n → j < n → R (g * r i / r j) (a i j) (a' i j) := fun i j hi hj => h ⟨i, hi⟩ ⟨j, hj⟩
  have hct := ctrb_exec hA hB hn (by rwa [Nat.mul_one]) fun i _ => powm_tab hA hn i
  have hct' := ctrb_exec hA' hB' hn (by rwa [Nat.mul_one]) fun i _ => powm_tab hA' hn i
  rw [Nat.mul_one] at hct hct'
  set x : Nat → Nat → T := fun r c => if c / 1 = 0 then f r (c % 1) else lsum n fun k => expPow n a (c / 1) r k * f k (c % 1) with hx
  set x' : Nat → Nat → T := fun r c => if c / 1 = 0 then f' r (c % 1) else lsum n fun k => expPow n a' (c / 1) r k * f' k (c % 1) with hx'
  have hrel : ∀ i j, i < n → j < n → R (r i * (g ^ j * b)) (x i j) (x' i j) := by
    intro i j hi hj
    have hf0 : ∀ k, k < n → R (r k * b) (f k (j % 1)) (f' k (j % 1)) := fun k hk => by rw [Nat.mod_one]; exact hN ⟨k, hk⟩
    simp only [hx, hx', Nat.div_one]
    split
    · subst_vars
      exact Scaling.conv (hf0 i hi) (by rw [pow_zero, one_mul])
    · refine S.lsum fun k hk => Scaling.conv (S.mul (S.expPow h0 j i k hi hk) (hf0 k hk)) ?_
      rw [← mul_assoc, div_mul_cancel, mul_comm (g ^ j), mul_assoc]
  have hr1 := ofFn_rep hf x
  have hr2 := ofFn_rep hf x'
  have hU1 : n ≤ 4 ∨ Uncut isz (Mat.ofFn n n x).toMB := hU.imp_right fun hU => hU.elim (fun hU => hU.2 _ hct) fun hU => (hU _ hct).1
  have hU2 : n ≤ 5 ∨ ∀ i j, i < n → j < n → Uncut isz ((Mat.ofFn n n x).toMB.cofactor i j) := by
    rcases hU with hU | hU | hU
    · exact .inl (by omega)
    · exact .inl hU.1
    · exact .inr (hU _ hct).2
  obtain ⟨y, y', hy, hy', -, hR⟩ := S.determinant hr1 hr2 hrel
  have hs := S.same (hR hU1)
  cases hz : isz y
  swap
  · left
    have key : ∀ {A B P : MB T} {a f e : Nat → Nat → T} {X : Mat T} {y : T}, Rep A n n a → Rep B n 1 f → Rep P 1 n e → P.empty = false → ctrb A B = .ok X →
        determinant isz X.toMB = .ok y → isz y = true → acker isz A B P = .exit 1 := by
      intro A B P a f e X y hA hB hP hPe hct hy hz
      unfold acker
      have c1 : (!Util.isSquare A || !Util.isColumnVector B || A.rows != B.rows) = false := by
        simp [Util.isSquare, Util.isColumnVector, hA.rows, hA.cols, hB.rows, hB.cols]
      have c2 : (!Util.isRowVector P || P.empty) = false := by simp [Util.isRowVector, hP.rows, hPe]
      rw [c1, if_neg Bool.false_ne_true, c2, if_neg Bool.false_ne_true, hct, Res.ok_bind, hy, Res.ok_bind, if_pos hz]
    exact ⟨key hA hB hP hPe hct hy hz, key hA' hB' hP' hPe' hct' hy' (by rw [← hs, hz])⟩
  right
  have hz' : isz y' = false := by rw [← hs, hz]
  rcases S.inverse hr1 hr2 hrel hU1 hU2 with ⟨h1, -⟩ | ⟨v, v', h1, h2, h3⟩
  · rw [h1 y hy] at hz
    cases hz
  have hf1 : Fits 1 n := hf.mono (by omega) (Nat.le_refl n)
  refine ⟨_, _, Yields.of_eq hf1 (acker_tables isz hA hB hP hPe hn hka (polyMat_tab hP hn hka) hct rfl hy hz h1 (ofFn_rep hf v)),
    Yields.of_eq hf1 (acker_tables isz hA' hB' hP' hPe' hn hka (polyMat_tab hP' hn hka) hct' rfl hy' hz' h2 (ofFn_rep hf v')), fun j => ?_⟩
  refine Scaling.conv (S.ackerGain (s := g ^ n) (d := r) (c := fun i => g ^ i * b) h3 (S.ackerAcc h0 (S.rootTab hp n le_rfl) (n + 1) le_rfl) j j.2) ?_
  obtain ⟨k, rfl⟩ : ∃ k, n = k + 1 := ⟨n - 1, by omega⟩
  rw [Nat.add_sub_cancel, pow_succ, mul_assoc, mul_div_mul_left_eq_div]

end claims
end Malg
