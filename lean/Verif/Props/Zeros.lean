import Verif.Props.Scale
import Verif.Props.Special
import Mathlib.Data.Fintype.Perm
/-!
# Property C145: zeros and symmetries survive rounding
-/
namespace Malg
open Ops Lin Control

/-- Zeros that rounding does not touch: `Z` holds for sums of such numbers, products with any number, and quotients by any number. -/
structure Absorbing {T : Type} [Zero T] [Add T] [Sub T] [Mul T] [Neg T] [CDiv T] (Z : T → Prop) : Prop where
  zero : Z 0
  neg : ∀ {x}, Z x → Z (-x)
  add : ∀ {x y}, Z x → Z y → Z (x + y)
  sub : ∀ {x y}, Z x → Z y → Z (x - y)
  left : ∀ {x}, Z x → ∀ y, Z (x * y)
  right : ∀ {y}, Z y → ∀ x, Z (x * y)
  quo : ∀ {x}, Z x → ∀ y, Z (quo x y)

/-- The entries of `M` selected by `P` are zeros. -/
def ZeroOn {T : Type} (Z : T → Prop) (P : Nat → Nat → Prop) {n m : Nat} (M : Matrix (Fin n) (Fin m) T) : Prop := ∀ (i : Fin n) (j : Fin m), P i j → Z (M i j)

namespace Absorbing
variable {T : Type} [Zero T] [Add T] [Sub T] [Mul T] [Neg T] [CDiv T] {Z : T → Prop} (S : Absorbing Z)
include S

theorem lsum {k : Nat} {t : Nat → T} (h : ∀ i, i < k → Z (t i)) : Z (lsum k t) := by
  induction k with
  | zero => exact S.zero
  | succ k ih => exact S.add (ih fun i hi => h i (by omega)) (h k (by omega))

theorem lsub {k : Nat} {x : T} (hx : Z x) {t : Nat → T} (h : ∀ i, i < k → Z (t i)) : Z (lsub x k t) := by
  induction k with
  | zero => exact hx
  | succ k ih => exact S.sub (ih fun i hi => h i (by omega)) (h k (by omega))

theorem mul {x y : T} (h : Z x ∨ Z y) : Z (x * y) := h.elim (fun h => S.left h y) fun h => S.right h x

variable [One T]

/-- The closed formulas, when every product of the determinant has a factor zero. -/
theorem closedDet {N : Nat} (hN : N ≤ 4) (h0 : 0 < N) {e : Nat → Nat → T}
    (h : ∀ s : Nat → Nat, (∀ r, r < N → s r < N) → (∀ r, r < N → ∀ r', r' < N → s r = s r' → r = r') → ∃ r, r < N ∧ Z (e r (s r))) : Z (closedDet e N) := by
  obtain rfl | rfl | rfl | rfl : N = 1 ∨ N = 2 ∨ N = 3 ∨ N = 4 := by omega
  · obtain ⟨r, h1, h2⟩ := h (fun _ => 0) (by decide) (by decide)
    obtain rfl : r = 0 := by omega
    exact h2
  · have key : ∀ a b, (∀ r, r < 2 → [a, b].getD r 0 < 2) → (∀ r, r < 2 → ∀ r', r' < 2 → [a, b].getD r 0 = [a, b].getD r' 0 → r = r') → Z (e 0 a) ∨ Z (e 1 b) := by
      intro a b h1 h2
      obtain ⟨r, h3, h4⟩ := h (fun r => [a, b].getD r 0) h1 h2
      obtain rfl | rfl : r = 0 ∨ r = 1 := by omega
      · exact .inl h4
      · exact .inr h4
    exact S.sub (S.mul (key 0 1 (by decide) (by decide))) (S.mul (key 1 0 (by decide) (by decide)))
  · have key : ∀ a b c, (∀ r, r < 3 → [a, b, c].getD r 0 < 3) → (∀ r, r < 3 → ∀ r', r' < 3 → [a, b, c].getD r 0 = [a, b, c].getD r' 0 → r = r') →
        Z (e 0 a) ∨ Z (e 1 b) ∨ Z (e 2 c) := by
      intro a b c h1 h2
      obtain ⟨r, h3, h4⟩ := h (fun r => [a, b, c].getD r 0) h1 h2
      obtain rfl | rfl | rfl : r = 0 ∨ r = 1 ∨ r = 2 := by omega
      · exact .inl h4
      · exact .inr (.inl h4)
      · exact .inr (.inr h4)
    have m3 : ∀ {x a b c d : T}, (Z x ∨ Z a ∨ Z b) → (Z x ∨ Z c ∨ Z d) → Z (x * (a * b - c * d)) := by
      intro x a b c d h1 h2
      rcases h1 with h1 | h1
      · exact S.left h1 _
      · rcases h2 with h2 | h2
        · exact S.left h2 _
        · exact S.right (S.sub (S.mul h1) (S.mul h2)) _
    refine S.add (S.sub (m3 (key 0 1 2 (by decide) (by decide)) ?_) (m3 (key 1 0 2 (by decide) (by decide)) (key 1 2 0 (by decide) (by decide))))
      (m3 (key 2 0 1 (by decide) (by decide)) (key 2 1 0 (by decide) (by decide)))
    exact (key 0 2 1 (by decide) (by decide)).imp_right Or.symm
  · have key : ∀ a b c d, (∀ r, r < 4 → [a, b, c, d].getD r 0 < 4) →
        (∀ r, r < 4 → ∀ r', r' < 4 → [a, b, c, d].getD r 0 = [a, b, c, d].getD r' 0 → r = r') → Z (e 0 a * e 1 b * e 2 c * e 3 d) := by
      intro a b c d h1 h2
      obtain ⟨r, h3, h4⟩ := h (fun r => [a, b, c, d].getD r 0) h1 h2
      obtain rfl | rfl | rfl | rfl : r = 0 ∨ r = 1 ∨ r = 2 ∨ r = 3 := by omega
      · exact S.left (S.left (S.left h4 _) _) _
      · exact S.left (S.left (S.right h4 _) _) _
      · exact S.left (S.right h4 _) _
      · exact S.right h4 _
    unfold Malg.closedDet
    repeat' first
      | apply S.add
      | apply S.sub
      | exact key _ _ _ _ (by decide) (by decide)

/-- Powers. -/
theorem expPow {n : Nat} {a : Nat → Nat → T} {P : Nat → Nat → Prop} (hP : ∀ i j, i < n → j < n → P i j → i ≠ j ∧ ∀ k, k < n → P i k ∨ P k j)
    (ha : ∀ i j, i < n → j < n → P i j → Z (a i j)) : ∀ q i j, i < n → j < n → P i j → Z (expPow n a q i j) := by
  intro q
  induction q with
  | zero =>
    intro i j hi hj h
    show Z (if i = j then 1 else 0)
    rw [if_neg (hP i j hi hj h).1]
    exact S.zero
  | succ q ih =>
    intro i j hi hj h
    refine S.lsum fun k hk => S.mul ?_
    exact ((hP i j hi hj h).2 k hk).imp (ih i k hi hk) (ha k j hk hj)

end Absorbing

/-- A matrix that is not reported as singular has a determinant that is not zero. -/
theorem inverse_returned {T : Type} [Zero T] [One T] [Add T] [Sub T] [Mul T] [Neg T] [CDiv T] {isz : T → Bool} {A : MB T} {n : Nat} {e : Nat → Nat → T}
    (hA : RepAt A n n e) {V : Mat T} (hV : inverse isz A = .ok V) (hV0 : V ≠ Mat.empty0) : ∃ d, determinant isz A = .ok d ∧ isz d = false := by
  unfold inverse at hV
  rw [isSquare_eq hA, beq_self_eq_true, Bool.not_true, if_neg Bool.false_ne_true] at hV
  cases hd : determinant isz A with
  | ok d =>
    refine ⟨d, rfl, ?_⟩
    rw [hd, Res.ok_bind] at hV
    by_contra hc
    rw [if_pos (by simpa using hc)] at hV
    exact hV0 (Res.ok.inj hV).symm
  | _ => rw [hd] at hV; cases hV

section claims
variable {T : Type} [Zero T] [One T] [Add T] [Sub T] [Mul T] [Neg T] [CDiv T] {Z : T → Prop} (S : Absorbing Z)
include S

/-- C145: products. An entry is a zero if all its terms have a factor zero. -/
theorem C145_product {A B : MB T} {n k m : Nat} {M : Matrix (Fin n) (Fin k) T} {N : Matrix (Fin k) (Fin m) T} (hA : A.Is M) (hB : B.Is N) (hf : Fits n m)
    {P Q R : Nat → Nat → Prop} (hM : ZeroOn Z P M) (hN : ZeroOn Z Q N) (hR : ∀ i j, R i j → ∀ l, l < k → P i l ∨ Q l j) :
    ∃ X : Matrix (Fin n) (Fin m) T, Yields (mul A B) X ∧ ZeroOn Z R X := by
  obtain ⟨e, hA, rfl⟩ := hA
  obtain ⟨f, hB, rfl⟩ := hB
  exact ⟨_, (C35_entries hA.toRepAt hB.toRepAt hf).yields, fun i j h => S.lsum fun l hl =>
    S.mul ((hR i j h l hl).imp (hM i ⟨l, hl⟩) (hN ⟨l, hl⟩ j))⟩

/-- C145: powers keep the zeros of matrices with a transitive pattern: triangular, diagonal, block triangular, … -/
theorem C145_power {A : MB T} {n : Nat} {M : Matrix (Fin n) (Fin n) T} (hA : A.Is M) (hn : 0 < n) {P : Nat → Nat → Prop} (hM : ZeroOn Z P M)
    (hP : ∀ i j, P i j → i ≠ j ∧ ∀ k, k < n → P i k ∨ P k j) (q : Nat) : ∃ X : Matrix (Fin n) (Fin n) T, Yields (powm A q) X ∧ ZeroOn Z P X := by
  obtain ⟨e, hA, rfl⟩ := hA
  exact ⟨_, Yields.of_eq hA.fits (powm_tab hA hn q), fun i j h =>
    S.expPow (fun i j _ _ => hP i j) (fun i j hi hj => hM ⟨i, hi⟩ ⟨j, hj⟩) q i j i.2 j.2 h⟩

/-- C145: LU decompositions fill in only where they must: a pattern of zeros is kept if every product that is subtracted there has a factor zero. Bands and
envelopes are such patterns. -/
theorem C145_lu (hd : ∀ y : T, Divisor y ∨ ∀ x, cdiv x y = .ub .divZero) {A : MB T} {n : Nat} {M : Matrix (Fin n) (Fin n) T} (hA : A.Is M)
    {P : Nat → Nat → Prop} (hM : ZeroOn Z P M) (hP : ∀ i j, P i j → i ≠ j ∧ ∀ k, k < i → k < j → P i k ∨ P k j) {L U : Mat T} (hlu : lu A = .ok (L, U)) :
    ∃ X Y : Matrix (Fin n) (Fin n) T, L.toMB.Is X ∧ U.toMB.Is Y ∧ ZeroOn Z P X ∧ ZeroOn Z P Y := by
  obtain ⟨a, hA, rfl⟩ := hA
  have hf := hA.fits
  rcases lu_exec hA.toRepAt hd with ⟨l, u, h1, h2⟩ | h1
  swap
  · rw [h1] at hlu; cases hlu
  rw [h1] at hlu
  obtain ⟨rfl, rfl⟩ := Prod.mk.inj (Res.ok.inj hlu)
  have ha : ∀ i j, i < n → j < n → P i j → Z (a i j) := fun i j hi hj => hM ⟨i, hi⟩ ⟨j, hj⟩
  have key : ∀ m i j, min i j = m → i < n → j < n → P i j → (j ≤ i → Z (l i j)) ∧ (i ≤ j → Z (u i j)) := by
    intro m
    induction m using Nat.strong_induction_on with
    | _ m ih =>
      intro i j hm hi hj hp
      obtain ⟨hne, hp'⟩ := hP i j hp
      have hk : ∀ k, k < i → k < j → Z (l i k) ∨ Z (u k j) := by
        intro k h1 h2
        exact (hp' k h1 h2).imp (fun h => (ih k (by omega) i k (by omega) hi (by omega) h).1 (by omega))
          fun h => (ih k (by omega) k j (by omega) (by omega) hj h).2 (by omega)
      constructor
      · intro hij
        rw [h2.l_low i j hi hj hij]
        exact S.lsub (ha i j hi hj hp) fun k hkj => S.mul (hk k (by omega) hkj)
      · intro hij
        rw [h2.u_up i j hi hj (by omega)]
        exact S.lsub (S.quo (ha i j hi hj hp) _) fun k hki => S.quo (S.mul (hk k hki (by omega))) _
  refine ⟨_, _, ⟨_, ofFn_rep hf _, rfl⟩, ⟨_, ofFn_rep hf _, rfl⟩, fun i j h => ?_, fun i j h => ?_⟩
  · show Z (l i j)
    rcases Nat.lt_or_ge i j with hij | hij
    · rw [h2.l_up i j i.2 j.2 hij]; exact S.zero
    · exact (key _ i j rfl i.2 j.2 h).1 hij
  · show Z (u i j)
    rcases Nat.lt_or_ge j i with hij | hij
    · rw [h2.u_low i j i.2 j.2 hij]; exact S.zero
    · exact (key _ i j rfl i.2 j.2 h).2 hij

/-- C145: determinants up to 4x4 of matrices that are singular because of the position of their zeros. -/
theorem C145_singular (isz : T → Bool) {A : MB T} {n : Nat} {M : Matrix (Fin n) (Fin n) T} (hA : A.Is M) (h0 : 0 < n) (hn : n ≤ 4)
    (h : ∀ σ : Equiv.Perm (Fin n), ∃ i, Z (M i (σ i))) : ∃ d, determinant isz A = .ok d ∧ Z d := by
  obtain ⟨e, hA, rfl⟩ := hA
  refine ⟨_, determinant_closed isz hA hn, S.closedDet hn h0 fun s h1 h2 => ?_⟩
  have hi : Function.Injective fun i : Fin n => (⟨s i, h1 i i.2⟩ : Fin n) := fun a b hab => Fin.ext (h2 a a.2 b b.2 (Fin.mk.inj hab))
  obtain ⟨i, hi'⟩ := h (Equiv.ofBijective _ (Finite.injective_iff_bijective.1 hi))
  exact ⟨i, i.2, hi'⟩

/-- C145: inverses up to 5x5 keep the zeros of matrices with a transitive pattern. -/
theorem C145_inverse_partial {isz : T → Bool} (hz : ∀ x, isz x = false → Divisor x) {A : MB T} {n : Nat} {M : Matrix (Fin n) (Fin n) T} (hA : A.Is M) (hn : n ≤ 5)
    {P : Nat → Nat → Prop} (hM : ZeroOn Z P M) (hP : ∀ i j, P i j → i ≠ j ∧ ∀ k, k < n → P i k ∨ P k j) {V : Mat T} (hV : inverse isz A = .ok V)
    (hV0 : V ≠ Mat.empty0) : ∃ X : Matrix (Fin n) (Fin n) T, V.WF ∧ V.toMB.Is X ∧ ZeroOn Z P X := by
  obtain ⟨e, hA, rfl⟩ := hA
  have hf := hA.fits
  obtain ⟨d, hd, h0⟩ := inverse_returned hA.toRepAt hV hV0
  by_cases h1 : n = 1
  · subst h1
    have ha : adjoint isz A = .ok (Mat.ofFn 1 1 fun _ _ => 1) := by
      unfold adjoint
      rw [isSquare_eq hA.toRepAt, hA.cols, beq_self_eq_true, Bool.not_true, if_neg Bool.false_ne_true, if_pos rfl, Mat.new_eq hA.fits]
    have hY := inverse_exec hA.toRepAt hd h0 (hz d h0) (Yields.of_eq hf ha)
    obtain ⟨B, hB, hB'⟩ := hY
    rw [hV] at hB
    obtain rfl := Res.ok.inj hB
    exact ⟨_, hB'.1, hB'.2, fun i j h => absurd (Subsingleton.elim i j) fun hc => (hP i j h).1 (by rw [hc])⟩
  have hcof : ∀ i j, i < n → j < n → determinant isz (A.cofactor i j) = .ok (closedDet (fun r c => e (skip i r) (skip j c)) (n - 1)) :=
    fun i j hi _ => determinant_closed isz (cofactor_rep hA.toRepAt (by omega) i j) (by omega)
  have hY := inverse_exec hA.toRepAt hd h0 (hz d h0) (Yields.of_eq hf (adjoint_exec hA.toRepAt h1 hcof))
  obtain ⟨B, hB, hB'⟩ := hY
  rw [hV] at hB
  obtain rfl := Res.ok.inj hB
  refine ⟨_, hB'.1, hB'.2, fun i j h => ?_⟩
  refine S.quo (S.right ?_ _) _
  obtain ⟨hne, hP'⟩ := hP i j h
  have hin := i.2
  refine S.closedDet (by omega) (by omega) fun s hs hinj => ?_
  by_contra hc
  push Not at hc
  have hc' : ∀ r, r < n - 1 → ¬ P (skip j r) (skip i (s r)) := fun r hr hp =>
    hc r hr (hM ⟨skip j r, skip_lt hr⟩ ⟨skip i (s r), skip_lt (hs r hr)⟩ hp)
  classical
  let U := (Finset.range (n - 1)).filter fun r => ¬ P i (skip j r)
  let U' := (Finset.range (n - 1)).filter fun r => ¬ P i (skip i r)
  have hle : U.card ≤ U'.card := by
    refine Finset.card_le_card_of_injOn s (fun r hr => ?_) fun a ha b hb hab => ?_
    · obtain ⟨h3, h4⟩ := Finset.mem_filter.1 hr
      have h3 := Finset.mem_range.1 h3
      refine Finset.mem_coe.2 (Finset.mem_filter.2 ⟨Finset.mem_range.2 (hs r h3), fun h5 => ?_⟩)
      rcases (hP _ _ h5).2 (skip j r) (skip_lt h3) with h6 | h6
      · exact h4 h6
      · exact hc' r h3 h6
    · exact hinj a (Finset.mem_range.1 (Finset.mem_filter.1 ha).1) b (Finset.mem_range.1 (Finset.mem_filter.1 hb).1) hab
  have hcard : ∀ k : Nat, k < n → (((Finset.range (n - 1)).filter fun r => ¬ P i (skip k r)).card = (((Finset.range n).filter fun r => ¬ P i r).erase k).card) := by
    intro k hk
    refine Finset.card_bij (fun r _ => skip k r) (fun r hr => ?_) (fun a _ b _ hab => skip_inj hab) fun b hb => ?_
    · obtain ⟨h3, h4⟩ := Finset.mem_filter.1 hr
      refine Finset.mem_erase.2 ⟨?_, Finset.mem_filter.2 ⟨Finset.mem_range.2 (skip_lt (Finset.mem_range.1 h3)), h4⟩⟩
      unfold skip; split <;> omega
    · obtain ⟨h3, h4⟩ := Finset.mem_erase.1 hb
      obtain ⟨h4, h5⟩ := Finset.mem_filter.1 h4
      have h4 := Finset.mem_range.1 h4
      have hsk : skip k (if b < k then b else b - 1) = b := by
        unfold skip
        by_cases hb : b < k
        · rw [if_pos hb, if_pos hb]
        · rw [if_neg hb, if_neg (by omega)]; omega
      refine ⟨if b < k then b else b - 1, Finset.mem_filter.2 ⟨Finset.mem_range.2 (by split <;> omega), by rwa [hsk]⟩, hsk⟩
  have hi0 : ¬ P i i := fun hp => (hP i i hp).1 rfl
  have e1 := hcard j j.2
  have e2 := hcard i i.2
  have hj0 : (j : Nat) ∉ (Finset.range n).filter fun r => ¬ P i r := fun hm => (Finset.mem_filter.1 hm).2 h
  rw [Finset.erase_eq_of_notMem hj0] at e1
  rw [Finset.card_erase_of_mem (Finset.mem_filter.2 ⟨Finset.mem_range.2 hin, hi0⟩)] at e2
  have hpos : 0 < ((Finset.range n).filter fun r => ¬ P i r).card := Finset.card_pos.2 ⟨_, Finset.mem_filter.2 ⟨Finset.mem_range.2 hin, hi0⟩⟩
  have : U.card ≤ U'.card := hle
  have f1 : U.card = _ := e1
  have f2 : U'.card = _ := e2
  omega
end claims

/-- Symmetric matrices up to 3x3 have symmetric inverses, digit by digit, if multiplication is commutative. -/
theorem C145_symmetric_partial {T : Type} [Zero T] [One T] [Add T] [Sub T] [Mul T] [Neg T] [CDiv T] (hc : ∀ x y : T, x * y = y * x) {isz : T → Bool}
    (hz : ∀ x, isz x = false → Divisor x) {A : MB T} {n : Nat} {M : Matrix (Fin n) (Fin n) T} (hA : A.Is M) (hn : n ≤ 3) (hM : ∀ i j, M i j = M j i) {V : Mat T}
    (hV : inverse isz A = .ok V) (hV0 : V ≠ Mat.empty0) : ∃ X : Matrix (Fin n) (Fin n) T, V.toMB.Is X ∧ ∀ i j, X i j = X j i := by
  obtain ⟨e, hA, rfl⟩ := hA
  obtain ⟨d, hd, h0⟩ := inverse_returned hA.toRepAt hV hV0
  have hf := hA.fits
  by_cases h1 : n = 1
  · subst h1
    have ha : adjoint isz A = .ok (Mat.ofFn 1 1 fun _ _ => 1) := by
      unfold adjoint
      rw [isSquare_eq hA.toRepAt, hA.cols, beq_self_eq_true, Bool.not_true, if_neg Bool.false_ne_true, if_pos rfl, Mat.new_eq hA.fits]
    obtain ⟨B, hB, hB'⟩ := inverse_exec hA.toRepAt hd h0 (hz d h0) (Yields.of_eq hf ha)
    rw [hV] at hB
    obtain rfl := Res.ok.inj hB
    exact ⟨_, hB'.2, fun i j => by rw [Subsingleton.elim i j]⟩
  have hcof : ∀ i j, i < n → j < n → determinant isz (A.cofactor i j) = .ok (closedDet (fun r c => e (skip i r) (skip j c)) (n - 1)) :=
    fun i j hi _ => determinant_closed isz (cofactor_rep hA.toRepAt (by omega) i j) (by omega)
  obtain ⟨B, hB, hB'⟩ := inverse_exec hA.toRepAt hd h0 (hz d h0) (Yields.of_eq hf (adjoint_exec hA.toRepAt h1 hcof))
  rw [hV] at hB
  obtain rfl := Res.ok.inj hB
  refine ⟨_, hB'.2, fun i j => ?_⟩
  have hin := i.2
  show quo (_ * closedDet _ (n - 1)) d = quo (_ * closedDet _ (n - 1)) d
  rw [Nat.add_comm]
  congr 2
  have hs : ∀ a b, a < n - 1 → b < n - 1 → e (skip j a) (skip i b) = e (skip i b) (skip j a) := fun a b ha hb =>
    hM ⟨skip j a, skip_lt ha⟩ ⟨skip i b, skip_lt hb⟩
  obtain h2 | h2 | h2 : n - 1 = 0 ∨ n - 1 = 1 ∨ n - 1 = 2 := by omega
  · omega
  · rw [h2] at hs ⊢
    exact hs 0 0 (by omega) (by omega)
  · rw [h2] at hs ⊢
    show e (skip j 0) (skip i 0) * e (skip j 1) (skip i 1) - e (skip j 0) (skip i 1) * e (skip j 1) (skip i 0) =
      e (skip i 0) (skip j 0) * e (skip i 1) (skip j 1) - e (skip i 0) (skip j 1) * e (skip i 1) (skip j 0)
    rw [hs 0 0 (by omega) (by omega), hs 0 1 (by omega) (by omega), hs 1 0 (by omega) (by omega), hs 1 1 (by omega) (by omega), hc (e (skip i 1) (skip j 0))]

/-- C145: states do not depend on states and inputs they are not connected with: if the rows in `I` of `A` and `B` have zeros in all columns outside `I` and `J`,
two simulations that agree there agree for ever, also if the other states run away. -/
theorem C145_isolated {T : Type} [Zero T] [One T] [Add T] [Sub T] [Mul T] [Neg T] [CDiv T] (hz : ∀ x : T, 0 * x = 0) {sys : DiscreteStateSpace T} {n m p : Nat}
    {A : Matrix (Fin n) (Fin n) T} {B : Matrix (Fin n) (Fin m) T} {C : Matrix (Fin p) (Fin n) T} {E : Matrix (Fin p) (Fin m) T} (h : sys.toStateSpace.Is A B C E)
    (hn : n < allocMax) (hm : m < allocMax) (hp : p < allocMax) {I J K : Nat → Prop} (hA : ZeroOn (· = 0) (fun i j => I i ∧ ¬ I j) A)
    (hB : ZeroOn (· = 0) (fun i j => I i ∧ ¬ J j) B) (hC : ZeroOn (· = 0) (fun i j => K i ∧ ¬ I j) C) (hE : ZeroOn (· = 0) (fun i j => K i ∧ ¬ J j) E)
    {toSize : T → Res Nat} {N k : Nat} {q st : T} (hq : cdiv st sys.sampleTime = .ok q) (hk : toSize q = .ok k) {w w' : Nat → Nat → T} {x0 x0' : Nat → T}
    (hw : ∀ l j, l < N → j < m → J j → w l j = w' l j) (hx : ∀ i, i < n → I i → x0 i = x0' i) :
    ∃ (ts : List T) (X X' Y Y' : Nat → Nat → T), simulate toSize sys (vtab N fun j => vtab m (w j)) st (vtab n x0) =
        .ok (ts, vtab (min N k + 1) (fun l => vtab n (X l)), vtab (min N k) fun l => vtab p (Y l)) ∧
      simulate toSize sys (vtab N fun j => vtab m (w' j)) st (vtab n x0') =
        .ok (ts, vtab (min N k + 1) (fun l => vtab n (X' l)), vtab (min N k) fun l => vtab p (Y' l)) ∧
      (∀ l i, l ≤ min N k → i < n → I i → X l i = X' l i) ∧ ∀ l i, l < min N k → i < p → K i → Y l i = Y' l i := by
  obtain ⟨⟨a, ha, rfl⟩, ⟨b, hb, rfl⟩, ⟨c, hc, rfl⟩, ⟨d, hd, rfl⟩⟩ := h
  have sum : ∀ {s : Nat} {f g g' : Nat → T}, (∀ j, j < s → f j = 0 ∨ g j = g' j) → (lsum s fun j => f j * g j) = lsum s fun j => f j * g' j := by
    intro s f g g' h
    refine lsum_congr fun j hj => ?_
    rcases h j hj with h | h
    · rw [h, hz, hz]
    · rw [h]
  have hX : ∀ l, l ≤ min N k → ∀ i, i < n → I i → stateSeq n m a b x0 w l i = stateSeq n m a b x0' w' l i := by
    intro l
    induction l with
    | zero => exact fun _ i hi h => hx i hi h
    | succ l ih =>
      intro hl i hi h
      show (lsum n fun j => a i j * _) + (lsum m fun j => b i j * _) = (lsum n fun j => a i j * _) + lsum m fun j => b i j * _
      congr 1
      · refine sum fun j hj => ?_
        by_cases h' : I j
        · exact .inr (ih (by omega) j hj h')
        · exact .inl (hA ⟨i, hi⟩ ⟨j, hj⟩ ⟨h, h'⟩)
      · refine sum fun j hj => ?_
        by_cases h' : J j
        · exact .inr (hw l j (by omega) hj h')
        · exact .inl (hB ⟨i, hi⟩ ⟨j, hj⟩ ⟨h, h'⟩)
  refine ⟨_, _, _, _, _, simulate_exec ha.toRepAt hb.toRepAt hc.toRepAt hd.toRepAt hn hm hp w x0 hq hk,
    simulate_exec ha.toRepAt hb.toRepAt hc.toRepAt hd.toRepAt hn hm hp w' x0' hq hk, fun l i hl => hX l hl i, fun l i hl hi h => ?_⟩
  show (lsum n fun j => c i j * _) + (lsum m fun j => d i j * _) = (lsum n fun j => c i j * _) + lsum m fun j => d i j * _
  congr 1
  · refine sum fun j hj => ?_
    by_cases h' : I j
    · exact .inr (hX l (by omega) j hj h')
    · exact .inl (hC ⟨i, hi⟩ ⟨j, hj⟩ ⟨h, h'⟩)
  · refine sum fun j hj => ?_
    by_cases h' : J j
    · exact .inr (hw l j (by omega) hj h')
    · exact .inl (hE ⟨i, hi⟩ ⟨j, hj⟩ ⟨h, h'⟩)

/-- C145: the determinant of a triangular matrix (upper, lower, or a mixture of both) with more than four rows and without zeros on the diagonal is the product
of the diagonal entries, rounded after each factor. -/
theorem C145_triangular {T : Type} [Zero T] [One T] [Add T] [Sub T] [Mul T] [Neg T] [CDiv T] {isz : T → Bool} (hl : ∀ x : T, 0 * x = 0) (hr : ∀ x : T, x * 0 = 0)
    (hs : ∀ x : T, x - 0 = x) (hq : ∀ y : T, isz y = false → Divisor y ∧ quo 0 y = 0) {A : MB T} {n : Nat} {M : Matrix (Fin n) (Fin n) T} (hA : A.Is M) (hn : 4 < n)
    (hd : ∀ i, isz (M i i) = false) (hM : ∀ c i j : Fin n, c < i → c < j → M i c = 0 ∨ M c j = 0) :
    determinant isz A = .ok ((List.ofFn fun i => M i i).foldl (· * ·) 1) := by
  obtain ⟨e, hA, rfl⟩ := hA
  have hf := hA.fits
  have key : ∀ c, c ≤ n → ∃ f, forRange 0 c (⟨Mat.ofFn n n e, 1, false⟩ : ElimState T) (fun c s => elimStep isz n c s) =
      .ok ⟨Mat.ofFn n n f, ((List.range c).map fun i => e i i).foldl (· * ·) 1, false⟩ ∧ ∀ i j, i < n → j < n → c ≤ j → f i j = e i j := by
    intro c
    induction c with
    | zero => exact fun _ => ⟨e, rfl, fun _ _ _ _ _ => rfl⟩
    | succ c ih =>
      intro hc
      obtain ⟨f, h1, h2⟩ := ih (by omega)
      have hcc : f c c = e c c := h2 c c (by omega) (by omega) le_rfl
      have h0 : isz (f c c) = false := by rw [hcc]; exact hd ⟨c, by omega⟩
      rcases elimStep_cases isz (fun x hx => (hq x hx).1) hf (by omega : c < n) f (((List.range c).map fun i => e i i).foldl (· * ·) 1) with ⟨-, h3⟩ | ⟨h3, -⟩ | ⟨h3, -⟩
      · refine ⟨_, by rw [forRange_succ_last (Nat.zero_le c), h1, Res.ok_bind, h3, hcc, List.range_succ, List.map_append, List.foldl_append]; rfl, fun i j hi hj hcj => ?_⟩
        unfold elimT
        split
        · rename_i hij
          dsimp only
          rw [h2 i j hi hj (by omega), h2 c j (by omega) hj (by omega), h2 i c hi (by omega) le_rfl]
          rcases hM ⟨c, by omega⟩ ⟨i, hi⟩ ⟨j, hj⟩ hij.1 (by show c < j; omega) with h | h
          · have h : e i c = 0 := h
            rw [h, (hq _ (hcc ▸ h0)).2, hl, hs]
          · have h : e c j = 0 := h
            rw [h, hr, hs]
        · exact h2 i j hi hj (by omega)
      · rw [h0] at h3; cases h3
      · rw [h0] at h3; cases h3
  obtain ⟨f, h1, -⟩ := key n le_rfl
  unfold determinant
  rw [isSquare_eq hA.toRepAt, hA.cols, beq_self_eq_true, Bool.not_true, if_neg Bool.false_ne_true]
  rw [if_neg (by omega), if_neg (by omega), if_neg (by omega), if_neg (by omega), Mat.ofMB_eq hA, Res.ok_bind]
  dsimp only [id]
  have h2 : (Mat.ofFn n n e).cols = n := rfl
  rw [h1]
  show Res.ok _ = Res.ok _
  congr 2
  rw [← List.map_coe_finRange_eq_range, List.map_map, List.ofFn_eq_map]; rfl

/-- C145: the same up to four rows, with the products in the order of the closed formulas. -/
theorem C145_triangular_small {T : Type} [Zero T] [One T] [Add T] [Sub T] [Mul T] [Neg T] [CDiv T] (isz : T → Bool) (hl : ∀ x : T, 0 * x = 0) (hr : ∀ x : T, x * 0 = 0)
    (hs : ∀ x : T, x - 0 = x) (ha : ∀ x : T, x + 0 = x) (ha' : ∀ x : T, 0 + x = x) {A : MB T} {n : Nat} {e : Nat → Nat → T} (hA : A.Is (toM n n e)) (hn : n ≤ 4)
    (hM : ∀ c i j, c < i → c < j → i < n → j < n → e i c = 0 ∨ e c j = 0) :
    determinant isz A = .ok (match n with | 0 => 1 | 1 => e 0 0 | 2 => e 0 0 * e 1 1 | 3 => e 0 0 * (e 1 1 * e 2 2) | _ => e 0 0 * e 1 1 * e 2 2 * e 3 3) := by
  obtain ⟨f, hA, h0⟩ := hA
  have he : ∀ i j, i < n → j < n → e i j = f i j := fun i j hi hj => (congrFun (congrFun h0 ⟨i, hi⟩) ⟨j, hj⟩).symm
  rw [determinant_closed isz (hA.congr fun i j hi hj => (he i j hi hj).symm) hn]
  congr 1
  obtain rfl | rfl | rfl | rfl | rfl : n = 0 ∨ n = 1 ∨ n = 2 ∨ n = 3 ∨ n = 4 := by omega
  · rfl
  · rfl
  · show e 0 0 * e 1 1 - e 0 1 * e 1 0 = e 0 0 * e 1 1
    rcases hM 0 1 1 (by omega) (by omega) (by omega) (by omega) with h | h <;> simp only [h, hl, hr, hs]
  · show e 0 0 * (e 1 1 * e 2 2 - e 2 1 * e 1 2) - e 0 1 * (e 1 0 * e 2 2 - e 1 2 * e 2 0) + e 0 2 * (e 1 0 * e 2 1 - e 1 1 * e 2 0) = e 0 0 * (e 1 1 * e 2 2)
    have h1 : e 2 1 * e 1 2 = 0 := by rcases hM 1 2 2 (by omega) (by omega) (by omega) (by omega) with h | h <;> simp only [h, hl, hr]
    have h2 : e 0 1 * (e 1 0 * e 2 2 - e 1 2 * e 2 0) = 0 := by
      rcases hM 0 1 1 (by omega) (by omega) (by omega) (by omega) with h | h
      · rcases hM 0 2 1 (by omega) (by omega) (by omega) (by omega) with h' | h' <;> simp only [h, h', hl, hr, hs]
      · simp only [h, hl]
    have h3 : e 0 2 * (e 1 0 * e 2 1 - e 1 1 * e 2 0) = 0 := by
      rcases hM 0 1 2 (by omega) (by omega) (by omega) (by omega) with h | h
      · rcases hM 0 2 2 (by omega) (by omega) (by omega) (by omega) with h' | h' <;> simp only [h, h', hl, hr, hs]
      · simp only [h, hl]
    rw [h1, h2, h3, hs, hs, ha]
  · have hM' : ∀ c i j, c < i → c < j → i < 4 → j < 4 → e i c = 0 ∨ e c j = 0 := hM
    have t0 : e 0 0 * e 1 1 * e 2 3 * e 3 2 = 0 := by rcases hM' 2 3 3 (by omega) (by omega) (by omega) (by omega) with h | h <;> simp only [h, hl, hr]
    have t1 : e 0 0 * e 1 2 * e 2 1 * e 3 3 = 0 := by rcases hM' 1 2 2 (by omega) (by omega) (by omega) (by omega) with h | h <;> simp only [h, hl, hr]
    have t2 : e 0 0 * e 1 2 * e 2 3 * e 3 1 = 0 := by rcases hM' 1 3 2 (by omega) (by omega) (by omega) (by omega) with h | h <;> simp only [h, hl, hr]
    have t3 : e 0 0 * e 1 3 * e 2 1 * e 3 2 = 0 := by rcases hM' 1 2 3 (by omega) (by omega) (by omega) (by omega) with h | h <;> simp only [h, hl, hr]
    have t4 : e 0 0 * e 1 3 * e 2 2 * e 3 1 = 0 := by rcases hM' 1 3 3 (by omega) (by omega) (by omega) (by omega) with h | h <;> simp only [h, hl, hr]
    have t5 : e 0 1 * e 1 0 * e 2 2 * e 3 3 = 0 := by rcases hM' 0 1 1 (by omega) (by omega) (by omega) (by omega) with h | h <;> simp only [h, hl, hr]
    have t6 : e 0 1 * e 1 0 * e 2 3 * e 3 2 = 0 := by rcases hM' 0 1 1 (by omega) (by omega) (by omega) (by omega) with h | h <;> simp only [h, hl, hr]
    have t7 : e 0 1 * e 1 2 * e 2 0 * e 3 3 = 0 := by rcases hM' 0 2 1 (by omega) (by omega) (by omega) (by omega) with h | h <;> simp only [h, hl, hr]
    have t8 : e 0 1 * e 1 2 * e 2 3 * e 3 0 = 0 := by rcases hM' 0 3 1 (by omega) (by omega) (by omega) (by omega) with h | h <;> simp only [h, hl, hr]
    have t9 : e 0 1 * e 1 3 * e 2 0 * e 3 2 = 0 := by rcases hM' 0 2 1 (by omega) (by omega) (by omega) (by omega) with h | h <;> simp only [h, hl, hr]
    have t10 : e 0 1 * e 1 3 * e 2 2 * e 3 0 = 0 := by rcases hM' 0 3 1 (by omega) (by omega) (by omega) (by omega) with h | h <;> simp only [h, hl, hr]
    have t11 : e 0 2 * e 1 0 * e 2 1 * e 3 3 = 0 := by rcases hM' 0 1 2 (by omega) (by omega) (by omega) (by omega) with h | h <;> simp only [h, hl, hr]
    have t12 : e 0 2 * e 1 0 * e 2 3 * e 3 1 = 0 := by rcases hM' 0 1 2 (by omega) (by omega) (by omega) (by omega) with h | h <;> simp only [h, hl, hr]
    have t13 : e 0 2 * e 1 1 * e 2 0 * e 3 3 = 0 := by rcases hM' 0 2 2 (by omega) (by omega) (by omega) (by omega) with h | h <;> simp only [h, hl, hr]
    have t14 : e 0 2 * e 1 1 * e 2 3 * e 3 0 = 0 := by rcases hM' 0 3 2 (by omega) (by omega) (by omega) (by omega) with h | h <;> simp only [h, hl, hr]
    have t15 : e 0 2 * e 1 3 * e 2 0 * e 3 1 = 0 := by rcases hM' 0 2 2 (by omega) (by omega) (by omega) (by omega) with h | h <;> simp only [h, hl, hr]
    have t16 : e 0 2 * e 1 3 * e 2 1 * e 3 0 = 0 := by rcases hM' 0 3 2 (by omega) (by omega) (by omega) (by omega) with h | h <;> simp only [h, hl, hr]
    have t17 : e 0 3 * e 1 0 * e 2 1 * e 3 2 = 0 := by rcases hM' 0 1 3 (by omega) (by omega) (by omega) (by omega) with h | h <;> simp only [h, hl, hr]
    have t18 : e 0 3 * e 1 0 * e 2 2 * e 3 1 = 0 := by rcases hM' 0 1 3 (by omega) (by omega) (by omega) (by omega) with h | h <;> simp only [h, hl, hr]
    have t19 : e 0 3 * e 1 1 * e 2 0 * e 3 2 = 0 := by rcases hM' 0 2 3 (by omega) (by omega) (by omega) (by omega) with h | h <;> simp only [h, hl, hr]
    have t20 : e 0 3 * e 1 1 * e 2 2 * e 3 0 = 0 := by rcases hM' 0 3 3 (by omega) (by omega) (by omega) (by omega) with h | h <;> simp only [h, hl, hr]
    have t21 : e 0 3 * e 1 2 * e 2 0 * e 3 1 = 0 := by rcases hM' 0 2 3 (by omega) (by omega) (by omega) (by omega) with h | h <;> simp only [h, hl, hr]
    have t22 : e 0 3 * e 1 2 * e 2 1 * e 3 0 = 0 := by rcases hM' 0 3 3 (by omega) (by omega) (by omega) (by omega) with h | h <;> simp only [h, hl, hr]
    unfold closedDet
    simp only [t0, t1, t2, t3, t4, t5, t6, t7, t8, t9, t10, t11, t12, t13, t14, t15, t16, t17, t18, t19, t20, t21, t22, hs, ha, ha']

/-! ## The numbers -/

/-- C145: zeros of exact numbers. -/
theorem C145_field {K : Type} [Field K] [DecidableEq K] : Absorbing (fun x : K => x = 0) where
  zero := rfl
  neg h := by rw [h, neg_zero]
  add h h' := by rw [h, h', add_zero]
  sub h h' := by rw [h, h', sub_zero]
  left h y := by rw [h, zero_mul]
  right h x := by rw [h, mul_zero]
  quo {x} h y := by
    subst h
    by_cases hy : y = 0
    · unfold Malg.quo; rw [hy, cdiv_zero]
    · unfold Malg.quo; rw [cdiv_ok 0 hy, zero_div]

section
variable {K : Type} [Field K] [LinearOrder K] [IsStrictOrderedRing K] [FloorRing K] {p : ℕ} {emin : ℤ} {emax : ℕ}

theorem rnd_zero' : rnd p emin (0 : K) = 0 := by simp [rnd, rne]

/-- C145: zeros of floating point numbers, and the laws the other parts ask for. -/
theorem C145_float (hp : 1 ≤ p) : Absorbing (fun x : Fl K p emin => x = 0) ∧ (∀ x y : Fl K p emin, x * y = y * x) ∧ (∀ x : Fl K p emin, 0 * x = 0) ∧
    (∀ x : Fl K p emin, x * 0 = 0) ∧ (∀ x : Fl K p emin, x - 0 = x) ∧ ∀ y : Fl K p emin, y ≠ 0 → Divisor y ∧ quo 0 y = 0 := by
  have v0 : (0 : Fl K p emin).val = 0 := rfl
  have vm : ∀ x y : Fl K p emin, (x * y).val = rnd p emin (x.val * y.val) := fun _ _ => rfl
  have vs : ∀ x y : Fl K p emin, (x - y).val = rnd p emin (x.val - y.val) := fun _ _ => rfl
  have va : ∀ x y : Fl K p emin, (x + y).val = rnd p emin (x.val + y.val) := fun _ _ => rfl
  have hl : ∀ x : Fl K p emin, 0 * x = 0 := fun x => Fl.ext (by rw [vm, v0, zero_mul, rnd_zero'])
  have hc : ∀ x y : Fl K p emin, x * y = y * x := fun x y => Fl.ext (by rw [vm, vm, mul_comm])
  have hr : ∀ x : Fl K p emin, x * 0 = 0 := fun x => by rw [hc, hl]
  have hs : ∀ x : Fl K p emin, x - 0 = x := fun x => Fl.ext (by rw [vs, v0, sub_zero, rnd_exact hp x.isFl])
  have hd : ∀ x y : Fl K p emin, cdiv x y = if y.val = 0 then .ub .divZero else .ok (Fl.of p emin (x.val / y.val)) := fun _ _ => rfl
  have hq : ∀ y : Fl K p emin, quo 0 y = 0 := by
    intro y
    unfold quo
    rw [hd]
    by_cases hy : y.val = 0
    · rw [if_pos hy]
    · rw [if_neg hy]
      refine Fl.ext ?_
      show rnd p emin _ = _
      rw [v0, zero_div, rnd_zero']
  refine ⟨⟨rfl, fun h => ?_, fun h h' => ?_, fun h h' => ?_, fun h y => ?_, fun h x => ?_, fun h y => ?_⟩, hc, hl, hr, hs, fun y hy => ⟨fun x => ?_, hq y⟩⟩
  · rw [h]; exact Fl.ext (show -(0 : Fl K p emin).val = 0 by rw [v0, neg_zero])
  · rw [h, h']; exact Fl.ext (by rw [va, v0, add_zero, rnd_zero'])
  · rw [h, h', hs]
  · rw [h, hl]
  · rw [h, hr]
  · rw [h, hq]
  · have hy' : y.val ≠ 0 := fun h => hy (Fl.ext h)
    unfold quo
    rw [hd, if_neg hy']

namespace Ieee

/-- A zero of either sign, or NaN (what `0 * inf` gives). -/
def Null : Ieee K p emin emax → Prop
  | nan => True
  | inf _ => False
  | fin x _ _ _ => x.val = 0

theorem null_mk {s : Bool} {x : K} (h : x = 0) : Null (mk s x : Ieee K p emin emax) := by
  have h0 : (Fl.of p emin x).val = 0 := by show rnd p emin x = 0; rw [h, rnd_zero']
  unfold mk
  rw [dif_pos (by rw [h0, abs_zero]; exact pow_pos zero_lt_two _)]
  exact h0

theorem Null.neg {a : Ieee K p emin emax} (h : Null a) : Null (-a) := by
  match a, h with
  | nan, _ => trivial
  | fin x _ _ _, h => exact neg_eq_zero.2 (show x.val = 0 from h)

theorem Null.add {a b : Ieee K p emin emax} (h : Null a) (h' : Null b) : Null (a + b) := by
  match a, b, h, h' with
  | nan, _, _, _ => trivial
  | fin .., nan, _, _ => trivial
  | fin x _ _ _, fin y _ _ _, h, h' =>
    exact null_mk (by rw [show x.val = 0 from h, show y.val = 0 from h', add_zero])

theorem Null.left {a : Ieee K p emin emax} (h : Null a) (b : Ieee K p emin emax) : Null (a * b) := by
  match a, b, h with
  | nan, _, _ => trivial
  | fin .., nan, _ => trivial
  | fin x _ _ _, inf _, h =>
    show Null (if x.val = 0 then nan else _)
    rw [if_pos (show x.val = 0 from h)]; trivial
  | fin x _ _ _, fin y _ _ _, h => exact null_mk (by rw [show x.val = 0 from h, zero_mul])

theorem mul_symm (a b : Ieee K p emin emax) : a * b = b * a := by
  match a, b with
  | nan, nan => rfl
  | nan, inf _ => rfl
  | nan, fin .. => rfl
  | inf _, nan => rfl
  | fin .., nan => rfl
  | inf s, inf t => exact congrArg inf (Bool.xor_comm s t)
  | inf s, fin y z hz hy =>
    show (if y.val = 0 then nan else inf _) = if y.val = 0 then nan else inf _
    rw [Bool.xor_comm]
  | fin y z hz hy, inf s =>
    show (if y.val = 0 then nan else inf _) = if y.val = 0 then nan else inf _
    rw [Bool.xor_comm]
  | fin x z hz hx, fin y z' hz' hy =>
    show mk _ (x.val * y.val) = mk _ (y.val * x.val)
    rw [Bool.xor_comm, mul_comm]

theorem Null.quo {a : Ieee K p emin emax} (h : Null a) (b : Ieee K p emin emax) : Null (div a b) := by
  match a, b, h with
  | nan, _, _ => trivial
  | fin .., nan, _ => trivial
  | fin x _ _ _, inf _, h => exact null_mk rfl
  | fin x _ _ _, fin y _ _ _, h =>
    show Null (if y.val = 0 then if x.val = 0 then nan else _ else mk _ (x.val / y.val))
    split
    · rw [if_pos (show x.val = 0 from h)]; trivial
    · exact null_mk (by rw [show x.val = 0 from h, zero_div])
end Ieee

open Ieee in
/-- C145: zeros of IEEE numbers are zeros of either sign or NaN, whatever overflows. -/
theorem C145_ieee : Absorbing (Null : Ieee K p emin emax → Prop) ∧ ∀ x y : Ieee K p emin emax, x * y = y * x :=
  ⟨⟨rfl, Null.neg, Null.add, fun h h' => h.add h'.neg, Null.left, fun {y} h x => by rw [mul_symm]; exact h.left x, fun h y => h.quo y⟩, mul_symm⟩
end

/-! ## Patterns of zeros -/

/-- C145: upper and lower triangular, diagonal and block triangular matrices have patterns as in `C145_power` and `C145_inverse_partial`, banded matrices as in
`C145_lu`; products of banded matrices have bands that are as wide as both together. -/
theorem C145_patterns (n : Nat) (b : Nat → Nat) (p q p' q' : Nat) :
    (∀ i j, j < i → i ≠ j ∧ ∀ k, k < n → k < i ∨ j < k) ∧ (∀ i j, i < j → i ≠ j ∧ ∀ k, k < n → i < k ∨ k < j) ∧
    (∀ i j, i ≠ j → i ≠ j ∧ ∀ k, k < n → i ≠ k ∨ k ≠ j) ∧ (∀ i j, b j < b i → i ≠ j ∧ ∀ k, k < n → b k < b i ∨ b j < b k) ∧
    (∀ i j, (j + p < i ∨ i + q < j) → i ≠ j ∧ ∀ k, k < i → k < j → (k + p < i ∨ i + q < k) ∨ (j + p < k ∨ k + q < j)) ∧
    (∀ i j, (j + (p + p') < i ∨ i + (q + q') < j) → ∀ k, k < n → (k + p < i ∨ i + q < k) ∨ (j + p' < k ∨ k + q' < j)) := by
  refine ⟨?_, ?_, ?_, ?_, ?_, ?_⟩
  · intro i j h; exact ⟨by omega, fun k _ => by omega⟩
  · intro i j h; exact ⟨by omega, fun k _ => by omega⟩
  · intro i j h; exact ⟨h, fun k _ => by omega⟩
  · intro i j h; exact ⟨fun hc => by rw [hc] at h; omega, fun k _ => by omega⟩
  · intro i j h; exact ⟨by omega, fun k _ _ => by omega⟩
  · intro i j h k _; omega

section
open Ieee

/-- A tridiagonal matrix in doubles. -/
def tri5 : Mat IDouble := Mat.ofFn 5 5 fun i j => if i = j then dbl (1 / 3) else if i = j + 1 then dbl (1 / 10) else if j = i + 1 then dbl (7 / 10) else 0

/-- Its factors have one diagonal below and above. -/
example : (do let X ← lu tri5.toMB; Res.ok ((List.range 25).filter fun k => decide (X.1.data.getD k 0 ≠ 0), (List.range 25).filter fun k => decide (X.2.data.getD k 0 ≠ 0))) =
    Res.ok ([0, 5, 6, 11, 12, 17, 18, 23, 24], [0, 1, 6, 7, 12, 13, 18, 19, 24]) := by decide +kernel

/-- An upper triangular matrix in doubles, its determinant and its inverse. -/
def upper5 : Mat IDouble := Mat.ofFn 5 5 fun i j => if i ≤ j then dbl ((i + 2 * j + 1) / 10) else 0

example : determinant dIsZero upper5.toMB = .ok ((((1 * dbl (1 / 10) * dbl (4 / 10)) * dbl (7 / 10)) * dbl 1) * dbl (13 / 10)) ∧
    (do let X ← inverse dIsZero upper5.toMB; Res.ok ((List.range 25).filter fun k => decide (X.data.getD k 0 = 0 ∨ X.data.getD k 0 = -0))) =
      Res.ok [5, 10, 11, 15, 16, 17, 20, 21, 22, 23] := by decide +kernel

/-- A symmetric matrix. -/
def sym4 : Mat IDouble := ⟨4, 4, [1, 1/10, 1/3, 2, 1/10, 0, 0, 2, 1/3, 0, 2, 2, 2, 2, 2, 1].map dbl⟩

set_option maxRecDepth 100000 in
/-- C145 does not hold for the inverses of symmetric 4x4 matrices: they are not symmetric. -/
theorem C145_symmetric_false : (∀ i, i < 4 → ∀ j, j < 4 → sym4.toMB.at_ i j = sym4.toMB.at_ j i) ∧
    ∃ V x y, inverse dIsZero sym4.toMB = .ok V ∧ V.at_ 1 2 = .ok x ∧ V.at_ 2 1 = .ok y ∧ x ≠ y := by
  refine ⟨by decide +kernel, ?_⟩
  have h : (do let V ← inverse dIsZero sym4.toMB; let x ← V.at_ 1 2; let y ← V.at_ 2 1; Res.ok (decide (x ≠ y))) = .ok true := by decide +kernel
  cases hV : inverse dIsZero sym4.toMB with
  | ok V =>
    rw [hV, Res.ok_bind] at h
    cases hx : V.at_ 1 2 with
    | ok x =>
      rw [hx, Res.ok_bind] at h
      cases hy : V.at_ 2 1 with
      | ok y =>
        rw [hy, Res.ok_bind] at h
        exact ⟨V, x, y, rfl, hx, hy, of_decide_eq_true (Res.ok.inj h)⟩
      | _ => rw [hy] at h; cases h
    | _ => rw [hx] at h; cases h
  | _ => rw [hV] at h; cases h

/-- C145 does not hold for the inverses of 6x6 matrices: the inverse of the identity has an entry that is not zero outside of the diagonal. -/
theorem C145_six_false : ∃ V, inverse dIsZero (Mat.ofFn 6 6 fun i j => if i = j then (1 : IDouble) else 0).toMB = .ok V ∧ V.at_ 5 4 = .ok (-1) := by
  have h : (do let V ← inverse dIsZero (Mat.ofFn 6 6 fun i j => if i = j then (1 : IDouble) else 0).toMB; V.at_ 5 4) = .ok (-1) := by decide +kernel
  cases hV : inverse dIsZero (Mat.ofFn 6 6 fun i j => if i = j then (1 : IDouble) else 0).toMB with
  | ok V =>
    rw [hV, Res.ok_bind] at h
    exact ⟨V, rfl, h⟩
  | _ => rw [hV] at h; cases h

/-- C145 does not hold for triangular matrices of doubles whose elimination overflows: the determinant is `2^-1000`, the result NaN. -/
theorem C145_overflow_false : determinant dIsZero (Mat.ofFn 5 5 fun i j => if i = j then (if i = 0 then dbl (1 / 2 ^ 1000) else 1) else if i = 1 ∧ j = 0 then
    dbl (2 ^ 1000) else 0 : Mat IDouble).toMB = .ok nan := by decide +kernel

/-- C145 does not hold for simulations in which states overflow: the first state is not connected with anything and should stay `1`; after the second state has
become infinite it is NaN. -/
theorem C145_isolated_false : simulate Ieee.toSize (⟨⟨⟨2, 2, [1, 0, 0, dbl (2 ^ 1000)]⟩, ⟨2, 1, [0, 0]⟩, ⟨1, 2, [1, 0]⟩, ⟨1, 1, [0]⟩⟩, 1⟩ : DiscreteStateSpace IDouble)
    [[0], [0], [0]] (dbl 3) [1, 1] =
    .ok ([0, 1, dbl 2, 0], [[1, 1], [1, dbl (2 ^ 1000)], [1, inf false], [nan, inf false]], [[1], [1], [nan]]) := by decide +kernel
end
end Malg
