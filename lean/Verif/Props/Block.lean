import Verif.Props.Scale
import Verif.Props.Zeros
import Verif.Props.IeeeInv
/-!
# Property C148: the blocks beside the diagonal blocks
-/
namespace Malg
open Ops Lin Feq

/-- The laws of zero that determinants of block matrices use. -/
structure ZeroLaws {T : Type} [Zero T] [Add T] [Sub T] [Mul T] [CDiv T] (isz : T → Bool) : Prop where
  isz_zero : isz 0 = true
  divisor : ∀ {x : T}, isz x = false → Divisor x
  quo_zero : ∀ {x : T}, isz x = false → quo 0 x = 0
  zero_mul : ∀ x : T, 0 * x = 0
  mul_zero : ∀ x : T, x * 0 = 0
  sub_zero : ∀ x : T, x - 0 = x
  add_zero : ∀ x : T, x + 0 = x
  zero_add : ∀ x : T, 0 + x = x

/-- `M` and `N` have zeros below the blocks of `k` and `n - k` rows and agree in the blocks. -/
def SameBlocks {T : Type} [Zero T] {n : Nat} (k : Nat) (M N : Matrix (Fin n) (Fin n) T) : Prop :=
  ∀ i j : Fin n, (k ≤ i.1 → j.1 < k → M i j = 0 ∧ N i j = 0) ∧ ((i.1 < k ↔ j.1 < k) → M i j = N i j)

/-- The same for tables. -/
def TabBlocks {T : Type} [Zero T] (n k : Nat) (e f : Nat → Nat → T) : Prop :=
  ∀ i j, i < n → j < n → (k ≤ i → j < k → e i j = 0 ∧ f i j = 0) ∧ ((i < k ↔ j < k) → e i j = f i j)

section
variable {T : Type} [Zero T] [One T] [Add T] [Sub T] [Mul T] [Neg T] [CDiv T] {isz : T → Bool} (Z : ZeroLaws isz)
include Z

set_option linter.unusedSimpArgs false in
omit [Neg T] in
theorem ZeroLaws.closed {n k : Nat} (hn : n ≤ 4) {e f : Nat → Nat → T} (h : TabBlocks n k e f) : closedDet e n = closedDet f n := by
  have all : (∀ i j, i < n → j < n → e i j = f i j) → closedDet e n = closedDet f n := by
    intro h
    obtain rfl | rfl | rfl | rfl | rfl : n = 0 ∨ n = 1 ∨ n = 2 ∨ n = 3 ∨ n = 4 := by omega
    · rfl
    all_goals
      unfold closedDet
      simp (discharger := omega) only [h]
  by_cases h0 : k = 0
  · exact all fun i j hi hj => (h i j hi hj).2 (by omega)
  by_cases hk : n ≤ k
  · exact all fun i j hi hj => (h i j hi hj).2 (by omega)
  have l1 := Z.zero_mul
  have l2 := Z.mul_zero
  have l3 := Z.sub_zero
  have l4 := Z.add_zero
  have l5 := Z.zero_add
  obtain ⟨rfl, rfl⟩ | ⟨rfl, rfl⟩ | ⟨rfl, rfl⟩ | ⟨rfl, rfl⟩ | ⟨rfl, rfl⟩ | ⟨rfl, rfl⟩ : (n = 2 ∧ k = 1) ∨ (n = 3 ∧ k = 1) ∨ (n = 3 ∧ k = 2) ∨ (n = 4 ∧ k = 1) ∨ (n = 4 ∧ k = 2) ∨ (n = 4 ∧ k = 3) := by omega
  · -- 2, 1
    have c00 := (h 0 0 (by omega) (by omega)).2 (by omega)
    obtain ⟨a10, b10⟩ := (h 1 0 (by omega) (by omega)).1 (by omega) (by omega)
    have c11 := (h 1 1 (by omega) (by omega)).2 (by omega)
    simp only [closedDet, c00, a10, b10, c11, l1, l2, l3, l4, l5]
  · -- 3, 1
    have c00 := (h 0 0 (by omega) (by omega)).2 (by omega)
    obtain ⟨a10, b10⟩ := (h 1 0 (by omega) (by omega)).1 (by omega) (by omega)
    have c11 := (h 1 1 (by omega) (by omega)).2 (by omega)
    have c12 := (h 1 2 (by omega) (by omega)).2 (by omega)
    obtain ⟨a20, b20⟩ := (h 2 0 (by omega) (by omega)).1 (by omega) (by omega)
    have c21 := (h 2 1 (by omega) (by omega)).2 (by omega)
    have c22 := (h 2 2 (by omega) (by omega)).2 (by omega)
    simp only [closedDet, c00, a10, b10, c11, c12, a20, b20, c21, c22, l1, l2, l3, l4, l5]
  · -- 3, 2
    have c00 := (h 0 0 (by omega) (by omega)).2 (by omega)
    have c01 := (h 0 1 (by omega) (by omega)).2 (by omega)
    have c10 := (h 1 0 (by omega) (by omega)).2 (by omega)
    have c11 := (h 1 1 (by omega) (by omega)).2 (by omega)
    obtain ⟨a20, b20⟩ := (h 2 0 (by omega) (by omega)).1 (by omega) (by omega)
    obtain ⟨a21, b21⟩ := (h 2 1 (by omega) (by omega)).1 (by omega) (by omega)
    have c22 := (h 2 2 (by omega) (by omega)).2 (by omega)
    simp only [closedDet, c00, c01, c10, c11, a20, b20, a21, b21, c22, l1, l2, l3, l4, l5]
  · -- 4, 1
    have c00 := (h 0 0 (by omega) (by omega)).2 (by omega)
    obtain ⟨a10, b10⟩ := (h 1 0 (by omega) (by omega)).1 (by omega) (by omega)
    have c11 := (h 1 1 (by omega) (by omega)).2 (by omega)
    have c12 := (h 1 2 (by omega) (by omega)).2 (by omega)
    have c13 := (h 1 3 (by omega) (by omega)).2 (by omega)
    obtain ⟨a20, b20⟩ := (h 2 0 (by omega) (by omega)).1 (by omega) (by omega)
    have c21 := (h 2 1 (by omega) (by omega)).2 (by omega)
    have c22 := (h 2 2 (by omega) (by omega)).2 (by omega)
    have c23 := (h 2 3 (by omega) (by omega)).2 (by omega)
    obtain ⟨a30, b30⟩ := (h 3 0 (by omega) (by omega)).1 (by omega) (by omega)
    have c31 := (h 3 1 (by omega) (by omega)).2 (by omega)
    have c32 := (h 3 2 (by omega) (by omega)).2 (by omega)
    have c33 := (h 3 3 (by omega) (by omega)).2 (by omega)
    simp only [closedDet, c00, a10, b10, c11, c12, c13, a20, b20, c21, c22, c23, a30, b30, c31, c32, c33, l1, l2, l3, l4, l5]
  · -- 4, 2
    have c00 := (h 0 0 (by omega) (by omega)).2 (by omega)
    have c01 := (h 0 1 (by omega) (by omega)).2 (by omega)
    have c10 := (h 1 0 (by omega) (by omega)).2 (by omega)
    have c11 := (h 1 1 (by omega) (by omega)).2 (by omega)
    obtain ⟨a20, b20⟩ := (h 2 0 (by omega) (by omega)).1 (by omega) (by omega)
    obtain ⟨a21, b21⟩ := (h 2 1 (by omega) (by omega)).1 (by omega) (by omega)
    have c22 := (h 2 2 (by omega) (by omega)).2 (by omega)
    have c23 := (h 2 3 (by omega) (by omega)).2 (by omega)
    obtain ⟨a30, b30⟩ := (h 3 0 (by omega) (by omega)).1 (by omega) (by omega)
    obtain ⟨a31, b31⟩ := (h 3 1 (by omega) (by omega)).1 (by omega) (by omega)
    have c32 := (h 3 2 (by omega) (by omega)).2 (by omega)
    have c33 := (h 3 3 (by omega) (by omega)).2 (by omega)
    simp only [closedDet, c00, c01, c10, c11, a20, b20, a21, b21, c22, c23, a30, b30, a31, b31, c32, c33, l1, l2, l3, l4, l5]
  · -- 4, 3
    have c00 := (h 0 0 (by omega) (by omega)).2 (by omega)
    have c01 := (h 0 1 (by omega) (by omega)).2 (by omega)
    have c02 := (h 0 2 (by omega) (by omega)).2 (by omega)
    have c10 := (h 1 0 (by omega) (by omega)).2 (by omega)
    have c11 := (h 1 1 (by omega) (by omega)).2 (by omega)
    have c12 := (h 1 2 (by omega) (by omega)).2 (by omega)
    have c20 := (h 2 0 (by omega) (by omega)).2 (by omega)
    have c21 := (h 2 1 (by omega) (by omega)).2 (by omega)
    have c22 := (h 2 2 (by omega) (by omega)).2 (by omega)
    obtain ⟨a30, b30⟩ := (h 3 0 (by omega) (by omega)).1 (by omega) (by omega)
    obtain ⟨a31, b31⟩ := (h 3 1 (by omega) (by omega)).1 (by omega) (by omega)
    obtain ⟨a32, b32⟩ := (h 3 2 (by omega) (by omega)).1 (by omega) (by omega)
    have c33 := (h 3 3 (by omega) (by omega)).2 (by omega)
    simp only [closedDet, c00, c01, c02, c10, c11, c12, c20, c21, c22, a30, b30, a31, b31, a32, b32, c33, l1, l2, l3, l4, l5]

set_option linter.unusedSimpArgs false in
omit [Neg T] in
theorem ZeroLaws.closed_lower {n k : Nat} (hn : n ≤ 4) {e f : Nat → Nat → T} (h : ∀ i j, i < n → j < n → (i < k → k ≤ j → e i j = 0 ∧ f i j = 0) ∧ ((i < k ↔ j < k) → e i j = f i j)) : closedDet e n = closedDet f n := by
  have all : (∀ i j, i < n → j < n → e i j = f i j) → closedDet e n = closedDet f n := by
    intro h
    obtain rfl | rfl | rfl | rfl | rfl : n = 0 ∨ n = 1 ∨ n = 2 ∨ n = 3 ∨ n = 4 := by omega
    · rfl
    all_goals
      unfold closedDet
      simp (discharger := omega) only [h]
  by_cases h0 : k = 0
  · exact all fun i j hi hj => (h i j hi hj).2 (by omega)
  by_cases hk : n ≤ k
  · exact all fun i j hi hj => (h i j hi hj).2 (by omega)
  have l1 := Z.zero_mul
  have l2 := Z.mul_zero
  have l3 := Z.sub_zero
  have l4 := Z.add_zero
  have l5 := Z.zero_add
  obtain ⟨rfl, rfl⟩ | ⟨rfl, rfl⟩ | ⟨rfl, rfl⟩ | ⟨rfl, rfl⟩ | ⟨rfl, rfl⟩ | ⟨rfl, rfl⟩ : (n = 2 ∧ k = 1) ∨ (n = 3 ∧ k = 1) ∨ (n = 3 ∧ k = 2) ∨ (n = 4 ∧ k = 1) ∨ (n = 4 ∧ k = 2) ∨ (n = 4 ∧ k = 3) := by omega
  · -- 2, 1
    have c00 := (h 0 0 (by omega) (by omega)).2 (by omega)
    obtain ⟨a01, b01⟩ := (h 0 1 (by omega) (by omega)).1 (by omega) (by omega)
    have c11 := (h 1 1 (by omega) (by omega)).2 (by omega)
    simp only [closedDet, c00, a01, b01, c11, l1, l2, l3, l4, l5]
  · -- 3, 1
    have c00 := (h 0 0 (by omega) (by omega)).2 (by omega)
    obtain ⟨a01, b01⟩ := (h 0 1 (by omega) (by omega)).1 (by omega) (by omega)
    obtain ⟨a02, b02⟩ := (h 0 2 (by omega) (by omega)).1 (by omega) (by omega)
    have c11 := (h 1 1 (by omega) (by omega)).2 (by omega)
    have c12 := (h 1 2 (by omega) (by omega)).2 (by omega)
    have c21 := (h 2 1 (by omega) (by omega)).2 (by omega)
    have c22 := (h 2 2 (by omega) (by omega)).2 (by omega)
    simp only [closedDet, c00, a01, b01, a02, b02, c11, c12, c21, c22, l1, l2, l3, l4, l5]
  · -- 3, 2
    have c00 := (h 0 0 (by omega) (by omega)).2 (by omega)
    have c01 := (h 0 1 (by omega) (by omega)).2 (by omega)
    obtain ⟨a02, b02⟩ := (h 0 2 (by omega) (by omega)).1 (by omega) (by omega)
    have c10 := (h 1 0 (by omega) (by omega)).2 (by omega)
    have c11 := (h 1 1 (by omega) (by omega)).2 (by omega)
    obtain ⟨a12, b12⟩ := (h 1 2 (by omega) (by omega)).1 (by omega) (by omega)
    have c22 := (h 2 2 (by omega) (by omega)).2 (by omega)
    simp only [closedDet, c00, c01, a02, b02, c10, c11, a12, b12, c22, l1, l2, l3, l4, l5]
  · -- 4, 1
    have c00 := (h 0 0 (by omega) (by omega)).2 (by omega)
    obtain ⟨a01, b01⟩ := (h 0 1 (by omega) (by omega)).1 (by omega) (by omega)
    obtain ⟨a02, b02⟩ := (h 0 2 (by omega) (by omega)).1 (by omega) (by omega)
    obtain ⟨a03, b03⟩ := (h 0 3 (by omega) (by omega)).1 (by omega) (by omega)
    have c11 := (h 1 1 (by omega) (by omega)).2 (by omega)
    have c12 := (h 1 2 (by omega) (by omega)).2 (by omega)
    have c13 := (h 1 3 (by omega) (by omega)).2 (by omega)
    have c21 := (h 2 1 (by omega) (by omega)).2 (by omega)
    have c22 := (h 2 2 (by omega) (by omega)).2 (by omega)
    have c23 := (h 2 3 (by omega) (by omega)).2 (by omega)
    have c31 := (h 3 1 (by omega) (by omega)).2 (by omega)
    have c32 := (h 3 2 (by omega) (by omega)).2 (by omega)
    have c33 := (h 3 3 (by omega) (by omega)).2 (by omega)
    simp only [closedDet, c00, a01, b01, a02, b02, a03, b03, c11, c12, c13, c21, c22, c23, c31, c32, c33, l1, l2, l3, l4, l5]
  · -- 4, 2
    have c00 := (h 0 0 (by omega) (by omega)).2 (by omega)
    have c01 := (h 0 1 (by omega) (by omega)).2 (by omega)
    obtain ⟨a02, b02⟩ := (h 0 2 (by omega) (by omega)).1 (by omega) (by omega)
    obtain ⟨a03, b03⟩ := (h 0 3 (by omega) (by omega)).1 (by omega) (by omega)
    have c10 := (h 1 0 (by omega) (by omega)).2 (by omega)
    have c11 := (h 1 1 (by omega) (by omega)).2 (by omega)
    obtain ⟨a12, b12⟩ := (h 1 2 (by omega) (by omega)).1 (by omega) (by omega)
    obtain ⟨a13, b13⟩ := (h 1 3 (by omega) (by omega)).1 (by omega) (by omega)
    have c22 := (h 2 2 (by omega) (by omega)).2 (by omega)
    have c23 := (h 2 3 (by omega) (by omega)).2 (by omega)
    have c32 := (h 3 2 (by omega) (by omega)).2 (by omega)
    have c33 := (h 3 3 (by omega) (by omega)).2 (by omega)
    simp only [closedDet, c00, c01, a02, b02, a03, b03, c10, c11, a12, b12, a13, b13, c22, c23, c32, c33, l1, l2, l3, l4, l5]
  · -- 4, 3
    have c00 := (h 0 0 (by omega) (by omega)).2 (by omega)
    have c01 := (h 0 1 (by omega) (by omega)).2 (by omega)
    have c02 := (h 0 2 (by omega) (by omega)).2 (by omega)
    obtain ⟨a03, b03⟩ := (h 0 3 (by omega) (by omega)).1 (by omega) (by omega)
    have c10 := (h 1 0 (by omega) (by omega)).2 (by omega)
    have c11 := (h 1 1 (by omega) (by omega)).2 (by omega)
    have c12 := (h 1 2 (by omega) (by omega)).2 (by omega)
    obtain ⟨a13, b13⟩ := (h 1 3 (by omega) (by omega)).1 (by omega) (by omega)
    have c20 := (h 2 0 (by omega) (by omega)).2 (by omega)
    have c21 := (h 2 1 (by omega) (by omega)).2 (by omega)
    have c22 := (h 2 2 (by omega) (by omega)).2 (by omega)
    obtain ⟨a23, b23⟩ := (h 2 3 (by omega) (by omega)).1 (by omega) (by omega)
    have c33 := (h 3 3 (by omega) (by omega)).2 (by omega)
    simp only [closedDet, c00, c01, c02, a03, b03, c10, c11, c12, a13, b13, c20, c21, c22, a23, b23, c33, l1, l2, l3, l4, l5]

omit [One T] [Neg T] in
theorem ZeroLaws.elim {n k c : Nat} (hc : c < n) {e f : Nat → Nat → T} (h : TabBlocks n k e f) (hp : isz (e c c) = false) :
    TabBlocks n k (elimT e c fun r => quo (e r c) (e c c)) (elimT f c fun r => quo (f r c) (f c c)) := by
  intro i j hi hj
  have hcc : e c c = f c c := (h c c hc hc).2 Iff.rfl
  unfold elimT
  by_cases hij : c < i ∧ c ≤ j
  · rw [if_pos hij, if_pos hij]
    by_cases hck : c < k
    · by_cases hik : i < k
      · refine ⟨fun h' => absurd hik (by omega), fun h' => ?_⟩
        have hjk := h'.1 hik
        dsimp only
        rw [(h i j hi hj).2 h', (h c j hc hj).2 (by omega), (h i c hi hc).2 (by omega), hcc]
      · obtain ⟨h1, h2⟩ := (h i c hi hc).1 (by omega) hck
        dsimp only
        rw [h1, h2, Z.quo_zero hp, Z.quo_zero (hcc ▸ hp), Z.zero_mul, Z.zero_mul, Z.sub_zero, Z.sub_zero]
        exact h i j hi hj
    · refine ⟨fun _ h' => absurd h' (by omega), fun _ => ?_⟩
      dsimp only
      rw [(h i j hi hj).2 (by omega), (h c j hc hj).2 (by omega), (h i c hi hc).2 (by omega), hcc]
  · rw [if_neg hij, if_neg hij]
    exact h i j hi hj

omit [One T] [Add T] [Sub T] [Mul T] [Neg T] [CDiv T] Z in
theorem TabBlocks.swap {n k c l : Nat} (hc : c < n) (hl : l < n) (hkl : c < k ↔ l < k) {e f : Nat → Nat → T} (h : TabBlocks n k e f) :
    TabBlocks n k (swapT e c l) (swapT f c l) := by
  intro i j hi hj
  unfold swapT
  split
  · have := h l j hl hj
    exact ⟨fun h1 h2 => this.1 (by omega) h2, fun h1 => this.2 (by omega)⟩
  · split
    · have := h c j hc hj
      exact ⟨fun h1 h2 => this.1 (by omega) h2, fun h1 => this.2 (by omega)⟩
    · exact h i j hi hj

/-- C148: what is in the block above does not change the determinant, not even its last digit. -/
theorem C148_upper {A B : MB T} {n k : Nat} {M N : Matrix (Fin n) (Fin n) T} (hA : A.Is M) (hB : B.Is N) (h : SameBlocks k M N) :
    determinant isz A = determinant isz B := by
  obtain ⟨e, hA, rfl⟩ := hA
  obtain ⟨f, hB, rfl⟩ := hB
  have hf := hA.fits
  have ht : TabBlocks n k e f := fun i j hi hj => h ⟨i, hi⟩ ⟨j, hj⟩
  by_cases hn : n ≤ 4
  · rw [determinant_closed isz hA hn, determinant_closed isz hB hn, Z.closed hn ht]
  have key : ∀ c, c ≤ n → ∃ (e' f' : Nat → Nat → T) (d : T) (s : Bool),
      forRange 0 c (⟨Mat.ofFn n n e, 1, false⟩ : ElimState T) (fun c s => elimStep isz n c s) = .ok ⟨Mat.ofFn n n e', d, s⟩ ∧
      forRange 0 c (⟨Mat.ofFn n n f, 1, false⟩ : ElimState T) (fun c s => elimStep isz n c s) = .ok ⟨Mat.ofFn n n f', d, s⟩ ∧ TabBlocks n k e' f' := by
    intro c hc
    induction c with
    | zero => exact ⟨e, f, 1, false, rfl, rfl, ht⟩
    | succ c ih =>
      obtain ⟨e', f', d, s, h1, h2, h3⟩ := ih (by omega)
      rw [forRange_succ_last (Nat.zero_le c), forRange_succ_last (Nat.zero_le c), h1, h2, Res.ok_bind, Res.ok_bind]
      cases s with
      | true => exact ⟨e', f', d, true, if_pos rfl, if_pos rfl, h3⟩
      | false =>
        have hcn : c < n := by omega
        have col : ∀ l, c ≤ l → l < n → e' l c = f' l c := fun l hl hln => by
          by_cases hl' : l < k ↔ c < k
          · exact (h3 l c hln hcn).2 hl'
          · obtain ⟨h4, h5⟩ := (h3 l c hln hcn).1 (by omega) (by omega)
            rw [h4, h5]
        have hcc := col c le_rfl hcn
        rcases elimStep_cases isz (fun x => Z.divisor) hf hcn e' d with ⟨a1, a2⟩ | ⟨a1, a2, a3⟩ | ⟨a1, l, a2, a3, a4, a5, a6⟩ <;>
          rcases elimStep_cases isz (fun x => Z.divisor) hf hcn f' d with ⟨b1, b2⟩ | ⟨b1, b2, b3⟩ | ⟨b1, l', b2, b3, b4, b5, b6⟩
        any_goals (rw [hcc, b1] at a1; exact Bool.noConfusion a1)
        · exact ⟨_, _, _, _, a2, by rw [b2, hcc], Z.elim hcn h3 a1⟩
        · exact ⟨_, _, _, _, a3, b3, h3⟩
        · rw [← col l' b2.le b3, a2 l' b2 b3] at b4; exact Bool.noConfusion b4
        · rw [col l a2.le a3, b2 l a2 a3] at a4; exact Bool.noConfusion a4
        · obtain rfl : l = l' := by
            rcases lt_trichotomy l l' with h | h | h
            · rw [col l a2.le a3, b5 l a2 h] at a4; exact Bool.noConfusion a4
            · exact h
            · rw [← col l' b2.le b3, a5 l' b2 h] at b4; exact Bool.noConfusion b4
          have hlk : c < k ↔ l < k := by
            refine ⟨fun hck => ?_, fun h => by omega⟩
            by_contra hl
            rw [((h3 l c a3 hcn).1 (by omega) hck).1, Z.isz_zero] at a4
            exact Bool.noConfusion a4
          have hs : ∀ g : Nat → Nat → T, swapT g c l c c = g l c := fun g => by unfold swapT; rw [if_pos rfl]
          refine ⟨_, _, _, _, a6, ?_, Z.elim hcn (h3.swap hcn a3 hlk) (by rw [hs]; exact a4)⟩
          rw [b6, hs e', hs f', col l a2.le a3]
  obtain ⟨e', f', d, s, h1, h2, -⟩ := key n le_rfl
  have run : ∀ {A : MB T} {e e' : Nat → Nat → T}, Rep A n n e →
      forRange 0 n (⟨Mat.ofFn n n e, 1, false⟩ : ElimState T) (fun c s => elimStep isz n c s) = .ok ⟨Mat.ofFn n n e', d, s⟩ → determinant isz A = .ok d := by
    intro A e e' hA h
    unfold determinant
    rw [isSquare_eq hA.toRepAt, hA.cols, beq_self_eq_true, Bool.not_true, if_neg Bool.false_ne_true, if_neg (by omega), if_neg (by omega), if_neg (by omega), if_neg (by omega),
      Mat.ofMB_eq hA, Res.ok_bind]
    show (forRange 0 n (⟨Mat.ofFn n n e, 1, false⟩ : ElimState T) (fun c s => elimStep isz n c s) >>= _) = _
    rw [h]; rfl
  rw [run hA h1, run hB h2]

/-- C148: up to 4×4 the same holds for what is in the block below, if there are zeros above. Missing: larger matrices, see `C148_lower_false`. -/
theorem C148_lower_partial {A B : MB T} {n k : Nat} (hn : n ≤ 4) {M N : Matrix (Fin n) (Fin n) T} (hA : A.Is M) (hB : B.Is N)
    (h : SameBlocks k M.transpose N.transpose) : determinant isz A = determinant isz B := by
  obtain ⟨e, hA, rfl⟩ := hA
  obtain ⟨f, hB, rfl⟩ := hB
  have hl : ∀ i j, i < n → j < n → (i < k → k ≤ j → e i j = 0 ∧ f i j = 0) ∧ ((i < k ↔ j < k) → e i j = f i j) := fun i j hi hj =>
    ⟨fun h1 h2 => (h ⟨j, hj⟩ ⟨i, hi⟩).1 h2 h1, fun h1 => (h ⟨j, hj⟩ ⟨i, hi⟩).2 h1.symm⟩
  rw [determinant_closed isz hA hn, determinant_closed isz hB hn, Z.closed_lower hn hl]
end

theorem zeroLaws_field {K : Type} [Field K] [DecidableEq K] {isz : K → Bool} (hz : isz 0 = true) : ZeroLaws isz where
  isz_zero := hz
  divisor {x} h y := by
    have hx : x ≠ 0 := fun h0 => by rw [h0, hz] at h; cases h
    unfold quo; rw [cdiv_ok y hx]
  quo_zero {x} h := by
    have hx : x ≠ 0 := fun h0 => by rw [h0, hz] at h; cases h
    unfold quo; rw [cdiv_ok 0 hx]; exact zero_div x
  zero_mul := zero_mul
  mul_zero := mul_zero
  sub_zero := sub_zero
  add_zero := add_zero
  zero_add := zero_add

theorem zeroLaws_float {K : Type} [Field K] [LinearOrder K] [IsStrictOrderedRing K] [FloorRing K] {p : ℕ} {emin : ℤ} (hp : 1 ≤ p) {isz : Fl K p emin → Bool}
    (hz : isz 0 = true) : ZeroLaws isz where
  isz_zero := hz
  divisor {x} h y := by
    have hx : x.val ≠ 0 := fun h0 => by rw [Fl.ext (x := x) (y := 0) h0, hz] at h; cases h
    unfold quo
    rw [show cdiv y x = .ok (Fl.of p emin (y.val / x.val)) from if_neg hx]
  quo_zero {x} h := by
    have hx : x.val ≠ 0 := fun h0 => by rw [Fl.ext (x := x) (y := 0) h0, hz] at h; cases h
    unfold quo
    rw [show cdiv 0 x = .ok (Fl.of p emin ((0 : Fl K p emin).val / x.val)) from if_neg hx]
    apply Fl.ext
    show rnd p emin (0 / x.val) = 0
    rw [zero_div, rnd_zero']
  zero_mul x := Fl.ext (show rnd p emin (0 * x.val) = 0 by rw [zero_mul, rnd_zero'])
  mul_zero x := Fl.ext (show rnd p emin (x.val * 0) = 0 by rw [mul_zero, rnd_zero'])
  sub_zero x := Fl.ext (show rnd p emin (x.val - 0) = x.val by rw [sub_zero, rnd_exact hp x.isFl])
  add_zero x := Fl.ext (show rnd p emin (x.val + 0) = x.val by rw [add_zero, rnd_exact hp x.isFl])
  zero_add x := Fl.ext (show rnd p emin (0 + x.val) = x.val by rw [zero_add, rnd_exact hp x.isFl])

/-- C148: exact numbers; `isz` is any test that takes zero for zero. -/
theorem C148_field {K : Type} [Field K] [DecidableEq K] {isz : K → Bool} (hz : isz 0 = true) {A B : MB K} {n k : Nat} {M N : Matrix (Fin n) (Fin n) K} (hA : A.Is M) (hB : B.Is N)
    (h : SameBlocks k M N) : determinant isz A = determinant isz B :=
  C148_upper (zeroLaws_field hz) hA hB h

/-- C148: floating point numbers: the results agree in every digit, whatever is in the block above. -/
theorem C148_float {K : Type} [Field K] [LinearOrder K] [IsStrictOrderedRing K] [FloorRing K] {p : ℕ} {emin : ℤ} (hp : 1 ≤ p) {isz : Fl K p emin → Bool} (hz : isz 0 = true)
    {A B : MB (Fl K p emin)} {n k : Nat} {M N : Matrix (Fin n) (Fin n) (Fl K p emin)} (hA : A.Is M) (hB : B.Is N) (h : SameBlocks k M N) :
    determinant isz A = determinant isz B ∧ (n ≤ 4 → ∀ {A' B' : MB (Fl K p emin)}, A'.Is M.transpose → B'.Is N.transpose → determinant isz A' = determinant isz B') :=
  ⟨C148_upper (zeroLaws_float hp hz) hA hB h, fun hn _ _ hA' hB' => C148_lower_partial (zeroLaws_float hp hz) hn hA' hB' (by simpa using h)⟩

/-- C148: IEEE numbers. `M.map Ieee.flD` are the values of the entries, so that zeros may have either sign. Up to 4×4, if both determinants are finite numbers they are equal.
Missing: larger matrices, where a number that overflows on the way is not always visible in the result (C139), and infinite entries, see `C148_infinite_false`. -/
theorem C148_ieee_partial {K : Type} [Field K] [LinearOrder K] [IsStrictOrderedRing K] [FloorRing K] {p : ℕ} {emin : ℤ} {emax : ℕ} (hp : 1 ≤ p) (he : emin ≤ 0) (hx : 1 ≤ emax)
    {isz : Ieee K p emin emax → Bool} {A B : MB (Ieee K p emin emax)} {n k : Nat} (hn : n ≤ 4) {M N : Matrix (Fin n) (Fin n) (Ieee K p emin emax)} (hA : A.Is M) (hB : B.Is N)
    (h : SameBlocks k (M.map Ieee.flD) (N.map Ieee.flD) ∨ SameBlocks k (M.map Ieee.flD).transpose (N.map Ieee.flD).transpose) :
    ∃ x y, determinant isz A = .ok x ∧ determinant isz B = .ok y ∧ (x.Finite → y.Finite → x.val = y.val) := by
  obtain ⟨e, hA, rfl⟩ := hA
  obtain ⟨f, hB, rfl⟩ := hB
  refine ⟨_, _, determinant_closed isz hA hn, determinant_closed isz hB hn, fun hx1 hy1 => ?_⟩
  have r1 := hx1.eq ((Ieee.reads hp he hx).rd_closedDet (z := fun i j => (e i j).flD) (fun i j c hc => by unfold Ieee.flD; rw [hc]; rfl) n)
  have r2 := hy1.eq ((Ieee.reads hp he hx).rd_closedDet (z := fun i j => (f i j).flD) (fun i j c hc => by unfold Ieee.flD; rw [hc]; rfl) n)
  unfold Ieee.val
  rw [r1, r2]
  have Z : ZeroLaws (fun _ : Fl K p emin => true) := zeroLaws_float hp rfl
  rcases h with h | h
  · rw [Z.closed hn (k := k) (f := fun i j => (f i j).flD) fun i j hi hj => h ⟨i, hi⟩ ⟨j, hj⟩]
  · rw [Z.closed_lower hn (k := k) (f := fun i j => (f i j).flD) fun i j hi hj => ⟨fun h1 h2 => (h ⟨j, hj⟩ ⟨i, hi⟩).1 h2 h1, fun h1 => (h ⟨j, hj⟩ ⟨i, hi⟩).2 h1.symm⟩]

/-! ## Cases -/

/-- A 2×2 block `1 2 / 3 4`, a 3×3 block, `x` above and `y` below. -/
def twoThree (x y : ℚ) : Mat IDouble := ⟨5, 5, [1, 2, x, x, x, 3, 4, x, x, x, y, y, 2, 0, 1, y, y, 1, 3, 0, y, y, 0, 1, 1].map dbl⟩

set_option maxRecDepth 100000 in
/-- The determinant is `-2 * 7`, with or without numbers above. -/
example : determinant dIsZero (twoThree 0 0).toMB = .ok (dbl (-14)) ∧ determinant dIsZero (twoThree (1 / 10) 0).toMB = determinant dIsZero (twoThree 0 0).toMB := by
  decide +kernel

set_option maxRecDepth 100000 in
/-- C148 does not hold for blocks below and matrices with more than four rows: if the upper block is singular (here it is zero), the elimination takes a row of the lower block as
pivot row. Both matrices are singular; the results are 1 and -4. -/
theorem C148_lower_false :
    determinant dIsZero (⟨5, 5, [0, 0, 0, 0, 0, 0, 0, 0, 0, 0, 0, 0, 1, 0, 0, 0, 0, 0, 1, 0, 0, 0, 0, 0, 1].map dbl⟩ : Mat IDouble).toMB = .ok (dbl 1) ∧
    determinant dIsZero (⟨5, 5, [0, 0, 0, 0, 0, 0, 0, 0, 0, 0, 4, 0, 1, 0, 0, 0, 0, 0, 1, 0, 0, 0, 0, 0, 1].map dbl⟩ : Mat IDouble).toMB = .ok (dbl (-4)) := by
  decide +kernel

set_option maxRecDepth 100000 in
/-- C148 needs finite numbers: an infinite number above makes the determinant NaN. -/
theorem C148_infinite_false : determinant dIsZero (⟨2, 2, [dbl 1, .inf false, dbl 0, dbl 1]⟩ : Mat IDouble).toMB = .ok .nan := by
  decide +kernel
end Malg
