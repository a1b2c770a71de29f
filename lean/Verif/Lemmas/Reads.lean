import Verif.Props.FloatDet
import Mathlib.Tactic.IntervalCases
/-!
# Number types with results that are no numbers

`v` tells the value of those that are. `Reads v`: when the result of an operation is a number, the operands were numbers and the
result is what the same operation on the values gives.
-/
namespace Malg

/-- Results that are no numbers are never turned into numbers again. -/
structure Reads {X Y : Type} [Zero X] [One X] [Add X] [Sub X] [Mul X] [Zero Y] [One Y] [Add Y] [Sub Y] [Mul Y] (v : X → Option Y) :
    Prop where
  zero : v 0 = some 0
  one : v 1 = some 1
  add : ∀ {a b c}, v (a + b) = some c → ∃ x y, v a = some x ∧ v b = some y ∧ c = x + y
  sub : ∀ {a b c}, v (a - b) = some c → ∃ x y, v a = some x ∧ v b = some y ∧ c = x - y
  mul : ∀ {a b c}, v (a * b) = some c → ∃ x y, v a = some x ∧ v b = some y ∧ c = x * y

/-- If `a` is a number, it is `y`. -/
def Rd {X Y : Type} (v : X → Option Y) (a : X) (y : Y) : Prop := ∀ c, v a = some c → c = y

namespace Reads
variable {X Y : Type} [Zero X] [One X] [Add X] [Sub X] [Mul X] [Zero Y] [One Y] [Add Y] [Sub Y] [Mul Y] {v : X → Option Y}
  (R : Reads v) {a b : X} {x y : Y}
include R

omit [One X] [Add X] [Sub X] [Mul X] [One Y] [Add Y] [Sub Y] [Mul Y] R [Zero X] in
theorem rd_get (v : X → Option Y) (a : X) : Rd v a ((v a).getD 0) := fun c h => by rw [h]; rfl

theorem rd_zero : Rd v 0 0 := fun c h => by rw [R.zero] at h; injection h with h; exact h.symm
theorem rd_one : Rd v 1 1 := fun c h => by rw [R.one] at h; injection h with h; exact h.symm
theorem rd_add (ha : Rd v a x) (hb : Rd v b y) : Rd v (a + b) (x + y) := fun c h => by
  obtain ⟨x', y', h1, h2, rfl⟩ := R.add h
  rw [ha _ h1, hb _ h2]
theorem rd_sub (ha : Rd v a x) (hb : Rd v b y) : Rd v (a - b) (x - y) := fun c h => by
  obtain ⟨x', y', h1, h2, rfl⟩ := R.sub h
  rw [ha _ h1, hb _ h2]
theorem rd_mul (ha : Rd v a x) (hb : Rd v b y) : Rd v (a * b) (x * y) := fun c h => by
  obtain ⟨x', y', h1, h2, rfl⟩ := R.mul h
  rw [ha _ h1, hb _ h2]

theorem some_add (h : (v (a + b)).isSome) : (v a).isSome ∧ (v b).isSome := by
  obtain ⟨c, hc⟩ := Option.isSome_iff_exists.1 h
  obtain ⟨x, y, h1, h2, -⟩ := R.add hc
  rw [h1, h2]; exact ⟨rfl, rfl⟩
theorem some_sub (h : (v (a - b)).isSome) : (v a).isSome ∧ (v b).isSome := by
  obtain ⟨c, hc⟩ := Option.isSome_iff_exists.1 h
  obtain ⟨x, y, h1, h2, -⟩ := R.sub hc
  rw [h1, h2]; exact ⟨rfl, rfl⟩
theorem some_mul (h : (v (a * b)).isSome) : (v a).isSome ∧ (v b).isSome := by
  obtain ⟨c, hc⟩ := Option.isSome_iff_exists.1 h
  obtain ⟨x, y, h1, h2, -⟩ := R.mul hc
  rw [h1, h2]; exact ⟨rfl, rfl⟩

theorem rd_lsum {t : Nat → X} {τ : Nat → Y} {k : Nat} (h : ∀ i, i < k → Rd v (t i) (τ i)) : Rd v (lsum k t) (lsum k τ) := by
  induction k with
  | zero => exact R.rd_zero
  | succ k ih => exact R.rd_add (ih fun i hi => h i (by omega)) (h k (by omega))

theorem some_lsum {t : Nat → X} {k : Nat} (h : (v (lsum k t)).isSome) : ∀ i, i < k → (v (t i)).isSome := by
  induction k with
  | zero => exact fun i hi => absurd hi (Nat.not_lt_zero i)
  | succ k ih =>
    obtain ⟨h1, h2⟩ := R.some_add h
    intro i hi
    by_cases e : i = k
    · exact e ▸ h2
    · exact ih h1 i (by omega)

theorem rd_closedDet {e : Nat → Nat → X} {z : Nat → Nat → Y} (h : ∀ i j, Rd v (e i j) (z i j)) (N : Nat) :
    Rd v (closedDet e N) (closedDet z N) := by
  have ha : ∀ {a b : X} {x y : Y}, Rd v a x → Rd v b y → Rd v (a + b) (x + y) := R.rd_add
  have hs : ∀ {a b : X} {x y : Y}, Rd v a x → Rd v b y → Rd v (a - b) (x - y) := R.rd_sub
  have hm : ∀ {a b : X} {x y : Y}, Rd v a x → Rd v b y → Rd v (a * b) (x * y) := R.rd_mul
  match N with
  | 1 => exact h 0 0
  | 2 => exact hs (hm (h _ _) (h _ _)) (hm (h _ _) (h _ _))
  | 3 =>
    unfold closedDet
    repeat' first
      | exact h _ _
      | refine ha ?_ ?_
      | refine hs ?_ ?_
      | refine hm ?_ ?_
  | 4 =>
    unfold closedDet
    repeat' first
      | exact h _ _
      | refine ha ?_ ?_
      | refine hs ?_ ?_
      | refine hm ?_ ?_
  | 0 => exact R.rd_one
  | _ + 5 => exact R.rd_one

/-- Every entry enters the closed formulas. -/
theorem some_closedDet {e : Nat → Nat → X} {N : Nat} (hN : N ≤ 4) (h : (v (closedDet e N)).isSome) {i j : Nat} (hi : i < N) (hj : j < N) :
    (v (e i j)).isSome := by
  have ha : ∀ {a b : X} {P : Prop}, ((v a).isSome → (v b).isSome → P) → (v (a + b)).isSome → P :=
    fun h h' => h (R.some_add h').1 (R.some_add h').2
  have hs : ∀ {a b : X} {P : Prop}, ((v a).isSome → (v b).isSome → P) → (v (a - b)).isSome → P :=
    fun h h' => h (R.some_sub h').1 (R.some_sub h').2
  have hm : ∀ {a b : X} {P : Prop}, ((v a).isSome → (v b).isSome → P) → (v (a * b)).isSome → P :=
    fun h h' => h (R.some_mul h').1 (R.some_mul h').2
  revert h
  have hij : i < 4 ∧ j < 4 := by omega
  obtain ⟨hi4, hj4⟩ := hij
  obtain rfl | rfl | rfl | rfl : N = 1 ∨ N = 2 ∨ N = 3 ∨ N = 4 := by omega
  all_goals
    unfold closedDet
    interval_cases i <;> interval_cases j <;> first
      | omega
      | (repeat' first
          | refine ha ?_
          | refine hs ?_
          | refine hm ?_
          | intro _
         assumption)

end Reads
end Malg
