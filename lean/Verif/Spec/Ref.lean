import Verif.Spec.Rep
import Verif.Model.View
/-!
# What a reference into a matrix variable denotes
-/
namespace Malg
variable {T : Type}

/-- `rhs` shows, in every state in which variable `v` holds an `N × M` table `e`, the `n × k` table with
entry `e (ρ r) (κ c)` at `(r,c)`. -/
def Shows (rhs : Store T → MB T) (v N M n k : Nat) (ρ κ : Nat → Nat) : Prop :=
  ∀ s e, (s v).Holds N M e → Rep (rhs s) n k (fun r c => e (ρ r) (κ c))

/-- The reference `m` denotes the `n × k` sub-table of variable `v` with rows `ρ 0 … ρ (n-1)` and columns
`κ 0 … κ (k-1)`: reads show it, a write changes the addressed entry and nothing else. -/
structure On (m : MRef (Store T) T) (v N M n k : Nat) (ρ κ : Nat → Nat) : Prop where
  rho_lt : ∀ r, r < n → ρ r < N
  kap_lt : ∀ c, c < k → κ c < M
  rho_inj : ∀ r r', r < n → r' < n → ρ r = ρ r' → r = r'
  kap_inj : ∀ c c', c < k → c' < k → κ c = κ c' → c = c'
  reads : Shows m.view v N M n k ρ κ
  write : ∀ s e r c x, (s v).Holds N M e → r < n → c < k →
    ∃ s', m.setAt s r c x = .ok s' ∧
      (s' v).Holds N M (fun i j => if i = ρ r ∧ j = κ c then x else e i j) ∧ ∀ w, w ≠ v → s' w = s w
  writeLin : ∀ s e r c x, (s v).Holds N M e → r < n → c < k →
    m.setLin s (r * k + c) x = m.setAt s r c x

/-- No cell of the source is overwritten before it is read, when the target cells `(ρ r, κ c)` are written
row by row in step with reading the source cells `(ρ' r, κ' c)`. -/
def NoClobber (n k : Nat) (ρ κ ρ' κ' : Nat → Nat) : Prop :=
  ∀ r c r' c', r < n → c < k → r' < n → c' < k → (r' < r ∨ (r' = r ∧ c' < c)) →
    ¬ (ρ r' = ρ' r ∧ κ c' = κ' c)

/-- Going from `s` to `s'`, the cells of variable `v` addressed by `(ρ,κ)` became the table `F`; the other cells
of `v` (which held `e`) and the other variables are as before. -/
def Overwritten (s s' : Store T) (v N M : Nat) (e : Nat → Nat → T) (n k : Nat) (ρ κ : Nat → Nat)
    (F : Nat → Nat → T) : Prop :=
  ∃ E, (s' v).Holds N M E ∧ (∀ r c, r < n → c < k → E (ρ r) (κ c) = F r c) ∧
    (∀ i j, i < N → j < M → (∀ r c, r < n → c < k → ¬ (ρ r = i ∧ κ c = j)) → E i j = e i j) ∧
    ∀ w, w ≠ v → s' w = s w

end Malg
