import Verif.Lemmas.MathOps
import Verif.Model.Field
import Verif.Props.View
/-!
# Properties C33 – C36 and C72: matrix arithmetic operators of `math.hpp`
-/
namespace Malg
open Ops
variable {T : Type}

/-! ## C33 -/

/-- C33: `A + B` and `A - B`, entry by entry, for matrices and views of equal shape. No law of `+` is used, so
this also describes floating point. -/
theorem C33_add_sub [Zero T] [Add T] [Sub T] {A B : MB T} {n m : Nat} {e f} (hA : Rep A n m e) (hB : Rep B n m f) :
    Returns (add A B) n m (fun r c => e r c + f r c) ∧ Returns (sub A B) n m (fun r c => e r c - f r c) :=
  ⟨Returns.of_eq hA.fits (zipMat_eq hA hB fun _ _ _ _ => rfl), Returns.of_eq hA.fits (zipMat_eq hA hB fun _ _ _ _ => rfl)⟩

/-- C33: operations with a scalar. -/
theorem C33_scalar [Zero T] [Add T] [Sub T] [Mul T] {A : MB T} {n m : Nat} {e} (hA : Rep A n m e) (b : T) :
    Returns (addS A b) n m (fun r c => e r c + b) ∧ Returns (subS A b) n m (fun r c => e r c - b) ∧
    Returns (mulS A b) n m (fun r c => e r c * b) ∧ Returns (smul b A) n m (fun r c => e r c * b) :=
  ⟨Returns.of_eq hA.fits (mapMat_eq hA fun _ _ _ _ => rfl), Returns.of_eq hA.fits (mapMat_eq hA fun _ _ _ _ => rfl),
   Returns.of_eq hA.fits (mapMat_eq hA fun _ _ _ _ => rfl), Returns.of_eq hA.fits (mapMat_eq hA fun _ _ _ _ => rfl)⟩

/-- C33: division by a scalar, whenever the element division is defined (`g` is its value). -/
theorem C33_div [Zero T] [CDiv T] {A : MB T} {n m : Nat} {e g} (hA : Rep A n m e) (b : T)
    (h : ∀ r c, r < n → c < m → cdiv (e r c) b = .ok (g r c)) : Returns (divS A b) n m g :=
  Returns.of_eq hA.fits (mapMat_eq hA h)

/-- C33: a shape mismatch throws. -/
theorem C33_mismatch [Zero T] [Add T] [Sub T] {A B : MB T} (h : A.rows ≠ B.rows ∨ A.cols ≠ B.cols) :
    add A B = .throw .invalidArgument ∧ sub A B = .throw .invalidArgument :=
  ⟨zipMat_throw h, zipMat_throw h⟩

/-- C33 in terms of mathematical matrices over a ring. -/
theorem C33_matrix {K : Type} [Ring K] {A B : MB K} {n m : Nat} {M N : Matrix (Fin n) (Fin m) K} (hA : A.Is M)
    (hB : B.Is N) (b : K) : Yields (add A B) (M + N) ∧ Yields (sub A B) (M - N) ∧
      Yields (mulS A b) (MulOpposite.op b • M) := by
  obtain ⟨e, hA, rfl⟩ := hA
  obtain ⟨f, hB, rfl⟩ := hB
  exact ⟨(C33_add_sub hA hB).1.yields, (C33_add_sub hA hB).2.yields, (C33_scalar hA b).2.2.1.yields⟩

/-- C33 over a field: scaling and division. -/
theorem C33_field {K : Type} [Field K] [DecidableEq K] {A : MB K} {n m : Nat} {M : Matrix (Fin n) (Fin m) K}
    (hA : A.Is M) (b : K) : Yields (mulS A b) (b • M) ∧ Yields (smul b A) (b • M) ∧
      (b ≠ 0 → Yields (divS A b) (b⁻¹ • M)) := by
  obtain ⟨e, hA, rfl⟩ := hA
  refine ⟨(C33_scalar hA b).2.2.1.yields.congr ?_, (C33_scalar hA b).2.2.2.yields.congr ?_, fun hb =>
    (C33_div hA b (fun r c _ _ => cdiv_ok _ hb)).yields.congr ?_⟩
  · funext i j; exact mul_comm _ _
  · funext i j; exact mul_comm _ _
  · funext i j
    show e i j / b = b⁻¹ * e i j
    rw [div_eq_mul_inv, mul_comm]

example : add (⟨2, 2, [1, 2, 3, 4]⟩ : Mat Int).toMB ((⟨2, 3, [1, 2, 3, 4, 5, 6]⟩ : Mat Int).toMB.view ⟨0, 2⟩ ⟨1, 3⟩) =
    .ok ⟨2, 2, [3, 5, 8, 10]⟩ := by decide +kernel
example : divS (⟨1, 2, [7, -7]⟩ : Mat Int).toMB 2 = .ok ⟨1, 2, [3, -3]⟩ := by decide +kernel

/-! ## C34 -/

/-- C34: `A += B` and `A -= B`, where target and operand are matrix variables or chains of views, possibly of the
same variable, such that no operand entry is overwritten before it is read. -/
theorem C34_add_sub_assign [Add T] [Sub T] {v N M n k w N' M' : Nat} {m m' : MRef (Store T) T} {ρ κ ρ' κ' : Nat → Nat}
    (hm : ViewChain v N M m n k ρ κ) (hm' : ViewChain w N' M' m' n k ρ' κ')
    (hnc : w = v → NoClobber n k ρ κ ρ' κ')
    {s : Store T} {e e' : Nat → Nat → T} (he : (s v).Holds N M e) (he' : (s w).Holds N' M' e') :
    (∃ s', addAssign m m'.view s = .ok s' ∧
      Overwritten s s' v N M e n k ρ κ (fun r c => e (ρ r) (κ c) + e' (ρ' r) (κ' c))) ∧
    (∃ s', subAssign m m'.view s = .ok s' ∧
      Overwritten s s' v N M e n k ρ κ (fun r c => e (ρ r) (κ c) - e' (ρ' r) (κ' c))) := by
  have h := (hm.on he.fits).1
  have h' := (hm'.on he'.fits).1
  have hv := h.reads s e he
  have hv' := h'.reads s e' he'
  have key : ∀ r c (F : Nat → Nat → T), r < n → c < k →
      (∀ i j, i < n → j < k → ¬ (i < r ∨ (i = r ∧ j < c)) → F i j = e (ρ i) (κ j)) →
      (m.view (putOn s v N M n k ρ κ e F)).lin (r * k + c) = .ok (e (ρ r) (κ c)) ∧
      (m'.view (putOn s v N M n k ρ κ e F)).lin (r * k + c) = .ok (e' (ρ' r) (κ' c)) := by
    intro r c F hr hc hF
    refine ⟨?_, (shows_put h he.fits h'.reads h'.rho_lt h'.kap_lt hnc he he' hr hc hF).2⟩
    rw [(h.put_read he.fits).lin r c hr hc, hF r c hr hc (by omega)]
  constructor
  · refine ⟨_, ?_, putOn_overwritten h he.fits _ _ _⟩
    unfold addAssign
    rw [if_neg (by rw [hv.rows, hv'.rows]; simp), if_neg (by rw [hv.cols, hv'.cols]; simp), hv.size]
    have := lin_loop h he (x := fun r c => e (ρ r) (κ c) + e' (ρ' r) (κ' c)) (g := fun i s => do
      let x ← (m.view s).lin i
      let y ← (m'.view s).lin i
      return x + y) (fun r c F hr hc _ hF => by
        have := key r c F hr hc hF
        rw [this.1, this.2]; rfl)
    simpa only [bind_assoc, pure_bind] using this
  · refine ⟨_, ?_, putOn_overwritten h he.fits _ _ _⟩
    unfold subAssign
    rw [if_neg (by rw [hv.rows, hv'.rows]; simp), if_neg (by rw [hv.cols, hv'.cols]; simp), hv.size]
    have := lin_loop h he (x := fun r c => e (ρ r) (κ c) - e' (ρ' r) (κ' c)) (g := fun i s => do
      let x ← (m.view s).lin i
      let y ← (m'.view s).lin i
      return x - y) (fun r c F hr hc _ hF => by
        have := key r c F hr hc hF
        rw [this.1, this.2]; rfl)
    simpa only [bind_assoc, pure_bind] using this

/-- C34: in particular `A += A` doubles and `A -= A` clears, for matrices and views. -/
theorem C34_self [AddGroup T] {v N M n k : Nat} {m : MRef (Store T) T} {ρ κ : Nat → Nat}
    (hm : ViewChain v N M m n k ρ κ) {s : Store T} {e : Nat → Nat → T} (he : (s v).Holds N M e) :
    (∃ s', addAssign m m.view s = .ok s' ∧
      Overwritten s s' v N M e n k ρ κ (fun r c => e (ρ r) (κ c) + e (ρ r) (κ c))) ∧
    (∃ s', subAssign m m.view s = .ok s' ∧ Overwritten s s' v N M e n k ρ κ (fun _ _ => 0)) := by
  have h := (hm.on he.fits).1
  have := C34_add_sub_assign hm hm (fun _ r c r' c' h1 h2 h3 h4 hlt hh => by
    have a := h.rho_inj _ _ h3 h1 hh.1
    have b := h.kap_inj _ _ h4 h2 hh.2
    omega) he he
  simpa only [sub_self] using this

/-- C34: `A *= b` and `A /= b` with a scalar that is not an element of `A`. -/
theorem C34_scalar_assign [Mul T] [CDiv T] {v N M n k : Nat} {m : MRef (Store T) T} {ρ κ : Nat → Nat}
    (hm : ViewChain v N M m n k ρ κ) {s : Store T} {e : Nat → Nat → T} (he : (s v).Holds N M e) (b : T) :
    (∃ s', mulSAssign m (fun _ => .ok b) s = .ok s' ∧
      Overwritten s s' v N M e n k ρ κ (fun r c => e (ρ r) (κ c) * b)) ∧
    (∀ g : Nat → Nat → T, (∀ r c, r < n → c < k → cdiv (e (ρ r) (κ c)) b = .ok (g r c)) →
      ∃ s', divSAssign m (fun _ => .ok b) s = .ok s' ∧ Overwritten s s' v N M e n k ρ κ g) := by
  have h := (hm.on he.fits).1
  have hv := h.reads s e he
  refine ⟨⟨_, ?_, putOn_overwritten h he.fits _ _ _⟩, fun g hg => ⟨_, ?_, putOn_overwritten h he.fits _ _ g⟩⟩
  · unfold mulSAssign
    rw [hv.size]
    have := lin_loop h he (x := fun r c => e (ρ r) (κ c) * b) (g := fun i s => do
      let x ← (m.view s).lin i
      return x * b) (fun r c F hr hc _ hF => by
        rw [(h.put_read he.fits).lin r c hr hc, hF r c hr hc (by omega)]; rfl)
    simpa only [bind_assoc, pure_bind, Res.ok_bind] using this
  · unfold divSAssign
    rw [hv.size]
    have := lin_loop h he (x := g) (g := fun i s => do
      let x ← (m.view s).lin i
      cdiv x b) (fun r c F hr hc _ hF => by
        rw [(h.put_read he.fits).lin r c hr hc, hF r c hr hc (by omega), Res.ok_bind, hg r c hr hc])
    simpa only [bind_assoc, pure_bind, Res.ok_bind] using this

/-- C34: a shape mismatch throws before anything is written. -/
theorem C34_mismatch [Add T] [Sub T] {S : Type} (A : MRef S T) (B : S → MB T) (s : S)
    (h : (A.view s).rows ≠ (B s).rows ∨ (A.view s).cols ≠ (B s).cols) :
    addAssign A B s = .throw .invalidArgument ∧ subAssign A B s = .throw .invalidArgument := by
  unfold addAssign subAssign
  by_cases h1 : (A.view s).rows ≠ (B s).rows
  · rw [if_pos h1]; exact ⟨rfl, by rw [if_pos h1]⟩
  · have h2 : (A.view s).cols ≠ (B s).cols := by tauto
    rw [if_neg h1, if_pos h2]; exact ⟨rfl, by rw [if_neg h1, if_pos h2]⟩

example : (addAssign ((MRef.var 0).sub ⟨0, 1⟩ ⟨0, 2⟩) ((MRef.var 0).sub ⟨1, 2⟩ ⟨1, 3⟩).view
    (fun _ => (⟨2, 3, [1, 2, 3, 4, 5, 6]⟩ : Mat Int)) >>= fun s => .ok (s 0)) = .ok ⟨2, 3, [6, 8, 3, 4, 5, 6]⟩ := by
  decide +kernel

/-! ## C35 -/

/-- C35: each entry of `A * B` is the left-to-right sum, from zero, of the products (any arithmetic). -/
theorem C35_entries [Zero T] [Add T] [Mul T] {A B : MB T} {n k m : Nat} {e f} (hA : RepAt A n k e) (hB : RepAt B k m f)
    (hf : Fits n m) : Returns (mul A B) n m (fun r c => lsum k (fun i => e r i * f i c)) :=
  Returns.of_eq hf (mul_eq hA hB hf)

/-- C35: non-conformal operands throw. -/
theorem C35_mismatch [Zero T] [Add T] [Mul T] (A B : MB T) (h : A.cols ≠ B.rows) :
    mul A B = .throw .invalidArgument := if_pos h

/-- C35: over a semiring it is the matrix product. -/
theorem C35_product {K : Type} [NonUnitalNonAssocSemiring K] {A B : MB K} {n k m : Nat}
    {M : Matrix (Fin n) (Fin k) K} {N : Matrix (Fin k) (Fin m) K} (hA : A.Is M) (hB : B.Is N) (hf : Fits n m) :
    Yields (mul A B) (M * N) := by
  obtain ⟨e, hA, rfl⟩ := hA
  obtain ⟨f, hB, rfl⟩ := hB
  exact (C35_entries hA.toRepAt hB.toRepAt hf).yields.congr (toM_mul e f)

/-- Sum alone, without subtraction on the element type. -/
theorem add_returns [Zero T] [Add T] {A B : MB T} {n m : Nat} {e f} (hA : Rep A n m e) (hB : Rep B n m f) :
    Returns (add A B) n m (fun r c => e r c + f r c) :=
  Returns.of_eq hA.fits (zipMat_eq hA hB fun _ _ _ _ => rfl)

/-- A two-step computation. -/
theorem Yields.bind {K L : Type} {x : Res (Mat K)} {n m n' m' : Nat} {M : Matrix (Fin n) (Fin m) K}
    {N : Matrix (Fin n') (Fin m') L} {F : Mat K → Res (Mat L)} (hx : Yields x M)
    (h : ∀ A : Mat K, A.WF → A.toMB.Is M → Yields (F A) N) : Yields (x >>= F) N := by
  obtain ⟨A, rfl, h1, h2⟩ := hx
  exact h A h1 h2

/-- C35: associativity, distributivity and units, as identities between computed objects. -/
theorem C35_laws {K : Type} [Semiring K] {A B B' C : MB K} {n k m p : Nat} {M : Matrix (Fin n) (Fin k) K}
    {N N' : Matrix (Fin k) (Fin m) K} {P : Matrix (Fin m) (Fin p) K} (hA : A.Is M) (hB : B.Is N) (hB' : B'.Is N')
    (hC : C.Is P) (h1 : Fits n m) (h2 : Fits k p) (h3 : Fits n p) :
    (mul A B >>= fun X => mul X.toMB C) = (mul B C >>= fun Y => mul A Y.toMB) ∧
    (add B B' >>= fun X => mul A X.toMB) =
      (mul A B >>= fun X => mul A B' >>= fun Y => add X.toMB Y.toMB) := by
  constructor
  · refine Yields.unique (M := M * N * P) ((C35_product hA hB h1).bind fun X _ hX => C35_product hX hC h3) ?_
    rw [Matrix.mul_assoc]
    exact (C35_product hB hC h2).bind fun Y _ hY => C35_product hA hY h3
  · have hadd : ∀ {a b : Nat} {X Y : MB K} {M₁ M₂ : Matrix (Fin a) (Fin b) K}, X.Is M₁ → Y.Is M₂ →
        Yields (add X Y) (M₁ + M₂) := by
      rintro a b X Y _ _ ⟨e, hX, rfl⟩ ⟨f, hY, rfl⟩
      exact (add_returns hX hY).yields
    refine Yields.unique (M := M * (N + N')) ((hadd hB hB').bind fun X _ hX => C35_product hA hX h1) ?_
    rw [Matrix.mul_add]
    exact (C35_product hA hB h1).bind fun X _ hX => (C35_product hA hB' h1).bind fun Y _ hY => hadd hX hY

/-- C35: `identity` is a unit of the product. -/
theorem C35_identity {K : Type} [Semiring K] {A : MB K} {n m : Nat} {M : Matrix (Fin n) (Fin m) K} (hA : A.Is M)
    (hn : 0 < n) (hm : 0 < m) (hfn : Fits n n) (hfm : Fits m m) :
    Yields (Util.identity n 1 >>= fun I => mul I.toMB A) M ∧ Yields (Util.identity m 1 >>= fun I => mul A I.toMB) M := by
  have hI : ∀ {a : Nat}, 0 < a → Fits a a → Yields (Util.identity a (1 : K)) (1 : Matrix (Fin a) (Fin a) K) := by
    intro a ha hf
    exact (Returns.of_eq hf (Util.eye_eq ha ha hf 1)).yields.congr toM_one
  constructor
  · refine (hI hn hfn).bind fun I _ h => (C35_product h hA hA.fits).congr (Matrix.one_mul M)
  · refine (hI hm hfm).bind fun I _ h => (C35_product hA h hA.fits).congr (Matrix.mul_one M)

example : mul (⟨2, 3, [1, 2, 3, 4, 5, 6]⟩ : Mat Int).toMB (⟨3, 1, [1, 0, -1]⟩ : Mat Int).toMB = .ok ⟨2, 1, [-2, -2]⟩ := by
  decide +kernel

/-! ## C36 -/

/-- C36, the part that holds: for a square right operand `A *= B` leaves the product in `A`, also when `B` shares
data with `A`. Missing: right operands with another number of columns (`C36_narrow_false`, `C36_wide_false`). -/
theorem C36_mul_assign_partial [Zero T] [Add T] [Mul T] {v N M n k : Nat} {m : MRef (Store T) T} {ρ κ : Nat → Nat}
    (hm : ViewChain v N M m n k ρ κ) {s : Store T} {e : Nat → Nat → T} (he : (s v).Holds N M e)
    {B : Store T → MB T} {f : Nat → Nat → T} (hB : RepAt (B s) k k f) :
    ∃ s', mulAssign m B s = .ok s' ∧
      Overwritten s s' v N M e n k ρ κ (fun r c => lsum k (fun i => e (ρ r) (κ i) * f i c)) := by
  obtain ⟨h, hn, hk⟩ := hm.on he.fits
  have hv := h.reads s e he
  have hf : Fits n k := he.fits.mono hn hk
  refine ⟨_, ?_, putOn_overwritten h he.fits _ _ _⟩
  unfold mulAssign
  rw [if_neg (by rw [hv.cols, hB.rows]; simp), hv.rows, hv.cols, hB.cols, hB.rows, hv.size, Mat.new_eq hf, Res.ok_bind,
    mul_loop hv.toRepAt hB hf (Nat.le_refl k), Res.ok_bind]
  refine lin_loop h he (g := fun i _ => Mat.lin _ i) (fun r c F hr hc _ _ => ?_)
  rw [ofFn_lin (lin_lt hr hc), lin_div hc, lin_mod hc, if_pos hc]

/-- C36: over a semiring, for a whole matrix: `A *= B` stores what `A * B` returns; `A *= A` squares. -/
theorem C36_matrix_partial {K : Type} [Semiring K] {v n k : Nat} {s : Store K} {e : Nat → Nat → K}
    (he : (s v).Holds n k e) {B : Store K → MB K} {Q : Matrix (Fin k) (Fin k) K} (hB : (B s).Is Q) :
    ∃ s', mulAssign (MRef.var v) B s = .ok s' ∧ Yields (.ok (s' v)) (toM n k e * Q) ∧ ∀ w, w ≠ v → s' w = s w := by
  obtain ⟨f, hB, rfl⟩ := hB
  obtain ⟨s', h1, E, h2, h3, -, h4⟩ := C36_mul_assign_partial (ViewChain.var (v := v)) he hB.toRepAt
  refine ⟨s', h1, ?_, h4⟩
  have : (s' v).Holds n k (fun r c => lsum k (fun i => e r i * f i c)) :=
    ⟨h2.wf, h2.rep.congr (fun r c hr hc => h3 r c hr hc)⟩
  exact ⟨_, rfl, this.wf, this.is.imp fun _ h => ⟨h.1, h.2.trans (toM_mul e f)⟩⟩

/-- C36 is false for a right operand with fewer columns: `A` keeps its shape and gets columns of zeros. -/
theorem C36_narrow_false : ∃ A B : Mat Int, A.WF ∧ B.WF ∧
    mul A.toMB B.toMB = .ok ⟨1, 1, [11]⟩ ∧
    (mulAssign (MRef.var 0) (fun _ => B.toMB) (fun _ => A) >>= fun s => .ok (s 0)) = .ok ⟨1, 2, [11, 0]⟩ := by
  refine ⟨⟨1, 2, [1, 2]⟩, ⟨2, 1, [3, 4]⟩, ⟨rfl, ?_, ?_, ?_⟩, ⟨rfl, ?_, ?_, ?_⟩, ?_, ?_⟩ <;> decide +kernel

/-- C36 is false for a right operand with more columns: the temporary is written out of bounds. -/
theorem C36_wide_false : ∃ A B : Mat Int, A.WF ∧ B.WF ∧ mul A.toMB B.toMB = .ok ⟨1, 2, [3, 4]⟩ ∧
    (mulAssign (MRef.var 0) (fun _ => B.toMB) (fun _ => A) >>= fun s => .ok (s 0)) = .ub .oob := by
  refine ⟨⟨1, 1, [1]⟩, ⟨1, 2, [3, 4]⟩, ⟨rfl, ?_, ?_, ?_⟩, ⟨rfl, ?_, ?_, ?_⟩, ?_, ?_⟩
  all_goals decide +kernel

/-- C36: non-conformal operands throw. -/
theorem C36_mismatch [Zero T] [Add T] [Mul T] {S : Type} (A : MRef S T) (B : S → MB T) (s : S)
    (h : (A.view s).cols ≠ (B s).rows) : mulAssign A B s = .throw .invalidArgument := if_pos h

example : (mulAssign (MRef.var 0) (MRef.var 0).view (fun _ => (⟨2, 2, [1, 1, 1, 0]⟩ : Mat Int)) >>= fun s => .ok (s 0)) =
    .ok ⟨2, 2, [2, 1, 1, 1]⟩ := by decide +kernel

/-! ## C72 -/

/-- C72, what really happens in `A *= A(i,j)`: entries up to and including `(i,j)` (row by row) are scaled by
`b = A(i,j)`, the entries after it by `b * b`. So the claim holds if `(i,j)` is the last entry. Missing: all other
positions (`C72_mul_false`). -/
theorem C72_mul_partial [Mul T] {v N M n k : Nat} {m : MRef (Store T) T} {ρ κ : Nat → Nat}
    (hm : ViewChain v N M m n k ρ κ) {s : Store T} {e : Nat → Nat → T} (he : (s v).Holds N M e) {i j : Nat}
    (hi : i < n) (hj : j < k) :
    (∃ s', mulSAssign m (fun s => (m.view s).at_ i j) s = .ok s' ∧
      Overwritten s s' v N M e n k ρ κ (fun r c =>
        if r < i ∨ (r = i ∧ c ≤ j) then e (ρ r) (κ c) * e (ρ i) (κ j)
        else e (ρ r) (κ c) * (e (ρ i) (κ j) * e (ρ i) (κ j)))) ∧
    (i + 1 = n → j + 1 = k → ∃ s', mulSAssign m (fun s => (m.view s).at_ i j) s = .ok s' ∧
      Overwritten s s' v N M e n k ρ κ (fun r c => e (ρ r) (κ c) * e (ρ i) (κ j))) := by
  have h := (hm.on he.fits).1
  have hv := h.reads s e he
  have main : ∃ s', mulSAssign m (fun s => (m.view s).at_ i j) s = .ok s' ∧
      Overwritten s s' v N M e n k ρ κ (fun r c =>
        if r < i ∨ (r = i ∧ c ≤ j) then e (ρ r) (κ c) * e (ρ i) (κ j)
        else e (ρ r) (κ c) * (e (ρ i) (κ j) * e (ρ i) (κ j))) := by
    refine ⟨_, ?_, putOn_overwritten h he.fits _ _ _⟩
    unfold mulSAssign
    rw [hv.size]
    have := lin_loop h he (x := fun r c =>
        if r < i ∨ (r = i ∧ c ≤ j) then e (ρ r) (κ c) * e (ρ i) (κ j)
        else e (ρ r) (κ c) * (e (ρ i) (κ j) * e (ρ i) (κ j))) (g := fun q s => do
      let x ← (m.view s).lin q
      let y ← (m.view s).at_ i j
      return x * y) (fun r c F hr hc hF1 hF => by
        rw [(h.put_read he.fits).lin r c hr hc, hF r c hr hc (by omega), (h.put_read he.fits).get i j hi hj]
        by_cases hlt : i < r ∨ (i = r ∧ j < c)
        · rw [hF1 i j hi hj hlt, if_pos (by omega), if_neg (by omega)]; rfl
        · rw [hF i j hi hj hlt, if_pos (by omega)]; rfl)
    simpa only [bind_assoc, pure_bind] using this
  refine ⟨main, fun h1 h2 => ?_⟩
  obtain ⟨s', a, E, b1, b2, b3, b4⟩ := main
  refine ⟨s', a, E, b1, fun r c hr hc => ?_, b3, b4⟩
  exact (b2 r c hr hc).trans (if_pos (by omega))

/-- C72 is false: scaling `[2 3]` by its first element in place gives `[4 12]` instead of `[4 6]`. -/
theorem C72_mul_false : ∃ A : Mat Int, A.WF ∧ mulS A.toMB 2 = .ok ⟨1, 2, [4, 6]⟩ ∧ A.at_ 0 0 = .ok 2 ∧
    (mulSAssign (MRef.var 0) (fun s => (s 0).at_ 0 0) (fun _ => A) >>= fun s => .ok (s 0)) = .ok ⟨1, 2, [4, 12]⟩ := by
  refine ⟨⟨1, 2, [2, 3]⟩, ⟨rfl, ?_, ?_, ?_⟩, ?_, ?_, ?_⟩ <;> decide +kernel

/-- C72 is false for division: `[2 8] /= A(0,0)` gives `[1 8]` instead of `[1 4]`. -/
theorem C72_div_false : ∃ A : Mat Int, A.WF ∧ divS A.toMB 2 = .ok ⟨1, 2, [1, 4]⟩ ∧ A.at_ 0 0 = .ok 2 ∧
    (divSAssign (MRef.var 0) (fun s => (s 0).at_ 0 0) (fun _ => A) >>= fun s => .ok (s 0)) = .ok ⟨1, 2, [1, 8]⟩ := by
  refine ⟨⟨1, 2, [2, 8]⟩, ⟨rfl, ?_, ?_, ?_⟩, ?_, ?_, ?_⟩ <;> decide +kernel

/-- C72 for division over a field, exactly: entries up to `(i,j)` are divided, the ones after it are unchanged
(the divisor has become `1`). -/
theorem C72_div_partial {K : Type} [Field K] [DecidableEq K] {v N M n k : Nat} {m : MRef (Store K) K} {ρ κ : Nat → Nat}
    (hm : ViewChain v N M m n k ρ κ) {s : Store K} {e : Nat → Nat → K} (he : (s v).Holds N M e) {i j : Nat}
    (hi : i < n) (hj : j < k) (hne : e (ρ i) (κ j) ≠ 0) :
    ∃ s', divSAssign m (fun s => (m.view s).at_ i j) s = .ok s' ∧
      Overwritten s s' v N M e n k ρ κ (fun r c =>
        if r < i ∨ (r = i ∧ c ≤ j) then e (ρ r) (κ c) / e (ρ i) (κ j) else e (ρ r) (κ c)) := by
  have h := (hm.on he.fits).1
  have hv := h.reads s e he
  refine ⟨_, ?_, putOn_overwritten h he.fits _ _ _⟩
  unfold divSAssign
  rw [hv.size]
  have := lin_loop h he (x := fun r c =>
      if r < i ∨ (r = i ∧ c ≤ j) then e (ρ r) (κ c) / e (ρ i) (κ j) else e (ρ r) (κ c)) (g := fun q s => do
    let x ← (m.view s).lin q
    let y ← (m.view s).at_ i j
    cdiv x y) (fun r c F hr hc hF1 hF => by
      rw [(h.put_read he.fits).lin r c hr hc, hF r c hr hc (by omega), (h.put_read he.fits).get i j hi hj, Res.ok_bind,
        Res.ok_bind]
      by_cases hlt : i < r ∨ (i = r ∧ j < c)
      · rw [hF1 i j hi hj hlt, if_pos (by omega), if_neg (by omega), div_self hne, cdiv_ok _ one_ne_zero, div_one]
      · rw [hF i j hi hj hlt, if_pos (by omega), cdiv_ok _ hne])
  simpa only [bind_assoc, pure_bind] using this

end Malg
