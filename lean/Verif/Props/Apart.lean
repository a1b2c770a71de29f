import Verif.Props.Block
import Verif.Props.FloatAcker
import Verif.Props.IeeeAcc
/-!
# Property C149: parts that do not depend on the rest
-/
namespace Malg
open Ops Lin Control

/-- The laws of zero for sums and products. -/
structure ZeroArith (T : Type) [Zero T] [Add T] [Mul T] : Prop where
  zero_mul : ∀ x : T, 0 * x = 0
  mul_zero : ∀ x : T, x * 0 = 0
  add_zero : ∀ x : T, x + 0 = x
  zero_add : ∀ x : T, 0 + x = x

/-- The rows `P` of two tables agree in the columns `Q` and are zero in all others. -/
def OnlyFrom {T : Type} [Zero T] (n m : Nat) (P Q : Nat → Prop) (e e' : Nat → Nat → T) : Prop :=
  ∀ i j, i < n → j < m → P i → (Q j → e i j = e' i j) ∧ (¬ Q j → e i j = 0 ∧ e' i j = 0)

section
variable {T : Type} [Zero T] [Add T] [Mul T]

theorem OnlyFrom.sum (h0 : ∀ x : T, 0 * x = 0) {n m : Nat} {P Q : Nat → Prop} {e e' : Nat → Nat → T} (h : OnlyFrom n m P Q e e') {x x' : Nat → T}
    (hx : ∀ j, j < m → Q j → x j = x' j) {i : Nat} (hi : i < n) (hP : P i) : (lsum m fun j => e i j * x j) = lsum m fun j => e' i j * x' j := by
  apply lsum_congr
  intro j hj
  obtain ⟨h1, h2⟩ := h i j hi hj hP
  by_cases hq : Q j
  · rw [h1 hq, hx j hj hq]
  · rw [(h2 hq).1, (h2 hq).2, h0, h0]

omit [Mul T] in
theorem lsum_all_zero (h0 : (0 : T) + 0 = 0) (m : Nat) {f : Nat → T} (h : ∀ i, i < m → f i = 0) : lsum m f = 0 := by
  rw [lsum_congr h]
  clear h
  induction m with
  | zero => rfl
  | succ m ih => show lsum m (fun _ => (0 : T)) + 0 = 0; rw [ih, h0]

omit [Mul T] in
theorem lsum_cut (h0 : ∀ x : T, x + 0 = x) {k m : Nat} (hk : k ≤ m) {f : Nat → T} (h : ∀ i, k ≤ i → i < m → f i = 0) : lsum m f = lsum k f := by
  induction m, hk using Nat.le_induction with
  | base => rfl
  | succ m hm ih =>
    show lsum m f + f m = _
    rw [h m hm (Nat.lt_succ_self m), h0, ih fun i h1 h2 => h i h1 (Nat.lt_succ_of_lt h2)]

/-- C149: rows of a product depend only on the rows of the right factor that they have entries for. -/
theorem C149_product (h0 : ∀ x : T, 0 * x = 0) {A A' B B' : MB T} {n k m : Nat} {M M' : Matrix (Fin n) (Fin k) T} {N N' : Matrix (Fin k) (Fin m) T} (hA : A.Is M) (hA' : A'.Is M')
    (hB : B.Is N) (hB' : B'.Is N') (hf : Fits n m) {P : Fin n → Prop} {Q : Fin k → Prop} (h : ∀ i j, P i → (Q j → M i j = M' i j) ∧ (¬ Q j → M i j = 0 ∧ M' i j = 0))
    (hQ : ∀ i j, Q i → N i j = N' i j) : ∃ X X' : Matrix (Fin n) (Fin m) T, Yields (mul A B) X ∧ Yields (mul A' B') X' ∧ ∀ i j, P i → X i j = X' i j := by
  obtain ⟨e, hA, rfl⟩ := hA
  obtain ⟨e', hA', rfl⟩ := hA'
  obtain ⟨f, hB, rfl⟩ := hB
  obtain ⟨f', hB', rfl⟩ := hB'
  refine ⟨_, _, Yields.of_eq hf (mul_eq hA.toRepAt hB.toRepAt hf), Yields.of_eq hf (mul_eq hA'.toRepAt hB'.toRepAt hf), fun i j hP => ?_⟩
  have ho : OnlyFrom n k (fun i => ∃ h : i < n, P ⟨i, h⟩) (fun j => ∃ h : j < k, Q ⟨j, h⟩) e e' := fun i j hi hj ⟨_, hP⟩ =>
    ⟨fun ⟨_, hq⟩ => (h ⟨i, hi⟩ ⟨j, hj⟩ hP).1 hq, fun hq => (h ⟨i, hi⟩ ⟨j, hj⟩ hP).2 fun hc => hq ⟨hj, hc⟩⟩
  exact ho.sum h0 (x := fun l => f l j) (x' := fun l => f' l j) (fun l hl ⟨_, hq⟩ => hQ ⟨l, hl⟩ j hq) i.2 ⟨i.2, hP⟩

variable [One T]

theorem OnlyFrom.pow (Z : ZeroArith T) {n : Nat} {S : Nat → Prop} {e e' : Nat → Nat → T} (h : OnlyFrom n n S S e e') (q : Nat) : OnlyFrom n n S S (expPow n e q) (expPow n e' q) := by
  have zero : ∀ {f : Nat → Nat → T}, (∀ i j, i < n → j < n → S i → ¬ S j → f i j = 0) → ∀ q i j, i < n → j < n → S i → ¬ S j → expPow n f q i j = 0 := by
    intro f hf q
    induction q with
    | zero =>
      intro i j _ _ hi hj
      exact if_neg (fun hc : i = j => hj (hc ▸ hi))
    | succ q ih =>
      intro i j hin hjn hi hj
      refine lsum_all_zero (Z.add_zero 0) n fun l hl => ?_
      by_cases hs : S l
      · rw [hf l j hl hjn hs hj, Z.mul_zero]
      · rw [ih i l hin hl hi hs, Z.zero_mul]
  have z1 := zero fun i j hi hj h1 h2 => ((h i j hi hj h1).2 h2).1
  have z2 := zero fun i j hi hj h1 h2 => ((h i j hi hj h1).2 h2).2
  induction q with
  | zero => exact fun i j hi hj hs => ⟨fun _ => rfl, fun hn => ⟨z1 0 i j hi hj hs hn, z2 0 i j hi hj hs hn⟩⟩
  | succ q ih =>
    refine fun i j hi hj hs => ⟨fun hsj => ?_, fun hn => ⟨z1 (q + 1) i j hi hj hs hn, z2 (q + 1) i j hi hj hs hn⟩⟩
    exact ih.sum Z.zero_mul (x := fun l => e l j) (x' := fun l => e' l j) (fun l hl hq => (h l j hl hj hq).1 hsj) hi hs

/-- The states `S` depend only on each other. -/
def Closed {n : Nat} (S : Fin n → Prop) (M M' : Matrix (Fin n) (Fin n) T) : Prop := ∀ i j, S i → (S j → M i j = M' i j) ∧ (¬ S j → M i j = 0 ∧ M' i j = 0)

omit [Add T] [Mul T] [One T] in
theorem Closed.tab {n : Nat} {S : Fin n → Prop} {e e' : Nat → Nat → T} (h : Closed S (toM n n e) (toM n n e')) :
    OnlyFrom n n (fun i => ∃ h : i < n, S ⟨i, h⟩) (fun i => ∃ h : i < n, S ⟨i, h⟩) e e' := fun i j hi hj ⟨_, hS⟩ =>
  ⟨fun ⟨_, hq⟩ => (h ⟨i, hi⟩ ⟨j, hj⟩ hS).1 hq, fun hq => (h ⟨i, hi⟩ ⟨j, hj⟩ hS).2 fun hc => hq ⟨hj, hc⟩⟩

/-- C149: powers. -/
theorem C149_powm (Z : ZeroArith T) {A A' : MB T} {n : Nat} (hn : 0 < n) {M M' : Matrix (Fin n) (Fin n) T} (hA : A.Is M) (hA' : A'.Is M') {S : Fin n → Prop} (h : Closed S M M') (q : Nat) :
    ∃ X X' : Matrix (Fin n) (Fin n) T, Yields (powm A q) X ∧ Yields (powm A' q) X' ∧ Closed S X X' := by
  have hf := hA.fits
  obtain ⟨e, hA, rfl⟩ := hA
  obtain ⟨e', hA', rfl⟩ := hA'
  refine ⟨_, _, Yields.of_eq hf (powm_tab hA hn q), Yields.of_eq hf (powm_tab hA' hn q), fun i j hS => ?_⟩
  obtain ⟨h1, h2⟩ := h.tab.pow Z q i j i.2 j.2 ⟨i.2, hS⟩
  exact ⟨fun hj => h1 ⟨j.2, hj⟩, fun hj => h2 fun ⟨_, hc⟩ => hj hc⟩

/-- C149: the rows of the controllability matrix that belong to the states `S`. -/
theorem C149_ctrb (Z : ZeroArith T) {A A' B B' : MB T} {n m : Nat} (hn : 0 < n) (hf : Fits n (n * m)) {M M' : Matrix (Fin n) (Fin n) T} {N N' : Matrix (Fin n) (Fin m) T}
    (hA : A.Is M) (hA' : A'.Is M') (hB : B.Is N) (hB' : B'.Is N') {S : Fin n → Prop} (h : Closed S M M') (hN : ∀ i j, S i → N i j = N' i j) :
    ∃ X X' : Matrix (Fin n) (Fin (n * m)) T, Yields (ctrb A B) X ∧ Yields (ctrb A' B') X' ∧ ∀ i j, S i → X i j = X' i j := by
  obtain ⟨e, hA, rfl⟩ := hA
  obtain ⟨e', hA', rfl⟩ := hA'
  obtain ⟨f, hB, rfl⟩ := hB
  obtain ⟨f', hB', rfl⟩ := hB'
  refine ⟨_, _, Yields.of_eq hf (ctrb_exec hA hB hn hf fun i _ => powm_tab hA hn i), Yields.of_eq hf (ctrb_exec hA' hB' hn hf fun i _ => powm_tab hA' hn i), fun i j hS => ?_⟩
  have hm : 0 < m := by
    have := j.2
    rcases Nat.eq_zero_or_pos m with h0 | h0
    · subst h0; omega
    · exact h0
  have hj : j.1 % m < m := Nat.mod_lt _ hm
  show (if j.1 / m = 0 then f i (j.1 % m) else _) = if j.1 / m = 0 then f' i (j.1 % m) else _
  split
  · exact hN i ⟨_, hj⟩ hS
  · exact (h.tab.pow Z (j.1 / m)).sum Z.zero_mul (x := fun l => f l (j.1 % m)) (x' := fun l => f' l (j.1 % m)) (fun l hl ⟨_, hs⟩ => hN ⟨l, hl⟩ ⟨_, hj⟩ hs) i.2 ⟨i.2, hS⟩
end

section
variable {T : Type} [Zero T] [Add T] [Mul T]

theorem stateSeq_apart (h0 : ∀ x : T, 0 * x = 0) {n m : Nat} {a a' b b' : Nat → Nat → T} {x x' : Nat → T} {w w' : Nat → Nat → T} {S U : Nat → Prop} (ha : OnlyFrom n n S S a a')
    (hb : OnlyFrom n m S U b b') (hx : ∀ i, i < n → S i → x i = x' i) {N : Nat} (hw : ∀ k j, k < N → j < m → U j → w k j = w' k j) (k : Nat) (hk : k ≤ N) (i : Nat) (hi : i < n) (hS : S i) :
    stateSeq n m a b x w k i = stateSeq n m a' b' x' w' k i := by
  induction k generalizing i with
  | zero => exact hx i hi hS
  | succ k ih =>
    show (lsum n fun j => a i j * stateSeq n m a b x w k j) + _ = (lsum n fun j => a' i j * stateSeq n m a' b' x' w' k j) + _
    rw [ha.sum h0 (fun j hj hs => ih (by omega) j hj hs) hi hS, hb.sum h0 (fun j hj hu => hw k j hk hj hu) hi hS]

variable [CDiv T]

/-- C149: in a simulation the states `S` and the outputs `O`, which have entries only for the states `S` and the inputs `U`, do not depend on the other states, the
other inputs and the other entries of the matrices: they are the same in every digit. -/
theorem C149_simulate (h0 : ∀ x : T, 0 * x = 0) {sys sys' : DiscreteStateSpace T} {n m p : Nat} {a b c d a' b' c' d' : Nat → Nat → T} (hA : RepAt sys.A.toMB n n a)
    (hB : RepAt sys.B.toMB n m b) (hC : RepAt sys.C.toMB p n c) (hD : RepAt sys.D.toMB p m d) (hA' : RepAt sys'.A.toMB n n a') (hB' : RepAt sys'.B.toMB n m b')
    (hC' : RepAt sys'.C.toMB p n c') (hD' : RepAt sys'.D.toMB p m d') (hn : n < allocMax) (hm : m < allocMax) (hp : p < allocMax) (hdt : sys'.sampleTime = sys.sampleTime)
    {S U O : Nat → Prop} (ha : OnlyFrom n n S S a a') (hb : OnlyFrom n m S U b b') (hc : OnlyFrom p n O S c c') (hd : OnlyFrom p m O U d d')
    {toSize : T → Res Nat} {N k : Nat} {q st : T} (hq : cdiv st sys.sampleTime = .ok q) (hk : toSize q = .ok k) (w w' : Nat → Nat → T) (x0 x0' : Nat → T)
    (hx : ∀ i, i < n → S i → x0 i = x0' i) (hw : ∀ l j, l < N → j < m → U j → w l j = w' l j) :
    ∃ (t : List T) (x x' y y' : Nat → Nat → T),
      simulate toSize sys (vtab N fun j => vtab m (w j)) st (vtab n x0) = .ok (t, vtab (min N k + 1) fun i => vtab n (x i), vtab (min N k) fun i => vtab p (y i)) ∧
      simulate toSize sys' (vtab N fun j => vtab m (w' j)) st (vtab n x0') = .ok (t, vtab (min N k + 1) fun i => vtab n (x' i), vtab (min N k) fun i => vtab p (y' i)) ∧
      (∀ i r, i < min N k + 1 → r < n → S r → x i r = x' i r) ∧ ∀ i r, i < min N k → r < p → O r → y i r = y' i r := by
  have key := fun i (hi : i ≤ min N k) => stateSeq_apart h0 ha hb hx hw i (by omega)
  have e2 := simulate_exec (N := N) hA' hB' hC' hD' hn hm hp w' x0' (hdt ▸ hq) hk
  rw [hdt] at e2
  refine ⟨_, _, _, _, _, simulate_exec hA hB hC hD hn hm hp w x0 hq hk, e2, fun i r hi hr hS => key i (by omega) r hr hS, fun i r hi hr hO => ?_⟩
  · show (lsum n fun j => c r j * stateSeq n m a b x0 w i j) + _ = (lsum n fun j => c' r j * stateSeq n m a' b' x0' w' i j) + _
    rw [hc.sum h0 (fun j hj hs => key i (by omega) j hj hs) hr hO, hd.sum h0 (fun j hj hu => hw i j (by omega) hj hu) hr hO]

omit [Zero T] [Add T] [Mul T] [CDiv T] in
theorem take_vtab {k n : Nat} (h : k ≤ n) (f : Nat → T) : (vtab n f).take k = vtab k f := by
  unfold vtab
  rw [← List.map_take, List.take_range, min_eq_left h]

omit [Zero T] [Add T] [Mul T] [CDiv T] in
theorem map_vtab {β : Type} (n : Nat) (f : Nat → T) (g : T → β) : (vtab n f).map g = vtab n fun i => g (f i) := by
  simp [vtab]

/-- C149: the first `k` states, of a system in which they depend only on each other and on the first `l` inputs, and the first `q` outputs, which depend only on them, are
the same as in the simulation of the small system on its own. -/
theorem C149_alone (Z : ZeroArith T) {sys sys' : DiscreteStateSpace T} {n m p k l q : Nat} {a b c d a' b' c' d' : Nat → Nat → T} (hA : RepAt sys.A.toMB n n a)
    (hB : RepAt sys.B.toMB n m b) (hC : RepAt sys.C.toMB p n c) (hD : RepAt sys.D.toMB p m d) (hA' : RepAt sys'.A.toMB k k a') (hB' : RepAt sys'.B.toMB k l b')
    (hC' : RepAt sys'.C.toMB q k c') (hD' : RepAt sys'.D.toMB q l d') (hn : n < allocMax) (hm : m < allocMax) (hp : p < allocMax) (hkn : k ≤ n) (hlm : l ≤ m) (hqp : q ≤ p)
    (hdt : sys'.sampleTime = sys.sampleTime)
    (ha : ∀ i j, i < k → j < n → a i j = if j < k then a' i j else 0) (hb : ∀ i j, i < k → j < m → b i j = if j < l then b' i j else 0)
    (hc : ∀ i j, i < q → j < n → c i j = if j < k then c' i j else 0) (hd : ∀ i j, i < q → j < m → d i j = if j < l then d' i j else 0)
    {toSize : T → Res Nat} {N s : Nat} {r st : T} (hr : cdiv st sys.sampleTime = .ok r) (hs : toSize r = .ok s) (w : Nat → Nat → T) (x0 : Nat → T) :
    ∃ t x y, simulate toSize sys (vtab N fun j => vtab m (w j)) st (vtab n x0) = .ok (t, x, y) ∧
      simulate toSize sys' ((vtab N fun j => vtab m (w j)).map (List.take l)) st ((vtab n x0).take k) = .ok (t, x.map (List.take k), y.map (List.take q)) := by
  refine ⟨_, _, _, simulate_exec hA hB hC hD hn hm hp w x0 hr hs, ?_⟩
  have cut : ∀ {R K M : Nat} {e e' : Nat → Nat → T} {x x' : Nat → T}, K ≤ M → (∀ i j, i < R → j < M → e i j = if j < K then e' i j else 0) → (∀ j, j < K → x j = x' j) →
      ∀ i, i < R → (lsum M fun j => e i j * x j) = lsum K fun j => e' i j * x' j := by
    intro R K M e e' x x' hK he hx i hi
    rw [lsum_cut Z.add_zero hK fun j h1 h2 => by rw [he i j hi h2, if_neg (by omega), Z.zero_mul]]
    exact lsum_congr fun j hj => by rw [he i j hi (by omega), if_pos hj, hx j hj]
  have key : ∀ i r, r < k → stateSeq n m a b x0 w i r = stateSeq k l a' b' x0 w i r := by
    intro i
    induction i with
    | zero => exact fun _ _ => rfl
    | succ i ih =>
      intro r hr
      show (lsum n fun j => a r j * stateSeq n m a b x0 w i j) + _ = (lsum k fun j => a' r j * stateSeq k l a' b' x0 w i j) + _
      rw [cut hkn ha ih r hr, cut hlm hb (fun _ _ => rfl) r hr]
  rw [map_vtab, take_vtab hkn]
  simp only [take_vtab hlm]
  rw [simulate_exec hA' hB' hC' hD' (by omega) (by omega) (by omega) w x0 (hdt ▸ hr) hs, hdt, map_vtab, map_vtab]
  simp only [take_vtab hkn, take_vtab hqp]
  congr 3
  · exact vtab_congr fun i _ => vtab_congr fun r hr => (key i r hr).symm
  · exact vtab_congr fun i _ => vtab_congr fun r hr => by rw [cut hkn hc (key i) r hr, cut hlm hd (fun _ _ => rfl) r hr]
end

/-- C149: exact numbers. -/
theorem C149_field (K : Type) [Semiring K] : ZeroArith K := ⟨zero_mul, mul_zero, add_zero, zero_add⟩

/-- C149: floating point numbers. -/
theorem C149_float (K : Type) [Field K] [LinearOrder K] [IsStrictOrderedRing K] [FloorRing K] {p : ℕ} (emin : ℤ) (hp : 1 ≤ p) : ZeroArith (Fl K p emin) :=
  have Z : ZeroLaws fun _ : Fl K p emin => true := zeroLaws_float hp rfl
  ⟨Z.zero_mul, Z.mul_zero, Z.add_zero, Z.zero_add⟩

/-- C149: IEEE numbers: states `S` that are finite in both simulations are equal. Missing: a state that is a number in one simulation and NaN in the other, see
`C149_overflow_false`. -/
theorem C149_ieee_partial {K : Type} [Field K] [LinearOrder K] [IsStrictOrderedRing K] [FloorRing K] {P : ℕ} {emin : ℤ} {emax : ℕ} (hP : 1 ≤ P) (he : emin ≤ 0) (hE : 1 ≤ emax)
    {sys sys' : DiscreteStateSpace (Ieee K P emin emax)} {n m p : Nat} {a b c d a' b' c' d' : Nat → Nat → Ieee K P emin emax} (hA : RepAt sys.A.toMB n n a)
    (hB : RepAt sys.B.toMB n m b) (hC : RepAt sys.C.toMB p n c) (hD : RepAt sys.D.toMB p m d) (hA' : RepAt sys'.A.toMB n n a') (hB' : RepAt sys'.B.toMB n m b')
    (hC' : RepAt sys'.C.toMB p n c') (hD' : RepAt sys'.D.toMB p m d') (hn : n < allocMax) (hm : m < allocMax) (hp : p < allocMax) (hdt : sys'.sampleTime = sys.sampleTime)
    {S U O : Nat → Prop} (ha : OnlyFrom n n S S (fun i j => (a i j).flD) fun i j => (a' i j).flD) (hb : OnlyFrom n m S U (fun i j => (b i j).flD) fun i j => (b' i j).flD)
    (hc : OnlyFrom p n O S (fun i j => (c i j).flD) fun i j => (c' i j).flD) (hd : OnlyFrom p m O U (fun i j => (d i j).flD) fun i j => (d' i j).flD)
    {toSize : Ieee K P emin emax → Res Nat} {N k : Nat} {q st : Ieee K P emin emax} (hq : cdiv st sys.sampleTime = .ok q) (hk : toSize q = .ok k)
    (w w' : Nat → Nat → Ieee K P emin emax) (x0 x0' : Nat → Ieee K P emin emax) (hx : ∀ i, i < n → S i → (x0 i).flD = (x0' i).flD)
    (hw : ∀ l j, l < N → j < m → U j → (w l j).flD = (w' l j).flD) :
    ∃ (t : List (Ieee K P emin emax)) (x x' y y' : Nat → Nat → Ieee K P emin emax),
      simulate toSize sys (vtab N fun j => vtab m (w j)) st (vtab n x0) = .ok (t, vtab (min N k + 1) fun i => vtab n (x i), vtab (min N k) fun i => vtab p (y i)) ∧
      simulate toSize sys' (vtab N fun j => vtab m (w' j)) st (vtab n x0') = .ok (t, vtab (min N k + 1) fun i => vtab n (x' i), vtab (min N k) fun i => vtab p (y' i)) ∧
      (∀ i r, i < min N k + 1 → r < n → S r → (x i r).Finite → (x' i r).Finite → (x i r).val = (x' i r).val) ∧
      ∀ i r, i < min N k → r < p → O r → (y i r).Finite → (y' i r).Finite → (y i r).val = (y' i r).val := by
  have R := Ieee.reads (K := K) hP he hE
  have h0 := (C149_float K emin hP).zero_mul
  have e2 := simulate_exec (N := N) hA' hB' hC' hD' hn hm hp w' x0' (hdt ▸ hq) hk
  rw [hdt] at e2
  have rd : ∀ (a b : Nat → Nat → Ieee K P emin emax) (x : Nat → Ieee K P emin emax) (w : Nat → Nat → Ieee K P emin emax) (i r : Nat), Rd Ieee.fl (stateSeq n m a b x w i r)
      (stateSeq n m (fun i j => (a i j).flD) (fun i j => (b i j).flD) (fun j => (x j).flD) (fun i j => (w i j).flD) i r) := fun a b x w i r =>
    R.rd_stateSeq (fun r c => rd_flD _) (fun r c => rd_flD _) (fun r => rd_flD _) (fun r c => rd_flD _) i r
  have key := fun i (hi : i ≤ min N k) => stateSeq_apart h0 ha hb (x := fun j => (x0 j).flD) (x' := fun j => (x0' j).flD) hx (w := fun i j => (w i j).flD)
    (w' := fun i j => (w' i j).flD) hw i (by omega)
  refine ⟨_, _, _, _, _, simulate_exec hA hB hC hD hn hm hp w x0 hq hk, e2, fun i r hi hr hS f1 f2 => ?_, fun i r hi hr hO f1 f2 => ?_⟩
  · unfold Ieee.val
    rw [f1.eq (rd _ _ _ _ i r), f2.eq (rd _ _ _ _ i r), key i (by omega) r hr hS]
  · unfold Ieee.val
    rw [f1.eq (R.rd_add (R.rd_lsum fun l _ => R.rd_mul (rd_flD (c r l)) (rd a b x0 w i l)) (R.rd_lsum fun l _ => R.rd_mul (rd_flD (d r l)) (rd_flD (w i l)))),
      f2.eq (R.rd_add (R.rd_lsum fun l _ => R.rd_mul (rd_flD (c' r l)) (rd a' b' x0' w' i l)) (R.rd_lsum fun l _ => R.rd_mul (rd_flD (d' r l)) (rd_flD (w' i l)))),
      hc.sum h0 (fun j hj hs => key i (by omega) j hj hs) hr hO, hd.sum h0 (x := fun j => (w i j).flD) (x' := fun j => (w' i j).flD) (fun j hj hu => hw i j (by omega) hj hu) hr hO]

/-! ## Cases -/

/-- Two states without connection; the factor of the second one is `r`, every state is put out. -/
def twoStates (r : IDouble) : DiscreteStateSpace IDouble := ⟨⟨⟨2, 2, [dbl (1 / 2), 0, 0, r]⟩, ⟨2, 1, [1, 0]⟩, ⟨2, 2, [1, 0, 0, 1]⟩, ⟨2, 1, [0, 0]⟩⟩, 1⟩

set_option maxRecDepth 100000 in
/-- The first state is 1, 3/2, 7/4 whatever the second does. -/
example : simulate (fun x => floorSize x.val) (twoStates (dbl 3)) [[1], [1]] (dbl 2) [1, 1] =
      .ok ([0, 1, 0], [[1, 1], [dbl (3 / 2), dbl 3], [dbl (7 / 4), dbl 9]], [[1, 1], [dbl (3 / 2), dbl 3]]) ∧
    simulate (fun x => floorSize x.val) (twoStates (dbl (-7))) [[1], [1]] (dbl 2) [1, 1] =
      .ok ([0, 1, 0], [[1, 1], [dbl (3 / 2), dbl (-7)], [dbl (7 / 4), dbl 49]], [[1, 1], [dbl (3 / 2), dbl (-7)]]) := by
  decide +kernel

set_option maxRecDepth 100000 in
/-- C149 does not hold for doubles that overflow: when the second state has become infinite, the first one, which has no connection to it, becomes NaN, since it is computed
with a product of zero and infinity. -/
theorem C149_overflow_false : ∃ t x y, simulate (fun x => floorSize x.val) (twoStates (dbl (2 ^ 600))) [[1], [1], [1]] (dbl 3) [1, 1] = .ok (t, x, y) ∧
    x = [[1, 1], [dbl (3 / 2), dbl (2 ^ 600)], [dbl (7 / 4), .inf false], [.nan, .inf false]] :=
  ⟨[0, 1, dbl 2, 0], _, [[1, 1], [dbl (3 / 2), dbl (2 ^ 600)], [.nan, .inf false]], by decide +kernel, rfl⟩

/-- C149 does not hold for `expm`, even without rounding: the number of halvings depends on the norm of the whole matrix, so that the result for a part depends on
entries it is not connected with. -/
theorem C149_expm_false :
    expm (fun x : ℚ => decide (x = 0)) (|·|) (fun x => x) (1/2) (⟨2, 2, [1, 0, 0, 0]⟩ : Mat ℚ).toMB 1 10 = .ok ⟨2, 2, [65 / 24, 0, 0, 1]⟩ ∧
    expm (fun x : ℚ => decide (x = 0)) (|·|) (fun x => x) (1/2) (⟨2, 2, [1, 0, 0, 2]⟩ : Mat ℚ).toMB 1 10 = .ok ⟨2, 2, [44521 / 16384, 0, 0, 4225 / 576]⟩ := by
  decide +kernel
end Malg
