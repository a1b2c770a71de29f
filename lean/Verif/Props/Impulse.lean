import Verif.Props.StableC2d
import Verif.Props.Reach
import Verif.Props.Laws
/-!
# Property C157: what the answer to an impulse says about a system
-/
namespace Malg
open Ops Lin Control Feq Ieee
open scoped Matrix

/-- The answer to an impulse: `D, C B, C A B, C A² B, …`. -/
def markov {K : Type} [Semiring K] {n m p : Nat} (A : Matrix (Fin n) (Fin n) K) (B : Matrix (Fin n) (Fin m) K) (C : Matrix (Fin p) (Fin n) K) (D : Matrix (Fin p) (Fin m) K) : Nat → Matrix (Fin p) (Fin m) K
  | 0 => D
  | k + 1 => C * A ^ k * B

/-- An impulse in the input `j`, followed by `N` zeros. -/
def impulse {K : Type} [Semiring K] {m : Nat} (j : Fin m) (N : Nat) : List (Fin m → K) := Pi.single j 1 :: List.replicate N 0

section
variable {K : Type} [CommRing K] [CDiv K] {n n' m p : Nat} {toSize : K → Res Nat} {sys sys' : DiscreteStateSpace K}
  {A : Matrix (Fin n) (Fin n) K} {B : Matrix (Fin n) (Fin m) K} {C : Matrix (Fin p) (Fin n) K} {D : Matrix (Fin p) (Fin m) K}
  {A' : Matrix (Fin n') (Fin n') K} {B' : Matrix (Fin n') (Fin m) K} {C' : Matrix (Fin p) (Fin n') K} {D' : Matrix (Fin p) (Fin m) K}

theorem ofFn_zero_vec {K : Type} [Zero K] (n : Nat) : List.ofFn (0 : Fin n → K) = List.replicate n 0 := List.ofFn_const n 0

omit [CDiv K] in
/-- The output of a system that starts with zeros. -/
theorem output_markov (u : Nat → Fin m → K) (i : Nat) : C *ᵥ traj A B 0 u i + D *ᵥ u i = ∑ j ∈ Finset.range (i + 1), markov A B C D (i - j) *ᵥ u j := by
  rw [Finset.sum_range_succ, Nat.sub_self, markov, traj_closed, Matrix.mulVec_zero, zero_add, Matrix.mulVec_sum]
  congr 1
  refine Finset.sum_congr rfl fun j hj => ?_
  have hj' := Finset.mem_range.1 hj
  rw [show i - j = (i - 1 - j) + 1 by omega, markov, Matrix.mulVec_mulVec, Matrix.mulVec_mulVec]

omit [CDiv K] in
theorem impulse_getD (j : Fin m) (N i : Nat) : (impulse (K := K) j N).getD i 0 = if i = 0 then Pi.single j 1 else 0 := by
  unfold impulse
  cases i with
  | zero => rfl
  | succ i =>
    rw [List.getD_cons_succ, if_neg (by omega), List.getD_eq_getElem?_getD, List.getElem?_replicate]
    split <;> rfl

/-- C157: the answer of `simulate` to an impulse. -/
theorem C157_impulse (h : sys.toStateSpace.Is A B C D) (hn : n < allocMax) (hp : p < allocMax) (j : Fin m) (N : Nat) {T q : K} {k : Nat} (hq : cdiv T sys.sampleTime = .ok q) (hk : toSize q = .ok k) :
    ∃ t x, simulate toSize sys ((impulse j N).map List.ofFn) T (List.replicate n 0) = .ok (t, x, vtab (min (N + 1) k) fun i => List.ofFn fun r => markov A B C D i r j) := by
  have hs := simulate_eq h hn hp (impulse j N) 0 hq hk
  rw [show (impulse (K := K) j N).length = N + 1 by simp [impulse], ofFn_zero_vec] at hs
  have e : ∀ i, C *ᵥ traj A B 0 (fun l => (impulse (K := K) j N).getD l 0) i + D *ᵥ (impulse (K := K) j N).getD i 0 = fun r => markov A B C D i r j := fun i => by
    have := output_markov (A := A) (B := B) (C := C) (D := D) (fun l => (impulse (K := K) j N).getD l 0) i
    rw [this, Finset.sum_eq_single 0]
    · simp only [impulse_getD, if_true, Nat.sub_zero]
      funext r
      rw [Matrix.mulVec_single_one]
      rfl
    · intro b _ hb
      simp only [impulse_getD, if_neg hb, Matrix.mulVec_zero]
    · intro h0; simp at h0
  simp only [e] at hs
  exact ⟨_, _, hs⟩

/-- C157: the outputs of a system that starts with zeros are determined by its answers to impulses. -/
theorem C157_convolution (h : sys.toStateSpace.Is A B C D) (hn : n < allocMax) (hp : p < allocMax) (us : List (Fin m → K)) {T q : K} {k : Nat} (hq : cdiv T sys.sampleTime = .ok q) (hk : toSize q = .ok k) :
    ∃ t x, simulate toSize sys (us.map List.ofFn) T (List.replicate n 0) = .ok (t, x, vtab (min us.length k) fun i => List.ofFn (∑ j ∈ Finset.range (i + 1), markov A B C D (i - j) *ᵥ us.getD j 0)) := by
  have hs := simulate_eq h hn hp us 0 hq hk
  have e := output_markov (A := A) (B := B) (C := C) (D := D) (fun l => us.getD l 0)
  simp only [e, ofFn_zero_vec] at hs
  exact ⟨_, _, hs⟩

omit [CDiv K] in
/-- Powers of two matrices as the same combination of lower powers. -/
theorem pow_both [Nontrivial K] (A : Matrix (Fin n) (Fin n) K) (A' : Matrix (Fin n') (Fin n') K) (k : Nat) :
    ∃ c : Nat → K, A ^ k = ∑ i ∈ Finset.range (n + n'), c i • A ^ i ∧ A' ^ k = ∑ i ∈ Finset.range (n + n'), c i • A' ^ i := by
  let P := A.charpoly * A'.charpoly
  have hP : P.Monic := A.charpoly_monic.mul A'.charpoly_monic
  have hd : P.natDegree = n + n' := by
    rw [A.charpoly_monic.natDegree_mul A'.charpoly_monic, Matrix.charpoly_natDegree_eq_dim, Matrix.charpoly_natDegree_eq_dim, Fintype.card_fin, Fintype.card_fin]
  let r := (Polynomial.X ^ k : Polynomial K) %ₘ P
  have hr : ∀ i, n + n' ≤ i → r.coeff i = 0 := fun i hi => by
    refine Polynomial.coeff_eq_zero_of_degree_lt (lt_of_lt_of_le (Polynomial.degree_modByMonic_lt _ hP) ?_)
    rw [Polynomial.degree_eq_natDegree hP.ne_zero, hd]
    exact_mod_cast hi
  have key : ∀ {q : Nat} (M : Matrix (Fin q) (Fin q) K), Polynomial.aeval M P = 0 → M ^ k = ∑ i ∈ Finset.range (n + n'), r.coeff i • M ^ i := fun M h0 => by
    have h1 := congrArg (Polynomial.aeval M) (Polynomial.modByMonic_add_div (Polynomial.X ^ k) P)
    rw [map_add, map_mul, h0, zero_mul, add_zero, map_pow, Polynomial.aeval_X] at h1
    rw [← h1]
    by_cases hz : n + n' = 0
    · have : r = 0 := Polynomial.ext fun i => by rw [hr i (by omega), Polynomial.coeff_zero]
      rw [show (Polynomial.X ^ k : Polynomial K) %ₘ P = 0 from this, hz]
      simp
    · refine Polynomial.aeval_eq_sum_range' (n := n + n') ?_ M
      by_cases h0 : r = 0
      · rw [show (Polynomial.X ^ k : Polynomial K) %ₘ P = 0 from h0, Polynomial.natDegree_zero]; omega
      · exact (Polynomial.natDegree_lt_iff_degree_lt h0).2 ((Polynomial.degree_lt_iff_coeff_zero _ _).2 hr)
  refine ⟨r.coeff, key A ?_, key A' ?_⟩
  · rw [map_mul, A.aeval_self_charpoly, zero_mul]
  · rw [map_mul, A'.aeval_self_charpoly, mul_zero]

omit [CDiv K] in
theorem markov_all [Nontrivial K] (h : ∀ i, i ≤ n + n' → markov A B C D i = markov A' B' C' D' i) (k : Nat) : markov A B C D k = markov A' B' C' D' k := by
  cases k with
  | zero => exact h 0 (by omega)
  | succ k =>
    obtain ⟨c, h1, h2⟩ := pow_both A A' k
    rw [markov, markov, h1, h2, Matrix.mul_sum, Matrix.mul_sum, Matrix.sum_mul, Matrix.sum_mul]
    refine Finset.sum_congr rfl fun i hi => ?_
    have := h (i + 1) (by have := Finset.mem_range.1 hi; omega)
    rw [markov, markov] at this
    rw [Matrix.mul_smul, Matrix.mul_smul, Matrix.smul_mul, Matrix.smul_mul, this]

/-- C157: if two systems, with `n` and `n'` states, give the same outputs in `n + n' + 1` steps after an impulse in each of the inputs, they give the same outputs for all inputs in simulations of any length. -/
theorem C157_agree [Nontrivial K] (h : sys.toStateSpace.Is A B C D) (h' : sys'.toStateSpace.Is A' B' C' D') (hn : n < allocMax) (hn' : n' < allocMax) (hp : p < allocMax) (hs : sys.sampleTime = sys'.sampleTime)
    {T q : K} {k : Nat} (hq : cdiv T sys.sampleTime = .ok q) (hk : toSize q = .ok k) (hk' : n + n' + 1 ≤ k)
    (he : ∀ j : Fin m, (simulate toSize sys ((impulse j (n + n')).map List.ofFn) T (List.replicate n 0) >>= fun r => .ok r.2.2) = (simulate toSize sys' ((impulse j (n + n')).map List.ofFn) T (List.replicate n' 0) >>= fun r => .ok r.2.2))
    (us : List (Fin m → K)) {T' q' : K} {k' : Nat} (hq' : cdiv T' sys.sampleTime = .ok q') (hk'' : toSize q' = .ok k') :
    (simulate toSize sys (us.map List.ofFn) T' (List.replicate n 0) >>= fun r => .ok r.2.2) = (simulate toSize sys' (us.map List.ofFn) T' (List.replicate n' 0) >>= fun r => .ok r.2.2) := by
  have e : ∀ i, i ≤ n + n' → markov A B C D i = markov A' B' C' D' i := fun i hi => by
    ext r j
    obtain ⟨t, x, h1⟩ := C157_impulse h hn hp j (n + n') hq hk
    obtain ⟨t', x', h2⟩ := C157_impulse h' hn' hp j (n + n') (hs ▸ hq) hk
    have h3 := he j
    rw [h1, h2, Res.ok_bind, Res.ok_bind, Res.ok.injEq, min_eq_left hk'] at h3
    have h4 := congrArg (fun l => l[i]?) h3
    simp only [vtab, List.getElem?_map, List.getElem?_range (show i < n + n' + 1 by omega), Option.map_some, Option.some.injEq] at h4
    exact congrFun (List.ofFn_injective h4) r
  obtain ⟨t, x, h1⟩ := C157_convolution h hn hp us hq' hk''
  obtain ⟨t', x', h2⟩ := C157_convolution h' hn' hp us (hs ▸ hq') hk''
  rw [h1, h2, Res.ok_bind, Res.ok_bind]
  simp only [markov_all e]

omit [CDiv K] in
/-- C157: the product of what `obsv` and `ctrb` return consists of the answers to impulses. -/
theorem C157_hankel (h : sys.toStateSpace.Is A B C D) (hn : 0 < n) (hf : Fits n (n * m)) (hf' : Fits (n * p) n) (hf'' : Fits (n * p) (n * m)) :
    ∃ H : Matrix (Fin (n * p)) (Fin (n * m)) K, Yields (do let O ← obsv sys.A.toMB sys.C.toMB
                                                            let R ← ctrb sys.A.toMB sys.B.toMB
                                                            mul O.toMB R.toMB) H ∧
      ∀ i j (r : Fin p) (s : Fin m) (hi : i * p + r < n * p) (hj : j * m + s < n * m), H ⟨i * p + r, hi⟩ ⟨j * m + s, hj⟩ = markov A B C D (i + j + 1) r s := by
  obtain ⟨O, h1, -, h2⟩ := C89_obsv h.a h.c hn hf'
  obtain ⟨R, h3, -, h4⟩ := C59_ctrb h.a h.b hn hf
  refine ⟨blockCol A C n * blockRow A B n, ?_, ?_⟩
  · rw [h1, Res.ok_bind, h3, Res.ok_bind]
    exact C35_product h2 h4 hf''
  · intro i j r s hi hj
    have e : markov A B C D (i + j + 1) = (C * A ^ i) * (A ^ j * B) := by rw [markov, pow_add]; simp only [Matrix.mul_assoc]
    rw [e, Matrix.mul_apply, Matrix.mul_apply]
    refine Finset.sum_congr rfl fun l _ => ?_
    simp only [blockCol, blockRow, lin_div r.2, lin_mod r.2, lin_div s.2, lin_mod s.2]
end

/-- C157: without inputs the outputs satisfy the recurrence whose coefficients `poly` returns. -/
theorem C157_recurrence {K : Type} [Field K] [CharZero K] [DecidableEq K] {n m p : Nat} {toSize : K → Res Nat} {sys : DiscreteStateSpace K} {A : Matrix (Fin n) (Fin n) K} {B : Matrix (Fin n) (Fin m) K} {C : Matrix (Fin p) (Fin n) K}
    {D : Matrix (Fin p) (Fin m) K} (h : sys.toStateSpace.Is A B C D) (hn : n < allocMax) (hp : p < allocMax) (x0 : Fin n → K) (N : Nat) {T : K} {k : Nat} (hdt : sys.sampleTime ≠ 0) (hk : toSize (T / sys.sampleTime) = .ok k) :
    ∃ c, polyMat sys.A.toMB = .ok c ∧ c.length = n + 1 ∧ ∃ t, ∃ x : Nat → Fin n → K, ∃ y : Nat → Fin p → K,
      simulate toSize sys ((List.replicate N (0 : Fin m → K)).map List.ofFn) T (List.ofFn x0) = .ok (t, vtab (min N k + 1) (fun i => List.ofFn (x i)), vtab (min N k) fun i => List.ofFn (y i)) ∧
      (∀ i, i + n ≤ min N k → ∀ l, ∑ j ∈ Finset.range (n + 1), c.getD j 0 * x (i + n - j) l = 0) ∧ ∀ i, i + n < min N k → ∀ l, ∑ j ∈ Finset.range (n + 1), c.getD j 0 * y (i + n - j) l = 0 := by
  obtain ⟨c, h1, h2, h3⟩ := C61_charpoly h.a
  have hs := simulate_eq h hn hp (List.replicate N 0) x0 (cdiv_ok T hdt) hk
  have e0 : ∀ j, (List.replicate N (0 : Fin m → K)).getD j 0 = 0 := fun j => by
    rw [List.getD_eq_getElem?_getD, List.getElem?_replicate]; split <;> rfl
  simp only [e0, List.length_replicate, Matrix.mulVec_zero, add_zero] at hs
  have e1 : ∀ i, traj A B x0 (fun _ => 0) i = A ^ i *ᵥ x0 := fun i => by
    rw [traj_closed, Finset.sum_eq_zero fun j _ => by rw [Matrix.mulVec_zero, Matrix.mulVec_zero], add_zero]
  simp only [e1] at hs
  have hch := A.aeval_self_charpoly
  rw [Polynomial.aeval_eq_sum_range, Matrix.charpoly_natDegree_eq_dim, Fintype.card_fin, ← Finset.sum_range_reflect] at hch
  have h4 : ∀ i, ∑ j ∈ Finset.range (n + 1), c.getD j 0 • (A ^ (i + n - j) *ᵥ x0) = 0 := fun i => by
    have h5 := congrArg (fun M => (M * A ^ i) *ᵥ x0) hch
    simp only [Matrix.zero_mul, Matrix.zero_mulVec, Matrix.sum_mul, Matrix.sum_mulVec] at h5
    refine Eq.trans (Finset.sum_congr rfl fun j hj => ?_) h5
    have hj' := Finset.mem_range.1 hj
    rw [Matrix.smul_mul, ← pow_add, Matrix.smul_mulVec, show n + 1 - 1 - j + i = i + n - j by omega, show n + 1 - 1 - j = n - j by omega, ← h3, polyOf_coeff, if_pos (by omega), h2,
      show n + 1 - 1 - (n - j) = j by omega]
  refine ⟨c, h1, h2, _, _, _, hs, fun i _ l => ?_, fun i _ l => ?_⟩
  · have := congrFun (h4 i) l
    rw [Finset.sum_apply] at this
    exact this
  · have := congrFun (congrArg (fun v => C *ᵥ v) (h4 i)) l
    simp only [Matrix.mulVec_sum, Matrix.mulVec_smul, Matrix.mulVec_zero] at this
    rw [Finset.sum_apply] at this
    exact this

/-- `x' = 2 x + u`, `y = x`. -/
def twoA : DiscreteStateSpace Int := ⟨⟨⟨1, 1, [2]⟩, ⟨1, 1, [1]⟩, ⟨1, 1, [1]⟩, ⟨1, 1, [0]⟩⟩, 1⟩

/-- The same with a second state that cannot be seen. -/
def twoB : DiscreteStateSpace Int := ⟨⟨⟨2, 2, [2, 0, 5, 3]⟩, ⟨2, 1, [1, 7]⟩, ⟨1, 2, [1, 0]⟩, ⟨1, 1, [0]⟩⟩, 1⟩

set_option maxRecDepth 100000 in
/-- One simulation of four steps shows that the two systems have the same outputs in all of them. -/
example (us : List (Fin 1 → Int)) (T : Int) :
    (simulate (fun q => .ok q.toNat) twoA (us.map List.ofFn) T [0] >>= fun r => .ok r.2.2) = (simulate (fun q => .ok q.toNat) twoB (us.map List.ofFn) T [0, 0] >>= fun r => .ok r.2.2) := by
  obtain ⟨a, ha⟩ := (by decide +kernel : twoA.A.WF).holds
  obtain ⟨b, hb⟩ := (by decide +kernel : twoA.B.WF).holds
  obtain ⟨c, hc⟩ := (by decide +kernel : twoA.C.WF).holds
  obtain ⟨d, hd⟩ := (by decide +kernel : twoA.D.WF).holds
  obtain ⟨a', ha'⟩ := (by decide +kernel : twoB.A.WF).holds
  obtain ⟨b', hb'⟩ := (by decide +kernel : twoB.B.WF).holds
  obtain ⟨c', hc'⟩ := (by decide +kernel : twoB.C.WF).holds
  obtain ⟨d', hd'⟩ := (by decide +kernel : twoB.D.WF).holds
  exact C157_agree (n := 1) (n' := 2) (m := 1) (p := 1) (T := 4) (q := 4) (k := 4) (T' := T) (q' := T) (k' := T.toNat) ⟨ha.is, hb.is, hc.is, hd.is⟩ ⟨ha'.is, hb'.is, hc'.is, hd'.is⟩
    (by rw [allocMax_eq]; norm_num) (by rw [allocMax_eq]; norm_num) (by rw [allocMax_eq]; norm_num) rfl (by decide +kernel) rfl (by norm_num)
    (fun j => by fin_cases j; decide +kernel) us (by show (if (1 : Int) = 0 then _ else _) = _; rw [if_neg one_ne_zero]; exact congrArg Res.ok (Int.tdiv_one T)) rfl

/-- `x' = 3 x + u`, `y = x`. -/
def threeA : DiscreteStateSpace Int := ⟨⟨⟨1, 1, [3]⟩, ⟨1, 1, [1]⟩, ⟨1, 1, [1]⟩, ⟨1, 1, [0]⟩⟩, 1⟩

set_option maxRecDepth 100000 in
/-- The number of steps cannot be reduced: two systems with one state each that agree for two steps but not for three. -/
theorem C157_fewer_false : (simulate (fun q => .ok q.toNat) twoA [[1], [0]] 2 [0] >>= fun r => .ok r.2.2) = (simulate (fun q => .ok q.toNat) threeA [[1], [0]] 2 [0] >>= fun r => .ok r.2.2) ∧
    (simulate (fun q => .ok q.toNat) twoA [[1], [0], [0]] 3 [0] >>= fun r => .ok r.2.2) = .ok [[0], [1], [2]] ∧
    (simulate (fun q => .ok q.toNat) threeA [[1], [0], [0]] 3 [0] >>= fun r => .ok r.2.2) = .ok [[0], [1], [3]] := by
  refine ⟨?_, ?_, ?_⟩ <;> decide +kernel

/-- Two outputs of which the second is too small to be seen after an impulse of size one. -/
def addA : DiscreteStateSpace IDouble := ⟨⟨⟨2, 2, [0, 0, 0, 0]⟩, ⟨2, 1, [1, dbl (1 / 2 ^ 53)]⟩, ⟨1, 2, [1, 1]⟩, ⟨1, 1, [0]⟩⟩, 1⟩

/-- The first one alone. -/
def addB : DiscreteStateSpace IDouble := ⟨⟨⟨1, 1, [0]⟩, ⟨1, 1, [1]⟩, ⟨1, 1, [1]⟩, ⟨1, 1, [0]⟩⟩, 1⟩

set_option maxRecDepth 100000 in
/-- C157 in `double` is false: two systems that give the same outputs after an impulse, for four steps, but not after an impulse of size three. -/
theorem C157_agree_false : (simulate Ieee.toSize addA [[1], [0], [0], [0]] (dbl 4) [0, 0] >>= fun r => .ok r.2.2) = .ok [[0], [1], [0], [0]] ∧
    (simulate Ieee.toSize addB [[1], [0], [0], [0]] (dbl 4) [0] >>= fun r => .ok r.2.2) = .ok [[0], [1], [0], [0]] ∧
    (simulate Ieee.toSize addA [[dbl 3], [0]] (dbl 2) [0, 0] >>= fun r => .ok r.2.2) = .ok [[0], [dbl (3 + 1 / 2 ^ 51)]] ∧
    (simulate Ieee.toSize addB [[dbl 3], [0]] (dbl 2) [0] >>= fun r => .ok r.2.2) = .ok [[0], [dbl 3]] ∧ dbl (3 + 1 / 2 ^ 51) ≠ dbl 3 := by
  refine ⟨?_, ?_, ?_, ?_, ?_⟩ <;> decide +kernel

set_option maxRecDepth 100000 in
/-- The Fibonacci numbers satisfy the recurrence `y'' - y' - y = 0`: `poly` returns its coefficients. -/
example : polyMat (⟨2, 2, [1, 1, 1, 0]⟩ : Mat ℚ).toMB = .ok [1, -1, -1] ∧
    (simulate floorSize (⟨⟨⟨2, 2, [1, 1, 1, 0]⟩, ⟨2, 1, [0, 0]⟩, ⟨1, 2, [1, 0]⟩, ⟨1, 1, [0]⟩⟩, 1⟩ : DiscreteStateSpace ℚ) [[0], [0], [0], [0], [0]] 5 [1, 0] >>= fun r => .ok r.2.2) = .ok [[1], [1], [2], [3], [5]] := by
  refine ⟨?_, ?_⟩ <;> decide +kernel

set_option maxRecDepth 100000 in
/-- The product of `obsv` and `ctrb` for the same system with the input in the first state: the Fibonacci numbers again. -/
example : (do let O ← obsv (⟨2, 2, [1, 1, 1, 0]⟩ : Mat Int).toMB (⟨1, 2, [1, 0]⟩ : Mat Int).toMB
              let R ← ctrb (⟨2, 2, [1, 1, 1, 0]⟩ : Mat Int).toMB (⟨2, 1, [1, 0]⟩ : Mat Int).toMB
              mul O.toMB R.toMB) = .ok ⟨2, 2, [1, 1, 1, 2]⟩ := by decide +kernel
end Malg
