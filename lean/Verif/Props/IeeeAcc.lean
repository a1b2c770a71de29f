import Verif.Props.FloatAcc
import Verif.Props.Overflow
import Verif.Props.SignedInt
/-!
# Property C127: overflow in powers, `ctrb`, `obsv` and simulations

A finite element of the result is the one computed without limit on the exponent, so that the bounds of C116 hold for it.
-/
namespace Malg
open Ops Lin Control Ieee
open scoped Matrix

namespace Reads
variable {X Y : Type} [Zero X] [One X] [Add X] [Sub X] [Mul X] [Zero Y] [One Y] [Add Y] [Sub Y] [Mul Y] {v : X → Option Y} (R : Reads v)
include R

theorem rd_powT {n : Nat} {a : Nat → Nat → X} {x : Nat → Nat → Y} (h : ∀ r c, Rd v (a r c) (x r c)) (q r c : Nat) :
    Rd v (powT n a q r c) (powT n x q r c) := by
  induction q generalizing r c with
  | zero =>
    unfold powT
    split
    · exact R.rd_one
    · exact R.rd_zero
  | succ q ih => exact R.rd_lsum fun i _ => R.rd_mul (ih r i) (h i c)

theorem rd_stateSeq {n m : Nat} {a b : Nat → Nat → X} {x0 : Nat → X} {w : Nat → Nat → X} {a' b' : Nat → Nat → Y} {x0' : Nat → Y} {w' : Nat → Nat → Y}
    (ha : ∀ r c, Rd v (a r c) (a' r c)) (hb : ∀ r c, Rd v (b r c) (b' r c)) (hx : ∀ r, Rd v (x0 r) (x0' r)) (hw : ∀ r c, Rd v (w r c) (w' r c))
    (i r : Nat) : Rd v (stateSeq n m a b x0 w i r) (stateSeq n m a' b' x0' w' i r) := by
  induction i generalizing r with
  | zero => exact hx r
  | succ i ih => exact R.rd_add (R.rd_lsum fun j _ => R.rd_mul (ha r j) (ih j)) (R.rd_lsum fun j _ => R.rd_mul (hb r j) (hw i j))

end Reads

variable {K : Type} [Field K] [LinearOrder K] [IsStrictOrderedRing K] [FloorRing K] {p : Nat} {emin : ℤ} {emax : Nat}

theorem rd_flD (x : Ieee K p emin emax) : Rd fl x x.flD := Reads.rd_get _ x

/-- C127: a finite element of `powm(A, N)` on IEEE numbers satisfies the bound of C116; from the square on there is one only if `A` is finite. -/
theorem C127_powm (hp : 1 ≤ p) (he : emin ≤ 0) (hx : 1 ≤ emax) {A : MB (Ieee K p emin emax)} {n : Nat} {M : Matrix (Fin n) (Fin n) (Ieee K p emin emax)}
    (hA : A.Is M) (hn : 0 < n) (N : Nat) :
    ∃ E : Matrix (Fin n) (Fin n) (Ieee K p emin emax), Yields (powm A N) E ∧ ∀ i j, (E i j).Finite →
      (2 ≤ N → ∀ k l, (M k l).Finite) ∧
      |(E i j).val - (M.map val ^ N) i j| ≤ ((1 + 2 ^ (-(p : ℤ))) ^ (n * N) - 1) * (M.map (|val ·|) ^ N) i j +
        powUnder (2 ^ (-(p : ℤ))) (2 ^ emin / 2) (M.map (|val ·|)) N i j := by
  obtain ⟨e, h, rfl⟩ := hA
  have R := reads (K := K) hp he hx
  refine ⟨_, Yields.of_eq h.fits (powm_table h hn N), fun i j hfin => ⟨fun h2 => ?_, ?_⟩⟩
  · match N, h2 with
    | N + 2, _ =>
      have h1 : (lsum n fun l => powT n e (N + 1) i l * e l j).Finite := hfin
      intro k l
      have h2 := (R.some_mul (R.some_lsum h1 l.1 l.2)).1
      have h3 : (lsum n fun s => powT n e N i s * e s l).Finite := h2
      exact (R.some_mul (R.some_lsum h3 k.1 k.2)).2
  · obtain ⟨E, g1, g2⟩ := C116_powm (Fl.rounds K hp emin) (Fl.one_val hp he) (ofFn_rep h.fits fun i j => (e i j).flD).is hn N
    have g3 := Yields.inj g1 (Yields.of_eq h.fits (powm_table (ofFn_rep h.fits fun i j => (e i j).flD) hn N))
    have g4 := g2 i j
    rw [g3] at g4
    have : (toM n n (powT n e N) i j).val = (toM n n (powT n (fun i j => (e i j).flD) N) i j).val :=
      congrArg Fl.val (hfin.eq (R.rd_powT (fun r c => rd_flD (e r c)) N i j))
    rw [this]
    exact g4

/-- C127: so for `ctrb(A, B)`. -/
theorem C127_ctrb (hp : 1 ≤ p) (he : emin ≤ 0) (hx : 1 ≤ emax) {A B : MB (Ieee K p emin emax)} {n m : Nat}
    {M : Matrix (Fin n) (Fin n) (Ieee K p emin emax)} {N : Matrix (Fin n) (Fin m) (Ieee K p emin emax)} (hA : A.Is M) (hB : B.Is N) (hn : 0 < n)
    (hf : Fits n (n * m)) :
    ∃ E : Matrix (Fin n) (Fin (n * m)) (Ieee K p emin emax), Yields (ctrb A B) E ∧
      ∀ (i : Fin n) (l : Fin n) (j : Fin m) (h : l.1 * m + j.1 < n * m), (E i ⟨l * m + j, h⟩).Finite →
      |(E i ⟨l * m + j, h⟩).val - (M.map val ^ l.1 * N.map val) i j| ≤
        ((1 + 2 ^ (-(p : ℤ))) ^ (n * (l + 1)) - 1) * (M.map (|val ·|) ^ l.1 * N.map (|val ·|)) i j +
          ((1 + 2 ^ (-(p : ℤ))) ^ n * (powUnder (2 ^ (-(p : ℤ))) (2 ^ emin / 2) (M.map (|val ·|)) l * N.map (|val ·|)) i j +
            n * (1 + 2 ^ (-(p : ℤ))) ^ (n - 1) * (2 ^ emin / 2)) := by
  obtain ⟨e, hA, rfl⟩ := hA
  obtain ⟨f, hB, rfl⟩ := hB
  have R := reads (K := K) hp he hx
  have hA' := ofFn_rep hA.fits fun i j => (e i j).flD
  have hB' := ofFn_rep hB.fits fun i j => (f i j).flD
  refine ⟨_, Yields.of_eq hf (ctrb_exec hA hB hn hf fun i _ => powm_table hA hn i), fun i l j h hfin => ?_⟩
  obtain ⟨E, g1, g2⟩ := C116_ctrb (Fl.rounds K hp emin) (Fl.one_val hp he) hA'.is hB'.is hn hf
  have g3 := Yields.inj g1 (Yields.of_eq hf (ctrb_exec hA' hB' hn hf fun i _ => powm_table hA' hn i))
  have g4 := g2 i l j h
  rw [g3] at g4
  refine le_trans (le_of_eq ?_) g4
  congr 2
  refine congrArg Fl.val (hfin.eq ?_)
  show Rd fl (if _ = 0 then _ else _) (if _ = 0 then _ else _)
  split
  · exact rd_flD _
  · exact R.rd_lsum fun k _ => R.rd_mul (R.rd_powT (fun r c => rd_flD (e r c)) _ _ _) (rd_flD _)

/-- C127: and for `obsv(A, C)`. -/
theorem C127_obsv (hp : 1 ≤ p) (he : emin ≤ 0) (hx : 1 ≤ emax) {A C : MB (Ieee K p emin emax)} {n m : Nat}
    {M : Matrix (Fin n) (Fin n) (Ieee K p emin emax)} {N : Matrix (Fin m) (Fin n) (Ieee K p emin emax)} (hA : A.Is M) (hC : C.Is N) (hn : 0 < n)
    (hf : Fits (n * m) n) :
    ∃ E : Matrix (Fin (n * m)) (Fin n) (Ieee K p emin emax), Yields (obsv A C) E ∧
      ∀ (i : Fin m) (l : Fin n) (j : Fin n) (h : l.1 * m + i.1 < n * m), (E ⟨l * m + i, h⟩ j).Finite →
      |(E ⟨l * m + i, h⟩ j).val - (N.map val * M.map val ^ l.1) i j| ≤
        ((1 + 2 ^ (-(p : ℤ))) ^ (n * (l + 1)) - 1) * (N.map (|val ·|) * M.map (|val ·|) ^ l.1) i j +
          ((1 + 2 ^ (-(p : ℤ))) ^ n * (N.map (|val ·|) * powUnder (2 ^ (-(p : ℤ))) (2 ^ emin / 2) (M.map (|val ·|)) l) i j +
            n * (1 + 2 ^ (-(p : ℤ))) ^ (n - 1) * (2 ^ emin / 2)) := by
  obtain ⟨e, hA, rfl⟩ := hA
  obtain ⟨f, hC, rfl⟩ := hC
  have R := reads (K := K) hp he hx
  have hA' := ofFn_rep hA.fits fun i j => (e i j).flD
  have hC' := ofFn_rep hC.fits fun i j => (f i j).flD
  refine ⟨_, Yields.of_eq hf (obsv_exec hA hC hn hf fun i _ => powm_table hA hn i), fun i l j h hfin => ?_⟩
  obtain ⟨E, g1, g2⟩ := C116_obsv (Fl.rounds K hp emin) (Fl.one_val hp he) hA'.is hC'.is hn hf
  have g3 := Yields.inj g1 (Yields.of_eq hf (obsv_exec hA' hC' hn hf fun i _ => powm_table hA' hn i))
  have g4 := g2 i l j h
  rw [g3] at g4
  refine le_trans (le_of_eq ?_) g4
  congr 2
  refine congrArg Fl.val (hfin.eq ?_)
  show Rd fl (if _ = 0 then _ else _) (if _ = 0 then _ else _)
  split
  · exact rd_flD _
  · exact R.rd_lsum fun k _ => R.rd_mul (rd_flD _) (R.rd_powT (fun r c => rd_flD (e r c)) _ _ _)

/-- C127: and for the states and outputs of a simulation: overflow shows, and what is finite satisfies the bounds of C116. -/
theorem C127_simulate (hp : 1 ≤ p) (he : emin ≤ 0) (hx : 1 ≤ emax) {n m q : Nat} {sys : DiscreteStateSpace (Ieee K p emin emax)}
    {a b c d : Nat → Nat → Ieee K p emin emax} (hA : RepAt sys.A.toMB n n a) (hB : RepAt sys.B.toMB n m b) (hC : RepAt sys.C.toMB q n c)
    (hD : RepAt sys.D.toMB q m d) (hn : n < allocMax) (hm : m < allocMax) (hq : q < allocMax) {toSize : Ieee K p emin emax → Res Nat} {N k : Nat}
    {r st : Ieee K p emin emax} (w : Nat → Nat → Ieee K p emin emax) (x0 : Nat → Ieee K p emin emax) (hr : cdiv st sys.sampleTime = .ok r)
    (hk : toSize r = .ok k) :
    ∃ (t : List (Ieee K p emin emax)) (x y : Nat → Nat → Ieee K p emin emax),
      simulate toSize sys (vtab N fun j => vtab m (w j)) st (vtab n x0) =
        .ok (t, vtab (min N k + 1) fun i => vtab n (x i), vtab (min N k) fun i => vtab q (y i)) ∧
      (∀ i (j : Fin n), (x (i + 1) j).Finite → (∀ l, l < n → (x i l).Finite) ∧ ∀ l, l < m → (w i l).Finite) ∧
      (∀ i (j : Fin n), (x i j).Finite →
        |(x i j).val - traj ((toM n n a).map val) ((toM n m b).map val) (fun j => (x0 j).val) (fun l j => (w l j).val) i j| ≤
          ((1 + 2 ^ (-(p : ℤ))) ^ (i * (max n m + 1)) - 1) *
            traj ((toM n n a).map (|val ·|)) ((toM n m b).map (|val ·|)) (fun j => |(x0 j).val|) (fun l j => |(w l j).val|) i j +
          simUnder (2 ^ (-(p : ℤ))) (2 ^ emin / 2) m ((toM n n a).map (|val ·|)) i j) ∧
      (∀ i (j : Fin q), (y i j).Finite → (∀ l, l < n → (x i l).Finite) ∧
        |(y i j).val - ((toM q n c).map val *ᵥ traj ((toM n n a).map val) ((toM n m b).map val) (fun j => (x0 j).val) (fun l j => (w l j).val) i +
            (toM q m d).map val *ᵥ fun l => (w i l).val) j| ≤
          ((1 + 2 ^ (-(p : ℤ))) ^ ((i + 1) * (max n m + 1)) - 1) *
            ((toM q n c).map (|val ·|) *ᵥ traj ((toM n n a).map (|val ·|)) ((toM n m b).map (|val ·|)) (fun j => |(x0 j).val|)
              (fun l j => |(w l j).val|) i + (toM q m d).map (|val ·|) *ᵥ fun l => |(w i l).val|) j +
          (1 + 2 ^ (-(p : ℤ))) * ((1 + 2 ^ (-(p : ℤ))) ^ n *
            ((toM q n c).map (|val ·|) *ᵥ simUnder (2 ^ (-(p : ℤ))) (2 ^ emin / 2) m ((toM n n a).map (|val ·|)) i) j +
            n * (1 + 2 ^ (-(p : ℤ))) ^ (n - 1) * (2 ^ emin / 2) + m * (1 + 2 ^ (-(p : ℤ))) ^ (m - 1) * (2 ^ emin / 2))) := by
  have R := reads (K := K) hp he hx
  have F := Fl.rounds K hp emin
  have hst : ∀ i r, Rd fl (stateSeq n m a b x0 w i r)
      (stateSeq n m (fun i j => (a i j).flD) (fun i j => (b i j).flD) (fun j => (x0 j).flD) (fun i j => (w i j).flD) i r) := fun i r =>
    R.rd_stateSeq (fun r c => rd_flD _) (fun r c => rd_flD _) (fun r => rd_flD _) (fun r c => rd_flD _) i r
  have hnear := fun i j => stateSeq_near F (n := n) (m := m) (fun i j => (a i j).flD) (fun i j => (b i j).flD) (fun j => (x0 j).flD) (fun i j => (w i j).flD) i j
  refine ⟨_, _, _, simulate_exec hA hB hC hD hn hm hq w x0 hr hk, fun i j hfin => ?_, fun i j hfin => ?_, fun i j hfin => ⟨fun l hl => ?_, ?_⟩⟩
  · have h1 := R.some_add (show ((lsum n fun l => a j l * stateSeq n m a b x0 w i l) + lsum m fun l => b j l * w i l).Finite from hfin)
    exact ⟨fun l hl => (R.some_mul (R.some_lsum h1.1 l hl)).2, fun l hl => (R.some_mul (R.some_lsum h1.2 l hl)).2⟩
  · have := (hnear i j).err
    rw [← hfin.eq (hst i j)] at this
    exact this
  · exact (R.some_mul (R.some_lsum (R.some_add hfin).1 l hl)).2
  · have := Near.line F (n := n) (m := m) (k := i)
      (x := stateSeq n m (fun i j => (a i j).flD) (fun i j => (b i j).flD) (fun j => (x0 j).flD) (fun i j => (w i j).flD) i)
      (y := fun l => (c j l).flD) (z := fun l => (d j l).flD) (w := fun l => (w i l).flD)
      (ξ := fun j => if h : j < n then traj ((toM n n a).map val) ((toM n m b).map val) (fun j => (x0 j).val) (fun l j => (w l j).val) i ⟨j, h⟩ else 0)
      (X := fun j => if h : j < n then traj ((toM n n a).map (|val ·|)) ((toM n m b).map (|val ·|)) (fun j => |(x0 j).val|)
        (fun l j => |(w l j).val|) i ⟨j, h⟩ else 0)
      (ε := fun j => if h : j < n then simUnder (2 ^ (-(p : ℤ))) (2 ^ emin / 2) m ((toM n n a).map (|val ·|)) i ⟨j, h⟩ else 0)
      (fun j hj => by rw [dif_pos hj, dif_pos hj, dif_pos hj]; exact hnear i ⟨j, hj⟩)
    simp only [Finset.sum_range, Fin.is_lt, dif_pos, Fin.eta] at this
    have h2 := this.err
    have h3 := hfin.eq (R.rd_add (R.rd_lsum fun l _ => R.rd_mul (rd_flD (c j l)) (hst i l)) (R.rd_lsum fun l _ => R.rd_mul (rd_flD (d j l)) (rd_flD (w i l))))
    rw [← h3] at h2
    exact h2

/-- Overflow in the square; it spreads in the cube. -/
example : powm (⟨2, 2, [dbl (2 ^ 600), 0, 0, dbl 3]⟩ : Mat IDouble).toMB 2 = .ok ⟨2, 2, [.inf false, 0, 0, dbl 9]⟩ ∧
    powm (⟨2, 2, [dbl (2 ^ 600), 0, 0, dbl 3]⟩ : Mat IDouble).toMB 3 = .ok ⟨2, 2, [.inf false, .nan, 0, dbl 27]⟩ := by
  decide +kernel

end Malg
