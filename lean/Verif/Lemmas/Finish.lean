import Verif.Model.Linalg
/-!
# Calls that come to an end

`Ends r`: the call does not run out of fuel. Everything without a data dependent loop ends.
-/
namespace Malg
open Ops Lin

/-- The call returns, throws, stops the program, or has no defined behaviour; it does not loop. -/
def Ends {α : Type} (r : Res α) : Prop := r ≠ .diverge

section
variable {α β σ : Type}

theorem Ends.ok (a : α) : Ends (Res.ok a) := nofun
theorem Ends.pure (a : α) : Ends (Pure.pure a : Res α) := nofun
theorem Ends.throw (e : Exc) : Ends (Res.throw e : Res α) := nofun
theorem Ends.ub (k : UB) : Ends (Res.ub k : Res α) := nofun

theorem Ends.bind {x : Res α} {f : α → Res β} (h : Ends x) (hf : ∀ a, Ends (f a)) : Ends (x >>= f) := by
  cases x with
  | ok a => exact hf a
  | diverge => exact absurd rfl h
  | throw e => exact Ends.throw e
  | ub k => exact Ends.ub k
  | abort => exact nofun
  | exit n => exact nofun

theorem Ends.ite {c : Prop} [Decidable c] {x y : Res α} (h : Ends x) (h' : Ends y) : Ends (if c then x else y) := by
  split <;> assumption

theorem Ends.loop {body : Nat → σ → Res σ} (h : ∀ i s, Ends (body i s)) (lo hi : Nat) (s : σ) : Ends (forRange lo hi s body) := by
  unfold forRange
  generalize hi - lo = n
  induction n generalizing lo s with
  | zero => exact Ends.ok s
  | succ n ih => exact (h lo s).bind fun s => ih (lo + 1) s

theorem Ends.search {body : Nat → Res (Option β)} (h : ∀ i, Ends (body i)) (lo hi : Nat) : Ends (forSearch lo hi body) := by
  unfold forSearch
  generalize hi - lo = n
  induction n generalizing lo with
  | zero => exact Ends.ok none
  | succ n ih =>
    refine (h lo).bind fun r => ?_
    cases r with
    | none => exact ih (lo + 1)
    | some b => exact Ends.ok _

/-- A loop with a bound on the number of rounds: `μ` falls in every round. -/
theorem Ends.while {step : σ → Res (Option σ)} (I : σ → Prop) (μ : σ → Nat) (hstep : ∀ s, I s → Ends (step s))
    (hdec : ∀ s s', I s → step s = .ok (some s') → I s' ∧ μ s' < μ s) {fuel : Nat} {s : σ} (hs : I s) (hf : μ s < fuel) :
    Ends (whileFuel step fuel s) := by
  induction fuel generalizing s with
  | zero => omega
  | succ fuel ih =>
    rw [whileFuel]
    have h := hstep s hs
    cases hr : step s with
    | ok r =>
      rw [Res.ok_bind]
      cases r with
      | none => exact Ends.ok s
      | some s' =>
        obtain ⟨h1, h2⟩ := hdec s s' hs hr
        exact ih h1 (by omega)
    | diverge => exact absurd hr h
    | throw e => exact Ends.throw e
    | ub k => exact Ends.ub k
    | abort => exact nofun
    | exit n => exact nofun

end

/-- Reading an element ends. -/
structure MB.Ends {T : Type} (A : MB T) : Prop where
  at_ : ∀ i j, Malg.Ends (A.at_ i j)
  lin : ∀ i, Malg.Ends (A.lin i)

section
variable {T : Type}

theorem vget_ends (v : List T) (i : Nat) : Ends (vget v i) := by unfold vget; split <;> exact nofun
theorem vset_ends (v : List T) (i : Nat) (x : T) : Ends (vset v i x) := by unfold vset; split <;> exact nofun
theorem vnew_ends (n : Nat) (x : T) : Ends (vnew n x) := by unfold vnew; split <;> exact nofun
theorem Mat.new_ends (r c : Nat) (x : T) : Ends (Mat.new r c x) := (vnew_ends _ _).bind fun _ => nofun
theorem Mat.at_ends (A : Mat T) (r c : Nat) : Ends (A.at_ r c) := vget_ends _ _
theorem Mat.lin_ends (A : Mat T) (i : Nat) : Ends (A.lin i) := vget_ends _ _
theorem Mat.setAt_ends (A : Mat T) (r c : Nat) (x : T) : Ends (A.setAt r c x) := (vset_ends _ _ _).bind fun _ => nofun
theorem Mat.setLin_ends (A : Mat T) (i : Nat) (x : T) : Ends (A.setLin i x) := (vset_ends _ _ _).bind fun _ => nofun
theorem Mat.ends (A : Mat T) : A.toMB.Ends := ⟨A.at_ends, A.lin_ends⟩
theorem MB.Ends.cofactor {A : MB T} (h : A.Ends) (i j : Nat) : (A.cofactor i j).Ends :=
  ⟨fun _ _ => h.at_ _ _, fun k => by
    show Malg.Ends (ite _ _ _)
    exact Malg.Ends.ite (Malg.Ends.ub _) (h.at_ _ _)⟩

theorem mapMat_ends {R : Type} {init : R} {f : T → Res R} (hf : ∀ x, Ends (f x)) {A : MB T} (h : A.Ends) : Ends (mapMat init f A) :=
  (Mat.new_ends _ _ _).bind fun _ => Ends.loop (fun i s => (h.lin i).bind fun x => (hf x).bind fun z => s.setLin_ends i z) _ _ _

theorem mul_ends [Zero T] [Add T] [Mul T] {A B : MB T} (hA : A.Ends) (hB : B.Ends) : Ends (Ops.mul A B) :=
  Ends.ite (Ends.throw _) <| (Mat.new_ends _ _ _).bind fun _ =>
    Ends.loop (fun r _ => Ends.loop (fun c _ => Ends.loop (fun k s =>
      (s.at_ends r c).bind fun _ => (hA.at_ r k).bind fun _ => (hB.at_ k c).bind fun _ => s.setAt_ends _ _ _) _ _ _) _ _ _) _ _ _

theorem squareNorm_ends [Zero T] [Add T] [Mul T] (sqrt : T → T) {A : MB T} (hA : A.Ends) : Ends (squareNorm sqrt A) :=
  (Ends.loop (fun r _ => Ends.loop (fun c _ => (hA.at_ r c).bind fun _ => Ends.pure _) _ _ _) _ _ _).bind fun _ => Ends.pure _

theorem infNorm_ends {R : Type} [Zero R] [Add R] [Max R] (abs : T → R) {A : MB T} (hA : A.Ends) : Ends (infNorm abs A) :=
  Ends.ite (Ends.ok _) <| Ends.loop (fun r _ => (Ends.loop (fun c _ => (hA.at_ r c).bind fun _ => Ends.pure _) _ _ _).bind fun _ => Ends.pure _) _ _ _

theorem eye_ends [Zero T] (r c : Nat) (x : T) : Ends (Util.eye r c x) :=
  Ends.ite (Ends.throw _) <| Ends.ite (Ends.throw _) <| (Mat.new_ends _ _ _).bind fun _ => Ends.loop (fun _ s => s.setAt_ends _ _ _) _ _ _

theorem addAssign_ends [Add T] {X : Mat T} {B : MB T} (hB : B.Ends) : Ends (addAssign MRef.self (fun _ => B) X) :=
  Ends.ite (Ends.throw _) <| Ends.ite (Ends.throw _) <| Ends.loop (σ := Mat T) (fun i s =>
    (show Ends (s.lin i) from s.lin_ends i).bind fun _ => (hB.lin i).bind fun _ => s.setLin_ends _ _) _ _ _

variable [Zero T] [One T] [Add T] [Sub T] [Mul T] [Neg T] [CDiv T] (hdiv : ∀ x y : T, Ends (cdiv x y))
include hdiv

omit [Zero T] [Add T] in
theorem elimStep_ends (isz : T → Bool) (N c : Nat) (s : ElimState T) : Ends (elimStep isz N c s) := by
  have hA := s.A.at_ends
  refine Ends.ite (Ends.ok s) <| (s.A.at_ends c c).bind fun x => Ends.bind ?_ fun r => ?_
  · refine Ends.ite ?_ (Ends.pure _)
    refine Ends.bind (Ends.search (fun k => (s.A.at_ends k c).bind fun _ => Ends.pure _) _ _) fun r => ?_
    cases r with
    | none => exact Ends.pure _
    | some k =>
      refine Ends.bind (Ends.loop (fun i S => ?_) _ _ _) fun _ => Ends.pure _
      exact Ends.bind (S.at_ends _ _) fun _ => Ends.bind (S.at_ends _ _) fun _ => Ends.bind (S.setAt_ends _ _ _) fun S' => S'.setAt_ends _ _ _
  · cases r with
    | none => exact Ends.pure _
    | some r =>
      refine (r.1.at_ends c c).bind fun pivot => Ends.bind (Ends.loop (fun r A => (A.at_ends _ _).bind fun _ => (hdiv _ _).bind fun _ =>
        Ends.loop (fun k A => (A.at_ends _ _).bind fun _ => (A.at_ends _ _).bind fun _ => A.setAt_ends _ _ _) _ _ _) _ _ _) fun _ => Ends.pure _

theorem determinant_ends (isz : T → Bool) {A : MB T} (hA : A.Ends) : Ends (determinant isz A) := by
  have h := hA.at_
  refine Ends.ite (Ends.throw _) ?_
  refine Ends.ite (h 0 0) (Ends.ite ?_ (Ends.ite ?_ (Ends.ite ?_ ?_)))
  · exact (h _ _).bind fun _ => (h _ _).bind fun _ => (h _ _).bind fun _ => (h _ _).bind fun _ => Ends.pure _
  · repeat refine (h _ _).bind fun _ => ?_
    exact Ends.pure _
  · repeat refine (h _ _).bind fun _ => ?_
    exact Ends.pure _
  · refine Ends.bind ?_ fun X => (Ends.loop (fun c s => elimStep_ends hdiv isz _ c s) _ _ _).bind fun _ => Ends.pure _
    exact (vnew_ends _ _).bind fun _ => (Ends.loop (fun i d => (hA.lin i).bind fun _ => vset_ends _ _ _) _ _ _).bind fun _ => Ends.pure _

theorem adjoint_ends (isz : T → Bool) {A : MB T} (hA : A.Ends) : Ends (adjoint isz A) :=
  Ends.ite (Ends.throw _) <| Ends.ite (Mat.new_ends _ _ _) <| (Mat.new_ends _ _ _).bind fun _ =>
    Ends.loop (fun i _ => Ends.loop (fun j s => (determinant_ends hdiv isz (hA.cofactor i j)).bind fun _ => s.setAt_ends _ _ _) _ _ _) _ _ _

theorem inverse_ends (isz : T → Bool) {A : MB T} (hA : A.Ends) : Ends (inverse isz A) :=
  Ends.ite (Ends.throw _) <| (determinant_ends hdiv isz hA).bind fun _ => Ends.ite (Ends.pure _) <|
    (adjoint_ends hdiv isz hA).bind fun adj => (Mat.new_ends _ _ _).bind fun _ =>
      Ends.loop (fun _ _ => Ends.loop (fun _ s => (adj.at_ends _ _).bind fun _ => (hdiv _ _).bind fun _ => s.setAt_ends _ _ _) _ _ _) _ _ _

theorem div_ends (isz : T → Bool) {A B : MB T} (hA : A.Ends) (hB : B.Ends) : Ends (div isz A B) :=
  (inverse_ends hdiv isz hB).bind fun I => mul_ends hA I.ends

end
end Malg
