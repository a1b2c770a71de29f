import Verif.Lemmas.MatHist
/-!
# C11: histories of matrix operations

`specRun` says what a program over matrix variables means, with variables that hold tables of entries
(`Spec/MatHist.lean`); `run` is the program on the model of `matrix.hpp` (`Model/MatHist.lean`).
-/
namespace Malg
open MatHist
variable {T : Type}

/-- **C11, partial.** Every program that makes sense for table variables runs without undefined behaviour and sees exactly
what it would see with tables. At its end (hence, as every prefix of a history is one, at every point) exactly the variables
of the specification exist; each one that is not moved from stores exactly rows*cols elements and holds its table.
Missing: an assigned matrix without elements is ignored (`C11_empty_false`), so the specification ignores it as well. -/
theorem C11_history_partial [Zero T] (ops : List (Op T)) (s : Env T) (os : List (Obs T))
    (hs : specRun Env.init ops = some (s, os)) :
    ∃ st, run Vars.init ops = .ok (st, os) ∧ (∀ x, st x = none ↔ s x = none) ∧
      ∀ x n m e, s x = some (.table n m e) →
        ∃ A, st x = some A ∧ A.rows = n ∧ A.cols = m ∧ A.data.length = n * m ∧ A.Holds n m e := by
  obtain ⟨st, h, hr⟩ := run_spec (st := Vars.init) ⟨fun _ => by simp [Vars.init, Env.init],
    fun _ _ _ h => by simp [Vars.init] at h⟩ hs
  refine ⟨st, h, hr.same, fun x n m e hx => ?_⟩
  obtain ⟨A, hA, _, rfl, hf⟩ := hr.var hx
  exact ⟨_, hA, rfl, rfl, by simp [Mat.ofFn], ofFn_holds hf e⟩

/-- **C11.** After every history a matrix that is not moved from is determined by its history alone: two variables with the
same table are the same object, element for element. -/
theorem C11_canonical [Zero T] (ops : List (Op T)) (s : Env T) (os : List (Obs T))
    (hs : specRun Env.init ops = some (s, os)) (x y n m : Nat) (e e' : Nat → Nat → T)
    (hx : s x = some (.table n m e)) (hy : s y = some (.table n m e')) (he : ∀ r c, r < n → c < m → e r c = e' r c) :
    ∃ st, run Vars.init ops = .ok (st, os) ∧ st x = st y := by
  obtain ⟨st, h, _, hv⟩ := C11_history_partial ops s os hs
  obtain ⟨A, hA, _, _, _, hA'⟩ := hv x n m e hx
  obtain ⟨B, hB, _, _, _, hB'⟩ := hv y n m e' hy
  refine ⟨st, h, ?_⟩
  rw [hA, hB, hA'.eq, hB'.eq]
  exact congrArg some (ofFn_congr he)

/-- A program with assignments, a reshape, resizes in both ways, a removal, a move and the reuse of the moved-from matrix. -/
def matDemo : List (Op Int) :=
  [.nested 0 [[1, 2, 3], [4, 5, 6]], .new 1 1 1 7, .assign 1 0, .set 0 1 1 50, .reshape 1 3 2, .removeCol 1 0,
   .resize 0 3 2, .getLin 1 1, .get 0 1 1, .get 0 2 0, .move 2 0, .shape 0, .shape 2, .assign 0 1, .get 0 2 0, .removeRow 1 3,
   .moveAssign 1 2, .getLin 1 3, .resize 2 4 2, .get 2 3 1, .assign 1 1, .shape 1, .nested 5 [], .destroy 0]

/-- What `matDemo` sees. -/
def matDemoSeen : List (Obs Int) :=
  [.val 4, .val 50, .val 0, .shape 3 2 6 false, .shape 3 2 6 false, .val 6, .threw .invalidArgument, .val 50, .val 0,
   .shape 3 2 6 false, .threw .invalidArgument]

example : (specRun Env.init matDemo).map (·.2) = some matDemoSeen := by decide +kernel
example : (run Vars.init matDemo >>= fun r => .ok r.2) = .ok matDemoSeen := by decide +kernel

/-- **C11 is false** in general: a matrix that is assigned an empty matrix does not become empty, whichever of the two
assignments is used, and reports its old elements. -/
theorem C11_empty_false : ∃ ops : List (Op Int), ops = [.new 0 1 1 5, .default 1, .assign 0 1] ∧
    (run Vars.init (ops ++ [.shape 0, .get 0 0 0]) >>= fun r => .ok r.2) = .ok [.shape 1 1 1 false, .val 5] ∧
    (run Vars.init [.new 0 1 1 5, .default 1, .moveAssign 0 1, .shape 0] >>= fun r => .ok r.2)
      = .ok [(.shape 1 1 1 false : Obs Int)] ∧
    (run Vars.init [.default 1, .shape 1] >>= fun r => .ok r.2) = .ok [(.shape 0 0 0 true : Obs Int)] := by
  refine ⟨_, rfl, ?_, ?_, ?_⟩ <;> decide +kernel

end Malg
