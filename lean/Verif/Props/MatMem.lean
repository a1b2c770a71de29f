import Verif.Lemmas.MatLocal
import Verif.Props.VecMem
import Verif.Props.MatHist
/-!
# C141: matrices on the heap

`MatHist.specRun` says what a program over matrix variables means, with variables that hold tables (`Spec/MatHist.lean`); `mrun` is the
program on the heap (`Model/MatMem.lean`): each matrix owns a `Vector`, each `Vector` owns a block of memory, and the temporaries of the
assignments and of `resize` come and go. `VecMem.Small` bounds the bytes of a matrix by half of the address space.
-/
namespace Malg
open MatMem
variable {T : Type}

/-- All tables that a program ever holds are small enough for the allocator. -/
def TablesSmall [Zero T] (sz : Nat) (ops : List (MatHist.Op T)) : Prop :=
  ∀ pre suf s os, ops = pre ++ suf → MatHist.specRun MatHist.Env.init pre = some (s, os) →
    ∀ x n m e, s x = some (.table n m e) → VecMem.Small sz (n * m)

theorem MatMem.Sim.start (cfg : VecMem.Cfg) : Sim cfg (MSt.init : MSt T) (fun _ => none) := by
  refine ⟨?_, fun _ => rfl⟩
  have : envOf (fun _ => none : MatHist.Vars T) = VecMem.Env.init := by funext x; cases x <;> rfl
  rw [this]
  exact VecMem.Inv.start cfg.sz

theorem MatHist.Rel.start : MatHist.Rel (fun _ => none : MatHist.Vars T) MatHist.Env.init :=
  ⟨fun _ => ⟨fun _ => rfl, fun _ => rfl⟩, fun _ _ _ h => by cases h⟩

/-- **C141.** Every program that makes sense for tables runs on the heap without undefined behaviour and sees exactly what it would see
with tables, wherever the allocator puts the blocks, as long as it grants the requests of the program; and afterwards the element `(r, c)` of every `n × m` table is found in the cell
`r * m + c` of the block of its matrix. -/
theorem C141_history_partial [Zero T] (cfg : VecMem.Cfg) (hsz : 0 < cfg.sz) (ops : List (MatHist.Op T))
    (hd : ∀ k, k < MatHist.totalCost MatHist.Env.init ops → cfg.dec k ≠ .fail)
    (s : MatHist.Env T) (os : List (MatHist.Obs T)) (hs : MatHist.specRun MatHist.Env.init ops = some (s, os))
    (hk : TablesSmall cfg.sz ops) :
    ∃ h, mrun cfg MSt.init ops = .ok (h, os) ∧ (∀ x, h.dims x = none ↔ s x = none) ∧
      ∀ x n m e, s x = some (.table n m e) → h.dims x = some (n, m) ∧
        ∃ v, h.vec.vars (x + 1) = some v ∧ v.size = n * m ∧
          ∀ r c, r < n → c < m → VecMem.load h.vec.mem v.data (r * m + c) = .ok (e r c) := by
  obtain ⟨h, st, h1, h2, h3, -, -⟩ := mrun_granted hsz (MatMem.Sim.start cfg) MatHist.Rel.start hs
    (fun k _ hk => hd k (by have : k < 0 + _ := hk; omega)) hk
  refine ⟨h, h1, fun x => ?_, fun x n m e hx => ?_⟩
  · rw [h2.dims, ← h3.same x]; simp
  · obtain ⟨A, hA, -, hA1, hA2⟩ := h3.var hx
    have he : envOf st (x + 1) = some A.data := by simp [envOf, hA]
    obtain ⟨v, hv, ho⟩ := h2.inv.var he
    refine ⟨by rw [h2.dims, hA, hA1]; rfl, v, hv, by rw [ho.1, hA1]; exact ofFn_data_length _ _ _, fun r c hr hc => ?_⟩
    have hlt : r * m + c < A.data.length := by
      rw [hA1, ofFn_data_length]
      calc r * m + c < r * m + m := by omega
        _ = (r + 1) * m := by ring
        _ ≤ n * m := Nat.mul_le_mul_right _ hr
    rw [VecMem.load_ok ho hlt]
    subst hA1
    simp only [ofFn_data, vtab, List.getElem_map, List.getElem_range]
    rw [Nat.mul_comm r m, Nat.mul_add_div (by omega), Nat.mul_add_mod, Nat.div_eq_of_lt hc, Nat.mod_eq_of_lt hc, Nat.add_zero]

/-- **C141.** At the end of every program, hence at every point of it: each live block of memory belongs to exactly one matrix that exists,
and has one cell per element of it. -/
theorem C141_ownership [Zero T] (cfg : VecMem.Cfg) (hsz : 0 < cfg.sz) (ops : List (MatHist.Op T))
    (hd : ∀ k, k < MatHist.totalCost MatHist.Env.init ops → cfg.dec k ≠ .fail)
    (s : MatHist.Env T) (os : List (MatHist.Obs T)) (hs : MatHist.specRun MatHist.Env.init ops = some (s, os))
    (hk : TablesSmall cfg.sz ops) :
    ∃ h, mrun cfg MSt.init ops = .ok (h, os) ∧
      ∀ b c, h.vec.mem.blocks b = some c → ∃! x, ∃ n m e v, s x = some (.table n m e) ∧ h.dims x = some (n, m) ∧
        h.vec.vars (x + 1) = some v ∧ v.data = some b ∧ v.size = n * m ∧ c.length = n * m := by
  obtain ⟨h, st, h1, h2, h3, -, -⟩ := mrun_granted hsz (MatMem.Sim.start cfg) MatHist.Rel.start hs
    (fun k _ hk => hd k (by have : k < 0 + _ := hk; omega)) hk
  refine ⟨h, h1, fun b c hb => ?_⟩
  obtain ⟨y, v, hv, hvb⟩ := h2.inv.held b c hb
  rcases y with _ | x
  · have := (h2.inv.same 0).mpr rfl
    rw [hv] at this; cases this
  cases hx : st x with
  | none =>
    have := (h2.inv.same (x + 1)).mpr (by simp [envOf, hx])
    rw [hv] at this; cases this
  | some A =>
    have ho := h2.inv.owns (x + 1) v A.data hv (by simp [envOf, hx])
    have hc : c.length = A.data.length ∧ 0 < A.data.length := by
      obtain ⟨-, ⟨-, hn⟩ | ⟨b', hne, hd', hb'⟩⟩ := ho
      · rw [hn] at hvb; cases hvb
      · rw [hvb] at hd'; cases hd'; rw [hb] at hb'; cases hb'
        exact ⟨by simp, List.length_pos_iff.mpr hne⟩
    cases hw : s x with
    | none => rw [(h3.same x).mpr hw] at hx; cases hx
    | some w =>
      have hI := h3.val x A w hx hw
      cases w with
      | moved n m =>
        exfalso
        rw [hI.1] at hc; exact absurd hc.2 (by simp)
      | table n m e =>
        have hl : A.data.length = n * m := by rw [hI.1]; exact ofFn_data_length _ _ _
        refine ⟨x, ⟨n, m, e, v, hw, by rw [h2.dims, hx, hI.1]; rfl, hv, hvb, by rw [ho.1, hl], by rw [hc.1, hl]⟩, ?_⟩
        rintro z ⟨-, -, -, w, -, -, hw', hwb, -⟩
        by_contra hne
        exact h2.inv.sep (z + 1) (x + 1) w v b (by omega) hw' hv hwb hvb

/-- **C141.** When all matrices of a program are gone, so are all blocks: neither the temporaries nor a constructor that throws leaves
anything behind. -/
theorem C141_no_leak [Zero T] (cfg : VecMem.Cfg) (hsz : 0 < cfg.sz) (ops : List (MatHist.Op T))
    (hd : ∀ k, k < MatHist.totalCost MatHist.Env.init ops → cfg.dec k ≠ .fail)
    (s : MatHist.Env T) (os : List (MatHist.Obs T)) (hs : MatHist.specRun MatHist.Env.init ops = some (s, os))
    (hk : TablesSmall cfg.sz ops) (hgone : ∀ x n m e, s x ≠ some (.table n m e)) :
    ∃ h, mrun cfg MSt.init ops = .ok (h, os) ∧ ∀ b, h.vec.mem.blocks b = none := by
  obtain ⟨h, h1, h2⟩ := C141_ownership cfg hsz ops hd s os hs hk
  refine ⟨h, h1, fun b => ?_⟩
  cases hb : h.vec.mem.blocks b with
  | none => rfl
  | some c =>
    obtain ⟨x, ⟨n, m, e, -, hx, -⟩, -⟩ := h2 b c hb
    exact absurd hx (hgone x n m e)

/-- **C141** fails when memory is short: a matrix with elements whose block is refused is written through a null pointer. Nothing is
reported, neither by an exception nor otherwise. -/
theorem C141_refused_false [Zero T] (cfg : VecMem.Cfg) (hd : cfg.dec 0 = .fail) (x n m : Nat) (a : T)
    (hf : Fits n m) (hn : 0 < n * m) (rest : List (MatHist.Op T)) :
    mrun cfg MSt.init (.new x n m a :: rest) = .ub .nullDeref := by
  have hr : VecMem.realloc cfg (VecMem.Mem.empty : VecMem.Mem T) none (wmul cfg.sz (n * m)) = .ok (⟨fun _ => none, 0, 1⟩, none) := by
    unfold VecMem.realloc
    simp only [VecMem.Mem.empty, hd, true_or, if_true]
  have ha : VecMem.allocate cfg (VecMem.Mem.empty : VecMem.Mem T) ⟨none, 0⟩ (n * m) = .ub .nullDeref := by
    unfold VecMem.allocate
    rw [if_neg (by omega), if_neg (by dsimp only; omega), hr, Res.ok_bind]
    dsimp only
    rw [if_pos hn, forRange_lt hn]; rfl
  have hs : mstep cfg (MSt.init : MSt T) (.new x n m a) = .ub .nullDeref := by
    simp only [mstep, does, VecMem.step, MSt.init, VecMem.St.init]
    rw [hf.wmul, ha]; rfl
  simp only [mrun]
  rw [hs]; rfl

/-- A program with a throwing constructor, growth, removal of a row, assignment and moves. -/
def heapDemo : List (MatHist.Op Int) :=
  [.nested 0 [[1, 2], [3, 4]], .nested 1 [], .resize 0 3 2, .removeRow 0 0, .copy 2 0, .set 0 1 1 9, .assign 2 0, .move 3 2, .shape 3,
   .get 3 0 0, .get 3 0 1, .get 3 1 1, .moveAssign 0 3, .get 0 0 1, .destroy 0, .destroy 2, .destroy 3]

/-- What `heapDemo` sees. -/
def heapDemoSeen : List (MatHist.Obs Int) := [.threw .invalidArgument, .shape 2 2 4 false, .val 3, .val 4, .val 9, .val 4]

example : (MatHist.specRun MatHist.Env.init heapDemo).map (·.2) = some heapDemoSeen := by decide +kernel
example : (mrun ⟨8, fun _ => .move⟩ MSt.init heapDemo >>= fun r => .ok r.2) = .ok heapDemoSeen := by decide +kernel
example : (mrun ⟨8, fun k => if k = 1 then .stay else .move⟩ MSt.init heapDemo >>= fun r => .ok r.2) = .ok heapDemoSeen := by
  decide +kernel
-- One block is live before the destructors run, none afterwards.
example : (mrun ⟨8, fun _ => .move⟩ MSt.init (heapDemo.take 14) >>= fun r =>
    .ok ((List.range 9).countP fun b => (r.1.vec.mem.blocks b).isSome)) = .ok 1 := by decide +kernel
example : (mrun ⟨8, fun _ => .move⟩ MSt.init heapDemo >>= fun r =>
    .ok ((List.range 9).countP fun b => (r.1.vec.mem.blocks b).isSome)) = .ok 0 := by decide +kernel
-- The model does notice what must not happen: a read of a matrix that was moved from.
example : (mrun ⟨8, fun _ => .move⟩ MSt.init [.new 0 2 2 (5 : Int), .move 1 0, .get 0 0 0] >>= fun r => .ok r.2) = .ub .nullDeref := by
  decide +kernel

end Malg
