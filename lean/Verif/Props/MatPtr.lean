import Verif.Lemmas.MatLocal
import Verif.Props.MatMem
/-!
# C143: pointers into matrices, and what matrices ask of the allocator

`Spec/MatPtr.lean` says for each operation what becomes of a pointer to the elements of a matrix (`fate`) and how often the operation asks
the allocator for memory (`cost`).
-/
namespace Malg
open MatMem
variable {T : Type}

theorem MatHist.specRun_append [Zero T] (ops later : List (MatHist.Op T)) : ∀ (s : MatHist.Env T), MatHist.specRun s (ops ++ later) =
    match MatHist.specRun s ops with
    | none => none
    | some (s1, os) =>
      match MatHist.specRun s1 later with
      | none => none
      | some (s2, os') => some (s2, os ++ os') := by
  induction ops with
  | nil =>
    intro s
    simp only [List.nil_append, MatHist.specRun]
    cases MatHist.specRun s later <;> rfl
  | cons op ops ih =>
    intro s
    simp only [List.cons_append, MatHist.specRun]
    cases MatHist.specStep s op with
    | none => rfl
    | some r =>
      dsimp only
      rw [ih]
      cases MatHist.specRun r.1 ops with
      | none => rfl
      | some r2 =>
        dsimp only
        cases MatHist.specRun r2.1 later with
        | none => rfl
        | some r3 => simp only [List.append_assoc]

theorem MatHist.totalCost_append [Zero T] {ops : List (MatHist.Op T)} (later : List (MatHist.Op T)) : ∀ {s s1 : MatHist.Env T} {os : List (MatHist.Obs T)},
    MatHist.specRun s ops = some (s1, os) →
    MatHist.totalCost s (ops ++ later) = MatHist.totalCost s ops + MatHist.totalCost s1 later := by
  induction ops with
  | nil => intro s s1 os h; cases h; simp [MatHist.totalCost]
  | cons op ops ih =>
    intro s s1 os h
    simp only [MatHist.specRun] at h
    split at h
    · cases h
    rename_i s2 o hs2
    split at h
    · cases h
    rename_i s3 os3 hs3
    cases h
    simp only [List.cons_append, MatHist.totalCost, hs2]
    rw [ih hs3, Nat.add_assoc]

/-- The block of a table with elements. -/
theorem MatMem.holds_table {cfg : VecMem.Cfg} {h : MSt T} {st : MatHist.Vars T} {s : MatHist.Env T} (hsim : Sim cfg h st)
    (hr : MatHist.Rel st s) {x n m : Nat} {e : Nat → Nat → T} (hx : s x = some (.table n m e)) (hpos : 0 < n * m) :
    ∃ w b, Holds (x + 1) w b h.vec ∧ w.size = n * m := by
  obtain ⟨A, hA, -, hA1, -⟩ := hr.var hx
  obtain ⟨v, hv, ho⟩ := hsim.inv.var (show envOf st (x + 1) = some A.data by simp [envOf, hA])
  have hl : A.data.length = n * m := by rw [hA1]; exact ofFn_data_length _ _ _
  obtain ⟨h1, ⟨h2, -⟩ | ⟨b, h2, h3, h4⟩⟩ := ho
  · rw [h2, List.length_nil] at hl; omega
  · refine ⟨v, b, ⟨hv, h3, by omega, ?_⟩, by omega⟩
    by_contra hlt
    rw [hsim.inv.fresh b (by omega)] at h4; cases h4

/-- The table in a block. -/
theorem MatMem.holds_read {cfg : VecMem.Cfg} {h : MSt T} {st : MatHist.Vars T} {s : MatHist.Env T} (hsim : Sim cfg h st)
    (hr : MatHist.Rel st s) {y b : Nat} {w : VecMem.VObj} (hh : Holds (y + 1) w b h.vec) :
    ∃ n m e, s y = some (.table n m e) ∧ w.size = n * m ∧
      ∀ r c, r < n → c < m → VecMem.load h.vec.mem w.data (r * m + c) = .ok (e r c) := by
  cases hA : st y with
  | none =>
    have := (hsim.inv.same (y + 1)).mpr (by simp [envOf, hA])
    rw [hh.var] at this; cases this
  | some A =>
    have ho := hsim.inv.owns (y + 1) w A.data hh.var (by simp [envOf, hA])
    cases hv : s y with
    | none => rw [(hr.same y).mpr hv] at hA; cases hA
    | some val =>
      have hI := hr.val y A val hA hv
      cases val with
      | moved n m =>
        have := hh.pos
        rw [ho.1, hI.1] at this; simp at this
      | table n m e =>
        have hl : A.data.length = n * m := by rw [hI.1]; exact ofFn_data_length _ _ _
        refine ⟨n, m, e, rfl, by rw [ho.1, hl], fun r c hr hc => ?_⟩
        have hlt : r * m + c < A.data.length := by
          rw [hl]
          calc r * m + c < r * m + m := by omega
            _ = (r + 1) * m := by ring
            _ ≤ n * m := Nat.mul_le_mul_right _ hr
        rw [VecMem.load_ok ho hlt]
        have hA1 := hI.1
        subst hA1
        simp only [ofFn_data, vtab, List.getElem_map, List.getElem_range]
        rw [Nat.mul_comm r m, Nat.mul_add_div (by omega), Nat.mul_add_mod, Nat.div_eq_of_lt hc, Nat.mod_eq_of_lt hc, Nat.add_zero]

section
variable [Zero T] (cfg : VecMem.Cfg) (hsz : 0 < cfg.sz) (ops later : List (MatHist.Op T))
  (hd : ∀ k, k < MatHist.totalCost MatHist.Env.init (ops ++ later) → cfg.dec k ≠ .fail)
  (s s' : MatHist.Env T) (os os' : List (MatHist.Obs T)) (hs : MatHist.specRun MatHist.Env.init ops = some (s, os))
  (hs' : MatHist.specRun s later = some (s', os')) (hk : TablesSmall cfg.sz (ops ++ later))
include hsz hd hs hs' hk

/-- A program, a pointer taken after it, and a further program. -/
theorem MatMem.pointer {x n m : Nat} {e : Nat → Nat → T} (hx : s x = some (.table n m e)) (hpos : 0 < n * m) :
    ∃ h st h' st' w b, mrun cfg MSt.init ops = .ok (h, os) ∧ mrun cfg h later = .ok (h', os') ∧ Sim cfg h st ∧ MatHist.Rel st s ∧
      Sim cfg h' st' ∧ MatHist.Rel st' s' ∧ Holds (x + 1) w b h.vec ∧ w.size = n * m ∧
      Became cfg w b h'.vec (MatHist.fateRun s x later) := by
  rw [MatHist.totalCost_append later hs] at hd
  obtain ⟨h, st, h1, h2, h3, hc, -⟩ := mrun_granted hsz (MatMem.Sim.start cfg) MatHist.Rel.start hs
    (fun k _ hk => hd k (by have : k < 0 + _ := hk; omega))
    fun pre suf s1 os1 e1 => hk pre (suf ++ later) s1 os1 (by rw [e1, List.append_assoc])
  have hc : h.vec.mem.calls = MatHist.totalCost MatHist.Env.init ops := by rw [hc]; exact Nat.zero_add _
  obtain ⟨w, b, hw, hws⟩ := MatMem.holds_table h2 h3 hx hpos
  obtain ⟨h', st', h4, h5, h6, -, h7⟩ := mrun_granted hsz h2 h3 hs' (fun k _ hk => hd k (by omega)) fun pre suf s1 os1 e1 hs1 =>
    hk (ops ++ pre) suf s1 (os ++ os1) (by rw [e1, List.append_assoc]) (by
      rw [MatHist.specRun_append, hs]; simp only [hs1])
  exact ⟨h, st, h', st', w, b, h1, h4, h2, h3, h5, h6, hw, hws, h7 x w b hw⟩

/-- **C143.** A pointer to the elements of a matrix stays good through every further program that does not take the memory from the matrix,
and follows the elements when they are moved to another matrix: it then is the pointer that matrix returns, and reads its elements. -/
theorem C143_valid {x y n m : Nat} {e : Nat → Nat → T} (hx : s x = some (.table n m e)) (hpos : 0 < n * m)
    (hy : MatHist.fateRun s x later = .into y) :
    ∃ h p h' n' m' e', mrun cfg MSt.init ops = .ok (h, os) ∧ h.vec.begin (x + 1) = .ok p ∧ mrun cfg h later = .ok (h', os') ∧
      s' y = some (.table n' m' e') ∧ n' * m' = n * m ∧ h'.vec.begin (y + 1) = .ok p ∧
      (∀ r c, r < n' → c < m' → VecMem.deref h'.vec.mem p (r * m' + c) = .ok (e' r c)) := by
  obtain ⟨h, st, h', st', w, b, h1, h2, -, -, h5, h6, h7, h8, h9⟩ := MatMem.pointer cfg hsz ops later hd s s' os os' hs hs' hk hx hpos
  rw [hy] at h9
  obtain ⟨n', m', e', h10, h11, h12⟩ := MatMem.holds_read h5 h6 h9
  exact ⟨h, (w.data, 0), h', n', m', e', h1, by simp [VecMem.St.begin, VecMem.var_ok h7.var], h2, h10, by rw [← h11, h8],
    by simp [VecMem.St.begin, VecMem.var_ok h9.var], fun r c hr hc => by simpa [VecMem.deref] using h12 r c hr hc⟩

/-- **C143.** Destruction, assignment of another matrix with elements, of a nested list or of a moved matrix, `resize` to another number of
columns or to nothing, and `remove_column` take the memory away, whatever the allocator does, and also if the shape stays the same:
every later use of the pointer is undefined. -/
theorem C143_gone {x n m : Nat} {e : Nat → Nat → T} (hx : s x = some (.table n m e)) (hpos : 0 < n * m)
    (hy : MatHist.fateRun s x later = .gone) :
    ∃ h p h', mrun cfg MSt.init ops = .ok (h, os) ∧ h.vec.begin (x + 1) = .ok p ∧ mrun cfg h later = .ok (h', os') ∧
      ∀ i a, VecMem.deref h'.vec.mem p i = .ub .useAfterFree ∧ VecMem.assignThrough h'.vec p i a = .ub .useAfterFree := by
  obtain ⟨h, st, h', st', w, b, h1, h2, -, -, -, -, h7, -, h9⟩ := MatMem.pointer cfg hsz ops later hd s s' os os' hs hs' hk hx hpos
  rw [hy] at h9
  refine ⟨h, (w.data, 0), h', h1, by simp [VecMem.St.begin, VecMem.var_ok h7.var], h2, fun i a => ⟨?_, ?_⟩⟩
  · simp [VecMem.deref, VecMem.load, h7.data, h9.1]
  · simp [VecMem.assignThrough, VecMem.store, h7.data, h9.1]

/-- **C143.** `resize` to another number of rows and `remove_row` take it away if the allocator moves the block. -/
theorem C143_moved {x n m : Nat} {e : Nat → Nat → T} (hx : s x = some (.table n m e)) (hpos : 0 < n * m)
    (hmv : ∀ k, cfg.dec k = .move) (hy : MatHist.fateRun s x later = .depends) :
    ∃ h p h', mrun cfg MSt.init ops = .ok (h, os) ∧ h.vec.begin (x + 1) = .ok p ∧ mrun cfg h later = .ok (h', os') ∧
      ∀ i a, VecMem.deref h'.vec.mem p i = .ub .useAfterFree ∧ VecMem.assignThrough h'.vec p i a = .ub .useAfterFree := by
  obtain ⟨h, st, h', st', w, b, h1, h2, -, -, -, -, h7, -, h9⟩ := MatMem.pointer cfg hsz ops later hd s s' os os' hs hs' hk hx hpos
  rw [hy] at h9
  have h10 := h9 hmv
  refine ⟨h, (w.data, 0), h', h1, by simp [VecMem.St.begin, VecMem.var_ok h7.var], h2, fun i a => ⟨?_, ?_⟩⟩
  · simp [VecMem.deref, VecMem.load, h7.data, h10.1]
  · simp [VecMem.assignThrough, VecMem.store, h7.data, h10.1]

end

/-- **C143.** How often a program asks the allocator for memory: once for each matrix it builds with elements, copies or assigns by
copying, once for each `resize` to another shape and each row or column removed, if anything is left; never for moves, `reshape`,
destruction, reading and writing. -/
theorem C143_requests [Zero T] (cfg : VecMem.Cfg) (hsz : 0 < cfg.sz) (ops : List (MatHist.Op T))
    (hd : ∀ k, k < MatHist.totalCost MatHist.Env.init ops → cfg.dec k ≠ .fail)
    (s : MatHist.Env T) (os : List (MatHist.Obs T)) (hs : MatHist.specRun MatHist.Env.init ops = some (s, os))
    (hk : TablesSmall cfg.sz ops) :
    ∃ h, mrun cfg MSt.init ops = .ok (h, os) ∧ h.vec.mem.calls = MatHist.totalCost MatHist.Env.init ops := by
  obtain ⟨h, st, h1, -, -, h4, -⟩ := mrun_granted hsz (MatMem.Sim.start cfg) MatHist.Rel.start hs
    (fun k _ hk => hd k (by have : k < 0 + _ := hk; omega)) hk
  exact ⟨h, h1, by rw [h4]; exact Nat.zero_add _⟩

/-! ## The programs of `tests/test_memory.cpp` -/

/-- `test_memory_1`: create, move, and destroy in reverse order. -/
def memoryTest1 : List (MatHist.Op Int) :=
  [.nested 0 [[10, 1, 2, 6, -3], [-4, 4, -1, -4, 7], [-4, -2, 0, 9, -9], [-4, -8, -4, -1, 7], [-4, -9, -6, -6, 8], [-5, 0, -1, 8, 10]],
   .move 1 0, .destroy 1, .destroy 0]

def memoryStart : List (MatHist.Op Int) := [.nested 0 [[1, 2, 3, 4], [5, 6, 7, 8], [9, 10, 11, 12]]]

/-- The calls of the allocator, and the blocks that are left. -/
def memoryUse (dec : VecMem.Decision) (ops : List (MatHist.Op Int)) : Res (Nat × Nat) := do
  let r ← mrun ⟨4, fun _ => dec⟩ MSt.init ops
  return (r.1.vec.mem.calls, (List.range 9).countP fun b => (r.1.vec.mem.blocks b).isSome)

example : memoryUse .move memoryTest1 = .ok (1, 0) := by decide +kernel
-- "This should NOT resize the matrix."
example : memoryUse .move (memoryStart ++ [.resize 0 3 4, .destroy 0]) = .ok (1, 0) := by decide +kernel
-- "This should only require a realloc to bigger size", "to smaller size": one each, also without `ROW_MAJOR`.
example : memoryUse .stay (memoryStart ++ [.resize 0 4 4, .resize 0 3 4, .destroy 0]) = .ok (3, 0) := by decide +kernel
example : memoryUse .stay (memoryStart ++ [.resize 0 3 5, .resize 0 3 3, .destroy 0]) = .ok (3, 0) := by decide +kernel
-- "This should require a malloc for bigger size, and deallocation of the smaller one."
example : memoryUse .stay [.flat 0 3 3 [1, 2, 3, 4, 5, 6, 7, 8, 9], .resize 0 4 5] = .ok (2, 1) := by decide +kernel
example : MatHist.totalCost MatHist.Env.init (memoryStart ++ [.resize 0 3 5, .resize 0 3 3, .destroy 0]) = 3 := by decide +kernel

/-- A pointer taken after `ops` and read after `later`. -/
def readLater (dec : VecMem.Decision) (ops later : List (MatHist.Op Int)) (x i : Nat) : Res Int := do
  let r ← mrun ⟨4, fun _ => dec⟩ MSt.init ops
  let p ← r.1.vec.begin (x + 1)
  let r ← mrun ⟨4, fun _ => dec⟩ r.1 later
  VecMem.deref r.1.vec.mem p i

-- Writing, `reshape`, `resize` to the same shape and moves keep the pointer.
example : readLater .move memoryStart [.set 0 0 2 50, .reshape 0 2 6, .resize 0 2 6, .move 1 0, .new 2 1 1 0, .moveAssign 2 1, .setLin 2 3 60] 0 3 =
    .ok 60 := by decide +kernel
-- An assignment of the same shape loses it, even if the allocator leaves blocks where they are.
example : readLater .stay memoryStart [.copy 1 0, .assign 0 1] 0 3 = .ub .useAfterFree := by decide +kernel
-- `remove_row` depends on the allocator.
example : readLater .stay memoryStart [.removeRow 0 0] 0 3 = .ok 8 := by decide +kernel
example : readLater .move memoryStart [.removeRow 0 0] 0 3 = .ub .useAfterFree := by decide +kernel
example : (MatHist.specRun MatHist.Env.init memoryStart).map (fun r => MatHist.fateRun r.1 0 [.move 1 0, .reshape 1 4 3, .removeRow 1 2]) =
    some .depends := by decide +kernel

end Malg
