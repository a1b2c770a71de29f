import Verif.Spec.MatHist
import Verif.Lemmas.Construct
import Verif.Lemmas.Utility
/-!
# Matrix variables refine tables
-/
namespace Malg
namespace MatHist
variable {T : Type}

/-- The matrix object `A` is the value `v`. -/
def IsVal (A : Mat T) : Val T → Prop
  | .table n m e => A = Mat.ofFn n m e ∧ Fits n m
  | .moved n m => A = ⟨n, m, []⟩ ∧ Fits n m ∧ 0 < n * m

/-- The variables have the values of `s`. -/
structure Rel (st : Vars T) (s : Env T) : Prop where
  same : ∀ x, st x = none ↔ s x = none
  val : ∀ x A v, st x = some A → s x = some v → IsVal A v

theorem Rel.var {st : Vars T} {s : Env T} (h : Rel st s) {x : Nat} {v : Val T} (hx : s x = some v) :
    ∃ A, st x = some A ∧ st.var x = .ok A ∧ IsVal A v := by
  cases hA : st x with
  | none => rw [(h.same x).mp hA] at hx; cases hx
  | some A => exact ⟨A, rfl, by simp [Vars.var, hA], h.val x A v hA hx⟩

theorem Rel.put {st : Vars T} {s : Env T} (h : Rel st s) (x : Nat) {A : Mat T} {v : Val T} (hv : IsVal A v) :
    Rel (st.put x (some A)) (s.set x (some v)) := by
  refine ⟨fun y => ?_, fun y B w hB hw => ?_⟩
  · by_cases hy : y = x <;> simp [Vars.put, Env.set, hy, h.same]
  · by_cases hy : y = x
    · simp only [Vars.put, Env.set, hy, if_true] at hB hw; cases hB; cases hw; exact hv
    · simp only [Vars.put, Env.set, hy, if_false] at hB hw; exact h.val y B w hB hw

theorem Rel.drop {st : Vars T} {s : Env T} (h : Rel st s) (x : Nat) : Rel (st.put x none) (s.set x none) := by
  refine ⟨fun y => ?_, fun y B w hB hw => ?_⟩
  · by_cases hy : y = x <;> simp [Vars.put, Env.set, hy, h.same]
  · by_cases hy : y = x
    · simp only [Vars.put, hy, if_true] at hB; cases hB
    · simp only [Vars.put, Env.set, hy, if_false] at hB hw; exact h.val y B w hB hw

/-- A call that returns: the variable gets the result. -/
theorem Rel.caught {st : Vars T} {s : Env T} (h : Rel st s) (x : Nat) {r : Res (Mat T)} {A : Mat T} {v : Val T}
    (hr : r = .ok A) (hv : IsVal A v) :
    ∃ st', caught st x r = .ok (st', none) ∧ Rel st' (s.set x (some v)) :=
  ⟨_, by subst hr; rfl, h.put x hv⟩

theorem width_pos {l : List (List T)} (h : ¬ (l = [] ∨ width l = 0)) : 0 < l.length ∧ 0 < width l := by
  refine ⟨List.length_pos_iff.mpr fun h' => h (.inl h'), Nat.pos_of_ne_zero fun h' => h (.inr h')⟩

theorem ofNested_isVal [Zero T] {l : List (List T)} (h : ¬ (l = [] ∨ width l = 0)) (hf : Fits l.length (width l))
    (hr : Rect l) : Mat.ofNested l = .ok (Mat.ofFn l.length (width l) (nestedAt l)) := by
  obtain ⟨h1, h2⟩ := width_pos h
  refine Mat.ofNested_eq h1 h2 hf rfl ⟨l[0], by simp [h1], by simp [width, h1]⟩ fun r hr' => ⟨l[r], by simp [hr'], ?_⟩
  intro c hc
  have : width l ≤ l[r].length := hr _ (List.getElem_mem hr')
  have hc' : c < l[r].length := by omega
  simp [nestedAt, hr', hc']

theorem ofNested_throw [Zero T] {l : List (List T)} (h : l = [] ∨ width l = 0) :
    Mat.ofNested l = .throw .invalidArgument := by
  rcases l with _ | ⟨a, l⟩
  · rfl
  · have : a.length = 0 := by simpa [width] using h
    have ha : a = [] := List.length_eq_zero_iff.mp this
    subst ha
    simp [Mat.ofNested, vget]

theorem assignNested_keep [Zero T] {A : Mat T} {l : List (List T)} (h : l = [] ∨ width l = 0) :
    A.assignNested l = .ok A := by
  rcases l with _ | ⟨a, l⟩
  · rfl
  · have : a.length = 0 := by simpa [width] using h
    have ha : a = [] := List.length_eq_zero_iff.mp this
    subst ha
    simp [Mat.assignNested, vget]

theorem assignNested_eq [Zero T] {A : Mat T} {l : List (List T)} (h : ¬ (l = [] ∨ width l = 0)) :
    A.assignNested l = Mat.ofNested l := by
  rcases l with _ | ⟨a, l⟩
  · simp at h
  · have : a.length ≠ 0 := by simpa [width] using h
    have ha : a ≠ [] := fun h => this (by rw [h]; rfl)
    simp [Mat.assignNested, Mat.ofNested, vget, ha]

theorem resize_moved [Zero T] {n m n' m' : Nat} (hf : Fits n m) (hne : ¬ (n' = n ∧ m' = m))
    (h : m' = m ∨ n * m = 0) : (⟨n', m', []⟩ : Mat T).resize n m = .ok (Mat.ofFn n m fun _ _ => 0) := by
  unfold Mat.resize
  dsimp only
  rw [if_neg hne]
  split
  · rename_i hm
    simp only [vresize, hf.wmul]
    rw [if_pos hf.1, Res.ok_bind, List.take_nil, List.nil_append, replicate_eq_vtab]; rfl
  · rename_i hm
    have h0 : n * m = 0 := h.resolve_left hm
    rw [Mat.new_eq hf, Res.ok_bind]
    have : (forRange 0 (min n' n) (Mat.ofFn n m fun _ _ => (0 : T)) fun i mm =>
        forRange 0 (min m' m) mm fun j mm => (⟨n', m', []⟩ : Mat T).at_ i j >>= fun x => mm.setAt i j x)
        = .ok (Mat.ofFn n m fun _ _ => 0) := by
      rcases Nat.mul_eq_zero.mp h0 with h0 | h0
      · subst h0; rw [Nat.min_zero]; rfl
      · subst h0
        have hi : ∀ k, (forRange 0 k (Mat.ofFn n 0 fun _ _ => (0 : T)) fun i mm =>
          forRange 0 (min m' 0) mm fun j mm => (⟨n', m', []⟩ : Mat T).at_ i j >>= fun x => mm.setAt i j x)
          = .ok (Mat.ofFn n 0 fun _ _ => 0) := by
          intro k
          rw [forRange_eq (Nat.zero_le k) (fun _ => Mat.ofFn n 0 fun _ _ => (0 : T)) rfl]
          intro i _ _
          rw [Nat.min_zero]; rfl
        exact hi _
    rw [this]; rfl

/-- One operation. -/
theorem step_spec [Zero T] {st : Vars T} {s s' : Env T} {o : Option (Obs T)} {op : Op T} (h : Rel st s)
    (hs : specStep s op = some (s', o)) : ∃ st', step st op = .ok (st', o) ∧ Rel st' s' := by
  cases op with
  | default x =>
    simp only [specStep] at hs
    split at hs <;> cases hs
    exact ⟨_, rfl, h.put x ⟨rfl, Fits.zero W_pos⟩⟩
  | new x n m a =>
    simp only [specStep] at hs
    split at hs <;> cases hs
    rename_i hx
    exact h.caught x (Mat.new_eq hx.2 a) ⟨rfl, hx.2⟩
  | flat x n m l =>
    simp only [specStep] at hs
    split at hs <;> cases hs
    rename_i hx
    refine h.caught x (Mat.ofFlat_eq hx.2.1 (fun r c hr hc => ?_)) ⟨rfl, hx.2.1⟩
    have := lin_lt hr hc
    simp [show r * m + c < l.length by omega]
  | nested x l =>
    simp only [specStep] at hs
    split at hs
    case isFalse => cases hs
    split at hs
    · cases hs
      rename_i h0
      exact ⟨st, by simp only [step, ofNested_throw h0]; rfl, h⟩
    · split at hs <;> cases hs
      rename_i h0 h1
      exact h.caught x (ofNested_isVal h0 h1.1 h1.2) ⟨rfl, h1.1⟩
  | copy x y =>
    simp only [specStep] at hs
    split at hs <;> cases hs
    rename_i n m e hx hy
    obtain ⟨B, hB, hB', rfl, hf⟩ := h.var hy
    obtain ⟨st', h1, h2⟩ := h.caught x (Mat.ofMB_eq (ofFn_rep hf e) id) (v := .table n m e) ⟨rfl, hf⟩
    exact ⟨st', by simp only [step, hB', Res.ok_bind]; exact h1, h2⟩
  | move x y =>
    simp only [specStep] at hs
    split at hs <;> cases hs
    rename_i v hx hy
    obtain ⟨B, hB, hB', hv⟩ := h.var hy
    refine ⟨_, by simp only [step, hB', Res.ok_bind]; rfl, (h.put x hv).put y ?_⟩
    cases v with
    | table n m e =>
      obtain ⟨rfl, hf⟩ := hv
      simp only [Val.leave]
      split
      · rename_i h0
        refine ⟨?_, hf⟩
        simp only [Mat.move, Mat.ofFn]
        rw [h0]; rfl
      · rename_i h0
        exact ⟨rfl, hf, Nat.pos_of_ne_zero h0⟩
    | moved n m =>
      obtain ⟨rfl, hf⟩ := hv
      exact ⟨rfl, hf⟩
  | destroy x =>
    simp only [specStep] at hs
    split at hs <;> cases hs
    rename_i v hx
    obtain ⟨B, hB, hB', hv⟩ := h.var hx
    exact ⟨_, by simp only [step, hB', Res.ok_bind]; rfl, h.drop x⟩
  | assign x y =>
    simp only [specStep] at hs
    by_cases hxy : x = y
    · subst hxy
      rw [if_pos rfl] at hs
      split at hs <;> cases hs
      rename_i hx
      obtain ⟨v, hv⟩ := Option.ne_none_iff_exists'.mp hx
      obtain ⟨B, hB, hB', _⟩ := h.var hv
      exact ⟨st, by simp [step, hB'], h⟩
    · rw [if_neg hxy] at hs
      split at hs
      case h_2 => cases hs
      rename_i v n m e hx hy
      obtain ⟨A, hA, hA', hv⟩ := h.var hx
      obtain ⟨B, hB, hB', rfl, hf⟩ := h.var hy
      have hst : step st (.assign x y) = caught st x (A.assign (Mat.ofFn n m e).toMB) := by
        simp only [step, hA', hB', Res.ok_bind]; rw [if_neg (Ne.symm hxy)]
      rw [hst]
      split at hs <;> cases hs
      · rename_i h0
        refine h.caught x ?_ hv
        have : (Mat.ofFn n m e).toMB.size = n * m := (ofFn_rep hf e).size
        simp [Mat.assign, Mat.assignFrom, this, h0]
      · rename_i h0
        exact h.caught x (Mat.assign_eq (ofFn_rep hf e).toRepAt (Nat.pos_of_ne_zero h0)) ⟨rfl, hf⟩
  | moveAssign x y =>
    simp only [specStep] at hs
    by_cases hxy : x = y
    · subst hxy
      rw [if_pos rfl] at hs
      split at hs <;> cases hs
      rename_i hx
      obtain ⟨v, hv⟩ := Option.ne_none_iff_exists'.mp hx
      obtain ⟨B, hB, hB', _⟩ := h.var hv
      exact ⟨st, by simp [step, hB'], h⟩
    · rw [if_neg hxy] at hs
      have hstep : ∀ A B, st.var x = .ok A → st.var y = .ok B → step st (.moveAssign x y) =
          .ok ((st.put x (some (A.moveAssign B).1)).put y (some (A.moveAssign B).2), none) := by
        intro A B hA hB
        simp only [step, hA, hB, Res.ok_bind]; rw [if_pos (Ne.symm hxy)]; rfl
      split at hs
      case h_3 => cases hs
      · rename_i v n m e hx hy
        obtain ⟨A, hA, hA', hv⟩ := h.var hx
        obtain ⟨B, hB, hB', rfl, hf⟩ := h.var hy
        have hsize : (Mat.ofFn n m e).size = n * m := hf.wmul
        rw [hstep _ _ hA' hB']
        split at hs <;> cases hs
        · rename_i h0
          have hm : A.moveAssign (Mat.ofFn n m e) = (A, Mat.ofFn n m e) := by simp [Mat.moveAssign, hsize, h0]
          rw [hm]
          refine ⟨_, rfl, ?_⟩
          have := (h.put x hv).put y (A := Mat.ofFn n m e) (v := .table n m e) ⟨rfl, hf⟩
          convert this using 1
          funext z; simp only [Env.set]
          by_cases hz : z = y
          · subst hz; rw [if_neg (Ne.symm hxy), if_pos rfl, hy]
          · rw [if_neg hz]
        · rename_i h0
          have hm : A.moveAssign (Mat.ofFn n m e) = (Mat.ofFn n m e, ⟨n, m, []⟩) := by
            simp [Mat.moveAssign, hsize, Nat.pos_of_ne_zero h0]
          rw [hm]
          exact ⟨_, rfl, (h.put x (v := .table n m e) ⟨rfl, hf⟩).put y ⟨rfl, hf, Nat.pos_of_ne_zero h0⟩⟩
      · rename_i v n m hx hy
        cases hs
        obtain ⟨A, hA, hA', hv⟩ := h.var hx
        obtain ⟨B, hB, hB', rfl, hf, hpos⟩ := h.var hy
        rw [hstep _ _ hA' hB']
        have hm : A.moveAssign ⟨n, m, []⟩ = (⟨n, m, []⟩, ⟨n, m, []⟩) := by
          simp [Mat.moveAssign, Mat.size, hf.wmul, hpos]
        rw [hm]
        refine ⟨_, rfl, ?_⟩
        have := (h.put x (A := ⟨n, m, []⟩) (v := .moved n m) ⟨rfl, hf, hpos⟩).put y
          (A := ⟨n, m, []⟩) (v := .moved n m) ⟨rfl, hf, hpos⟩
        convert this using 1
        funext z; simp only [Env.set]
        by_cases hz : z = y
        · subst hz; rw [if_neg (Ne.symm hxy), if_pos rfl, hy]
        · rw [if_neg hz]
  | assignNested x l =>
    simp only [specStep] at hs
    split at hs
    case h_2 => cases hs
    rename_i v hx
    obtain ⟨A, hA, hA', hv⟩ := h.var hx
    have hst : step st (.assignNested x l) = caught st x (A.assignNested l) := by
      simp only [step, hA', Res.ok_bind]
    rw [hst]
    split at hs
    · cases hs
      rename_i h0
      exact h.caught x (assignNested_keep h0) hv
    · split at hs <;> cases hs
      rename_i h0 h1
      exact h.caught x ((assignNested_eq h0).trans (ofNested_isVal h0 h1.1 h1.2)) ⟨rfl, h1.1⟩
  | reshape x n m =>
    simp only [specStep] at hs
    split at hs
    case isFalse => cases hs
    rename_i hf'
    split at hs
    case h_3 => cases hs
    · rename_i n' m' e hx
      obtain ⟨A, hA, hA', rfl, hf⟩ := h.var hx
      have hst : step st (.reshape x n m) = caught st x ((Mat.ofFn n' m' e).reshape n m) := by
        simp only [step, hA', Res.ok_bind]
      have hsize : (Mat.ofFn n' m' e).size = n' * m' := hf.wmul
      rw [hst]
      split at hs <;> cases hs
      · rename_i h0
        refine h.caught x (by simp only [Mat.reshape, hsize, hf'.wmul]; rw [if_neg (by simp [h0])]) ⟨?_, hf'⟩
        simp only [Mat.ofFn]
        congr 1
        rw [h0]
        apply List.map_congr_left
        intro i hi
        rw [(lin_of_lt (n := n) (m := m) (by simpa using hi)).2.2]
      · rename_i h0
        exact ⟨st, by simp only [Mat.reshape, hsize, hf'.wmul]; rw [if_pos h0]; rfl, h⟩
    · rename_i n' m' hx
      obtain ⟨A, hA, hA', rfl, hf, hpos⟩ := h.var hx
      have hst : step st (.reshape x n m) = caught st x ((⟨n', m', []⟩ : Mat T).reshape n m) := by
        simp only [step, hA', Res.ok_bind]
      have hsize : (⟨n', m', []⟩ : Mat T).size = n' * m' := hf.wmul
      rw [hst]
      split at hs <;> cases hs
      · rename_i h0
        exact h.caught x (by simp only [Mat.reshape, hsize, hf'.wmul]; rw [if_neg (by simp [h0])])
          ⟨rfl, hf', h0 ▸ hpos⟩
      · rename_i h0
        exact ⟨st, by simp only [Mat.reshape, hsize, hf'.wmul]; rw [if_pos h0]; rfl, h⟩
  | resize x n m =>
    simp only [specStep] at hs
    split at hs
    case isFalse => cases hs
    rename_i hf'
    split at hs
    case h_3 => cases hs
    · rename_i n' m' e hx
      cases hs
      obtain ⟨A, hA, hA', rfl, hf⟩ := h.var hx
      have hst : step st (.resize x n m) = caught st x ((Mat.ofFn n' m' e).resize n m) := by
        simp only [step, hA', Res.ok_bind]
      rw [hst]
      exact h.caught x (Mat.resize_eq hf hf') ⟨rfl, hf'⟩
    · rename_i n' m' hx
      obtain ⟨A, hA, hA', rfl, hf, hpos⟩ := h.var hx
      have hst : step st (.resize x n m) = caught st x ((⟨n', m', []⟩ : Mat T).resize n m) := by
        simp only [step, hA', Res.ok_bind]
      rw [hst]
      split at hs
      · rename_i h0
        cases hs
        obtain ⟨rfl, rfl⟩ := h0
        exact h.caught x (by simp [Mat.resize]) ⟨rfl, hf, hpos⟩
      · split at hs <;> cases hs
        rename_i h0 h1
        exact h.caught x (resize_moved hf' h0 h1) ⟨rfl, hf'⟩
  | removeRow x p =>
    simp only [specStep] at hs
    split at hs
    case h_2 => cases hs
    rename_i n m e hx
    obtain ⟨A, hA, hA', rfl, hf⟩ := h.var hx
    have hst : step st (.removeRow x p) = caught st x (Util.removeRow (Mat.ofFn n m e) p) := by
      simp only [step, hA', Res.ok_bind]
    rw [hst]
    split at hs <;> cases hs
    · rename_i hp
      exact h.caught x (Util.removeRow_eq hf hp) ⟨rfl, hf.mono (by omega) (Nat.le_refl _)⟩
    · rename_i hp
      exact ⟨st, by unfold Util.removeRow; rw [if_pos (by simpa using hp)]; rfl, h⟩
  | removeCol x p =>
    simp only [specStep] at hs
    split at hs
    case h_2 => cases hs
    rename_i n m e hx
    obtain ⟨A, hA, hA', rfl, hf⟩ := h.var hx
    have hst : step st (.removeCol x p) = caught st x (Util.removeColumn (Mat.ofFn n m e) p) := by
      simp only [step, hA', Res.ok_bind]
    rw [hst]
    split at hs <;> cases hs
    · rename_i hp
      exact h.caught x (Util.removeColumn_eq hf hp) ⟨rfl, hf.mono (Nat.le_refl _) (by omega)⟩
    · rename_i hp
      exact ⟨st, by unfold Util.removeColumn; rw [if_pos (by simpa using hp)]; rfl, h⟩
  | set x r c a =>
    simp only [specStep] at hs
    split at hs
    case h_2 => cases hs
    rename_i n m e hx
    obtain ⟨A, hA, hA', rfl, hf⟩ := h.var hx
    split at hs <;> cases hs
    rename_i hrc
    have hst : step st (.set x r c a) = caught st x ((Mat.ofFn n m e).setAt r c a) := by
      simp only [step, hA', Res.ok_bind]
    rw [hst]
    exact h.caught x (ofFn_setAt hf hrc.1 hrc.2) ⟨rfl, hf⟩
  | setLin x i a =>
    simp only [specStep] at hs
    split at hs
    case h_2 => cases hs
    rename_i n m e hx
    obtain ⟨A, hA, hA', rfl, hf⟩ := h.var hx
    split at hs <;> cases hs
    rename_i hi
    have hst : step st (.setLin x i a) = caught st x ((Mat.ofFn n m e).setLin i a) := by
      simp only [step, hA', Res.ok_bind]
    rw [hst]
    exact h.caught x (ofFn_setLin hi) ⟨rfl, hf⟩
  | get x r c =>
    simp only [specStep] at hs
    split at hs
    case h_2 => cases hs
    rename_i n m e hx
    obtain ⟨A, hA, hA', rfl, hf⟩ := h.var hx
    split at hs <;> cases hs
    rename_i hrc
    exact ⟨st, by simp [step, hA', ofFn_at hf hrc.1 hrc.2], h⟩
  | getLin x i =>
    simp only [specStep] at hs
    split at hs
    case h_2 => cases hs
    rename_i n m e hx
    obtain ⟨A, hA, hA', rfl, hf⟩ := h.var hx
    split at hs <;> cases hs
    rename_i hi
    exact ⟨st, by simp [step, hA', ofFn_lin hi], h⟩
  | shape x =>
    have hemp : ∀ n m : Nat, ((n == 0) || (m == 0)) = (n * m == 0) := by
      intro n m; rw [Bool.eq_iff_iff]; simp
    simp only [specStep] at hs
    split at hs <;> cases hs
    · rename_i n m e hx
      obtain ⟨A, hA, hA', rfl, hf⟩ := h.var hx
      exact ⟨st, by simp [step, hA', Mat.size, hf.wmul, Mat.isEmpty, hemp], h⟩
    · rename_i n m hx
      obtain ⟨A, hA, hA', rfl, hf, _⟩ := h.var hx
      exact ⟨st, by simp [step, hA', Mat.size, hf.wmul, Mat.isEmpty, hemp], h⟩

/-- A whole program. -/
theorem run_spec [Zero T] {ops : List (Op T)} : ∀ {st : Vars T} {s s' : Env T} {os : List (Obs T)}, Rel st s →
    specRun s ops = some (s', os) → ∃ st', run st ops = .ok (st', os) ∧ Rel st' s' := by
  induction ops with
  | nil => intro st s s' os h hs; simp only [specRun] at hs; cases hs; exact ⟨st, rfl, h⟩
  | cons op ops ih =>
    intro st s s' os h hs
    simp only [specRun] at hs
    split at hs
    · cases hs
    · rename_i s1 o h1
      split at hs <;> cases hs
      rename_i os' h2
      obtain ⟨st1, hst1, hi1⟩ := step_spec h h1
      obtain ⟨st2, hst2, hi2⟩ := ih hi1 h2
      exact ⟨st2, by simp [run, hst1, hst2], hi2⟩

end MatHist
end Malg
