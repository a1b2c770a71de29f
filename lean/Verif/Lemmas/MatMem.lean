import Verif.Model.MatMem
import Verif.Lemmas.MatHist
import Verif.Lemmas.VecMem
/-!
# Matrices on the heap follow matrices as values
-/
namespace Malg
namespace MatMem
open VecMem (Inv Small)
variable {T α β γ δ : Type}

/-- If `r` returns something then `h` returns something related to it. -/
def Follows (r : Res α) (h : Res β) (R : α → β → Prop) : Prop := ∀ a, r = .ok a → ∃ b, h = .ok b ∧ R a b

theorem Follows.ok {a : α} {b : β} {R : α → β → Prop} (h : R a b) : Follows (.ok a) (.ok b) R := by
  intro a' ha; cases ha; exact ⟨b, rfl, h⟩

theorem Follows.bind {r : Res α} {h : Res β} {R : α → β → Prop} {f : α → Res γ} {g : β → Res δ} {S : γ → δ → Prop} (h1 : Follows r h R)
    (h2 : ∀ a b, R a b → Follows (f a) (g b) S) : Follows (r >>= f) (h >>= g) S := by
  intro c hc
  obtain ⟨a, ha, hfa⟩ := Res.bind_eq_ok.mp hc
  obtain ⟨b, hb, hR⟩ := h1 a ha
  obtain ⟨d, hd, hS⟩ := h2 a b hR c hfa
  exact ⟨d, by rw [hb, Res.ok_bind, hd], hS⟩

theorem Follows.skip {r : Res γ} {h : Res β} {b : β} {g : β → Res δ} {S : γ → δ → Prop} (hb : h = .ok b) (h2 : Follows r (g b) S) :
    Follows r (h >>= g) S := by
  rw [hb, Res.ok_bind]; exact h2

theorem Follows.mono {r : Res α} {h : Res β} {R S : α → β → Prop} (h1 : Follows r h R) (h2 : ∀ a b, R a b → S a b) : Follows r h S :=
  fun a ha => let ⟨b, hb, hR⟩ := h1 a ha; ⟨b, hb, h2 a b hR⟩

theorem Follows.forRange {lo hi : Nat} {s : α} {t : β} {f : Nat → α → Res α} {g : Nat → β → Res β} {I : α → β → Prop} (h0 : I s t)
    (hs : ∀ i s t, lo ≤ i → i < hi → I s t → Follows (f i s) (g i t) I) : Follows (Malg.forRange lo hi s f) (Malg.forRange lo hi t g) I := by
  rcases Nat.le_total lo hi with h | h
  · induction hi, h using Nat.le_induction with
    | base => simpa using Follows.ok h0
    | succ n hn ih =>
      rw [forRange_succ_last hn, forRange_succ_last hn]
      exact (ih fun i s t h1 h2 => hs i s t h1 (by omega)).bind fun s t hI => hs n s t hn (by omega) hI
  · rw [forRange_ge h, forRange_ge h]; exact Follows.ok h0

/-! ## Vector variables -/

/-- The vectors of matrix variables. -/
def envOf (st : MatHist.Vars T) : VecMem.Env T
  | 0 => none
  | x + 1 => (st x).map Mat.data

theorem set_set (e : VecMem.Env T) (x : Nat) (a b : Option (List T)) : (e.set x a).set x b = e.set x b := by
  funext y; simp only [VecMem.Env.set]; split <;> rfl

theorem set_swap (e : VecMem.Env T) {x y : Nat} (h : x ≠ y) (a b : Option (List T)) : (e.set x a).set y b = (e.set y b).set x a := by
  funext z; simp only [VecMem.Env.set]
  by_cases h1 : z = y
  · subst h1; rw [if_pos rfl, if_neg (Ne.symm h), if_pos rfl]
  · rw [if_neg h1, if_neg h1]

theorem set_self (e : VecMem.Env T) (x : Nat) : e.set x (e x) = e := by
  funext y; simp only [VecMem.Env.set]; split
  · rename_i h; rw [h]
  · rfl

theorem set_at (e : VecMem.Env T) (x : Nat) (a : Option (List T)) : e.set x a x = a := if_pos rfl

theorem set_off (e : VecMem.Env T) {x y : Nat} (h : y ≠ x) (a : Option (List T)) : e.set x a y = e y := if_neg h

theorem envOf_put (st : MatHist.Vars T) (x : Nat) (A : Option (Mat T)) : envOf (st.put x A) = (envOf st).set (x + 1) (A.map Mat.data) := by
  funext y
  cases y with
  | zero => rfl
  | succ y =>
    simp only [envOf, MatHist.Vars.put, VecMem.Env.set, Nat.add_right_cancel_iff]
    split <;> rfl

theorem envOf_same {st : MatHist.Vars T} {x : Nat} {A : Mat T} (h : st x = some A) : (envOf st).set (x + 1) (some A.data) = envOf st := by
  have : envOf st (x + 1) = some A.data := by simp [envOf, h]
  rw [← this, set_self]

variable [Zero T] {cfg : VecMem.Cfg} (hsz : 0 < cfg.sz) (hd : ∀ k, cfg.dec k ≠ .fail)

/-- A call of a member of `Vector` does what it should. -/
theorem does_ok (hsz : 0 < cfg.sz) (hd : ∀ k, cfg.dec k ≠ .fail) {v : VecMem.St T} {e e' : VecMem.Env T} {o : Option (VecMem.Obs T)}
    {op : VecMem.Op T} (h : Inv cfg.sz v e) (hs : VecMem.specStep cfg.sz e op = some (e', o)) :
    ∃ v', does cfg v op = .ok v' ∧ Inv cfg.sz v' e' := by
  obtain ⟨v', h1, h2, -⟩ := VecMem.step_spec hsz h hs fun _ => hd _
  exact ⟨v', by unfold does; rw [h1]; rfl, h2⟩

include hsz hd

theorem write_follows {v : VecMem.St T} {e : VecMem.Env T} {x i : Nat} {d : List T} {a : T} (h : Inv cfg.sz v (e.set x (some d))) :
    Follows (vset d i a) (does cfg v (.write x i a)) fun d' v' => Inv cfg.sz v' (e.set x (some d')) ∧ d'.length = d.length := by
  intro d' hd'
  unfold vset at hd'
  split at hd'
  case isFalse => cases hd'
  rename_i hi
  cases hd'
  obtain ⟨v', h1, h2⟩ := does_ok hsz hd h (op := .write x i a) (e' := e.set x (some (d.set i a))) (o := none)
    (by simp only [VecMem.specStep, set_at, if_pos hi, set_set])
  exact ⟨v', h1, h2, by simp⟩

omit hd in
theorem read_ok {v : VecMem.St T} {e : VecMem.Env T} {x i : Nat} {d : List T} {a : T} (h : Inv cfg.sz v e) (hx : e x = some d)
    (ha : vget d i = .ok a) : reads cfg v x i = .ok a := by
  have hi : d[i]? = some a := by
    unfold vget at ha
    split at ha
    · rename_i h; cases ha; exact h
    · cases ha
  obtain ⟨v', h1, -, -⟩ := VecMem.step_spec hsz h (op := .read x i) (e' := e) (o := some (.val a))
    (by simp only [VecMem.specStep, hx, hi]) (fun h => absurd h (by simp [VecMem.requests]))
  unfold reads; rw [h1]; rfl

omit hd in
theorem read_follows {v : VecMem.St T} {e : VecMem.Env T} {x i : Nat} {d : List T} (h : Inv cfg.sz v e) (hx : e x = some d) :
    Follows (vget d i) (reads cfg v x i) fun a b => a = b :=
  fun a ha => ⟨a, read_ok hsz h hx ha, rfl⟩

/-- The state of a function that builds a matrix with `n` rows and `m` columns in the vector `x`. -/
def Built (cfg : VecMem.Cfg) (e : VecMem.Env T) (x n m : Nat) (A : Mat T) (v : VecMem.St T) : Prop :=
  A.rows = n ∧ A.cols = m ∧ Inv cfg.sz v (e.set x (some A.data))

theorem setAt_follows {v : VecMem.St T} {e : VecMem.Env T} {x n m r c : Nat} {A : Mat T} {a : T} (h : Built cfg e x n m A v) :
    Follows (A.setAt r c a) (does cfg v (.write x (pos m r c) a)) (Built cfg e x n m) := by
  intro B hB
  obtain ⟨d, h1, h2⟩ := Res.bind_eq_ok.mp hB
  cases h2
  rw [show A.idx r c = pos m r c by rw [Mat.idx, h.2.1]; rfl] at h1
  obtain ⟨v', h3, h4, -⟩ := write_follows hsz hd h.2.2 d h1
  exact ⟨v', h3, h.1, h.2.1, h4⟩

theorem fillFlat_follows {v : VecMem.St T} {e : VecMem.Env T} {x n m : Nat} {A : Mat T} {l : List T} (h : Built cfg e x n m A v) :
    Follows (do
      let (A, _) ← forRange 0 n (A, 0) fun i s =>
        forRange 0 m s fun j (A, it) => do
          let x ← vget l it
          let A ← A.setAt i j x
          return (A, it + 1)
      return A) (fillFlat cfg x n m l v) (Built cfg e x n m) := by
  unfold fillFlat
  refine Follows.bind (R := fun s t => Built cfg e x n m s.1 t.1 ∧ s.2 = t.2) ?_ fun s t hI => Follows.ok hI.1
  refine Follows.forRange ⟨h, rfl⟩ fun r s t _ _ hI => Follows.forRange hI fun c s t _ _ hI => ?_
  obtain ⟨A, i⟩ := s
  obtain ⟨v, j⟩ := t
  obtain ⟨hI, rfl⟩ := hI
  refine Follows.bind (R := fun a b => a = b) (fun a ha => ⟨a, ha, rfl⟩) fun a b hab => ?_
  subst hab
  exact (setAt_follows hsz hd hI).bind fun A v hI => Follows.ok ⟨hI, rfl⟩

theorem fillNested_follows {v : VecMem.St T} {e : VecMem.Env T} {x n m : Nat} {A : Mat T} {l : List (List T)} (h : Built cfg e x n m A v) :
    Follows (forRange 0 n A fun i A => do
        let row ← vget l i
        forRange 0 m A fun j A => do
          let x ← vget row j
          A.setAt i j x) (fillNested cfg x n m l v) (Built cfg e x n m) := by
  unfold fillNested
  refine Follows.forRange h fun r A v _ _ hI => ?_
  refine Follows.bind (R := fun a b => a = b) (fun a ha => ⟨a, ha, rfl⟩) fun a b hab => ?_
  subst hab
  refine Follows.forRange hI fun c A v _ _ hI => ?_
  refine Follows.bind (R := fun a b => a = b) (fun a ha => ⟨a, ha, rfl⟩) fun a b hab => ?_
  subst hab
  exact setAt_follows hsz hd hI

theorem copyLin_follows {v : VecMem.St T} {e : VecMem.Env T} {x y k : Nat} {d b : List T} (hxy : y ≠ x) (hy : e y = some b)
    (h : Inv cfg.sz v (e.set x (some d))) :
    Follows (forRange 0 k d fun i d => do
      let a ← vget b i
      vset d i (id a)) (copyLin cfg x y k v) fun d v => Inv cfg.sz v (e.set x (some d)) := by
  unfold copyLin
  refine Follows.forRange h fun i d v _ _ hI => ?_
  refine (read_follows hsz hI (by rw [set_off _ hxy, hy])).bind fun a a' haa => ?_
  subst haa
  exact (write_follows hsz hd hI).mono fun d v h => h.1

theorem copyAt_follows {v : VecMem.St T} {e : VecMem.Env T} {x y rx cx n m : Nat} {A B : Mat T} (hxy : y ≠ x) (hy : e y = some B.data)
    (h : Built cfg e x rx cx A v) :
    Follows (forRange 0 n A fun r A => forRange 0 m A fun c A => do
      let a ← B.at_ r c
      A.setAt r c a) (copyAt cfg x cx y B.cols n m v) (Built cfg e x rx cx) := by
  unfold copyAt
  refine Follows.forRange h fun r A v _ _ hI => Follows.forRange hI fun c A v _ _ hI => ?_
  refine Follows.bind (R := fun a b => a = b) (read_follows hsz hI.2.2 (by rw [set_off _ hxy, hy])) fun a a' haa => ?_
  subst haa
  exact setAt_follows hsz hd hI

theorem renew_ok {v : VecMem.St T} {e : VecMem.Env T} {x k : Nat} {d : List T} (h : Inv cfg.sz v e) (h0 : e 0 = none) (hx : e (x + 1) = some d)
    (hk : Small cfg.sz k) : ∃ v', renew cfg (x + 1) k v = .ok v' ∧ Inv cfg.sz v' (e.set (x + 1) (some (List.replicate k 0))) := by
  obtain ⟨v1, e1, i1⟩ := does_ok hsz hd h (op := .sized 0 k) (e' := e.set 0 (some (List.replicate k 0))) (o := none)
    (by simp only [VecMem.specStep]; rw [if_pos ⟨h0, hk⟩])
  obtain ⟨v2, e2, i2⟩ := does_ok hsz hd i1 (op := .moveAssign (x + 1) 0)
    (e' := ((e.set 0 (some (List.replicate k 0))).set (x + 1) (some (List.replicate k 0))).set 0 (some [])) (o := none)
    (by simp [VecMem.specStep, set_off, hx])
  obtain ⟨v3, e3, i3⟩ := does_ok hsz hd i2 (op := .destroy 0)
    (e' := (((e.set 0 (some (List.replicate k 0))).set (x + 1) (some (List.replicate k 0))).set 0 (some [])).set 0 none) (o := none)
    (by simp [VecMem.specStep])
  refine ⟨v3, by unfold renew; rw [e1, Res.ok_bind, e2, Res.ok_bind, e3], ?_⟩
  rw [set_set, set_swap _ (by omega), set_set, ← h0, set_self] at i3
  exact i3

theorem resizes_follows {v : VecMem.St T} {e : VecMem.Env T} {x r c : Nat} {A : Mat T} (h : Inv cfg.sz v e) (h0 : e 0 = none)
    (hx : e (x + 1) = some A.data) (hk : ¬ (A.rows = r ∧ A.cols = c) → Small cfg.sz (wmul r c)) :
    Follows (A.resize r c) (resizes cfg (x + 1) (A.rows, A.cols) r c v) (Built cfg e (x + 1) r c) := by
  unfold Mat.resize resizes
  dsimp only
  split_ifs with h1 h2
  · exact Follows.ok ⟨h1.1, h1.2, by rw [← hx, set_self]; exact h⟩
  · have hk := hk h1
    intro B hB
    obtain ⟨d, h3, h4⟩ := Res.bind_eq_ok.mp hB
    cases h4
    unfold vresize at h3
    split at h3
    case isFalse => cases h3
    cases h3
    obtain ⟨v1, e1, i1⟩ := does_ok hsz hd h (op := .resize (x + 1) (wmul r c)) (o := none)
      (e' := e.set (x + 1) (some (A.data.take (wmul r c) ++ List.replicate (wmul r c - A.data.length) 0)))
      (by simp only [VecMem.specStep, hx]; rw [if_pos hk])
    exact ⟨v1, e1, rfl, rfl, i1⟩
  · have hk := hk h1
    obtain ⟨v1, e1, i1⟩ := does_ok hsz hd h (op := .filled 0 (wmul r c) 0) (e' := e.set 0 (some (List.replicate (wmul r c) 0))) (o := none)
      (by simp only [VecMem.specStep]; rw [if_pos ⟨h0, hk⟩])
    refine Follows.bind (R := Built cfg e 0 r c) (fun B hB => ?_) fun B v hI => ?_
    · obtain ⟨d, h3, h4⟩ := Res.bind_eq_ok.mp hB
      cases h4
      unfold vnew at h3
      split at h3
      case isFalse => cases h3
      cases h3
      exact ⟨v1, e1, rfl, rfl, i1⟩
    · refine Follows.bind (copyAt_follows hsz hd (y := x + 1) (B := A) (by omega) hx hI) fun B v hI => ?_
      obtain ⟨v2, e2, i2⟩ := does_ok hsz hd hI.2.2 (op := .moveAssign (x + 1) 0)
        (e' := ((e.set 0 (some B.data)).set (x + 1) (some B.data)).set 0 (some [])) (o := none)
        (by simp [VecMem.specStep, set_off, hx])
      obtain ⟨v3, e3, i3⟩ := does_ok hsz hd i2 (op := .destroy 0)
        (e' := (((e.set 0 (some B.data)).set (x + 1) (some B.data)).set 0 (some [])).set 0 none) (o := none)
        (by simp [VecMem.specStep])
      refine Follows.skip e2 ?_
      rw [e3]
      rw [set_set, set_swap _ (by omega), set_set, ← h0, set_self] at i3
      exact Follows.ok ⟨rfl, rfl, i3⟩

theorem swaps_follows {v : VecMem.St T} {e : VecMem.Env T} {x n m r1 c1 r2 c2 : Nat} {A : Mat T} (h : Built cfg e x n m A v) :
    Follows (Util.swapMat A r1 c1 r2 c2) (swaps cfg x m r1 c1 r2 c2 v) (Built cfg e x n m) := by
  have hpos : ∀ r c, A.at_ r c = vget A.data (pos m r c) := fun r c => by rw [Mat.at_, Mat.idx, h.2.1]; rfl
  unfold Util.swapMat swaps
  rw [hpos, hpos]
  refine (read_follows hsz h.2.2 (set_at _ _ _)).bind fun a a' haa => ?_
  subst haa
  refine (read_follows hsz h.2.2 (set_at _ _ _)).bind fun b b' hbb => ?_
  subst hbb
  exact (setAt_follows hsz hd h).bind fun A v h => setAt_follows hsz hd h

/-! ## Operations -/

omit hsz hd in
/-- The heap holds the matrices of `st`. -/
structure Sim (cfg : VecMem.Cfg) (h : MSt T) (st : MatHist.Vars T) : Prop where
  inv : Inv cfg.sz h.vec (envOf st)
  dims : ∀ x, h.dims x = (st x).map fun A => (A.rows, A.cols)

omit [Zero T] hsz hd in
theorem Sim.dim {h : MSt T} {st : MatHist.Vars T} (hs : Sim cfg h st) {x : Nat} {A : Mat T} (hx : st x = some A) :
    h.dim x = .ok (A.rows, A.cols) := by
  unfold MSt.dim; rw [hs.dims, hx]; rfl

omit [Zero T] hsz hd in
theorem Sim.put {h : MSt T} {st : MatHist.Vars T} (hs : Sim cfg h st) {x n m : Nat} {A : Mat T} {v : VecMem.St T}
    (hb : Built cfg (envOf st) (x + 1) n m A v) : Sim cfg (h.put x v (some (n, m))) (st.put x (some A)) := by
  obtain ⟨rfl, rfl, hb⟩ := hb
  refine ⟨by rw [envOf_put]; exact hb, fun y => ?_⟩
  simp only [MSt.put, MatHist.Vars.put]
  split
  · rfl
  · exact hs.dims y

omit [Zero T] hsz hd in
theorem var_some {st : MatHist.Vars T} {x : Nat} {A : Mat T} (h : st.var x = .ok A) : st x = some A := by
  unfold MatHist.Vars.var at h
  split at h
  · cases h
  · rename_i h'; cases h; exact h'

omit [Zero T] hsz hd in
theorem caught_none {st st' : MatHist.Vars T} {x : Nat} {r : Res (Mat T)} (h : MatHist.caught st x r = .ok (st', none)) :
    ∃ A, r = .ok A ∧ st' = st.put x (some A) := by
  cases r with
  | ok A => simp [MatHist.caught] at h; exact ⟨A, rfl, h.symm⟩
  | _ => simp [MatHist.caught] at h

omit [Zero T] hsz hd in
theorem caught_threw {st st' : MatHist.Vars T} {x : Nat} {r : Res (Mat T)} {ex : Exc} (h : MatHist.caught st x r = .ok (st', some (.threw ex))) :
    r = .throw ex ∧ st' = st := by
  cases r with
  | ok A => simp [MatHist.caught] at h
  | throw e => simp [MatHist.caught] at h; exact ⟨by rw [h.2], h.1.symm⟩
  | _ => simp [MatHist.caught] at h

/-- A new vector in a variable that does not exist. -/
theorem fresh_ok {h : MSt T} {st : MatHist.Vars T} (hs : Sim cfg h st) {x k : Nat} (hx : st x = none) (hk : Small cfg.sz k) (a : T) :
    (∃ v, does cfg h.vec (.default (x + 1)) = .ok v ∧ Inv cfg.sz v ((envOf st).set (x + 1) (some []))) ∧
    (∃ v, does cfg h.vec (.filled (x + 1) k a) = .ok v ∧ Inv cfg.sz v ((envOf st).set (x + 1) (some (List.replicate k a)))) ∧
    ∃ v, does cfg h.vec (.sized (x + 1) k) = .ok v ∧ Inv cfg.sz v ((envOf st).set (x + 1) (some (List.replicate k 0))) := by
  have hx' : envOf st (x + 1) = none := by simp [envOf, hx]
  exact ⟨does_ok hsz hd hs.inv (o := none) (by simp only [VecMem.specStep]; rw [if_pos hx']),
    does_ok hsz hd hs.inv (o := none) (by simp only [VecMem.specStep]; rw [if_pos ⟨hx', hk⟩]),
    does_ok hsz hd hs.inv (o := none) (by simp only [VecMem.specStep]; rw [if_pos ⟨hx', hk⟩])⟩

/-- Every operation on matrices on the heap does what it does on values. -/
theorem mstep_sim {h : MSt T} {st st' : MatHist.Vars T} {s s' : MatHist.Env T} {op : MatHist.Op T} {o : Option (MatHist.Obs T)}
    (hsim : Sim cfg h st) (hr : MatHist.Rel st s) (hs : MatHist.specStep s op = some (s', o))
    (hk : ∀ x n m e, s' x = some (.table n m e) → Small cfg.sz (n * m)) (hv : MatHist.step st op = .ok (st', o)) :
    ∃ h', mstep cfg h op = .ok (h', o) ∧ Sim cfg h' st' := by
  have h00 : envOf st 0 = none := rfl
  have hin : ∀ {x A}, st x = some A → envOf st (x + 1) = some A.data := fun hx => by simp [envOf, hx]
  have hbuilt : ∀ {x A}, st x = some A → Built cfg (envOf st) (x + 1) A.rows A.cols A h.vec := fun hx =>
    ⟨rfl, rfl, by rw [envOf_same hx]; exact hsim.inv⟩
  have hsx : ∀ {x : Nat} {v : MatHist.Val T}, s.set x (some v) x = some v := if_pos rfl
  have hempty : Small cfg.sz 0 := by simp [Small]
  cases op with
  | default x =>
    simp only [MatHist.specStep] at hs
    split at hs <;> cases hs
    rename_i hx
    obtain ⟨⟨v, e1, i1⟩, -⟩ := fresh_ok hsz hd hsim ((hr.same x).mpr hx) hempty (0 : T)
    simp only [MatHist.step] at hv
    cases hv
    exact ⟨_, by simp only [mstep]; rw [e1]; rfl, hsim.put ⟨rfl, rfl, i1⟩⟩
  | new x n m a =>
    simp only [MatHist.specStep] at hs
    split at hs <;> cases hs
    rename_i hx
    have hk := hk x n m _ hsx
    rw [← hx.2.wmul] at hk
    obtain ⟨-, ⟨v, e1, i1⟩, -⟩ := fresh_ok hsz hd hsim ((hr.same x).mpr hx.1) hk a
    obtain ⟨A, hA, rfl⟩ := caught_none hv
    unfold Mat.new vnew at hA
    split at hA
    case isFalse => cases hA
    cases hA
    exact ⟨_, by simp only [mstep]; rw [e1]; rfl, hsim.put ⟨rfl, rfl, i1⟩⟩
  | flat x n m l =>
    simp only [MatHist.specStep] at hs
    split at hs <;> cases hs
    rename_i hx
    have hk := hk x n m _ hsx
    rw [← hx.2.1.wmul] at hk
    obtain ⟨-, -, v, e1, i1⟩ := fresh_ok hsz hd hsim ((hr.same x).mpr hx.1) hk (0 : T)
    obtain ⟨A, hA, rfl⟩ := caught_none hv
    unfold Mat.ofFlat Mat.new vnew at hA
    split at hA
    case isFalse => cases hA
    obtain ⟨v', e2, i2⟩ := fillFlat_follows hsz hd (A := ⟨n, m, List.replicate (wmul n m) 0⟩) (l := l) ⟨rfl, rfl, i1⟩ A hA
    exact ⟨_, by simp only [mstep]; rw [e1, Res.ok_bind, e2]; rfl, hsim.put i2⟩
  | nested x l =>
    simp only [MatHist.specStep] at hs
    split at hs
    case isFalse => cases hs
    rename_i hx
    obtain ⟨⟨v, e1, i1⟩, -⟩ := fresh_ok hsz hd hsim ((hr.same x).mpr hx) hempty (0 : T)
    obtain ⟨v', e2, i2⟩ := does_ok hsz hd i1 (op := .destroy (x + 1)) (e' := envOf st) (o := none) (by
      have : envOf st (x + 1) = none := by simp [envOf, (hr.same x).mpr hx]
      simp only [VecMem.specStep, set_at, set_set]
      rw [← this, set_self])
    split at hs
    · cases hs
      rename_i h0
      obtain ⟨h1, rfl⟩ := caught_threw hv
      refine ⟨⟨v', h.dims⟩, ?_, i2, hsim.dims⟩
      simp only [mstep]
      rw [e1, Res.ok_bind]
      rcases l with _ | ⟨a, l⟩
      · rw [if_pos List.length_nil, e2]; rfl
      · have ha : a.length = 0 := by simpa [MatHist.width] using h0
        rw [if_neg (by simp), show vget (a :: l) 0 = .ok a from rfl, Res.ok_bind, if_pos ha, e2]; rfl
    · split at hs <;> cases hs
      rename_i h0 h1
      have hk := hk x _ _ _ hsx
      rw [← h1.1.wmul] at hk
      obtain ⟨A, hA, rfl⟩ := caught_none hv
      rcases l with _ | ⟨a, l⟩
      · simp at h0
      have hw : MatHist.width (a :: l) = a.length := rfl
      have ha : a.length ≠ 0 := by simpa [MatHist.width] using h0
      rw [hw] at hk
      obtain ⟨v2, e3, i3⟩ := renew_ok hsz hd i1 (by rw [set_off _ (by omega)]; rfl) (set_at _ _ _) hk
      unfold Mat.ofNested at hA
      rw [if_neg (by simp), show vget (a :: l) 0 = .ok a from rfl, Res.ok_bind, if_neg ha] at hA
      unfold vnew at hA
      dsimp only at hA
      split at hA
      case isFalse => cases hA
      rw [set_set] at i3
      obtain ⟨v3, e4, i4⟩ := fillNested_follows hsz hd (A := ⟨(a :: l).length, a.length, List.replicate (wmul (a :: l).length a.length) 0⟩)
        (l := a :: l) ⟨rfl, rfl, i3⟩ A hA
      refine ⟨_, ?_, hsim.put i4⟩
      simp only [mstep]
      rw [e1, Res.ok_bind, if_neg (by simp), show vget (a :: l) 0 = .ok a from rfl, Res.ok_bind, if_neg ha, e3, Res.ok_bind, e4]; rfl
  | copy x y =>
    simp only [MatHist.specStep] at hs
    split at hs <;> cases hs
    rename_i n m e hx hy
    obtain ⟨B, hB, hB', hB1⟩ := hr.var hy
    simp only [MatHist.step, hB', Res.ok_bind] at hv
    obtain ⟨A, hA, rfl⟩ := caught_none hv
    have hk := hk x n m _ hsx
    have hdim : B.rows = n ∧ B.cols = m := by rw [hB1.1]; exact ⟨rfl, rfl⟩
    rw [← hB1.2.wmul, ← hdim.1, ← hdim.2] at hk
    obtain ⟨-, -, v, e1, i1⟩ := fresh_ok hsz hd hsim ((hr.same x).mpr hx) hk (0 : T)
    unfold Mat.copy Mat.ofMB vnew at hA
    split at hA
    case isFalse => cases hA
    rw [Res.ok_bind] at hA
    obtain ⟨d, h2, h3⟩ := Res.bind_eq_ok.mp hA
    cases h3
    have hyx : y + 1 ≠ x + 1 := fun h => by
      have : y = x := by omega
      rw [this, hx] at hy; cases hy
    obtain ⟨v', e2, i2⟩ := copyLin_follows hsz hd (k := wmul B.rows B.cols) hyx (hin hB) i1 d h2
    refine ⟨_, ?_, hsim.put (n := B.rows) (m := B.cols) ⟨rfl, rfl, i2⟩⟩
    simp only [mstep]
    rw [hsim.dim hB, Res.ok_bind, e1, Res.ok_bind, e2]; rfl
  | move x y =>
    simp only [MatHist.specStep] at hs
    split at hs <;> cases hs
    rename_i w hx hy
    obtain ⟨B, hB, hB', hB1⟩ := hr.var hy
    simp only [MatHist.step, hB', Res.ok_bind] at hv
    cases hv
    have hx' : envOf st (x + 1) = none := by simp [envOf, (hr.same x).mpr hx]
    have hyx : y ≠ x := fun h => by rw [h, hx] at hy; cases hy
    obtain ⟨v, e1, i1⟩ := does_ok hsz hd hsim.inv (op := .moveCtor (x + 1) (y + 1))
      (e' := ((envOf st).set (x + 1) (some B.data)).set (y + 1) (some [])) (o := none) (by simp only [VecMem.specStep, hx', hin hB])
    refine ⟨_, by simp only [mstep]; rw [hsim.dim hB, Res.ok_bind, e1]; rfl, by rw [envOf_put, envOf_put]; exact i1, fun z => ?_⟩
    simp only [MSt.put, MatHist.Vars.put, Mat.move]
    by_cases hz : z = y
    · rw [if_pos hz, if_neg (by rw [hz]; exact hyx), hz, hsim.dims, hB]; rfl
    · rw [if_neg hz]
      split
      · rfl
      · exact hsim.dims z
  | destroy x =>
    simp only [MatHist.specStep] at hs
    split at hs <;> cases hs
    rename_i w hx
    obtain ⟨B, hB, hB', hB1⟩ := hr.var hx
    simp only [MatHist.step, hB', Res.ok_bind] at hv
    cases hv
    obtain ⟨v, e1, i1⟩ := does_ok hsz hd hsim.inv (op := .destroy (x + 1))
      (e' := (envOf st).set (x + 1) none) (o := none) (by simp only [VecMem.specStep, hin hB])
    refine ⟨_, by simp only [mstep]; rw [e1]; rfl, by rw [envOf_put]; exact i1, fun z => ?_⟩
    simp only [MSt.put, MatHist.Vars.put]
    split
    · rfl
    · exact hsim.dims z
  | assign x y =>
    simp only [MatHist.specStep] at hs
    by_cases hxy : x = y
    · subst hxy
      rw [if_pos rfl] at hs
      split at hs <;> cases hs
      rename_i hx
      obtain ⟨w, hw⟩ := Option.ne_none_iff_exists'.mp hx
      obtain ⟨B, hB, hB', -⟩ := hr.var hw
      simp only [MatHist.step, hB', Res.ok_bind, if_true] at hv
      cases hv
      exact ⟨h, by simp only [mstep]; rw [hsim.dim hB, Res.ok_bind, Res.ok_bind, if_pos trivial]; rfl, hsim⟩
    · rw [if_neg hxy] at hs
      split at hs
      case h_2 => cases hs
      rename_i w n m e hx hy
      obtain ⟨A, hA, hA', -⟩ := hr.var hx
      obtain ⟨B, hB, hB', hB1⟩ := hr.var hy
      have hdim : B.rows = n ∧ B.cols = m := by rw [hB1.1]; exact ⟨rfl, rfl⟩
      have hwm : wmul B.rows B.cols = n * m := by rw [hdim.1, hdim.2, hB1.2.wmul]
      simp only [MatHist.step, hA', hB', Res.ok_bind] at hv
      rw [if_neg (Ne.symm hxy)] at hv
      unfold Mat.assign Mat.assignFrom at hv
      have hsize : B.toMB.size = n * m := hwm
      rw [hsize] at hv
      simp only [mstep, hsim.dim hA, hsim.dim hB, Res.ok_bind]
      rw [if_neg (Ne.symm hxy), hwm]
      split at hs <;> cases hs
      · rename_i h0
        rw [h0, if_neg (by omega)] at hv
        obtain ⟨A', h1, rfl⟩ := caught_none hv
        cases h1
        refine ⟨h, by rw [if_neg (by omega)]; rfl, ?_⟩
        have : st.put x (some A) = st := by
          funext z; simp only [MatHist.Vars.put]; split
          · rename_i h; rw [h, hA]
          · rfl
        rw [this]; exact hsim
      · rename_i h0
        have hk := hk x n m _ hsx
        rw [if_pos (by omega)] at hv
        obtain ⟨A', h1, rfl⟩ := caught_none hv
        obtain ⟨d, h2, h3⟩ := Res.bind_eq_ok.mp h1
        unfold vnew at h2
        split at h2
        case isFalse => cases h2
        cases h2
        obtain ⟨v, e1, i1⟩ := renew_ok hsz hd hsim.inv h00 (hin hA) hk
        have h4 : wmul B.toMB.rows B.toMB.cols = n * m := hwm
        obtain ⟨v', e2, i2⟩ := copyAt_follows hsz hd (x := x + 1) (y := y + 1) (rx := B.rows) (cx := B.cols) (n := B.rows) (m := B.cols)
          (A := ⟨B.rows, B.cols, List.replicate (wmul B.toMB.rows B.toMB.cols) 0⟩) (B := B) (by omega) (hin hB)
          ⟨rfl, rfl, by rw [h4]; exact i1⟩ A' h3
        refine ⟨_, ?_, hsim.put i2⟩
        rw [if_pos (by omega), e1, Res.ok_bind, e2]; rfl
  | moveAssign x y =>
    simp only [MatHist.specStep] at hs
    by_cases hxy : x = y
    · subst hxy
      rw [if_pos rfl] at hs
      split at hs <;> cases hs
      rename_i hx
      obtain ⟨w, hw⟩ := Option.ne_none_iff_exists'.mp hx
      obtain ⟨B, hB, hB', -⟩ := hr.var hw
      simp only [MatHist.step, hB', Res.ok_bind, ne_eq, not_true, if_false] at hv
      cases hv
      exact ⟨h, by simp only [mstep]; rw [hsim.dim hB, Res.ok_bind, Res.ok_bind, if_neg (fun h => h.1 rfl)]; rfl, hsim⟩
    · rw [if_neg hxy] at hs
      obtain ⟨A, B, hA, hA', hB, hB', ho⟩ : ∃ A B, st x = some A ∧ st.var x = .ok A ∧ st y = some B ∧ st.var y = .ok B ∧ o = none := by
        split at hs
        · rename_i hx hy
          obtain ⟨A, hA, hA', -⟩ := hr.var hx
          obtain ⟨B, hB, hB', -⟩ := hr.var hy
          split at hs <;> cases hs <;> exact ⟨A, B, hA, hA', hB, hB', rfl⟩
        · rename_i hx hy
          obtain ⟨A, hA, hA', -⟩ := hr.var hx
          obtain ⟨B, hB, hB', -⟩ := hr.var hy
          cases hs; exact ⟨A, B, hA, hA', hB, hB', rfl⟩
        · cases hs
      subst ho
      simp only [MatHist.step, hA', hB', Res.ok_bind] at hv
      rw [if_pos (Ne.symm hxy)] at hv
      cases hv
      simp only [mstep, hsim.dim hA, hsim.dim hB, Res.ok_bind]
      have hput : ∀ z, ((st.put x (some A)).put y (some B)) z = st z := fun z => by
        simp only [MatHist.Vars.put]
        by_cases h1 : z = y
        · rw [if_pos h1, h1, hB]
        · rw [if_neg h1]; split
          · rename_i h2; rw [h2, hA]
          · rfl
      unfold Mat.moveAssign Mat.size
      by_cases h0 : wmul B.rows B.cols > 0
      · rw [if_pos h0, if_pos ⟨Ne.symm hxy, h0⟩]
        obtain ⟨v, e1, i1⟩ := does_ok hsz hd hsim.inv (op := .moveAssign (x + 1) (y + 1))
          (e' := ((envOf st).set (x + 1) (some B.data)).set (y + 1) (some [])) (o := none)
          (by simp only [VecMem.specStep, hin hA, hin hB]; rw [if_neg (by omega)])
        refine ⟨_, by rw [e1]; rfl, by rw [envOf_put, envOf_put]; exact i1, fun z => ?_⟩
        simp only [MSt.put, MatHist.Vars.put]
        by_cases hz : z = y
        · rw [if_pos hz, if_neg (by rw [hz]; exact Ne.symm hxy), hz, hsim.dims, hB]; rfl
        · rw [if_neg hz]
          split
          · rfl
          · exact hsim.dims z
      · rw [if_neg h0, if_neg (fun h => h0 h.2)]
        refine ⟨h, rfl, ?_⟩
        rw [show (st.put x (some A)).put y (some B) = st from funext hput]
        exact hsim
  | assignNested x l =>
    simp only [MatHist.specStep] at hs
    split at hs
    case h_2 => cases hs
    rename_i w hx
    obtain ⟨A, hA, hA', -⟩ := hr.var hx
    simp only [MatHist.step, hA', Res.ok_bind] at hv
    simp only [mstep, hsim.dim hA, Res.ok_bind]
    have hself : st.put x (some A) = st := by
      funext z; simp only [MatHist.Vars.put]; split
      · rename_i h; rw [h, hA]
      · rfl
    split at hs
    · cases hs
      rename_i h0
      obtain ⟨A', h1, rfl⟩ := caught_none hv
      rw [MatHist.assignNested_keep h0] at h1
      cases h1
      rw [hself]
      refine ⟨h, ?_, hsim⟩
      rcases l with _ | ⟨a, l⟩
      · rw [if_pos List.length_nil]; rfl
      · have ha : a.length = 0 := by simpa [MatHist.width] using h0
        rw [if_neg (by simp), show vget (a :: l) 0 = .ok a from rfl, Res.ok_bind, if_pos ha]; rfl
    · split at hs <;> cases hs
      rename_i h0 h1
      have hk := hk x _ _ _ hsx
      rw [← h1.1.wmul] at hk
      obtain ⟨A', h2, rfl⟩ := caught_none hv
      rcases l with _ | ⟨a, l⟩
      · simp at h0
      have hw : MatHist.width (a :: l) = a.length := rfl
      have ha : a.length ≠ 0 := by simpa [MatHist.width] using h0
      rw [hw] at hk
      obtain ⟨v2, e3, i3⟩ := renew_ok hsz hd hsim.inv h00 (hin hA) hk
      unfold Mat.assignNested at h2
      rw [if_neg (by simp), show vget (a :: l) 0 = .ok a from rfl, Res.ok_bind, if_neg ha] at h2
      unfold vnew at h2
      dsimp only at h2
      split at h2
      case isFalse => cases h2
      obtain ⟨v3, e4, i4⟩ := fillNested_follows hsz hd (A := ⟨(a :: l).length, a.length, List.replicate (wmul (a :: l).length a.length) 0⟩)
        (l := a :: l) ⟨rfl, rfl, i3⟩ A' h2
      refine ⟨_, ?_, hsim.put i4⟩
      rw [if_neg (by simp), show vget (a :: l) 0 = .ok a from rfl, Res.ok_bind, if_neg ha, e3, Res.ok_bind, e4]; rfl
  | reshape x n m =>
    obtain ⟨A, hA'⟩ : ∃ A, st.var x = .ok A := by
      cases h : st.var x with
      | ok A => exact ⟨A, rfl⟩
      | _ => simp [MatHist.step, h] at hv
    have hA := var_some hA'
    simp only [MatHist.step, hA', Res.ok_bind] at hv
    simp only [mstep, hsim.dim hA, Res.ok_bind]
    unfold Mat.reshape Mat.size at hv
    by_cases h0 : wmul A.rows A.cols ≠ wmul n m
    · rw [if_pos h0] at hv ⊢
      cases hv
      exact ⟨h, rfl, hsim⟩
    · rw [if_neg h0] at hv ⊢
      cases hv
      exact ⟨_, rfl, hsim.put (A := ⟨n, m, A.data⟩) ⟨rfl, rfl, by rw [envOf_same hA]; exact hsim.inv⟩⟩
  | resize x n m =>
    obtain ⟨A, hA'⟩ : ∃ A, st.var x = .ok A := by
      cases h : st.var x with
      | ok A => exact ⟨A, rfl⟩
      | _ => simp [MatHist.step, h] at hv
    have hA := var_some hA'
    simp only [MatHist.specStep] at hs
    split at hs
    case isFalse => cases hs
    rename_i hf
    have ho : o = none ∧ (¬ (A.rows = n ∧ A.cols = m) → Small cfg.sz (wmul n m)) := by
      rw [hf.wmul]
      split at hs
      · cases hs; exact ⟨rfl, fun _ => hk x n m _ hsx⟩
      · rename_i n' m' hx
        obtain ⟨A'', hA1, -, hA2⟩ := hr.var hx
        rw [hA] at hA1
        cases hA1
        split at hs
        · rename_i h1
          cases hs
          refine ⟨rfl, fun h => absurd ?_ h⟩
          rw [hA2.1]; exact h1
        · split at hs <;> cases hs
          exact ⟨rfl, fun _ => hk x n m _ hsx⟩
      · cases hs
    obtain ⟨rfl, hk'⟩ := ho
    simp only [MatHist.step, hA', Res.ok_bind] at hv
    obtain ⟨A', h2, rfl⟩ := caught_none hv
    obtain ⟨v, e1, i1⟩ := resizes_follows hsz hd hsim.inv h00 (hin hA) hk' A' h2
    exact ⟨_, by simp only [mstep, hsim.dim hA, Res.ok_bind]; rw [e1]; rfl, hsim.put i1⟩
  | removeRow x p =>
    simp only [MatHist.specStep] at hs
    split at hs
    case h_2 => cases hs
    rename_i n m e hx
    obtain ⟨A, hA, hA', hA1⟩ := hr.var hx
    have hdim : A.rows = n ∧ A.cols = m := by rw [hA1.1]; exact ⟨rfl, rfl⟩
    simp only [MatHist.step, hA', Res.ok_bind] at hv
    simp only [mstep, hsim.dim hA, Res.ok_bind]
    unfold Util.removeRow at hv
    by_cases hp : p ≥ A.rows
    · rw [if_pos hp] at hv ⊢
      cases hv
      exact ⟨h, rfl, hsim⟩
    · rw [if_neg hp] at hv ⊢
      rw [if_pos (by omega)] at hs
      cases hs
      have hk := hk x (n - 1) m _ hsx
      obtain ⟨A', h2, rfl⟩ := caught_none hv
      obtain ⟨B, h3, h4⟩ := Res.bind_eq_ok.mp h2
      obtain ⟨v, e1, i1⟩ := (Follows.forRange (I := Built cfg (envOf st) (x + 1) A.rows A.cols)
        (f := fun r B => forRange 0 A.cols B fun c B => Util.swapMat B r c (wadd r 1) c)
        (g := fun r v => forRange 0 A.cols v fun c v => swaps cfg (x + 1) A.cols r c (wadd r 1) c v) (hbuilt hA)
        fun r s t _ _ hI => Follows.forRange hI fun c s t _ _ hI => swaps_follows hsz hd hI) B h3
      have hwn : wsub n 1 = n - 1 := wsub_eq (by omega) hA1.2.2.1
      obtain ⟨v', e2, i2⟩ := resizes_follows hsz hd (r := wsub B.rows 1) (c := B.cols) i1.2.2 (by rw [set_off _ (by omega)]; rfl) (set_at _ _ _)
        (fun _ => by rw [i1.1, i1.2.1, hdim.1, hdim.2, hwn, (hA1.2.mono (Nat.sub_le n 1) le_rfl).wmul]; exact hk) A' h4
      rw [i1.1, i1.2.1] at e2 i2
      refine ⟨_, by rw [e1, Res.ok_bind, e2]; rfl, hsim.put ⟨i2.1, i2.2.1, ?_⟩⟩
      have := i2.2.2
      rwa [set_set] at this
  | removeCol x p =>
    simp only [MatHist.specStep] at hs
    split at hs
    case h_2 => cases hs
    rename_i n m e hx
    obtain ⟨A, hA, hA', hA1⟩ := hr.var hx
    have hdim : A.rows = n ∧ A.cols = m := by rw [hA1.1]; exact ⟨rfl, rfl⟩
    simp only [MatHist.step, hA', Res.ok_bind] at hv
    simp only [mstep, hsim.dim hA, Res.ok_bind]
    unfold Util.removeColumn at hv
    by_cases hp : p ≥ A.cols
    · rw [if_pos hp] at hv ⊢
      cases hv
      exact ⟨h, rfl, hsim⟩
    · rw [if_neg hp] at hv ⊢
      rw [if_pos (by omega)] at hs
      cases hs
      have hk := hk x n (m - 1) _ hsx
      obtain ⟨A', h2, rfl⟩ := caught_none hv
      obtain ⟨B, h3, h4⟩ := Res.bind_eq_ok.mp h2
      obtain ⟨v, e1, i1⟩ := (Follows.forRange (I := Built cfg (envOf st) (x + 1) A.rows A.cols)
        (f := fun c B => forRange 0 A.rows B fun r B => Util.swapMat B r c r (wadd c 1))
        (g := fun c v => forRange 0 A.rows v fun r v => swaps cfg (x + 1) A.cols r c r (wadd c 1) v) (hbuilt hA)
        fun r s t _ _ hI => Follows.forRange hI fun c s t _ _ hI => swaps_follows hsz hd hI) B h3
      have hwn : wsub m 1 = m - 1 := wsub_eq (by omega) hA1.2.2.2
      obtain ⟨v', e2, i2⟩ := resizes_follows hsz hd (r := B.rows) (c := wsub B.cols 1) i1.2.2 (by rw [set_off _ (by omega)]; rfl) (set_at _ _ _)
        (fun _ => by rw [i1.1, i1.2.1, hdim.1, hdim.2, hwn, (hA1.2.mono le_rfl (Nat.sub_le m 1)).wmul]; exact hk) A' h4
      rw [i1.1, i1.2.1] at e2 i2
      refine ⟨_, by rw [e1, Res.ok_bind, e2]; rfl, hsim.put ⟨i2.1, i2.2.1, ?_⟩⟩
      have := i2.2.2
      rwa [set_set] at this
  | set x r c a =>
    simp only [MatHist.specStep] at hs
    split at hs
    case h_2 => cases hs
    rename_i n m e hx
    obtain ⟨A, hA, hA', hA1⟩ := hr.var hx
    split at hs <;> cases hs
    simp only [MatHist.step, hA', Res.ok_bind] at hv
    obtain ⟨A', h2, rfl⟩ := caught_none hv
    obtain ⟨v, e1, i1⟩ := setAt_follows hsz hd (hbuilt hA) A' h2
    exact ⟨_, by simp only [mstep, hsim.dim hA, Res.ok_bind]; rw [e1]; rfl, hsim.put i1⟩
  | setLin x i a =>
    simp only [MatHist.specStep] at hs
    split at hs
    case h_2 => cases hs
    rename_i n m e hx
    obtain ⟨A, hA, hA', hA1⟩ := hr.var hx
    split at hs <;> cases hs
    simp only [MatHist.step, hA', Res.ok_bind] at hv
    obtain ⟨A', h2, rfl⟩ := caught_none hv
    obtain ⟨d, h3, h4⟩ := Res.bind_eq_ok.mp h2
    cases h4
    obtain ⟨v, e1, i1, -⟩ := write_follows hsz hd (hbuilt hA).2.2 d h3
    exact ⟨_, by simp only [mstep, hsim.dim hA, Res.ok_bind]; rw [e1]; rfl, hsim.put ⟨rfl, rfl, i1⟩⟩
  | get x r c =>
    obtain ⟨A, hA'⟩ : ∃ A, st.var x = .ok A := by
      cases h : st.var x with
      | ok A => exact ⟨A, rfl⟩
      | _ => simp [MatHist.step, h] at hv
    have hA := var_some hA'
    simp only [MatHist.step, hA', Res.ok_bind] at hv
    obtain ⟨a, h1, h2⟩ := Res.bind_eq_ok.mp hv
    cases h2
    exact ⟨h, by simp only [mstep, hsim.dim hA, Res.ok_bind]; rw [show pos A.cols r c = A.idx r c from rfl, read_ok hsz hsim.inv (hin hA) h1]; rfl, hsim⟩
  | getLin x i =>
    obtain ⟨A, hA'⟩ : ∃ A, st.var x = .ok A := by
      cases h : st.var x with
      | ok A => exact ⟨A, rfl⟩
      | _ => simp [MatHist.step, h] at hv
    have hA := var_some hA'
    simp only [MatHist.step, hA', Res.ok_bind] at hv
    obtain ⟨a, h1, h2⟩ := Res.bind_eq_ok.mp hv
    cases h2
    exact ⟨h, by simp only [mstep]; rw [read_ok hsz hsim.inv (hin hA) h1]; rfl, hsim⟩
  | shape x =>
    obtain ⟨A, hA'⟩ : ∃ A, st.var x = .ok A := by
      cases h : st.var x with
      | ok A => exact ⟨A, rfl⟩
      | _ => simp [MatHist.step, h] at hv
    have hA := var_some hA'
    simp only [MatHist.step, hA', Res.ok_bind] at hv
    cases hv
    exact ⟨h, by simp only [mstep, hsim.dim hA, Res.ok_bind]; rfl, hsim⟩

/-- Every program. -/
theorem mrun_sim {ops : List (MatHist.Op T)} : ∀ {h : MSt T} {st : MatHist.Vars T} {s s' : MatHist.Env T} {os : List (MatHist.Obs T)},
    Sim cfg h st → MatHist.Rel st s → MatHist.specRun s ops = some (s', os) →
    (∀ pre suf s' os, ops = pre ++ suf → MatHist.specRun s pre = some (s', os) → ∀ x n m e, s' x = some (.table n m e) → Small cfg.sz (n * m)) →
    ∃ h' st', mrun cfg h ops = .ok (h', os) ∧ Sim cfg h' st' ∧ MatHist.Rel st' s' := by
  induction ops with
  | nil => intro h st s s' os h1 h2 h3 _; simp only [MatHist.specRun] at h3; cases h3; exact ⟨h, st, rfl, h1, h2⟩
  | cons op ops ih =>
    intro h st s s' os h1 h2 h3 h4
    simp only [MatHist.specRun] at h3
    split at h3
    · cases h3
    rename_i s1 o hs1
    split at h3
    · cases h3
    rename_i s2 os2 hs2
    cases h3
    obtain ⟨st1, hv, hr1⟩ := MatHist.step_spec h2 hs1
    obtain ⟨h', e1, i1⟩ := mstep_sim hsz hd h1 h2 hs1
      (h4 [op] ops s1 o.toList rfl (by simp only [MatHist.specRun, hs1, List.append_nil])) hv
    obtain ⟨h'', st'', e2, i2, i3⟩ := ih i1 hr1 hs2 fun pre suf s3 os3 e hs3 => h4 (op :: pre) suf s3 (o.toList ++ os3) (by rw [e]; rfl)
      (by simp only [MatHist.specRun, hs1, hs3])
    exact ⟨h'', st'', by simp only [mrun]; rw [e1, Res.ok_bind, e2]; rfl, i2, i3⟩

end MatMem
end Malg
