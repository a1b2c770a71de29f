import Verif.Model.Pointers
import Verif.Spec.Pointers
import Verif.Lemmas.VecMem
import Mathlib.Tactic.ByContra
/-!
# Pointers into vectors: lemmas
-/
namespace Malg
namespace VecMem
variable {T : Type}

/-- `allocate` with the size the vector has does nothing. -/
theorem allocate_same [Zero T] {cfg : Cfg} {m : Mem T} {v : VObj} {l : List T} (h : Owns m v l) {n : Nat}
    (hn : n = l.length) : ∃ r, allocate cfg m v n = .ok (m, v, r) := by
  unfold allocate
  subst hn
  by_cases h0 : l.length = 0
  · rw [if_pos h0]
    unfold deallocate
    rw [if_neg (by rw [h.1]; omega)]
    exact ⟨_, rfl⟩
  · rw [if_neg h0, if_pos h.1.symm]
    exact ⟨_, rfl⟩

theorem Env.len_eq {e : Env T} {x : Nat} {l : List T} (h : e x = some l) : e.len x = l.length := by simp [Env.len, h]

/-- The element loop of a constructor or an assignment, and what follows. -/
theorem fillIf_bind {β : Type} {r : Bool} {m : Mem T} {v : VObj} {value} {f : Mem T → Res β} {res : β}
    (h : (if r = true then (fill m v value >>= f) else (Res.ok m >>= f)) = .ok res) :
    ∃ m', (if r = true then fill m v value else .ok m) = .ok m' ∧ f m' = .ok res := by
  cases r
  · exact ⟨m, rfl, h⟩
  · exact Res.bind_eq_ok.mp h

/-- The operation keeps the object that owns the pointer. -/
theorem step_owner [Zero T] {cfg : Cfg} {st st' : St T} {e e' : Env T} {o o' : Option (Obs T)} {op : Op T} {x y : Nat}
    {v : VObj} (h : Inv cfg.sz st e) (hs : specStep cfg.sz e op = some (e', o)) (hst : step cfg st op = .ok (st', o'))
    (hv : st.vars x = some v) (how : owner e op x = some y) : st'.vars y = some v := by
  have hex : e x ≠ none := fun hh => by rw [(h.same x).mpr hh] at hv; cases hv
  obtain ⟨l, hl⟩ := Option.ne_none_iff_exists'.mp hex
  have ho := h.owns x v l hv hl
  have keep : ∀ z m w, x ≠ z → (st.setVar z m w).vars x = some v := fun z m w hz => by rw [setVar_ne _ _ _ hz, hv]
  cases op with
  | default z =>
    simp only [specStep] at hs
    split at hs <;> cases hs
    cases how; cases hst
    exact keep _ _ _ (by rintro rfl; contradiction)
  | sized z n =>
    simp only [specStep] at hs
    split at hs <;> cases hs
    cases how
    simp only [step] at hst
    obtain ⟨_, _, h2⟩ := Res.bind_eq_ok.mp hst
    cases h2
    exact keep _ _ _ (by rintro rfl; simp_all)
  | filled z n a =>
    simp only [specStep] at hs
    split at hs <;> cases hs
    cases how
    simp only [step] at hst
    obtain ⟨_, _, h2⟩ := Res.bind_eq_ok.mp hst
    obtain ⟨_, _, h3⟩ := fillIf_bind h2
    cases h3
    exact keep _ _ _ (by rintro rfl; simp_all)
  | ofList z k =>
    simp only [specStep] at hs
    split at hs <;> cases hs
    cases how
    simp only [step] at hst
    obtain ⟨_, _, h2⟩ := Res.bind_eq_ok.mp hst
    obtain ⟨_, _, h3⟩ := fillIf_bind h2
    cases h3
    exact keep _ _ _ (by rintro rfl; simp_all)
  | sizedList z n k =>
    simp only [specStep] at hs
    split at hs <;> cases hs
    cases how
    rename_i hc
    simp only [step, if_pos hc.2.1] at hst
    obtain ⟨_, _, h2⟩ := Res.bind_eq_ok.mp hst
    obtain ⟨_, _, h3⟩ := fillIf_bind h2
    cases h3
    exact keep _ _ _ (by rintro rfl; simp_all)
  | copyCtor z y =>
    simp only [specStep] at hs
    split at hs <;> cases hs
    cases how
    simp only [step] at hst
    obtain ⟨_, _, h1⟩ := Res.bind_eq_ok.mp hst
    obtain ⟨_, _, h2⟩ := Res.bind_eq_ok.mp h1
    obtain ⟨_, _, h3⟩ := fillIf_bind h2
    cases h3
    exact keep _ _ _ (by rintro rfl; simp_all)
  | moveCtor z w =>
    simp only [specStep] at hs
    split at hs <;> cases hs
    rename_i k hz hw
    have hzx : x ≠ z := by rintro rfl; rw [hl] at hz; cases hz
    have hzw : z ≠ w := by rintro rfl; rw [hw] at hz; cases hz
    simp only [step] at hst
    obtain ⟨u, h1, h2⟩ := Res.bind_eq_ok.mp hst
    obtain ⟨_, _, h3⟩ := Res.bind_eq_ok.mp h2
    cases h3
    simp only [owner] at how
    split at how <;> cases how
    · rename_i hwx; subst hwx
      rw [setVar_ne _ _ _ hzw, setVar_same]
      rw [var_ok hv] at h1; cases h1; rfl
    · rename_i hwx
      rw [setVar_ne _ _ _ (fun e => hwx e.symm), setVar_ne _ _ _ hzx, hv]
  | destroy z =>
    simp only [step] at hst
    obtain ⟨_, _, h1⟩ := Res.bind_eq_ok.mp hst
    obtain ⟨_, _, h2⟩ := Res.bind_eq_ok.mp h1
    cases h2
    simp only [owner] at how
    split at how <;> cases how
    rename_i hz
    exact keep _ _ _ (fun e => hz e.symm)
  | copyAssign z w =>
    simp only [specStep] at hs
    split at hs <;> cases hs
    rename_i k0 k hz hw
    simp only [step] at hst
    obtain ⟨u, h1, h2⟩ := Res.bind_eq_ok.mp hst
    obtain ⟨u', h3, h4⟩ := Res.bind_eq_ok.mp h2
    simp only [owner] at how
    split at how <;> cases how
    rename_i hc
    split at h4
    · obtain ⟨⟨m1, v1, r⟩, h5, h6⟩ := Res.bind_eq_ok.mp h4
      obtain ⟨m2, h7, h8⟩ := fillIf_bind h6
      cases h8
      by_cases hzx : z = x
      · subst hzx
        rw [setVar_same]
        rw [var_ok hv] at h1; cases h1
        obtain ⟨w', hw', how⟩ := h.var hw
        rw [var_ok hw'] at h3; cases h3
        have hlen : k.length = l.length := by
          by_contra hne
          exact hc ⟨rfl, by rw [Env.len_eq hw, Env.len_eq hl]; exact hne⟩
        obtain ⟨r', hr⟩ := allocate_same (cfg := cfg) ho (n := u'.size) (by rw [how.1, hlen])
        rw [hr] at h5; cases h5; rfl
      · exact keep _ _ _ (fun e => hzx e.symm)
    · cases h4; exact hv
  | moveAssign z w =>
    simp only [step] at hst
    obtain ⟨u, h1, h2⟩ := Res.bind_eq_ok.mp hst
    obtain ⟨u', h3, h4⟩ := Res.bind_eq_ok.mp h2
    simp only [owner] at how
    by_cases hzw : z = w
    · rw [if_pos hzw] at how; cases how
      rw [if_neg (by simp [hzw])] at h4; cases h4; exact hv
    · rw [if_neg hzw] at how
      rw [if_pos hzw] at h4
      obtain ⟨⟨m1, v1, r⟩, h5, h6⟩ := Res.bind_eq_ok.mp h4
      cases h6
      split at how
      · cases how
      · rename_i hzx
        split at how <;> cases how
        · rename_i hwx; subst hwx
          rw [setVar_ne _ _ _ hzw, setVar_same]
          rw [var_ok hv] at h3; cases h3; rfl
        · rename_i hwx
          rw [setVar_ne _ _ _ (fun e => hwx e.symm), setVar_ne _ _ _ (fun e => hzx e.symm), hv]
  | resize z n =>
    simp only [step] at hst
    obtain ⟨u, h1, h2⟩ := Res.bind_eq_ok.mp hst
    obtain ⟨⟨m1, v1, r⟩, h5, h6⟩ := Res.bind_eq_ok.mp h2
    cases h6
    simp only [owner] at how
    split at how <;> cases how
    rename_i hc
    by_cases hzx : z = x
    · subst hzx
      rw [setVar_same]
      rw [var_ok hv] at h1; cases h1
      have hlen : n = l.length := by
        by_contra hne
        exact hc ⟨rfl, by rw [Env.len_eq hl]; exact hne⟩
      obtain ⟨r', hr⟩ := allocate_same (cfg := cfg) ho hlen
      rw [hr] at h5; cases h5; rfl
    · exact keep _ _ _ (fun e => hzx e.symm)
  | resizeLike z w =>
    simp only [specStep] at hs
    split at hs <;> cases hs
    rename_i k0 k hz hw
    simp only [step] at hst
    obtain ⟨u, h1, h2⟩ := Res.bind_eq_ok.mp hst
    obtain ⟨u', h3, h4⟩ := Res.bind_eq_ok.mp h2
    obtain ⟨⟨m1, v1, r⟩, h5, h6⟩ := Res.bind_eq_ok.mp h4
    cases h6
    simp only [owner] at how
    split at how <;> cases how
    rename_i hc
    by_cases hzx : z = x
    · subst hzx
      rw [setVar_same]
      rw [var_ok hv] at h1; cases h1
      obtain ⟨w', hw', how⟩ := h.var hw
      rw [var_ok hw'] at h3; cases h3
      have hlen : k.length = l.length := by
        by_contra hne
        exact hc ⟨rfl, by rw [Env.len_eq hw, Env.len_eq hl]; exact hne⟩
      obtain ⟨r', hr⟩ := allocate_same (cfg := cfg) ho (n := u'.size) (by rw [how.1, hlen])
      rw [hr] at h5; cases h5; rfl
    · exact keep _ _ _ (fun e => hzx e.symm)
  | write z i a =>
    cases how
    simp only [step] at hst
    obtain ⟨_, _, h1⟩ := Res.bind_eq_ok.mp hst
    obtain ⟨_, _, h2⟩ := Res.bind_eq_ok.mp h1
    cases h2; exact hv
  | read z i =>
    cases how
    simp only [step] at hst
    obtain ⟨_, _, h1⟩ := Res.bind_eq_ok.mp hst
    obtain ⟨_, _, h2⟩ := Res.bind_eq_ok.mp h1
    cases h2; exact hv
  | size z =>
    cases how
    simp only [step] at hst
    obtain ⟨_, _, h1⟩ := Res.bind_eq_ok.mp hst
    cases h1; exact hv

/-- A block that was freed; its identity is never used again. -/
def Dead (b : Nat) (m : Mem T) : Prop := m.blocks b = none ∧ b < m.next

theorem Dead.store {b : Nat} {m m' : Mem T} {p : Option Nat} {i : Nat} {x : T} (h : Dead b m)
    (hm : store m p i x = .ok m') : Dead b m' := by
  unfold VecMem.store at hm
  split at hm
  · cases hm
  · split at hm
    · cases hm
    · rename_i _ c _ cells hc
      split at hm <;> cases hm
      have hbc : b ≠ c := by rintro rfl; rw [h.1] at hc; cases hc
      exact ⟨by rw [put_ne _ _ hbc]; exact h.1, h.2⟩

theorem Dead.free {b : Nat} {m m' : Mem T} {p : Option Nat} (h : Dead b m) (hm : free m p = .ok m') : Dead b m' := by
  unfold VecMem.free at hm
  split at hm
  · cases hm; exact h
  · split at hm
    · cases hm
    · rename_i _ c _ cells hc
      cases hm
      have hbc : b ≠ c := by rintro rfl; rw [h.1] at hc; cases hc
      exact ⟨by rw [put_ne _ _ hbc]; exact h.1, h.2⟩

theorem Dead.realloc {cfg : Cfg} {b : Nat} {m m' : Mem T} {p q : Option Nat} {n : Nat} (h : Dead b m)
    (hm : realloc cfg m p n = .ok (m', q)) : Dead b m' := by
  have hbn : b ≠ m.next := Nat.ne_of_lt h.2
  unfold VecMem.realloc at hm
  dsimp only at hm
  split at hm
  · split at hm <;> cases hm
    · exact h
    · refine ⟨?_, Nat.lt_succ_of_lt h.2⟩
      show (Mem.put _ _ _).blocks b = none
      rw [put_ne _ _ hbn]; exact h.1
  · split at hm
    · cases hm
    · rename_i _ c _ cells hc
      have hbc : b ≠ c := by rintro rfl; rw [h.1] at hc; cases hc
      split at hm
      · cases hm; exact ⟨by rw [put_ne _ _ hbc]; exact h.1, h.2⟩
      · split at hm
        · cases hm; exact h
        · split at hm <;> cases hm
          · exact ⟨by rw [put_ne _ _ hbc]; exact h.1, h.2⟩
          · refine ⟨?_, Nat.lt_succ_of_lt h.2⟩
            show (Mem.put _ _ _).blocks b = none
            rw [put_ne _ _ hbn, put_ne _ _ hbc]; exact h.1

theorem Dead.deallocate {b : Nat} {m m' : Mem T} {v v' : VObj} {r : Bool} (h : Dead b m)
    (hm : deallocate m v = .ok (m', v', r)) : Dead b m' := by
  unfold VecMem.deallocate at hm
  split at hm
  · obtain ⟨_, h1, h2⟩ := Res.bind_eq_ok.mp hm
    cases h2; exact h.free h1
  · cases hm; exact h

theorem Dead.loop {b lo hi : Nat} {m m' : Mem T} {body : Nat → Mem T → Res (Mem T)} (h : Dead b m)
    (hb : ∀ i m m', Dead b m → body i m = .ok m' → Dead b m') (hm : forRange lo hi m body = .ok m') : Dead b m' := by
  by_cases hl : lo ≤ hi
  · exact forRange_inv_ok hl (fun _ m => Dead b m) h (fun i s s' _ _ hs hb' => hb i s s' hs hb') hm
  · rw [forRange_ge (by omega)] at hm; cases hm; exact h

theorem Dead.allocate [Zero T] {cfg : Cfg} {b : Nat} {m m' : Mem T} {v v' : VObj} {n : Nat} {r : Bool} (h : Dead b m)
    (hm : allocate cfg m v n = .ok (m', v', r)) : Dead b m' := by
  unfold VecMem.allocate at hm
  split at hm
  · exact h.deallocate hm
  · split at hm
    · cases hm; exact h
    · obtain ⟨⟨m1, p⟩, h1, h2⟩ := Res.bind_eq_ok.mp hm
      have hd := h.realloc h1
      dsimp only at h2
      split at h2
      · obtain ⟨m2, h3, h4⟩ := Res.bind_eq_ok.mp h2
        cases h4; exact hd.loop (fun i m m' hd hs => hd.store hs) h3
      · split at h2
        · obtain ⟨m2, h3, h4⟩ := Res.bind_eq_ok.mp h2
          cases h4; exact hd.loop (fun i m m' hd hs => hd.store hs) h3
        · cases h2; exact hd

theorem Dead.fill {b : Nat} {m m' : Mem T} {v : VObj} {value} (h : Dead b m) (hm : fill m v value = .ok m') : Dead b m' :=
  h.loop (fun i m m' hd hs => by
    obtain ⟨x, _, h2⟩ := Res.bind_eq_ok.mp hs
    exact hd.store h2) hm

theorem Dead.fillIf {b : Nat} {m m' : Mem T} {v : VObj} {value} {r : Bool} (h : Dead b m)
    (hm : (if r = true then VecMem.fill m v value else .ok m) = .ok m') : Dead b m' := by
  split at hm
  · exact h.fill hm
  · cases hm; exact h

/-- A dead block stays dead. -/
theorem Dead.step [Zero T] {cfg : Cfg} {b : Nat} {st st' : St T} {o : Option (Obs T)} {op : Op T} (h : Dead b st.mem)
    (hst : step cfg st op = .ok (st', o)) : Dead b st'.mem := by
  cases op with
  | default z => cases hst; exact h
  | sized z n =>
    obtain ⟨_, h1, h2⟩ := Res.bind_eq_ok.mp hst
    cases h2; exact h.allocate h1
  | filled z n a =>
    obtain ⟨⟨m1, v1, r⟩, h1, h2⟩ := Res.bind_eq_ok.mp hst
    obtain ⟨_, h3, h4⟩ := fillIf_bind h2
    cases h4; exact (h.allocate h1).fillIf h3
  | ofList z k =>
    obtain ⟨⟨m1, v1, r⟩, h1, h2⟩ := Res.bind_eq_ok.mp hst
    obtain ⟨_, h3, h4⟩ := fillIf_bind h2
    cases h4; exact (h.allocate h1).fillIf h3
  | sizedList z n k =>
    simp only [VecMem.step] at hst
    split at hst
    · obtain ⟨⟨m1, v1, r⟩, h1, h2⟩ := Res.bind_eq_ok.mp hst
      obtain ⟨_, h3, h4⟩ := fillIf_bind h2
      cases h4; exact (h.allocate h1).fillIf h3
    · cases hst
  | copyCtor z y =>
    obtain ⟨w, _, h0⟩ := Res.bind_eq_ok.mp hst
    obtain ⟨⟨m1, v1, r⟩, h1, h2⟩ := Res.bind_eq_ok.mp h0
    obtain ⟨_, h3, h4⟩ := fillIf_bind h2
    cases h4; exact (h.allocate h1).fillIf h3
  | moveCtor z y =>
    obtain ⟨w, _, h0⟩ := Res.bind_eq_ok.mp hst
    obtain ⟨⟨m1, v1, r⟩, h1, h2⟩ := Res.bind_eq_ok.mp h0
    cases h2; exact h.deallocate h1
  | destroy z =>
    obtain ⟨w, _, h0⟩ := Res.bind_eq_ok.mp hst
    obtain ⟨⟨m1, v1, r⟩, h1, h2⟩ := Res.bind_eq_ok.mp h0
    cases h2; exact h.deallocate h1
  | copyAssign z y =>
    obtain ⟨_, _, h0⟩ := Res.bind_eq_ok.mp hst
    obtain ⟨_, _, h00⟩ := Res.bind_eq_ok.mp h0
    split at h00
    · obtain ⟨⟨m1, v1, r⟩, h1, h2⟩ := Res.bind_eq_ok.mp h00
      obtain ⟨_, h3, h4⟩ := fillIf_bind h2
      cases h4; exact (h.allocate h1).fillIf h3
    · cases h00; exact h
  | moveAssign z y =>
    obtain ⟨_, _, h0⟩ := Res.bind_eq_ok.mp hst
    obtain ⟨_, _, h00⟩ := Res.bind_eq_ok.mp h0
    split at h00
    · obtain ⟨⟨m1, v1, r⟩, h1, h2⟩ := Res.bind_eq_ok.mp h00
      cases h2; exact h.deallocate h1
    · cases h00; exact h
  | resize z n =>
    obtain ⟨_, _, h0⟩ := Res.bind_eq_ok.mp hst
    obtain ⟨⟨m1, v1, r⟩, h1, h2⟩ := Res.bind_eq_ok.mp h0
    cases h2; exact h.allocate h1
  | resizeLike z y =>
    obtain ⟨_, _, h0⟩ := Res.bind_eq_ok.mp hst
    obtain ⟨_, _, h00⟩ := Res.bind_eq_ok.mp h0
    obtain ⟨⟨m1, v1, r⟩, h1, h2⟩ := Res.bind_eq_ok.mp h00
    cases h2; exact h.allocate h1
  | write z i a =>
    obtain ⟨_, _, h0⟩ := Res.bind_eq_ok.mp hst
    obtain ⟨_, h1, h2⟩ := Res.bind_eq_ok.mp h0
    cases h2; exact h.store h1
  | read z i =>
    obtain ⟨_, _, h0⟩ := Res.bind_eq_ok.mp hst
    obtain ⟨_, _, h2⟩ := Res.bind_eq_ok.mp h0
    cases h2; exact h
  | size z =>
    obtain ⟨_, _, h0⟩ := Res.bind_eq_ok.mp hst
    cases h0; exact h

theorem Dead.run [Zero T] {cfg : Cfg} {b : Nat} {ops : List (Op T)} : ∀ {st st' : St T} {os : List (Obs T)},
    Dead b st.mem → run cfg st ops = .ok (st', os) → Dead b st'.mem := by
  induction ops with
  | nil => intro st st' os h hr; cases hr; exact h
  | cons op ops ih =>
    intro st st' os h hr
    obtain ⟨⟨st1, o⟩, h1, h2⟩ := Res.bind_eq_ok.mp hr
    obtain ⟨⟨st2, os2⟩, h3, h4⟩ := Res.bind_eq_ok.mp h2
    cases h4
    exact ih (h.step h1) h3

/-- A change of size by an allocator that always moves leaves the old block dead. -/
theorem allocate_dead [Zero T] {cfg : Cfg} {m m' : Mem T} {v v' : VObj} {l : List T} {n b : Nat} {r : Bool}
    (hd : ∀ k, cfg.dec k = .move) (h : Owns m v l) (hfr : ∀ b, m.next ≤ b → m.blocks b = none) (hb : v.data = some b)
    (hsz : 0 < cfg.sz) (hsm : Small cfg.sz n) (hn : n ≠ l.length) (hm : allocate cfg m v n = .ok (m', v', r)) :
    Dead b m' := by
  obtain ⟨hs, ⟨rfl, hdat⟩ | ⟨b', hl, hdat, hbl⟩⟩ := h
  · rw [hdat] at hb; cases hb
  · rw [hb] at hdat; cases hdat
    have hlt : b < m.next := by
      by_contra hge
      rw [hfr b (by omega)] at hbl; cases hbl
    unfold VecMem.allocate at hm
    by_cases h0 : n = 0
    · rw [if_pos h0] at hm
      unfold VecMem.deallocate at hm
      rw [if_pos (by rw [hs]; exact List.length_pos_iff.mpr hl)] at hm
      simp only [free, hb, hbl, Res.ok_bind] at hm
      cases hm
      exact ⟨put_same _ _ _, hlt⟩
    · rw [if_neg h0, if_neg (by rw [hs]; exact hn)] at hm
      obtain ⟨⟨m1, p⟩, h1, h2⟩ := Res.bind_eq_ok.mp hm
      have hdead : Dead b m1 := by
        have hsm' : cfg.sz * n < 2 ^ 63 := hsm
        rw [wmul_eq (by rw [W_eq]; omega)] at h1
        have hn0 : cfg.sz * n ≠ 0 := Nat.mul_ne_zero (Nat.ne_of_gt hsz) h0
        simp only [realloc, hb, hbl, hd] at h1
        rw [if_neg hn0, if_neg (by simp; omega), if_neg (by simp)] at h1
        cases h1
        refine ⟨?_, Nat.lt_succ_of_lt hlt⟩
        show (Mem.put _ _ _).blocks b = none
        rw [put_ne _ _ (Nat.ne_of_lt hlt)]; exact put_same _ _ _
      dsimp only at h2
      split at h2
      · obtain ⟨m2, h3, h4⟩ := Res.bind_eq_ok.mp h2
        cases h4; exact hdead.loop (fun i m m' hd hs => hd.store hs) h3
      · split at h2
        · obtain ⟨m2, h3, h4⟩ := Res.bind_eq_ok.mp h2
          cases h4; exact hdead.loop (fun i m m' hd hs => hd.store hs) h3
        · cases h2; exact hdead

theorem deallocate_dead {m m' : Mem T} {v v' : VObj} {l : List T} {b : Nat} {r : Bool}
    (h : Owns m v l) (hfr : ∀ b, m.next ≤ b → m.blocks b = none) (hb : v.data = some b)
    (hm : deallocate m v = .ok (m', v', r)) : Dead b m' := by
  obtain ⟨hs, ⟨rfl, hdat⟩ | ⟨b', hl, hdat, hbl⟩⟩ := h
  · rw [hdat] at hb; cases hb
  · rw [hb] at hdat; cases hdat
    have hlt : b < m.next := by
      by_contra hge
      rw [hfr b (by omega)] at hbl; cases hbl
    unfold VecMem.deallocate at hm
    rw [if_pos (by rw [hs]; exact List.length_pos_iff.mpr hl)] at hm
    simp only [VecMem.free, hb, hbl, Res.ok_bind] at hm
    cases hm
    exact ⟨put_same _ _ _, hlt⟩

/-- The operation takes the block away from a pointer, when the allocator always moves. -/
theorem step_dead [Zero T] {cfg : Cfg} (hsz : 0 < cfg.sz) (hd : ∀ k, cfg.dec k = .move) {st st' : St T} {e e' : Env T}
    {o o' : Option (Obs T)} {op : Op T} {x b : Nat} {v : VObj} (h : Inv cfg.sz st e)
    (hs : specStep cfg.sz e op = some (e', o)) (hst : step cfg st op = .ok (st', o')) (hv : st.vars x = some v)
    (hb : v.data = some b) (how : owner e op x = none) : Dead b st'.mem := by
  have hex : e x ≠ none := fun hh => by rw [(h.same x).mpr hh] at hv; cases hv
  obtain ⟨l, hl⟩ := Option.ne_none_iff_exists'.mp hex
  have ho := h.owns x v l hv hl
  cases op with
  | destroy z =>
    simp only [owner] at how
    split at how <;> cases how
    rename_i hz; subst hz
    obtain ⟨w, h0, h1⟩ := Res.bind_eq_ok.mp hst
    rw [var_ok hv] at h0; cases h0
    obtain ⟨⟨m1, v1, r⟩, h2, h3⟩ := Res.bind_eq_ok.mp h1
    cases h3; exact deallocate_dead ho h.fresh hb h2
  | moveAssign z w =>
    simp only [owner] at how
    split at how
    · cases how
    · rename_i hzw
      split at how
      · rename_i hz; subst hz
        obtain ⟨u, h0, h1⟩ := Res.bind_eq_ok.mp hst
        rw [var_ok hv] at h0; cases h0
        obtain ⟨u', h2, h3⟩ := Res.bind_eq_ok.mp h1
        rw [if_pos hzw] at h3
        obtain ⟨⟨m1, v1, r⟩, h4, h5⟩ := Res.bind_eq_ok.mp h3
        cases h5; exact deallocate_dead ho h.fresh hb h4
      · split at how <;> cases how
  | copyAssign z w =>
    simp only [specStep] at hs
    split at hs <;> cases hs
    rename_i k0 k hz hw
    simp only [owner] at how
    split at how <;> cases how
    rename_i hc; obtain ⟨rfl, hlen⟩ := hc
    rw [Env.len_eq hw, Env.len_eq hl] at hlen
    obtain ⟨w', hw', how⟩ := h.var hw
    obtain ⟨u, h0, h1⟩ := Res.bind_eq_ok.mp hst
    rw [var_ok hv] at h0; cases h0
    obtain ⟨u', h2, h3⟩ := Res.bind_eq_ok.mp h1
    rw [var_ok hw'] at h2; cases h2
    have hzw : z ≠ w := by rintro rfl; rw [hw] at hl; cases hl; exact hlen rfl
    rw [if_pos hzw] at h3
    obtain ⟨⟨m1, v1, r⟩, h4, h5⟩ := Res.bind_eq_ok.mp h3
    obtain ⟨_, h6, h7⟩ := fillIf_bind h5
    cases h7
    exact (allocate_dead hd ho h.fresh hb hsz (by rw [how.1]; exact h.small _ _ hw) (by rw [how.1]; exact hlen) h4).fillIf h6
  | resize z n =>
    simp only [specStep] at hs
    split at hs
    · split at hs <;> cases hs
      rename_i k hz hsm
      simp only [owner] at how
      split at how <;> cases how
      rename_i hc; obtain ⟨rfl, hlen⟩ := hc
      rw [Env.len_eq hl] at hlen
      obtain ⟨u, h0, h1⟩ := Res.bind_eq_ok.mp hst
      rw [var_ok hv] at h0; cases h0
      obtain ⟨⟨m1, v1, r⟩, h4, h5⟩ := Res.bind_eq_ok.mp h1
      cases h5
      exact allocate_dead hd ho h.fresh hb hsz hsm hlen h4
    · cases hs
  | resizeLike z w =>
    simp only [specStep] at hs
    split at hs <;> cases hs
    rename_i k0 k hz hw
    simp only [owner] at how
    split at how <;> cases how
    rename_i hc; obtain ⟨rfl, hlen⟩ := hc
    rw [Env.len_eq hw, Env.len_eq hl] at hlen
    obtain ⟨w', hw', how⟩ := h.var hw
    obtain ⟨u, h0, h1⟩ := Res.bind_eq_ok.mp hst
    rw [var_ok hv] at h0; cases h0
    obtain ⟨u', h2, h3⟩ := Res.bind_eq_ok.mp h1
    rw [var_ok hw'] at h2; cases h2
    obtain ⟨⟨m1, v1, r⟩, h4, h5⟩ := Res.bind_eq_ok.mp h3
    cases h5
    exact allocate_dead hd ho h.fresh hb hsz (by rw [how.1]; exact h.small _ _ hw) (by rw [how.1]; exact hlen) h4
  | moveCtor z w => simp only [owner] at how; split at how <;> cases how
  | default _ => cases how
  | sized _ _ => cases how
  | filled _ _ _ => cases how
  | ofList _ _ => cases how
  | sizedList _ _ _ => cases how
  | copyCtor _ _ => cases how
  | write _ _ _ => cases how
  | read _ _ => cases how
  | size _ => cases how

end VecMem
end Malg
