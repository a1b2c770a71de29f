import Verif.Spec.MatPtr
import Verif.Lemmas.MatMem
import Verif.Lemmas.Pointers
/-!
# What operations on matrices do to blocks of memory
-/
namespace Malg
namespace MatMem
open VecMem (Dead St Mem VObj)
variable {T : Type}

/-- Only elements were written. -/
structure Touched (v v' : St T) : Prop where
  vars : v'.vars = v.vars
  calls : v'.mem.calls = v.mem.calls
  next : v'.mem.next = v.mem.next
  live : ∀ b, v.mem.blocks b = none → v'.mem.blocks b = none

theorem Touched.refl (v : St T) : Touched v v := ⟨rfl, rfl, rfl, fun _ h => h⟩

theorem Touched.trans {v v' v'' : St T} (h : Touched v v') (h' : Touched v' v'') : Touched v v'' :=
  ⟨h'.vars.trans h.vars, h'.calls.trans h.calls, h'.next.trans h.next, fun b hb => h'.live b (h.live b hb)⟩

theorem Touched.dead {v v' : St T} (h : Touched v v') {b : Nat} (hb : Dead b v.mem) : Dead b v'.mem :=
  ⟨h.live b hb.1, by rw [h.next]; exact hb.2⟩

/-- The vector `t` owns the block `b`. -/
structure Holds (t : Nat) (w : VObj) (b : Nat) (v : St T) : Prop where
  var : v.vars t = some w
  data : w.data = some b
  pos : 0 < w.size
  old : b < v.mem.next

theorem Holds.same {t : Nat} {w : VObj} {b : Nat} {v v' : St T} (h : Holds t w b v) (hs : Touched v v') : Holds t w b v' :=
  ⟨by rw [hs.vars]; exact h.var, h.data, h.pos, by rw [hs.next]; exact h.old⟩

theorem same_loop {σ : Type} {p : σ → St T} {lo hi : Nat} {s s' : σ} {f : Nat → σ → Res σ}
    (hf : ∀ i s s', f i s = .ok s' → Touched (p s) (p s')) (h : forRange lo hi s f = .ok s') : Touched (p s) (p s') := by
  by_cases hl : lo ≤ hi
  · exact forRange_inv_ok hl (fun _ u => Touched (p s) (p u)) (Touched.refl _) (fun i u u' _ _ hu hb => hu.trans (hf i u u' hb)) h
  · rw [forRange_ge (by omega)] at h; cases h; exact Touched.refl _

variable [Zero T] {cfg : VecMem.Cfg}

theorem write_same {v v' : St T} {x i : Nat} {a : T} (h : does cfg v (.write x i a) = .ok v') : Touched v v' := by
  obtain ⟨r, h1, h2⟩ := Res.bind_eq_ok.mp h
  cases h2
  obtain ⟨w, h3, h4⟩ := Res.bind_eq_ok.mp h1
  obtain ⟨m, h5, h6⟩ := Res.bind_eq_ok.mp h4
  cases h6
  unfold VecMem.store at h5
  split at h5
  · cases h5
  · split at h5
    · cases h5
    · rename_i _ c _ _ cells hc
      split at h5 <;> cases h5
      refine ⟨rfl, rfl, rfl, fun b hb => ?_⟩
      have hbc : b ≠ c := by rintro rfl; rw [hc] at hb; cases hb
      show (VecMem.Mem.put _ _ _).blocks b = none
      rw [VecMem.put_ne _ _ hbc]; exact hb

theorem fillFlat_same {v v' : St T} {x n m : Nat} {l : List T} (h : fillFlat cfg x n m l v = .ok v') : Touched v v' := by
  obtain ⟨⟨v1, i1⟩, h1, h2⟩ := Res.bind_eq_ok.mp h
  cases h2
  refine same_loop (p := Prod.fst) (fun r s s' hs => same_loop (p := Prod.fst) (fun c s s' hs => ?_) hs) h1
  obtain ⟨v, i⟩ := s
  obtain ⟨a, -, h3⟩ := Res.bind_eq_ok.mp hs
  obtain ⟨v2, h4, h5⟩ := Res.bind_eq_ok.mp h3
  cases h5
  exact write_same h4

theorem fillNested_same {v v' : St T} {x n m : Nat} {l : List (List T)} (h : fillNested cfg x n m l v = .ok v') : Touched v v' := by
  refine same_loop (p := id) (fun r s s' hs => ?_) h
  obtain ⟨row, -, h1⟩ := Res.bind_eq_ok.mp hs
  refine same_loop (p := id) (fun c s s' hs => ?_) h1
  obtain ⟨a, -, h2⟩ := Res.bind_eq_ok.mp hs
  exact write_same h2

theorem copyLin_same {v v' : St T} {x y k : Nat} (h : copyLin cfg x y k v = .ok v') : Touched v v' := by
  refine same_loop (p := id) (fun r s s' hs => ?_) h
  obtain ⟨a, -, h2⟩ := Res.bind_eq_ok.mp hs
  exact write_same h2

theorem copyAt_same {v v' : St T} {x cx y cy n m : Nat} (h : copyAt cfg x cx y cy n m v = .ok v') : Touched v v' := by
  refine same_loop (p := id) (fun r s s' hs => same_loop (p := id) (fun c s s' hs => ?_) hs) h
  obtain ⟨a, -, h2⟩ := Res.bind_eq_ok.mp hs
  exact write_same h2

theorem swaps_same {v v' : St T} {x m r1 c1 r2 c2 : Nat} (h : swaps cfg x m r1 c1 r2 c2 v = .ok v') : Touched v v' := by
  obtain ⟨a, -, h1⟩ := Res.bind_eq_ok.mp h
  obtain ⟨b, -, h2⟩ := Res.bind_eq_ok.mp h1
  obtain ⟨v1, h3, h4⟩ := Res.bind_eq_ok.mp h2
  exact (write_same h3).trans (write_same h4)

/-! ## Calls of the allocator -/

omit [Zero T] in
theorem store_calls {m m' : Mem T} {p : Option Nat} {i : Nat} {a : T} (h : VecMem.store m p i a = .ok m') :
    m'.calls = m.calls ∧ m'.next = m.next := by
  unfold VecMem.store at h
  split at h
  · cases h
  · split at h
    · cases h
    · split at h <;> cases h; exact ⟨rfl, rfl⟩

omit [Zero T] in
theorem loop_calls {lo hi : Nat} {m m' : Mem T} {f : Nat → Mem T → Res (Mem T)}
    (hf : ∀ i m m', f i m = .ok m' → m'.calls = m.calls ∧ m'.next = m.next) (h : forRange lo hi m f = .ok m') :
    m'.calls = m.calls ∧ m'.next = m.next := by
  by_cases hl : lo ≤ hi
  · refine forRange_inv_ok hl (fun _ u => u.calls = m.calls ∧ u.next = m.next) ⟨rfl, rfl⟩ (fun i u u' _ _ hu hb => ?_) h
    obtain ⟨h1, h2⟩ := hf i u u' hb
    exact ⟨h1.trans hu.1, h2.trans hu.2⟩
  · rw [forRange_ge (by omega)] at h; cases h; exact ⟨rfl, rfl⟩

omit [Zero T] in
theorem deallocate_calls {m m' : Mem T} {v v' : VObj} {r : Bool} (h : VecMem.deallocate m v = .ok (m', v', r)) :
    m'.calls = m.calls ∧ m'.next = m.next := by
  unfold VecMem.deallocate at h
  split at h
  · obtain ⟨m1, h1, h2⟩ := Res.bind_eq_ok.mp h
    cases h2
    unfold VecMem.free at h1
    split at h1
    · cases h1; exact ⟨rfl, rfl⟩
    · split at h1 <;> cases h1; exact ⟨rfl, rfl⟩
  · cases h; exact ⟨rfl, rfl⟩

omit [Zero T] in
theorem realloc_calls {m m' : Mem T} {p q : Option Nat} {n : Nat} (h : VecMem.realloc cfg m p n = .ok (m', q)) :
    m'.calls = m.calls + 1 ∧ m.next ≤ m'.next := by
  unfold VecMem.realloc at h
  dsimp only at h
  split at h
  · split at h <;> cases h
    · exact ⟨rfl, le_rfl⟩
    · exact ⟨rfl, Nat.le_succ _⟩
  · split at h
    · cases h
    · split at h
      · cases h; exact ⟨rfl, le_rfl⟩
      · split at h
        · cases h; exact ⟨rfl, le_rfl⟩
        · split at h <;> cases h
          · exact ⟨rfl, le_rfl⟩
          · exact ⟨rfl, Nat.le_succ _⟩

theorem allocate_calls {m m' : Mem T} {v v' : VObj} {n : Nat} {r : Bool} (h : VecMem.allocate cfg m v n = .ok (m', v', r)) :
    m'.calls = m.calls + VecMem.request v.size n ∧ m.next ≤ m'.next := by
  unfold VecMem.allocate at h
  unfold VecMem.request
  split at h
  · rename_i h0
    rw [if_pos (.inl h0)]
    obtain ⟨h1, h2⟩ := deallocate_calls h
    exact ⟨h1, h2.ge⟩
  · rename_i h0
    split at h
    · rename_i h1
      cases h; rw [if_pos (.inr h1)]; exact ⟨rfl, le_rfl⟩
    · rename_i h1
      rw [if_neg (by tauto)]
      obtain ⟨⟨m1, p⟩, h2, h3⟩ := Res.bind_eq_ok.mp h
      obtain ⟨h4, h5⟩ := realloc_calls h2
      dsimp only at h3
      split at h3
      · obtain ⟨m2, h6, h7⟩ := Res.bind_eq_ok.mp h3
        cases h7
        obtain ⟨h8, h9⟩ := loop_calls (fun i m m' hs => store_calls hs) h6
        exact ⟨h8.trans h4, h9 ▸ h5⟩
      · split at h3
        · obtain ⟨m2, h6, h7⟩ := Res.bind_eq_ok.mp h3
          cases h7
          obtain ⟨h8, h9⟩ := loop_calls (fun i m m' hs => store_calls hs) h6
          exact ⟨h8.trans h4, h9 ▸ h5⟩
        · cases h3; exact ⟨h4, h5⟩

/-- A change of size gives the old block back: always if nothing is left, otherwise if the allocator moves. -/
theorem allocate_leaves (hsz : 0 < cfg.sz) {m m' : Mem T} {v v' : VObj} {n b : Nat} {r : Bool} (hb : v.data = some b) (hs : 0 < v.size)
    (hlt : b < m.next) (hne : n ≠ v.size) (hn : n = 0 ∨ VecMem.Small cfg.sz n ∧ ∀ k, cfg.dec k = .move)
    (h : VecMem.allocate cfg m v n = .ok (m', v', r)) : Dead b m' := by
  unfold VecMem.allocate at h
  split at h
  · unfold VecMem.deallocate at h
    rw [if_pos hs] at h
    obtain ⟨m1, h1, h2⟩ := Res.bind_eq_ok.mp h
    cases h2
    unfold VecMem.free at h1
    rw [hb] at h1
    dsimp only at h1
    split at h1 <;> cases h1
    exact ⟨VecMem.put_same _ _ _, hlt⟩
  · rename_i h0
    obtain ⟨hsm, hd⟩ := hn.resolve_left h0
    obtain ⟨⟨m1, p⟩, h1, h2⟩ := Res.bind_eq_ok.mp h
    have hdead : Dead b m1 := by
      have hsm' : cfg.sz * n < 2 ^ 63 := hsm
      rw [wmul_eq (by rw [W_eq]; omega)] at h1
      have hn0 : cfg.sz * n ≠ 0 := Nat.mul_ne_zero (Nat.ne_of_gt hsz) h0
      simp only [VecMem.realloc, hb, hd] at h1
      split at h1
      · cases h1
      · rw [if_neg hn0, if_neg (by simp; omega), if_neg (by simp)] at h1
        cases h1
        refine ⟨?_, Nat.lt_succ_of_lt hlt⟩
        show (Mem.put _ _ _).blocks b = none
        rw [VecMem.put_ne _ _ (Nat.ne_of_lt hlt)]; exact VecMem.put_same _ _ _
    dsimp only at h2
    split at h2
    · obtain ⟨m2, h3, h4⟩ := Res.bind_eq_ok.mp h2
      cases h4; exact hdead.loop (fun i m m' hd hs => hd.store hs) h3
    · split at h2
      · obtain ⟨m2, h3, h4⟩ := Res.bind_eq_ok.mp h2
        cases h4; exact hdead.loop (fun i m m' hd hs => hd.store hs) h3
      · cases h2; exact hdead

/-! ## The members of `Vector` -/

omit [Zero T] in
theorem Holds.off {t z : Nat} {w : VObj} {b : Nat} {v : St T} {m : Mem T} {u : Option VObj} (h : Holds t w b v) (hz : t ≠ z)
    (hm : v.mem.next ≤ m.next) : Holds t w b (v.setVar z m u) :=
  ⟨by rw [VecMem.setVar_ne _ _ _ hz]; exact h.var, h.data, h.pos, h.old.trans_le hm⟩

/-- A new vector of `n` elements in the variable `z`. -/
structure Fresh (v v' : St T) (z n : Nat) : Prop where
  calls : v'.mem.calls = v.mem.calls + MatHist.atMostOne n
  keeps : ∀ t w b, t ≠ z → Holds t w b v → Holds t w b v'

theorem request_zero (n : Nat) : VecMem.request 0 n = MatHist.atMostOne n := by
  unfold VecMem.request MatHist.atMostOne
  simp

theorem sized_fresh {v v' : St T} {z n : Nat} (h : does cfg v (.sized z n) = .ok v') : Fresh v v' z n := by
  obtain ⟨r, h1, h2⟩ := Res.bind_eq_ok.mp h
  cases h2
  obtain ⟨⟨m, u, q⟩, h3, h4⟩ := Res.bind_eq_ok.mp h1
  cases h4
  obtain ⟨h5, h6⟩ := allocate_calls h3
  exact ⟨by rw [← request_zero]; exact h5, fun t w b ht hh => hh.off ht h6⟩

theorem filled_fresh {v v' : St T} {z n : Nat} {a : T} (h : does cfg v (.filled z n a) = .ok v') : Fresh v v' z n := by
  obtain ⟨r, h1, h2⟩ := Res.bind_eq_ok.mp h
  cases h2
  obtain ⟨⟨m, u, q⟩, h3, h4⟩ := Res.bind_eq_ok.mp h1
  obtain ⟨m2, h7, h8⟩ := VecMem.fillIf_bind h4
  cases h8
  obtain ⟨h5, h6⟩ := allocate_calls h3
  have h9 : m2.calls = m.calls ∧ m2.next = m.next := by
    split at h7
    · refine loop_calls (fun i m m' hs => ?_) h7
      obtain ⟨x, -, h2⟩ := Res.bind_eq_ok.mp hs
      exact store_calls h2
    · cases h7; exact ⟨rfl, rfl⟩
  exact ⟨by rw [← request_zero, ← h5]; exact h9.1, fun t w b ht hh => hh.off ht (h9.2 ▸ h6)⟩

/-- The destructor of the vector `z`. -/
theorem destroy_effect {v v' : St T} {z : Nat} (h : does cfg v (.destroy z) = .ok v') :
    v'.mem.calls = v.mem.calls ∧ (∀ t w b, t ≠ z → Holds t w b v → Holds t w b v') ∧ ∀ w b, Holds z w b v → Dead b v'.mem := by
  obtain ⟨r, h1, h2⟩ := Res.bind_eq_ok.mp h
  cases h2
  obtain ⟨u, h3, h4⟩ := Res.bind_eq_ok.mp h1
  obtain ⟨⟨m, u', q⟩, h5, h6⟩ := Res.bind_eq_ok.mp h4
  cases h6
  obtain ⟨h7, h8⟩ := deallocate_calls h5
  refine ⟨h7, fun t w b ht hh => hh.off ht h8.ge, fun w b hh => ?_⟩
  rw [VecMem.var_ok hh.var] at h3; cases h3
  unfold VecMem.deallocate at h5
  rw [if_pos hh.pos] at h5
  obtain ⟨m1, k1, k2⟩ := Res.bind_eq_ok.mp h5
  cases k2
  unfold VecMem.free at k1
  rw [hh.data] at k1
  dsimp only at k1
  split at k1 <;> cases k1
  exact ⟨VecMem.put_same _ _ _, hh.old⟩

/-- The move of the vector `y` into the vector `z`. -/
theorem moveAssign_effect {v v' : St T} {z y : Nat} (hzy : z ≠ y) (h : does cfg v (.moveAssign z y) = .ok v') :
    v'.mem.calls = v.mem.calls ∧ (∀ t w b, t ≠ z → t ≠ y → Holds t w b v → Holds t w b v') ∧
      (∀ w b, Holds z w b v → Dead b v'.mem) ∧ ∀ w b, Holds y w b v → Holds z w b v' := by
  obtain ⟨r, h1, h2⟩ := Res.bind_eq_ok.mp h
  cases h2
  obtain ⟨u, h3, h4⟩ := Res.bind_eq_ok.mp h1
  obtain ⟨u', h3', h4'⟩ := Res.bind_eq_ok.mp h4
  rw [if_pos hzy] at h4'
  obtain ⟨⟨m, u'', q⟩, h5, h6⟩ := Res.bind_eq_ok.mp h4'
  cases h6
  obtain ⟨h7, h8⟩ := deallocate_calls h5
  refine ⟨h7, fun t w b ht ht' hh => ?_, fun w b hh => ?_, fun w b hh => ?_⟩
  · exact ⟨by dsimp only; rw [VecMem.setVar_ne _ _ _ ht', VecMem.setVar_ne _ _ _ ht]; exact hh.var, hh.data, hh.pos, hh.old.trans_le h8.ge⟩
  · rw [VecMem.var_ok hh.var] at h3; cases h3
    unfold VecMem.deallocate at h5
    rw [if_pos hh.pos] at h5
    obtain ⟨m1, k1, k2⟩ := Res.bind_eq_ok.mp h5
    cases k2
    unfold VecMem.free at k1
    rw [hh.data] at k1
    dsimp only at k1
    split at k1 <;> cases k1
    exact ⟨VecMem.put_same _ _ _, hh.old⟩
  · rw [VecMem.var_ok hh.var] at h3'; cases h3'
    exact ⟨by dsimp only; rw [VecMem.setVar_ne _ _ _ hzy, VecMem.setVar_same], hh.data, hh.pos, hh.old.trans_le h8.ge⟩

/-- The move construction of the vector `z` from the vector `y`. -/
theorem moveCtor_effect {v v' : St T} {z y : Nat} (hzy : z ≠ y) (h : does cfg v (.moveCtor z y) = .ok v') :
    v'.mem.calls = v.mem.calls ∧ (∀ t w b, t ≠ z → t ≠ y → Holds t w b v → Holds t w b v') ∧ ∀ w b, Holds y w b v → Holds z w b v' := by
  obtain ⟨r, h1, h2⟩ := Res.bind_eq_ok.mp h
  cases h2
  obtain ⟨u', h3', h4'⟩ := Res.bind_eq_ok.mp h1
  obtain ⟨⟨m, u'', q⟩, h5, h6⟩ := Res.bind_eq_ok.mp h4'
  cases h6
  obtain ⟨h7, h8⟩ := deallocate_calls h5
  refine ⟨h7, fun t w b ht ht' hh => ?_, fun w b hh => ?_⟩
  · exact ⟨by dsimp only; rw [VecMem.setVar_ne _ _ _ ht', VecMem.setVar_ne _ _ _ ht]; exact hh.var, hh.data, hh.pos, hh.old.trans_le h8.ge⟩
  · rw [VecMem.var_ok hh.var] at h3'; cases h3'
    exact ⟨by dsimp only; rw [VecMem.setVar_ne _ _ _ hzy, VecMem.setVar_same], hh.data, hh.pos, hh.old.trans_le h8.ge⟩

/-- `resize` of the vector `z`. -/
theorem resize_effect (hsz : 0 < cfg.sz) {v v' : St T} {z n : Nat} (h : does cfg v (.resize z n) = .ok v') :
    (∃ u, v.vars z = some u ∧ v'.mem.calls = v.mem.calls + VecMem.request u.size n) ∧
      (∀ t w b, t ≠ z → Holds t w b v → Holds t w b v') ∧
      ∀ w b, Holds z w b v → n ≠ w.size → (n = 0 ∨ VecMem.Small cfg.sz n ∧ ∀ k, cfg.dec k = .move) → Dead b v'.mem := by
  obtain ⟨r, h1, h2⟩ := Res.bind_eq_ok.mp h
  cases h2
  obtain ⟨u, h3, h4⟩ := Res.bind_eq_ok.mp h1
  obtain ⟨⟨m, u', q⟩, h5, h6⟩ := Res.bind_eq_ok.mp h4
  cases h6
  obtain ⟨h7, h8⟩ := allocate_calls h5
  refine ⟨⟨u, ?_, h7⟩, fun t w b ht hh => hh.off ht h8, fun w b hh hne hn => ?_⟩
  · unfold VecMem.St.var at h3
    split at h3 <;> cases h3
    assumption
  · rw [VecMem.var_ok hh.var] at h3; cases h3
    exact allocate_leaves hsz hh.data hh.pos hh.old hne hn h5

omit [Zero T] in
theorem does_dead [Zero T] {v v' : St T} {op : VecMem.Op T} {b : Nat} (h : does cfg v op = .ok v') (hb : Dead b v.mem) : Dead b v'.mem := by
  obtain ⟨⟨v1, o⟩, h1, h2⟩ := Res.bind_eq_ok.mp h
  cases h2
  exact hb.step h1

/-- `_data = Vector<T>(k)`. -/
theorem renew_effect {v v' : St T} {z k : Nat} (hz : z ≠ 0) (h : renew cfg z k v = .ok v') :
    v'.mem.calls = v.mem.calls + MatHist.atMostOne k ∧ (∀ t w b, t ≠ z → t ≠ 0 → Holds t w b v → Holds t w b v') ∧
      ∀ w b, Holds z w b v → Dead b v'.mem := by
  obtain ⟨v1, h1, h2⟩ := Res.bind_eq_ok.mp h
  obtain ⟨v2, h3, h4⟩ := Res.bind_eq_ok.mp h2
  have e1 := sized_fresh h1
  obtain ⟨a1, a2, a3, -⟩ := moveAssign_effect hz h3
  obtain ⟨b1, b2, -⟩ := destroy_effect h4
  exact ⟨by rw [b1, a1, e1.calls], fun t w b ht ht0 hh => b2 t w b ht0 (a2 t w b ht ht0 (e1.keeps t w b ht0 hh)),
    fun w b hh => does_dead h4 (a3 w b (e1.keeps z w b hz hh))⟩

/-- `resize` of a matrix. -/
theorem resizes_effect (hsz : 0 < cfg.sz) {v v' : St T} {z r c : Nat} {d : Nat × Nat} (hz : z ≠ 0) (hf : Fits r c)
    (hu : ∀ u, v.vars z = some u → d.2 = c → d.1 ≠ r → u.size = d.1 * d.2 ∨ u.size = 0)
    (h : resizes cfg z d r c v = .ok v') :
    v'.mem.calls = v.mem.calls + (if d = (r, c) then 0 else MatHist.atMostOne (r * c)) ∧
      (∀ t w b, t ≠ z → t ≠ 0 → Holds t w b v → Holds t w b v') ∧
      (d = (r, c) → v' = v) ∧
      ∀ w b, Holds z w b v → d ≠ (r, c) → (d.2 = c → r ≠ 0 → VecMem.Small cfg.sz (r * c) ∧ ∀ k, cfg.dec k = .move) → Dead b v'.mem := by
  unfold resizes at h
  split at h
  · rename_i hd
    cases h
    have hd' : d = (r, c) := Prod.ext hd.1 hd.2
    rw [if_pos hd']
    exact ⟨rfl, fun _ _ _ _ _ hh => hh, fun _ => rfl, fun _ _ _ hne => absurd hd' hne⟩
  · rename_i hd
    have hd' : d ≠ (r, c) := by rintro rfl; exact hd ⟨rfl, rfl⟩
    rw [if_neg hd']
    split at h
    · rename_i hc
      rw [hf.wmul] at h
      obtain ⟨⟨u, e1, e2⟩, e3, e4⟩ := resize_effect hsz h
      have hr : d.1 ≠ r := fun hr => hd ⟨hr, hc⟩
      refine ⟨?_, fun t w b ht _ hh => e3 t w b ht hh, fun hh => absurd hh hd', fun w b hh _ hn => ?_⟩
      · rw [e2]
        unfold VecMem.request MatHist.atMostOne
        have : r * c = 0 ∨ r * c = u.size ↔ r * c = 0 := by
          refine ⟨fun h => h.elim id fun h => ?_, .inl⟩
          rcases hu u e1 hc hr with h1 | h1
          · rw [h1, hc] at h
            rcases Nat.eq_zero_or_pos c with h2 | h2
            · rw [h2, Nat.mul_zero]
            · exact absurd (Nat.eq_of_mul_eq_mul_right h2 h).symm hr
          · omega
        simp only [this]
      · refine e4 w b hh ?_ ?_
        · intro h
          have hp := hh.pos
          rcases hu w hh.var hc hr with h1 | h1
          · rw [h1, hc] at h hp
            exact hr (Nat.eq_of_mul_eq_mul_right (Nat.pos_of_mul_pos_left hp) h).symm
          · omega
        · by_cases hr0 : r = 0
          · left; rw [hr0, Nat.zero_mul]
          · exact .inr (hn hc hr0)
    · rename_i hc
      rw [hf.wmul] at h
      obtain ⟨v1, h1, h2⟩ := Res.bind_eq_ok.mp h
      obtain ⟨v2, h3, h4⟩ := Res.bind_eq_ok.mp h2
      obtain ⟨v3, h5, h6⟩ := Res.bind_eq_ok.mp h4
      have e1 := filled_fresh h1
      have e2 := copyAt_same h3
      obtain ⟨a1, a2, a3, -⟩ := moveAssign_effect hz h5
      obtain ⟨b1, b2, -⟩ := destroy_effect h6
      exact ⟨by rw [b1, a1, e2.calls, e1.calls],
        fun t w b ht ht0 hh => b2 t w b ht0 (a2 t w b ht ht0 ((e1.keeps t w b ht0 hh).same e2)),
        fun hh => absurd hh hd', fun w b hh _ _ => does_dead h6 (a3 w b ((e1.keeps z w b hz hh).same e2))⟩

end MatMem
end Malg

namespace Malg
namespace MatMem
open VecMem (Dead St Mem VObj)
open MatHist (Fate fate cost)
variable {T : Type} [Zero T] {cfg : VecMem.Cfg}

/-- What became of the block `b` of `x`. -/
def Became (cfg : VecMem.Cfg) (w : VObj) (b : Nat) (v : St T) : Fate → Prop
  | .into y => Holds (y + 1) w b v
  | .gone => Dead b v.mem
  | .depends => (∀ k, cfg.dec k = .move) → Dead b v.mem

omit [Zero T] in
/-- The shapes that the program sees. -/
theorem dim_env {h : MSt T} {st : MatHist.Vars T} {s : MatHist.Env T} (hsim : Sim cfg h st) (hr : MatHist.Rel st s) {y : Nat} {d : Nat × Nat}
    (hd : h.dim y = .ok d) : d = s.dims y ∧ Fits d.1 d.2 ∧ ∃ u l, h.vec.vars (y + 1) = some u ∧ envOf st (y + 1) = some l ∧ (u.size = d.1 * d.2 ∨ u.size = 0) := by
  unfold MSt.dim at hd
  split at hd
  · cases hd
  rename_i d' hd'
  cases hd
  rw [hsim.dims] at hd'
  cases hA : st y with
  | none => rw [hA] at hd'; cases hd'
  | some A =>
    rw [hA] at hd'; cases hd'
    have he : envOf st (y + 1) = some A.data := by simp [envOf, hA]
    obtain ⟨u, hu, ho⟩ := hsim.inv.var he
    cases hv : s y with
    | none => rw [(hr.same y).mpr hv] at hA; cases hA
    | some val =>
      have hI := hr.val y A val hA hv
      cases val with
      | table n m e =>
        have h1 : A.data.length = n * m := by rw [hI.1]; exact ofFn_data_length _ _ _
        have h2 : (A.rows, A.cols) = (n, m) := by rw [hI.1]; rfl
        refine ⟨by simp [MatHist.Env.dims, hv, MatHist.Val.dims, h2], ?_, u, _, hu, he, .inl ?_⟩
        · dsimp only; rw [(Prod.mk.inj h2).1, (Prod.mk.inj h2).2]; exact hI.2
        · dsimp only; rw [(Prod.mk.inj h2).1, (Prod.mk.inj h2).2, ho.1, h1]
      | moved n m =>
        have h2 : (A.rows, A.cols) = (n, m) := by rw [hI.1]
        refine ⟨by simp [MatHist.Env.dims, hv, MatHist.Val.dims, h2], ?_, u, _, hu, he, .inr ?_⟩
        · dsimp only; rw [(Prod.mk.inj h2).1, (Prod.mk.inj h2).2]; exact hI.2.1
        · rw [ho.1, hI.1]; rfl

omit [Zero T] in
theorem holds_exists {h : MSt T} {st : MatHist.Vars T} {s : MatHist.Env T} (hsim : Sim cfg h st) (hr : MatHist.Rel st s) {x : Nat} {w : VObj} {b : Nat}
    (hh : Holds (x + 1) w b h.vec) : s x ≠ none := by
  intro hx
  have := (hsim.inv.same (x + 1)).mpr (by simp [envOf, (hr.same x).mpr hx])
  rw [hh.var] at this; cases this

theorem default_effect {v v' : St T} {z : Nat} (h : does cfg v (.default z) = .ok v') :
    v'.mem.calls = v.mem.calls ∧ ∀ t w b, t ≠ z → Holds t w b v → Holds t w b v' := by
  obtain ⟨r, h1, h2⟩ := Res.bind_eq_ok.mp h
  cases h2; cases h1
  exact ⟨rfl, fun t w b ht hh => hh.off ht le_rfl⟩

theorem vget_zero {α : Type} {l : List α} {a d : α} (h : vget l 0 = .ok a) : l.getD 0 d = a := by
  unfold vget at h
  split at h
  · rename_i h1; cases h; rw [List.getD_eq_getElem?_getD, h1]; rfl
  · cases h

/-- One operation: how often it calls the allocator, and what it does to the block of a matrix. -/
theorem mstep_effect (hsz : 0 < cfg.sz) {h h' : MSt T} {st : MatHist.Vars T} {s s' : MatHist.Env T} {op : MatHist.Op T}
    {o o' : Option (MatHist.Obs T)} (hsim : Sim cfg h st) (hr : MatHist.Rel st s) (hs : MatHist.specStep s op = some (s', o))
    (hk : ∀ x n m e, s' x = some (.table n m e) → VecMem.Small cfg.sz (n * m)) (hst : mstep cfg h op = .ok (h', o')) :
    h'.vec.mem.calls = h.vec.mem.calls + cost s op ∧
      ∀ x w b, Holds (x + 1) w b h.vec → Became cfg w b h'.vec (fate s op x) := by
  have hex : ∀ {x w b}, Holds (x + 1) w b h.vec → s x ≠ none := fun hh => holds_exists hsim hr hh
  have off : ∀ {x z w b}, Holds (x + 1) w b h.vec → s z = none → x + 1 ≠ z + 1 := fun hh hz e => by
    have : _ = _ := Nat.succ.inj e
    subst this; exact hex hh hz
  cases op with
  | default z =>
    simp only [MatHist.specStep] at hs
    split at hs
    case isFalse => cases hs
    rename_i hz
    obtain ⟨v, h1, h2⟩ := Res.bind_eq_ok.mp hst
    cases h2
    obtain ⟨e1, e2⟩ := default_effect h1
    exact ⟨e1, fun x w b hh => e2 _ w b (off hh hz) hh⟩
  | new z n m a =>
    simp only [MatHist.specStep] at hs
    split at hs
    case isFalse => cases hs
    rename_i hz
    obtain ⟨v, h1, h2⟩ := Res.bind_eq_ok.mp hst
    cases h2
    rw [hz.2.wmul] at h1
    have e := filled_fresh h1
    exact ⟨e.calls, fun x w b hh => e.keeps _ w b (off hh hz.1) hh⟩
  | flat z n m l =>
    simp only [MatHist.specStep] at hs
    split at hs
    case isFalse => cases hs
    rename_i hz
    obtain ⟨v, h1, h2⟩ := Res.bind_eq_ok.mp hst
    obtain ⟨v2, h3, h4⟩ := Res.bind_eq_ok.mp h2
    cases h4
    rw [hz.2.1.wmul] at h1
    have e := sized_fresh h1
    have f := fillFlat_same h3
    exact ⟨f.calls.trans e.calls, fun x w b hh => (e.keeps _ w b (off hh hz.1) hh).same f⟩
  | nested z l =>
    simp only [MatHist.specStep] at hs
    split at hs
    case isFalse => cases hs
    rename_i hz
    obtain ⟨v, h1, h2⟩ := Res.bind_eq_ok.mp hst
    obtain ⟨e1, e2⟩ := default_effect h1
    by_cases hl : l = [] ∨ MatHist.width l = 0
    · have hc : cost s (.nested z l) = 0 := by
        rcases hl with rfl | hl
        · rfl
        · simp [cost, hl, MatHist.atMostOne]
      have hfin : ∀ v', does cfg v (.destroy (z + 1)) = .ok v' → v'.mem.calls = h.vec.mem.calls + cost s (.nested z l) ∧
          ∀ x w b, Holds (x + 1) w b h.vec → Holds (x + 1) w b v' := by
        intro v' hv'
        obtain ⟨f1, f2, -⟩ := destroy_effect hv'
        exact ⟨by rw [f1, e1, hc, Nat.add_zero], fun x w b hh => f2 _ w b (off hh hz) (e2 _ w b (off hh hz) hh)⟩
      split at h2
      · obtain ⟨v', h3, h4⟩ := Res.bind_eq_ok.mp h2
        cases h4
        exact hfin v' h3
      · rename_i hl0
        obtain ⟨first, h5, h6⟩ := Res.bind_eq_ok.mp h2
        have hw : first.length = 0 := by
          rw [← vget_zero (d := []) h5]
          exact hl.resolve_left fun h => hl0 (by rw [h]; rfl)
        rw [if_pos hw] at h6
        obtain ⟨v', h3, h4⟩ := Res.bind_eq_ok.mp h6
        cases h4
        exact hfin v' h3
    · rw [if_neg hl] at hs
      split at hs
      case isFalse => cases hs
      rename_i hf
      rw [not_or] at hl
      rw [if_neg (fun h => hl.1 (List.length_eq_zero_iff.mp h))] at h2
      obtain ⟨first, h5, h6⟩ := Res.bind_eq_ok.mp h2
      have hw : first.length = MatHist.width l := by rw [← vget_zero (d := []) h5]; rfl
      rw [if_neg (by rw [hw]; exact hl.2)] at h6
      obtain ⟨v2, h7, h8⟩ := Res.bind_eq_ok.mp h6
      obtain ⟨v3, h9, h10⟩ := Res.bind_eq_ok.mp h8
      cases h10
      rw [hw, hf.1.wmul] at h7
      obtain ⟨f1, f2, -⟩ := renew_effect (Nat.succ_ne_zero z) h7
      have g := fillNested_same h9
      exact ⟨by rw [show (h.put z v3 _).vec = v3 from rfl, g.calls, f1, e1]; rfl,
        fun x w b hh => (f2 _ w b (off hh hz) (Nat.succ_ne_zero x) (e2 _ w b (off hh hz) hh)).same g⟩
  | copy z y =>
    have hz : s z = none := by
      simp only [MatHist.specStep] at hs
      split at hs
      · assumption
      · cases hs
    obtain ⟨d, h0, h1⟩ := Res.bind_eq_ok.mp hst
    obtain ⟨rfl, hf, -⟩ := dim_env hsim hr h0
    obtain ⟨v, h2, h3⟩ := Res.bind_eq_ok.mp h1
    obtain ⟨v2, h4, h5⟩ := Res.bind_eq_ok.mp h3
    cases h5
    rw [hf.wmul] at h2
    have e := sized_fresh h2
    have f := copyLin_same h4
    exact ⟨f.calls.trans e.calls, fun x w b hh => (e.keeps _ w b (off hh hz) hh).same f⟩
  | move z y =>
    have hz : s z = none ∧ s y ≠ none := by
      simp only [MatHist.specStep] at hs
      split at hs
      · rename_i h1 h2; exact ⟨h1, by rw [h2]; simp⟩
      · cases hs
    have hzy : z + 1 ≠ y + 1 := fun e => by
      have : z = y := Nat.succ.inj e
      subst this; exact hz.2 hz.1
    obtain ⟨d, h0, h1⟩ := Res.bind_eq_ok.mp hst
    obtain ⟨v, h2, h3⟩ := Res.bind_eq_ok.mp h1
    cases h3
    obtain ⟨e1, e2, e3⟩ := moveCtor_effect hzy h2
    refine ⟨e1, fun x w b hh => ?_⟩
    simp only [fate]
    split
    · rename_i hy; subst hy
      exact e3 w b hh
    · rename_i hy
      exact e2 _ w b (off hh hz.1) (by omega) hh
  | destroy z =>
    obtain ⟨v, h2, h3⟩ := Res.bind_eq_ok.mp hst
    cases h3
    obtain ⟨e1, e2, e3⟩ := destroy_effect h2
    refine ⟨e1, fun x w b hh => ?_⟩
    simp only [fate]
    split
    · rename_i hy; subst hy
      exact e3 w b hh
    · exact e2 _ w b (by omega) hh
  | assign z y =>
    obtain ⟨dz, h0, h1⟩ := Res.bind_eq_ok.mp hst
    obtain ⟨d, h2, h3⟩ := Res.bind_eq_ok.mp h1
    obtain ⟨rfl, hf, -⟩ := dim_env hsim hr h2
    split at h3
    · rename_i hyz
      cases h3
      subst hyz
      refine ⟨by simp [cost], fun x w b hh => ?_⟩
      simp only [fate]
      rw [if_neg (fun hc => hc.2.1 hc.1)]
      exact hh
    · rename_i hyz
      rw [hf.wmul] at h3
      split at h3
      · rename_i hpos
        obtain ⟨v, h4, h5⟩ := Res.bind_eq_ok.mp h3
        obtain ⟨v2, h6, h7⟩ := Res.bind_eq_ok.mp h5
        cases h7
        obtain ⟨e1, e2, e3⟩ := renew_effect (Nat.succ_ne_zero z) h4
        have f := copyAt_same h6
        refine ⟨?_, fun x w b hh => ?_⟩
        · rw [show (h.put z v2 _).vec = v2 from rfl, f.calls, e1]
          simp only [cost]; rw [if_neg (Ne.symm hyz)]; rfl
        · simp only [fate]
          split
          · rename_i hc
            obtain ⟨rfl, -⟩ := hc
            exact f.dead (e3 w b hh)
          · rename_i hc
            have hzx : z ≠ x := by
              rintro rfl
              exact hc ⟨rfl, hyz, Nat.ne_of_gt hpos⟩
            exact (e2 _ w b (by omega) (Nat.succ_ne_zero x) hh).same f
      · rename_i hpos
        cases h3
        have h0 : s.count y = 0 := by unfold MatHist.Env.count; omega
        refine ⟨?_, fun x w b hh => ?_⟩
        · simp [cost, h0, MatHist.atMostOne]
        · simp only [fate]
          rw [if_neg (fun hc => hc.2.2 h0)]
          exact hh
  | moveAssign z y =>
    obtain ⟨dz, h0, h1⟩ := Res.bind_eq_ok.mp hst
    obtain ⟨d, h2, h3⟩ := Res.bind_eq_ok.mp h1
    obtain ⟨rfl, hf, -⟩ := dim_env hsim hr h2
    rw [hf.wmul] at h3
    split at h3
    · rename_i hc
      obtain ⟨v, h4, h5⟩ := Res.bind_eq_ok.mp h3
      cases h5
      obtain ⟨e1, e2, e3, e4⟩ := moveAssign_effect (show z + 1 ≠ y + 1 by omega) h4
      refine ⟨e1, fun x w b hh => ?_⟩
      simp only [fate]
      rw [if_neg (by rintro (h | h); exacts [hc.1 h.symm, absurd h (Nat.ne_of_gt hc.2)])]
      split
      · rename_i hy; subst hy
        exact e3 w b hh
      · split
        · rename_i hy; subst hy
          exact e4 w b hh
        · exact e2 _ w b (by omega) (by omega) hh
    · rename_i hc
      cases h3
      refine ⟨rfl, fun x w b hh => ?_⟩
      simp only [fate]
      rw [if_pos ?_]
      · exact hh
      · by_contra hn
        rw [not_or] at hn
        exact hc ⟨fun h => hn.1 h.symm, Nat.pos_of_ne_zero hn.2⟩
  | assignNested z l =>
    obtain ⟨dz, h0, h1⟩ := Res.bind_eq_ok.mp hst
    by_cases hl : l = [] ∨ MatHist.width l = 0
    · have hh' : h' = h := by
        split at h1
        · cases h1; rfl
        · rename_i hl0
          obtain ⟨first, h5, h6⟩ := Res.bind_eq_ok.mp h1
          have hw : first.length = 0 := by
            rw [← vget_zero (d := []) h5]
            exact hl.resolve_left fun h => hl0 (by rw [h]; rfl)
          rw [if_pos hw] at h6
          cases h6; rfl
      subst hh'
      refine ⟨?_, fun x w b hh => ?_⟩
      · rcases hl with rfl | hl
        · rfl
        · simp [cost, hl, MatHist.atMostOne]
      · simp only [fate]
        rw [if_neg (by tauto)]
        exact hh
    · have hs' := hs
      simp only [MatHist.specStep] at hs'
      split at hs'
      case h_2 => cases hs'
      rw [if_neg hl] at hs'
      split at hs'
      case isFalse => cases hs'
      rename_i hf
      rw [not_or] at hl
      rw [if_neg (fun h => hl.1 (List.length_eq_zero_iff.mp h))] at h1
      obtain ⟨first, h5, h6⟩ := Res.bind_eq_ok.mp h1
      have hw : first.length = MatHist.width l := by rw [← vget_zero (d := []) h5]; rfl
      rw [if_neg (by rw [hw]; exact hl.2)] at h6
      obtain ⟨v2, h7, h8⟩ := Res.bind_eq_ok.mp h6
      obtain ⟨v3, h9, h10⟩ := Res.bind_eq_ok.mp h8
      cases h10
      rw [hw, hf.1.wmul] at h7
      obtain ⟨f1, f2, f3⟩ := renew_effect (Nat.succ_ne_zero z) h7
      have g := fillNested_same h9
      refine ⟨by rw [show (h.put z v3 _).vec = v3 from rfl, g.calls, f1]; rfl, fun x w b hh => ?_⟩
      simp only [fate]
      split
      · rename_i hc
        obtain ⟨rfl, -⟩ := hc
        exact g.dead (f3 w b hh)
      · rename_i hc
        have hzx : z ≠ x := by
          rintro rfl
          exact hc ⟨rfl, hl⟩
        exact (f2 _ w b (by omega) (Nat.succ_ne_zero x) hh).same g
  | reshape z n m =>
    obtain ⟨dz, h0, h1⟩ := Res.bind_eq_ok.mp hst
    split at h1 <;> cases h1
    · exact ⟨rfl, fun x w b hh => hh⟩
    · exact ⟨rfl, fun x w b hh => hh⟩
  | resize z n m =>
    obtain ⟨d, h0, h1⟩ := Res.bind_eq_ok.mp hst
    obtain ⟨rfl, hf, u, l, hu, -, hul⟩ := dim_env hsim hr h0
    obtain ⟨v, h2, h3⟩ := Res.bind_eq_ok.mp h1
    cases h3
    have hfit : Fits n m := by
      simp only [MatHist.specStep] at hs
      split at hs
      · assumption
      · cases hs
    obtain ⟨e1, e2, e3, e4⟩ := resizes_effect hsz (Nat.succ_ne_zero z) hfit
      (fun u' hu' _ _ => by rw [hu] at hu'; cases hu'; exact hul) h2
    refine ⟨e1, fun x w b hh => ?_⟩
    simp only [fate]
    split
    · rename_i hc
      obtain ⟨rfl, hne⟩ := hc
      have hsm : n * m ≠ 0 → VecMem.Small cfg.sz (n * m) := by
        intro _
        simp only [MatHist.specStep, if_pos hfit] at hs
        split at hs
        · cases hs
          exact hk z n m _ (by simp only [MatHist.Env.set, if_true]; rfl)
        · rename_i n' m' hz
          split at hs
          · rename_i hc
            exact absurd (by simp [MatHist.Env.dims, hz, MatHist.Val.dims, hc.1, hc.2]) hne
          · split at hs
            · cases hs
              exact hk z n m _ (by simp only [MatHist.Env.set, if_true]; rfl)
            · cases hs
        · cases hs
      split
      · rename_i hc
        intro hmv
        refine e4 w b hh hne fun _ _ => ⟨?_, hmv⟩
        by_cases h0 : n * m = 0
        · rw [h0]; unfold VecMem.Small; simp
        · exact hsm h0
      · rename_i hc
        exact e4 w b hh hne fun h1 h2 => absurd ⟨h1, h2⟩ hc
    · rename_i hc
      by_cases hzx : z = x
      · subst hzx
        have : s.dims z = (n, m) := by
          by_contra hne
          exact hc ⟨rfl, hne⟩
        rw [show (h.put z v _).vec = v from rfl, e3 this]
        exact hh
      · exact e2 _ w b (by omega) (Nat.succ_ne_zero x) hh
  | removeRow z p =>
    obtain ⟨d, h0, h1⟩ := Res.bind_eq_ok.mp hst
    obtain ⟨rfl, hf, u, l, hu, -, hul⟩ := dim_env hsim hr h0
    split at h1
    · rename_i hp
      cases h1
      refine ⟨by simp [cost, Nat.not_lt.mpr hp], fun x w b hh => ?_⟩
      simp only [fate]
      rw [if_neg ?_]
      · exact hh
      · rintro ⟨rfl, h⟩; exact absurd h (Nat.not_lt.mpr hp)
    · rename_i hp
      have hp' : p < (s.dims z).1 := Nat.lt_of_not_le hp
      obtain ⟨v1, h2, h3⟩ := Res.bind_eq_ok.mp h1
      obtain ⟨v2, h4, h5⟩ := Res.bind_eq_ok.mp h3
      cases h5
      have g : Touched h.vec v1 := same_loop (p := id) (fun r s s' hs => same_loop (p := id) (fun c s s' hs => swaps_same hs) hs) h2
      have hw : wsub (s.dims z).1 1 = (s.dims z).1 - 1 := wsub_eq (by omega) hf.2.1
      rw [hw] at h4
      have hfit : Fits ((s.dims z).1 - 1) (s.dims z).2 :=
        hf.mono (Nat.sub_le _ _) le_rfl
      obtain ⟨e1, e2, e3, e4⟩ := resizes_effect hsz (Nat.succ_ne_zero z) hfit
        (fun u' hu' _ _ => by rw [g.vars, hu] at hu'; cases hu'; exact hul) h4
      have hne : s.dims z ≠ ((s.dims z).1 - 1, (s.dims z).2) := by
        intro h
        have := congrArg Prod.fst h
        dsimp only at this
        omega
      rw [if_neg hne] at e1
      refine ⟨?_, fun x w b hh => ?_⟩
      · rw [show (h.put z v2 _).vec = v2 from rfl, e1, g.calls]
        simp only [cost]; rw [if_pos hp']
      · simp only [fate]
        split
        · rename_i hc
          obtain ⟨rfl, -⟩ := hc
          have hsm : VecMem.Small cfg.sz (((s.dims z).1 - 1) * (s.dims z).2) := by
            simp only [MatHist.specStep] at hs
            split at hs
            case h_2 => cases hs
            rename_i n' m' e' hz
            have hdz : s.dims z = (n', m') := by simp [MatHist.Env.dims, hz, MatHist.Val.dims]
            rw [hdz] at hp' ⊢
            rw [if_pos hp'] at hs
            cases hs
            exact hk z _ _ _ (by simp only [MatHist.Env.set, if_true]; rfl)
          split
          · intro hmv
            exact e4 w b (hh.same g) hne fun _ _ => ⟨hsm, hmv⟩
          · rename_i h1
            exact e4 w b (hh.same g) hne fun _ h => absurd (by omega) h
        · rename_i hc
          have hzx : z ≠ x := by
            rintro rfl
            exact hc ⟨rfl, hp'⟩
          exact e2 _ w b (by omega) (Nat.succ_ne_zero x) (hh.same g)
  | removeCol z p =>
    obtain ⟨d, h0, h1⟩ := Res.bind_eq_ok.mp hst
    obtain ⟨rfl, hf, u, l, hu, -, hul⟩ := dim_env hsim hr h0
    split at h1
    · rename_i hp
      cases h1
      refine ⟨by simp [cost, Nat.not_lt.mpr hp], fun x w b hh => ?_⟩
      simp only [fate]
      rw [if_neg ?_]
      · exact hh
      · rintro ⟨rfl, h⟩; exact absurd h (Nat.not_lt.mpr hp)
    · rename_i hp
      have hp' : p < (s.dims z).2 := Nat.lt_of_not_le hp
      obtain ⟨v1, h2, h3⟩ := Res.bind_eq_ok.mp h1
      obtain ⟨v2, h4, h5⟩ := Res.bind_eq_ok.mp h3
      cases h5
      have g : Touched h.vec v1 := same_loop (p := id) (fun r s s' hs => same_loop (p := id) (fun c s s' hs => swaps_same hs) hs) h2
      have hw : wsub (s.dims z).2 1 = (s.dims z).2 - 1 := wsub_eq (by omega) hf.2.2
      rw [hw] at h4
      have hfit : Fits (s.dims z).1 ((s.dims z).2 - 1) :=
        hf.mono le_rfl (Nat.sub_le _ _)
      obtain ⟨e1, e2, e3, e4⟩ := resizes_effect hsz (Nat.succ_ne_zero z) hfit
        (fun u' hu' hc _ => by omega) h4
      have hne : s.dims z ≠ ((s.dims z).1, (s.dims z).2 - 1) := by
        intro h
        have := congrArg Prod.snd h
        dsimp only at this
        omega
      rw [if_neg hne] at e1
      refine ⟨?_, fun x w b hh => ?_⟩
      · rw [show (h.put z v2 _).vec = v2 from rfl, e1, g.calls]
        simp only [cost]; rw [if_pos hp']
      · simp only [fate]
        split
        · rename_i hc
          obtain ⟨rfl, -⟩ := hc
          exact e4 w b (hh.same g) hne fun h _ => by omega
        · rename_i hc
          have hzx : z ≠ x := by
            rintro rfl
            exact hc ⟨rfl, hp'⟩
          exact e2 _ w b (by omega) (Nat.succ_ne_zero x) (hh.same g)
  | set z r c a =>
    obtain ⟨d, h0, h1⟩ := Res.bind_eq_ok.mp hst
    obtain ⟨v, h2, h3⟩ := Res.bind_eq_ok.mp h1
    cases h3
    have g := write_same h2
    exact ⟨g.calls, fun x w b hh => hh.same g⟩
  | setLin z i a =>
    obtain ⟨d, h0, h1⟩ := Res.bind_eq_ok.mp hst
    obtain ⟨v, h2, h3⟩ := Res.bind_eq_ok.mp h1
    cases h3
    have g := write_same h2
    exact ⟨g.calls, fun x w b hh => hh.same g⟩
  | get z r c =>
    obtain ⟨d, h0, h1⟩ := Res.bind_eq_ok.mp hst
    obtain ⟨v, h2, h3⟩ := Res.bind_eq_ok.mp h1
    cases h3
    exact ⟨rfl, fun x w b hh => hh⟩
  | getLin z i =>
    obtain ⟨v, h2, h3⟩ := Res.bind_eq_ok.mp hst
    cases h3
    exact ⟨rfl, fun x w b hh => hh⟩
  | shape z =>
    obtain ⟨d, h0, h1⟩ := Res.bind_eq_ok.mp hst
    cases h1
    exact ⟨rfl, fun x w b hh => hh⟩

/-- A block that was given back stays so. -/
theorem mstep_dead {h h' : MSt T} {op : MatHist.Op T} {o : Option (MatHist.Obs T)} {b : Nat} (hb : Dead b h.vec.mem)
    (hst : mstep cfg h op = .ok (h', o)) : Dead b h'.vec.mem := by
  have hrenew : ∀ {v v' : St T} {z k}, Dead b v.mem → renew cfg z k v = .ok v' → Dead b v'.mem := by
    intro v v' z k hb h
    obtain ⟨v1, h1, h2⟩ := Res.bind_eq_ok.mp h
    obtain ⟨v2, h3, h4⟩ := Res.bind_eq_ok.mp h2
    exact does_dead h4 (does_dead h3 (does_dead h1 hb))
  have hresizes : ∀ {v v' : St T} {z d r c}, Dead b v.mem → resizes cfg z d r c v = .ok v' → Dead b v'.mem := by
    intro v v' z d r c hb h
    unfold resizes at h
    split at h
    · cases h; exact hb
    · split at h
      · exact does_dead h hb
      · obtain ⟨v1, h1, h2⟩ := Res.bind_eq_ok.mp h
        obtain ⟨v2, h3, h4⟩ := Res.bind_eq_ok.mp h2
        obtain ⟨v3, h5, h6⟩ := Res.bind_eq_ok.mp h4
        exact does_dead h6 (does_dead h5 ((copyAt_same h3).dead (does_dead h1 hb)))
  cases op with
  | default z =>
    obtain ⟨v, h1, h2⟩ := Res.bind_eq_ok.mp hst
    cases h2; exact does_dead h1 hb
  | new z n m a =>
    obtain ⟨v, h1, h2⟩ := Res.bind_eq_ok.mp hst
    cases h2; exact does_dead h1 hb
  | flat z n m l =>
    obtain ⟨v, h1, h2⟩ := Res.bind_eq_ok.mp hst
    obtain ⟨v2, h3, h4⟩ := Res.bind_eq_ok.mp h2
    cases h4; exact (fillFlat_same h3).dead (does_dead h1 hb)
  | nested z l =>
    obtain ⟨v, h1, h2⟩ := Res.bind_eq_ok.mp hst
    have hv := does_dead h1 hb
    split at h2
    · obtain ⟨v', h3, h4⟩ := Res.bind_eq_ok.mp h2
      cases h4; exact does_dead h3 hv
    · obtain ⟨first, -, h6⟩ := Res.bind_eq_ok.mp h2
      split at h6
      · obtain ⟨v', h3, h4⟩ := Res.bind_eq_ok.mp h6
        cases h4; exact does_dead h3 hv
      · obtain ⟨v2, h7, h8⟩ := Res.bind_eq_ok.mp h6
        obtain ⟨v3, h9, h10⟩ := Res.bind_eq_ok.mp h8
        cases h10; exact (fillNested_same h9).dead (hrenew hv h7)
  | copy z y =>
    obtain ⟨d, -, h1⟩ := Res.bind_eq_ok.mp hst
    obtain ⟨v, h2, h3⟩ := Res.bind_eq_ok.mp h1
    obtain ⟨v2, h4, h5⟩ := Res.bind_eq_ok.mp h3
    cases h5; exact (copyLin_same h4).dead (does_dead h2 hb)
  | move z y =>
    obtain ⟨d, -, h1⟩ := Res.bind_eq_ok.mp hst
    obtain ⟨v, h2, h3⟩ := Res.bind_eq_ok.mp h1
    cases h3; exact does_dead h2 hb
  | destroy z =>
    obtain ⟨v, h2, h3⟩ := Res.bind_eq_ok.mp hst
    cases h3; exact does_dead h2 hb
  | assign z y =>
    obtain ⟨dz, -, h1⟩ := Res.bind_eq_ok.mp hst
    obtain ⟨d, -, h3⟩ := Res.bind_eq_ok.mp h1
    split at h3
    · cases h3; exact hb
    · split at h3
      · obtain ⟨v, h4, h5⟩ := Res.bind_eq_ok.mp h3
        obtain ⟨v2, h6, h7⟩ := Res.bind_eq_ok.mp h5
        cases h7; exact (copyAt_same h6).dead (hrenew hb h4)
      · cases h3; exact hb
  | moveAssign z y =>
    obtain ⟨dz, -, h1⟩ := Res.bind_eq_ok.mp hst
    obtain ⟨d, -, h3⟩ := Res.bind_eq_ok.mp h1
    split at h3
    · obtain ⟨v, h4, h5⟩ := Res.bind_eq_ok.mp h3
      cases h5; exact does_dead h4 hb
    · cases h3; exact hb
  | assignNested z l =>
    obtain ⟨dz, -, h1⟩ := Res.bind_eq_ok.mp hst
    split at h1
    · cases h1; exact hb
    · obtain ⟨first, -, h6⟩ := Res.bind_eq_ok.mp h1
      split at h6
      · cases h6; exact hb
      · obtain ⟨v2, h7, h8⟩ := Res.bind_eq_ok.mp h6
        obtain ⟨v3, h9, h10⟩ := Res.bind_eq_ok.mp h8
        cases h10; exact (fillNested_same h9).dead (hrenew hb h7)
  | reshape z n m =>
    obtain ⟨dz, -, h1⟩ := Res.bind_eq_ok.mp hst
    split at h1 <;> cases h1 <;> exact hb
  | resize z n m =>
    obtain ⟨d, -, h1⟩ := Res.bind_eq_ok.mp hst
    obtain ⟨v, h2, h3⟩ := Res.bind_eq_ok.mp h1
    cases h3; exact hresizes hb h2
  | removeRow z p =>
    obtain ⟨d, -, h1⟩ := Res.bind_eq_ok.mp hst
    split at h1
    · cases h1; exact hb
    · obtain ⟨v1, h2, h3⟩ := Res.bind_eq_ok.mp h1
      obtain ⟨v2, h4, h5⟩ := Res.bind_eq_ok.mp h3
      cases h5
      have g : Touched h.vec v1 := same_loop (p := id) (fun r s s' hs => same_loop (p := id) (fun c s s' hs => swaps_same hs) hs) h2
      exact hresizes (g.dead hb) h4
  | removeCol z p =>
    obtain ⟨d, -, h1⟩ := Res.bind_eq_ok.mp hst
    split at h1
    · cases h1; exact hb
    · obtain ⟨v1, h2, h3⟩ := Res.bind_eq_ok.mp h1
      obtain ⟨v2, h4, h5⟩ := Res.bind_eq_ok.mp h3
      cases h5
      have g : Touched h.vec v1 := same_loop (p := id) (fun r s s' hs => same_loop (p := id) (fun c s s' hs => swaps_same hs) hs) h2
      exact hresizes (g.dead hb) h4
  | set z r c a =>
    obtain ⟨d, -, h1⟩ := Res.bind_eq_ok.mp hst
    obtain ⟨v, h2, h3⟩ := Res.bind_eq_ok.mp h1
    cases h3; exact does_dead h2 hb
  | setLin z i a =>
    obtain ⟨d, -, h1⟩ := Res.bind_eq_ok.mp hst
    obtain ⟨v, h2, h3⟩ := Res.bind_eq_ok.mp h1
    cases h3; exact does_dead h2 hb
  | get z r c =>
    obtain ⟨d, -, h1⟩ := Res.bind_eq_ok.mp hst
    obtain ⟨v, -, h3⟩ := Res.bind_eq_ok.mp h1
    cases h3; exact hb
  | getLin z i =>
    obtain ⟨v, -, h3⟩ := Res.bind_eq_ok.mp hst
    cases h3; exact hb
  | shape z =>
    obtain ⟨d, -, h1⟩ := Res.bind_eq_ok.mp hst
    cases h1; exact hb

theorem mrun_dead {ops : List (MatHist.Op T)} : ∀ {h h' : MSt T} {os : List (MatHist.Obs T)} {b : Nat}, Dead b h.vec.mem →
    mrun cfg h ops = .ok (h', os) → Dead b h'.vec.mem := by
  induction ops with
  | nil => intro h h' os b hb hr; cases hr; exact hb
  | cons op ops ih =>
    intro h h' os b hb hr
    obtain ⟨⟨h1, o⟩, e1, e2⟩ := Res.bind_eq_ok.mp hr
    obtain ⟨⟨h2, os2⟩, e3, e4⟩ := Res.bind_eq_ok.mp e2
    cases e4
    exact ih (mstep_dead hb e1) e3

/-- Every program. -/
theorem mrun_effect (hsz : 0 < cfg.sz) (hd : ∀ k, cfg.dec k ≠ .fail) {ops : List (MatHist.Op T)} : ∀ {h : MSt T} {st : MatHist.Vars T}
    {s s' : MatHist.Env T} {os : List (MatHist.Obs T)}, Sim cfg h st → MatHist.Rel st s → MatHist.specRun s ops = some (s', os) →
    (∀ pre suf s' os, ops = pre ++ suf → MatHist.specRun s pre = some (s', os) →
      ∀ x n m e, s' x = some (.table n m e) → VecMem.Small cfg.sz (n * m)) →
    ∃ h' st', mrun cfg h ops = .ok (h', os) ∧ Sim cfg h' st' ∧ MatHist.Rel st' s' ∧
      h'.vec.mem.calls = h.vec.mem.calls + MatHist.totalCost s ops ∧
      ∀ x w b, Holds (x + 1) w b h.vec → Became cfg w b h'.vec (MatHist.fateRun s x ops) := by
  induction ops with
  | nil =>
    intro h st s s' os h1 h2 h3 _
    simp only [MatHist.specRun] at h3; cases h3
    exact ⟨h, st, rfl, h1, h2, rfl, fun x w b hh => hh⟩
  | cons op ops ih =>
    intro h st s s' os h1 h2 h3 h4
    simp only [MatHist.specRun] at h3
    split at h3
    · cases h3
    rename_i s1 o hs1
    split at h3
    · cases h3
    rename_i s2 os2 hs2
    cases h3
    obtain ⟨st1, hv, hr1⟩ := MatHist.step_spec h2 hs1
    have hk1 := h4 [op] ops s1 o.toList rfl (by simp only [MatHist.specRun, hs1, List.append_nil])
    obtain ⟨h', e1, i1⟩ := mstep_sim hsz hd h1 h2 hs1 hk1 hv
    obtain ⟨c1, f1⟩ := mstep_effect hsz h1 h2 hs1 hk1 e1
    obtain ⟨h'', st'', e2, i2, i3, c2, f2⟩ := ih i1 hr1 hs2 fun pre suf s3 os3 e hs3 =>
      h4 (op :: pre) suf s3 (o.toList ++ os3) (by rw [e]; rfl) (by simp only [MatHist.specRun, hs1, hs3])
    refine ⟨h'', st'', by simp only [mrun]; rw [e1, Res.ok_bind, e2]; rfl, i2, i3, ?_, fun x w b hh => ?_⟩
    · simp only [MatHist.totalCost, hs1]; rw [c2, c1, Nat.add_assoc]
    · have := f1 x w b hh
      simp only [MatHist.fateRun, hs1]
      revert this
      cases fate s op x with
      | into y => exact fun this => f2 y w b this
      | gone => exact fun this => mrun_dead this e2
      | depends => exact fun this hmv => mrun_dead (this hmv) e2

end MatMem
end Malg
