import Verif.Lemmas.MatPtr
/-!
# Programs on the heap depend only on the decisions they ask for
-/
namespace Malg
namespace MatMem
open VecMem (Cfg St Mem VObj)
variable {T α β : Type}

/-- The result depends only on the decisions of the allocator that are asked for. -/
def OnlyAsks (F : Cfg → Res β) (c0 : Nat) (cnt : β → Nat) : Prop :=
  ∀ cfg cfg' b, cfg'.sz = cfg.sz → F cfg = .ok b → c0 ≤ cnt b ∧ ((∀ k, c0 ≤ k → k < cnt b → cfg'.dec k = cfg.dec k) → F cfg' = .ok b)

theorem OnlyAsks.pure {b : β} {cnt : β → Nat} : OnlyAsks (fun _ => .ok b) (cnt b) cnt := by
  intro cfg cfg' b' _ h; cases h; exact ⟨le_rfl, fun _ => rfl⟩

theorem OnlyAsks.bind {F : Cfg → Res α} {G : Cfg → α → Res β} {c0 : Nat} {cnt : α → Nat} {cnt' : β → Nat} (hF : OnlyAsks F c0 cnt)
    (hG : ∀ a, OnlyAsks (fun cfg => G cfg a) (cnt a) cnt') : OnlyAsks (fun cfg => F cfg >>= G cfg) c0 cnt' := by
  intro cfg cfg' b hsz h
  obtain ⟨a, h1, h2⟩ := Res.bind_eq_ok.mp h
  obtain ⟨e1, e2⟩ := hF cfg cfg' a hsz h1
  obtain ⟨e3, e4⟩ := hG a cfg cfg' b hsz h2
  exact ⟨e1.trans e3, fun hk => Res.bind_eq_ok.mpr
    ⟨a, e2 fun k h1 h2 => hk k h1 (h2.trans_le e3), e4 fun k h1 h2 => hk k (e1.trans h1) h2⟩⟩

theorem OnlyAsks.skip {r : Res α} {G : Cfg → α → Res β} {c0 : Nat} {cnt : β → Nat} (hG : ∀ a, OnlyAsks (fun cfg => G cfg a) c0 cnt) :
    OnlyAsks (fun cfg => r >>= G cfg) c0 cnt := by
  intro cfg cfg' b hsz h
  obtain ⟨a, h1, h2⟩ := Res.bind_eq_ok.mp h
  obtain ⟨e3, e4⟩ := hG a cfg cfg' b hsz h2
  exact ⟨e3, fun hk => Res.bind_eq_ok.mpr ⟨a, h1, e4 hk⟩⟩

theorem OnlyAsks.const {r : Res β} {c0 : Nat} {cnt : β → Nat} (hr : ∀ b, r = .ok b → c0 ≤ cnt b) : OnlyAsks (fun _ => r) c0 cnt :=
  fun _ _ b _ h => ⟨hr b h, fun _ => h⟩

theorem OnlyAsks.ite {p : Prop} [Decidable p] {F G : Cfg → Res β} {c0 : Nat} {cnt : β → Nat} (hF : OnlyAsks F c0 cnt) (hG : OnlyAsks G c0 cnt) :
    OnlyAsks (fun cfg => if p then F cfg else G cfg) c0 cnt := by
  by_cases h : p
  · simpa only [if_pos h] using hF
  · simpa only [if_neg h] using hG

theorem OnlyAsks.forRange {lo hi : Nat} {s : β} {f : Cfg → Nat → β → Res β} {cnt : β → Nat}
    (hf : ∀ i s, OnlyAsks (fun cfg => f cfg i s) (cnt s) cnt) : OnlyAsks (fun cfg => Malg.forRange lo hi s (f cfg)) (cnt s) cnt := by
  rcases Nat.le_total lo hi with h | h
  · induction hi, h using Nat.le_induction with
    | base => simpa only [forRange_ge le_rfl] using OnlyAsks.pure
    | succ n hn ih =>
      simp only [forRange_succ_last hn]
      exact ih.bind fun s => hf n s
  · simpa only [forRange_ge h] using OnlyAsks.pure

variable [Zero T]

theorem allocate_local (m : Mem T) (v : VObj) (n : Nat) : OnlyAsks (fun cfg => VecMem.allocate cfg m v n) m.calls (fun r => r.1.calls) := by
  intro cfg cfg' ⟨m', v', r⟩ hsz h
  obtain ⟨h1, -⟩ := allocate_calls h
  refine ⟨by dsimp only; omega, fun hk => ?_⟩
  rw [← h]
  unfold VecMem.allocate
  split
  · rfl
  split
  · rfl
  rename_i hn hv
  have h2 : m'.calls = m.calls + 1 := by rw [h1]; unfold VecMem.request; rw [if_neg (by tauto)]
  have h3 : cfg'.dec m.calls = cfg.dec m.calls := hk _ le_rfl (by dsimp only; omega)
  have h4 : VecMem.realloc cfg' m v.data (wmul cfg'.sz n) = VecMem.realloc cfg m v.data (wmul cfg.sz n) := by
    unfold VecMem.realloc
    rw [hsz, h3]
  beta_reduce
  rw [h4]

/-- The calls of the allocator that a state has made. -/
abbrev made (v : St T) : Nat := v.mem.calls

omit [Zero T] in
theorem fill_calls {m m' : Mem T} {v : VObj} {value : Mem T → Nat → Res T} (h : VecMem.fill m v value = .ok m') : m'.calls = m.calls := by
  refine (loop_calls (fun i m m' hs => ?_) h).1
  obtain ⟨x, -, h2⟩ := Res.bind_eq_ok.mp hs
  exact store_calls h2

/-- The operations that the matrices use. -/
theorem does_local (v : St T) (op : VecMem.Op T)
    (hop : match op with | .default _ | .sized _ _ | .filled _ _ _ | .moveCtor _ _ | .moveAssign _ _ | .destroy _ | .resize _ _ | .write _ _ _ => True | _ => False) :
    OnlyAsks (fun cfg => does cfg v op) v.mem.calls made := by
  have hsame : (∀ cfg v', does cfg v op = .ok v' → v.mem.calls ≤ v'.mem.calls) → (∀ cfg cfg', does cfg' v op = does cfg v op) →
      OnlyAsks (fun cfg => does cfg v op) v.mem.calls made :=
    fun h1 h2 cfg cfg' b _ h => ⟨h1 cfg b h, fun _ => (h2 cfg cfg').trans h⟩
  cases op with
  | default z => exact hsame (fun cfg v' h => (default_effect h).1.ge) fun _ _ => rfl
  | destroy z => exact hsame (fun cfg v' h => (destroy_effect h).1.ge) fun _ _ => rfl
  | write z i a => exact hsame (fun cfg v' h => (write_same h).calls.ge) fun _ _ => rfl
  | moveAssign z y =>
    by_cases hzy : z = y
    · refine hsame (fun cfg v' h => ?_) fun _ _ => rfl
      obtain ⟨r, h1, h2⟩ := Res.bind_eq_ok.mp h
      cases h2
      obtain ⟨u, h3, h4⟩ := Res.bind_eq_ok.mp h1
      obtain ⟨u', h3', h4'⟩ := Res.bind_eq_ok.mp h4
      rw [if_neg (by simpa using hzy)] at h4'
      cases h4'; exact le_rfl
    · exact hsame (fun cfg v' h => (moveAssign_effect hzy h).1.ge) fun _ _ => rfl
  | moveCtor z y =>
    refine hsame (fun cfg v' h => ?_) fun _ _ => rfl
    obtain ⟨r, h1, h2⟩ := Res.bind_eq_ok.mp h
    cases h2
    obtain ⟨u', h3', h4'⟩ := Res.bind_eq_ok.mp h1
    obtain ⟨⟨m, u'', q⟩, h5, h6⟩ := Res.bind_eq_ok.mp h4'
    cases h6
    exact (deallocate_calls h5).1.ge
  | sized z n =>
    simp only [does, VecMem.step]
    refine OnlyAsks.bind (cnt := fun r => r.1.mem.calls) ?_ fun r => OnlyAsks.pure (cnt := made)
    exact (allocate_local v.mem ⟨none, 0⟩ n).bind fun r => OnlyAsks.pure (b := (v.setVar z r.1 (some r.2.1), none)) (cnt := fun r => r.1.mem.calls)
  | filled z n a =>
    simp only [does, VecMem.step]
    refine OnlyAsks.bind (cnt := fun r => r.1.mem.calls) ?_ fun r => OnlyAsks.pure (cnt := made)
    refine (allocate_local v.mem ⟨none, 0⟩ n).bind fun r => OnlyAsks.const fun b hb => ?_
    obtain ⟨m', h1, h2⟩ := VecMem.fillIf_bind hb
    cases h2
    split at h1
    · exact (fill_calls h1).ge
    · cases h1; exact le_rfl
  | resize z n =>
    simp only [does, VecMem.step]
    refine OnlyAsks.bind (cnt := fun r => r.1.mem.calls) ?_ fun r => OnlyAsks.pure (cnt := made)
    refine OnlyAsks.skip fun u => ?_
    exact (allocate_local v.mem u n).bind fun r => OnlyAsks.pure (b := (v.setVar z r.1 (some r.2.1), none)) (cnt := fun r => r.1.mem.calls)
  | ofList _ _ => exact hop.elim
  | sizedList _ _ _ => exact hop.elim
  | copyCtor _ _ => exact hop.elim
  | copyAssign _ _ => exact hop.elim
  | resizeLike _ _ => exact hop.elim
  | read _ _ => exact hop.elim
  | size _ => exact hop.elim

theorem fillFlat_local (x n m : Nat) (l : List T) (v : St T) : OnlyAsks (fun cfg => fillFlat cfg x n m l v) v.mem.calls made := by
  unfold fillFlat
  refine OnlyAsks.bind (cnt := fun s => s.1.mem.calls) ?_ fun s => OnlyAsks.pure (cnt := made)
  refine OnlyAsks.forRange (cnt := fun s : St T × Nat => s.1.mem.calls) (s := (v, 0)) fun r s => OnlyAsks.forRange (cnt := fun s : St T × Nat => s.1.mem.calls) fun c s => ?_
  refine OnlyAsks.skip fun a => ?_
  exact (does_local s.1 (.write x (pos m r c) a) trivial).bind fun v' => OnlyAsks.pure (b := (v', s.2 + 1)) (cnt := fun s : St T × Nat => s.1.mem.calls)

theorem fillNested_local (x n m : Nat) (l : List (List T)) (v : St T) : OnlyAsks (fun cfg => fillNested cfg x n m l v) v.mem.calls made := by
  unfold fillNested
  refine OnlyAsks.forRange (cnt := made) fun r s => OnlyAsks.skip fun row => OnlyAsks.forRange (cnt := made) fun c s => OnlyAsks.skip fun a => ?_
  exact does_local s (.write x (pos m r c) a) trivial

theorem copyLin_local (x y k : Nat) (v : St T) : OnlyAsks (fun cfg => copyLin cfg x y k v) v.mem.calls made := by
  unfold copyLin
  refine OnlyAsks.forRange (cnt := made) fun r s => ?_
  exact OnlyAsks.skip (r := reads ⟨0, fun _ => .move⟩ s y r) fun a => does_local s (.write x r a) trivial

theorem copyAt_local (x cx y cy n m : Nat) (v : St T) : OnlyAsks (fun cfg => copyAt cfg x cx y cy n m v) v.mem.calls made := by
  unfold copyAt
  refine OnlyAsks.forRange (cnt := made) fun r s => OnlyAsks.forRange (cnt := made) fun c s => ?_
  exact OnlyAsks.skip (r := reads ⟨0, fun _ => .move⟩ s y (pos cy r c)) fun a => does_local s (.write x (pos cx r c) a) trivial

theorem swaps_local (x m r1 c1 r2 c2 : Nat) (v : St T) : OnlyAsks (fun cfg => swaps cfg x m r1 c1 r2 c2 v) v.mem.calls made := by
  unfold swaps
  refine OnlyAsks.skip (r := reads ⟨0, fun _ => .move⟩ v x (pos m r1 c1)) fun a => ?_
  refine OnlyAsks.skip (r := reads ⟨0, fun _ => .move⟩ v x (pos m r2 c2)) fun b => ?_
  exact (does_local v (.write x (pos m r1 c1) b) trivial).bind fun v => does_local v (.write x (pos m r2 c2) a) trivial

theorem renew_local (x k : Nat) (v : St T) : OnlyAsks (fun cfg => renew cfg x k v) v.mem.calls made := by
  unfold renew
  exact (does_local v (.sized 0 k) trivial).bind fun v => (does_local v (.moveAssign x 0) trivial).bind fun v => does_local v (.destroy 0) trivial

theorem resizes_local (x : Nat) (d : Nat × Nat) (r c : Nat) (v : St T) : OnlyAsks (fun cfg => resizes cfg x d r c v) v.mem.calls made := by
  unfold resizes
  refine OnlyAsks.ite (OnlyAsks.pure (cnt := made)) (OnlyAsks.ite (does_local v (.resize x (wmul r c)) trivial) ?_)
  exact (does_local v (.filled 0 (wmul r c) 0) trivial).bind fun v => (copyAt_local _ _ _ _ _ _ v).bind fun v =>
    (does_local v (.moveAssign x 0) trivial).bind fun v => does_local v (.destroy 0) trivial

/-- One operation. -/
theorem mstep_local (h : MSt T) (op : MatHist.Op T) : OnlyAsks (fun cfg => mstep cfg h op) h.vec.mem.calls (fun r => r.1.vec.mem.calls) := by
  have done : ∀ x (v : St T) d (o : Option (MatHist.Obs T)),
      OnlyAsks (fun _ => (.ok (h.put x v d, o) : Res _)) v.mem.calls (fun r => r.1.vec.mem.calls) := fun x v d o => OnlyAsks.pure (b := (h.put x v d, o)) (cnt := fun r => r.1.vec.mem.calls)
  have same : ∀ (o : Option (MatHist.Obs T)), OnlyAsks (fun _ => (.ok (h, o) : Res _)) h.vec.mem.calls (fun r => r.1.vec.mem.calls) :=
    fun o => OnlyAsks.pure (b := (h, o)) (cnt := fun r => r.1.vec.mem.calls)
  cases op with
  | default z => exact (does_local h.vec (.default (z + 1)) trivial).bind fun v => done z v _ _
  | new z n m a => exact (does_local h.vec (.filled (z + 1) (wmul n m) a) trivial).bind fun v => done z v _ _
  | flat z n m l =>
    exact (does_local h.vec (.sized (z + 1) (wmul n m)) trivial).bind fun v => (fillFlat_local _ _ _ _ v).bind fun v => done z v _ _
  | nested z l =>
    have hthrow : ∀ v : St T, OnlyAsks (fun cfg => does cfg v (.destroy (z + 1)) >>= fun v => (.ok (⟨v, h.dims⟩, some (.threw .invalidArgument)) : Res (MSt T × Option (MatHist.Obs T))))
        v.mem.calls (fun r => r.1.vec.mem.calls) := fun v =>
      (does_local v (.destroy (z + 1)) trivial).bind fun v => OnlyAsks.pure (b := ((⟨v, h.dims⟩, some (.threw .invalidArgument)) : MSt T × Option (MatHist.Obs T))) (cnt := fun r => r.1.vec.mem.calls)
    refine (does_local h.vec (.default (z + 1)) trivial).bind fun v => OnlyAsks.ite (hthrow v) (OnlyAsks.skip fun first => OnlyAsks.ite (hthrow v) ?_)
    exact (renew_local _ _ v).bind fun v => (fillNested_local _ _ _ _ v).bind fun v => done z v _ _
  | copy z y =>
    exact OnlyAsks.skip fun d => (does_local h.vec (.sized (z + 1) (wmul d.1 d.2)) trivial).bind fun v => (copyLin_local _ _ _ v).bind fun v => done z v _ _
  | move z y => exact OnlyAsks.skip fun d => (does_local h.vec (.moveCtor (z + 1) (y + 1)) trivial).bind fun v => done z v _ _
  | destroy z => exact (does_local h.vec (.destroy (z + 1)) trivial).bind fun v => done z v _ _
  | assign z y =>
    exact OnlyAsks.skip fun dz => OnlyAsks.skip fun d => OnlyAsks.ite (same _) (OnlyAsks.ite ((renew_local _ _ h.vec).bind fun v =>
      (copyAt_local _ _ _ _ _ _ v).bind fun v => done z v _ _) (same _))
  | moveAssign z y =>
    exact OnlyAsks.skip fun dz => OnlyAsks.skip fun d => OnlyAsks.ite
      ((does_local h.vec (.moveAssign (z + 1) (y + 1)) trivial).bind fun v => done z v _ _) (same _)
  | assignNested z l =>
    exact OnlyAsks.skip fun dz => OnlyAsks.ite (same _) (OnlyAsks.skip fun first => OnlyAsks.ite (same _) ((renew_local _ _ h.vec).bind fun v =>
      (fillNested_local _ _ _ _ v).bind fun v => done z v _ _))
  | reshape z n m => exact OnlyAsks.skip fun d => OnlyAsks.ite (same _) (done z h.vec _ _)
  | resize z n m => exact OnlyAsks.skip fun d => (resizes_local _ _ _ _ h.vec).bind fun v => done z v _ _
  | removeRow z p =>
    exact OnlyAsks.skip fun d => OnlyAsks.ite (same _) ((OnlyAsks.forRange (cnt := made) fun r s => OnlyAsks.forRange (cnt := made) fun c s =>
      swaps_local _ _ _ _ _ _ s).bind fun v => (resizes_local _ _ _ _ v).bind fun v => done z v _ _)
  | removeCol z p =>
    exact OnlyAsks.skip fun d => OnlyAsks.ite (same _) ((OnlyAsks.forRange (cnt := made) fun r s => OnlyAsks.forRange (cnt := made) fun c s =>
      swaps_local _ _ _ _ _ _ s).bind fun v => (resizes_local _ _ _ _ v).bind fun v => done z v _ _)
  | set z r c a => exact OnlyAsks.skip fun d => (does_local h.vec (.write (z + 1) (pos d.2 r c) a) trivial).bind fun v => done z v _ _
  | setLin z i a => exact OnlyAsks.skip fun d => (does_local h.vec (.write (z + 1) i a) trivial).bind fun v => done z v _ _
  | get z r c =>
    exact OnlyAsks.skip fun d => OnlyAsks.skip (r := reads ⟨0, fun _ => .move⟩ h.vec (z + 1) (pos d.2 r c)) fun a => same _
  | getLin z i => exact OnlyAsks.skip (r := reads ⟨0, fun _ => .move⟩ h.vec (z + 1) i) fun a => same _
  | shape z => exact OnlyAsks.skip fun d => same _

/-- A program. -/
theorem mrun_local (ops : List (MatHist.Op T)) : ∀ h : MSt T, OnlyAsks (fun cfg => mrun cfg h ops) h.vec.mem.calls (fun r => r.1.vec.mem.calls) := by
  induction ops with
  | nil => exact fun h => OnlyAsks.pure (b := ((h, []) : MSt T × List (MatHist.Obs T))) (cnt := fun r => r.1.vec.mem.calls)
  | cons op ops ih =>
    exact fun h => (mstep_local h op).bind fun r => (ih r.1).bind fun q => OnlyAsks.pure (b := ((q.1, r.2.toList ++ q.2) : MSt T × List (MatHist.Obs T))) (cnt := fun r => r.1.vec.mem.calls)

/-- A program whose requests are granted: the others do not matter. -/
theorem mrun_granted {cfg : Cfg} (hsz : 0 < cfg.sz) {ops : List (MatHist.Op T)} {h : MSt T} {st : MatHist.Vars T}
    {s s' : MatHist.Env T} {os : List (MatHist.Obs T)} (h1 : Sim cfg h st) (h2 : MatHist.Rel st s) (h3 : MatHist.specRun s ops = some (s', os))
    (hd : ∀ k, h.vec.mem.calls ≤ k → k < h.vec.mem.calls + MatHist.totalCost s ops → cfg.dec k ≠ .fail)
    (h4 : ∀ pre suf s' os, ops = pre ++ suf → MatHist.specRun s pre = some (s', os) →
      ∀ x n m e, s' x = some (.table n m e) → VecMem.Small cfg.sz (n * m)) :
    ∃ h' st', mrun cfg h ops = .ok (h', os) ∧ Sim cfg h' st' ∧ MatHist.Rel st' s' ∧
      h'.vec.mem.calls = h.vec.mem.calls + MatHist.totalCost s ops ∧
      ∀ x w b, Holds (x + 1) w b h.vec → Became cfg w b h'.vec (MatHist.fateRun s x ops) := by
  obtain ⟨h', st', e1, e2, e3, e4, e5⟩ := mrun_effect (cfg := ⟨cfg.sz, fun k => if cfg.dec k = .fail then .move else cfg.dec k⟩) hsz
    (fun k => by dsimp only; split; simp; assumption) ⟨h1.inv, h1.dims⟩ h2 h3 h4
  have hrun : mrun cfg h ops = .ok (h', os) := by
    refine (mrun_local ops h ⟨cfg.sz, fun k => if cfg.dec k = .fail then .move else cfg.dec k⟩ cfg (h', os) rfl e1).2 fun k hk1 hk2 => ?_
    have := hd k hk1 (by rw [← e4]; exact hk2)
    dsimp only
    rw [if_neg this]
  refine ⟨h', st', hrun, ⟨e2.inv, e2.dims⟩, e3, e4, fun x w b hh => ?_⟩
  have := e5 x w b hh
  revert this
  cases MatHist.fateRun s x ops with
  | into y => exact id
  | gone => exact id
  | depends => exact fun h hmv => h fun k => by dsimp only; rw [hmv]; rfl

end MatMem
end Malg
