import Verif.Lemmas.VecMem
import Mathlib.Logic.ExistsUnique
/-!
# C01–C05: `Vector` on the heap

`specRun` says what a program over vector variables means, with variables that hold lists (`Spec/VecMem.lean`); `run` is
the program on the heap model of `vector.hpp` (`Model/VecMem.lean`). `cfg.dec k` is the decision of the allocator on the
`k`-th request.
-/
namespace Malg
open VecMem
variable {T : Type}

/-! ## C01 -/

/-- **C01.** Every program that makes sense for list variables runs without undefined behaviour and sees exactly what it
would see with list variables, wherever the allocator puts the blocks. -/
theorem C01_history [Zero T] (cfg : Cfg) (hsz : 0 < cfg.sz) (ops : List (Op T)) (e : Env T) (os : List (Obs T))
    (hs : specRun cfg.sz Env.init ops = some (e, os))
    (hd : ∀ k, k < totalRequests cfg.sz Env.init ops → cfg.dec k ≠ .fail) :
    ∃ st, run cfg St.init ops = .ok (st, os) := by
  obtain ⟨st, h, _⟩ := run_spec hsz (Inv.start cfg.sz) hs
    (fun k _ hk => hd k (by simpa [St.init, Mem.empty] using hk))
  exact ⟨st, h⟩

/-- **C01.** Two allocators that grant all requests cannot be told apart. -/
theorem C01_placement [Zero T] (sz : Nat) (hsz : 0 < sz) (dec dec' : Nat → Decision) (ops : List (Op T)) (e : Env T)
    (os : List (Obs T)) (hs : specRun sz Env.init ops = some (e, os)) (hd : ∀ k, dec k ≠ .fail)
    (hd' : ∀ k, dec' k ≠ .fail) :
    ∃ st st' seen, run ⟨sz, dec⟩ St.init ops = .ok (st, seen) ∧ run ⟨sz, dec'⟩ St.init ops = .ok (st', seen) := by
  obtain ⟨st, h⟩ := C01_history ⟨sz, dec⟩ hsz ops e os hs (fun k _ => hd k)
  obtain ⟨st', h'⟩ := C01_history ⟨sz, dec'⟩ hsz ops e os hs (fun k _ => hd' k)
  exact ⟨st, st', os, h, h'⟩

/-- A history with shrinking, growing, copying and moving. -/
def demo : List (Op Int) :=
  [.ofList 0 [1, 2, 3], .resize 0 1, .copyCtor 1 0, .resize 0 3, .write 0 2 9, .moveAssign 1 0, .copyAssign 1 1,
   .size 0, .size 1, .read 1 0, .read 1 1, .read 1 2, .destroy 0, .destroy 1]

/-- What `demo` sees. -/
def demoSeen : List (Obs Int) := [.size 0, .size 3, .val 1, .val 0, .val 9]

example : (specRun 8 Env.init demo).map (·.2) = some demoSeen := by decide +kernel
example : (run ⟨8, fun _ => .move⟩ St.init demo >>= fun r => .ok r.2) = .ok demoSeen := by decide +kernel
example : (run ⟨8, fun k => if k = 1 then .stay else .move⟩ St.init demo >>= fun r => .ok r.2) = .ok demoSeen := by
  decide +kernel
example : totalRequests 8 Env.init demo = 4 := by decide +kernel

/-! ## C02 -/

/-- **C02.** At the end of every history (hence, as every prefix of a history is one, at every point): no operation was
undefined, every live block is owned by exactly one live vector, which has exactly the size of the block, and every
element of every live vector can be read. -/
theorem C02_ownership [Zero T] (cfg : Cfg) (hsz : 0 < cfg.sz) (ops : List (Op T)) (e : Env T) (os : List (Obs T))
    (hs : specRun cfg.sz Env.init ops = some (e, os))
    (hd : ∀ k, k < totalRequests cfg.sz Env.init ops → cfg.dec k ≠ .fail) :
    ∃ st, run cfg St.init ops = .ok (st, os) ∧
      (∀ b c, st.mem.blocks b = some c → ∃! x, ∃ v, st.vars x = some v ∧ v.data = some b ∧ v.size = c.length) ∧
      (∀ x v, st.vars x = some v → ∀ i, i < v.size → ∃ a, load st.mem v.data i = .ok a) ∧
      (∀ x v, st.vars x = some v → ∀ i a, i < v.size → ∃ m, store st.mem v.data i a = .ok m) := by
  obtain ⟨st, h, hi, _⟩ := run_spec hsz (Inv.start cfg.sz) hs
    (fun k _ hk => hd k (by simpa [St.init, Mem.empty] using hk))
  have hval : ∀ x v, st.vars x = some v → ∃ l, Owns st.mem v l := by
    intro x v hv
    cases hx : e x with
    | none => rw [(hi.same x).mpr hx] at hv; cases hv
    | some l => exact ⟨l, hi.owns x v l hv hx⟩
  refine ⟨st, h, fun b c hb => ?_, fun x v hv i hlt => ?_, fun x v hv i a hlt => ?_⟩
  · obtain ⟨x, v, hv, hvb⟩ := hi.held b c hb
    refine ⟨x, ⟨v, hv, hvb, ?_⟩, ?_⟩
    · obtain ⟨l, hs', h'⟩ := hval x v hv
      rcases h' with ⟨_, hn⟩ | ⟨b', _, hd', hb'⟩
      · rw [hn] at hvb; cases hvb
      · rw [hvb] at hd'; cases hd'; rw [hb] at hb'; cases hb'; simpa using hs'
    · rintro y ⟨w, hw, hwb, _⟩
      refine Decidable.byContradiction fun hne => ?_
      exact hi.sep y x w v b hne hw hv hwb hvb
  · obtain ⟨l, ho⟩ := hval x v hv
    exact ⟨_, load_ok ho (i := i) (by rw [← ho.1]; exact hlt)⟩
  · obtain ⟨l, hs', h'⟩ := hval x v hv
    rw [hs'] at hlt
    rcases h' with ⟨rfl, _⟩ | ⟨b', _, hd', hb'⟩
    · simp at hlt
    · exact ⟨_, by simp only [store, hd', hb']; rw [if_pos (by simpa using hlt)]⟩

/-- **C02.** When all vectors of a history are gone, so are all blocks. -/
theorem C02_no_leak [Zero T] (cfg : Cfg) (hsz : 0 < cfg.sz) (ops : List (Op T)) (e : Env T) (os : List (Obs T))
    (hs : specRun cfg.sz Env.init ops = some (e, os))
    (hd : ∀ k, k < totalRequests cfg.sz Env.init ops → cfg.dec k ≠ .fail) (hgone : ∀ x, e x = none) :
    ∃ st, run cfg St.init ops = .ok (st, os) ∧ ∀ b, st.mem.blocks b = none := by
  obtain ⟨st, h, hi, _⟩ := run_spec hsz (Inv.start cfg.sz) hs
    (fun k _ hk => hd k (by simpa [St.init, Mem.empty] using hk))
  refine ⟨st, h, fun b => ?_⟩
  cases hb : st.mem.blocks b with
  | none => rfl
  | some c =>
    obtain ⟨x, v, hv, _⟩ := hi.held b c hb
    rw [(hi.same x).mpr (hgone x)] at hv; cases hv

-- Four blocks were live at some time, the last two are live before the destructors run, none afterwards.
example : (run ⟨8, fun _ => .move⟩ St.init (demo.take 6) >>= fun r =>
    .ok ((List.range 5).map fun b => (r.1.mem.blocks b).isSome)) = .ok [false, false, false, true, false] := by
  decide +kernel
example : (run ⟨8, fun _ => .move⟩ St.init demo >>= fun r =>
    .ok ((List.range 5).map fun b => (r.1.mem.blocks b).isSome)) = .ok (List.replicate 5 false) := by decide +kernel
-- The model does notice what must not happen: an access beyond the end.
example : (run ⟨8, fun _ => .move⟩ St.init [.ofList 0 [1, 2, 3], .resize 0 1, (.read 0 2 : Op Int)] >>= fun r =>
    .ok r.2) = .ub .oob := by decide +kernel

/-! ## C03 -/

/-- **C03.** After `resize(n)`, at the end of any history: the size is `n`, the elements below the old and the new size
are what they were, all others are zero. -/
theorem C03_resize [Zero T] (cfg : Cfg) (hsz : 0 < cfg.sz) (ops : List (Op T)) (e : Env T) (os : List (Obs T))
    (hs : specRun cfg.sz Env.init ops = some (e, os)) (hd : ∀ k, cfg.dec k ≠ .fail) (x : Nat) (l : List T)
    (hx : e x = some l) (n : Nat) (hn : Small cfg.sz n) :
    ∃ st, run cfg St.init (ops ++ [.resize x n]) = .ok (st, os) ∧
      step cfg st (.size x) = .ok (st, some (.size n)) ∧
      (∀ i (h : i < l.length), i < n → step cfg st (.read x i) = .ok (st, some (.val l[i]))) ∧
      (∀ i, l.length ≤ i → i < n → step cfg st (.read x i) = .ok (st, some (.val 0))) := by
  have hs' : specRun cfg.sz Env.init (ops ++ [.resize x n]) = some (e.set x (some (resized l n)), os) := by
    rw [specRun_append, hs]
    simp only [Option.bind_some, specRun, specStep, hx]
    rw [if_pos hn]; simp [resized]
  obtain ⟨st, h, hi, _⟩ := run_spec hsz (Inv.start cfg.sz) hs' (fun k _ _ => hd k)
  obtain ⟨v, hv, ho⟩ := hi.var (set_same e x _)
  have hread : ∀ i (h : i < n), step cfg st (.read x i) =
      .ok (st, some (.val ((resized l n)[i]'(by rw [resized_length]; exact h)))) := by
    intro i h
    simp [step, var_ok hv, load_ok ho (by rw [resized_length]; exact h)]
  refine ⟨st, h, ?_, fun i h1 h2 => ?_, fun i h1 h2 => ?_⟩
  · simp [step, var_ok hv, ho.1, resized_length]
  · rw [hread i h2]
    simp only [resized]
    rw [List.getElem_append_left (by simp; omega), List.getElem_take]
  · rw [hread i h2]
    simp only [resized]
    rw [List.getElem_append_right (by simp; omega), List.getElem_replicate]

/-- **C03.** Elements cut off by a `resize` never come back: whatever the vector was, after `resize(k)`, any operations on
other variables, and `resize(n)`, the elements from `k` on are zero. -/
theorem C03_no_stale [Zero T] (cfg : Cfg) (hsz : 0 < cfg.sz) (ops mid : List (Op T)) (e e' : Env T) (os os' : List (Obs T))
    (hs : specRun cfg.sz Env.init ops = some (e, os)) (hd : ∀ k, cfg.dec k ≠ .fail) (x : Nat) (l : List T)
    (hx : e x = some l) (k n : Nat) (hmid : specRun cfg.sz Env.init (ops ++ [.resize x k] ++ mid) = some (e', os'))
    (hch : ∀ op ∈ mid, ¬ op.Changes x) (hn : Small cfg.sz n) (i : Nat) (h1 : k ≤ i) (h2 : i < n) :
    ∃ st, run cfg St.init (ops ++ [.resize x k] ++ mid ++ [.resize x n]) = .ok (st, os') ∧
      step cfg st (.read x i) = .ok (st, some (.val 0)) := by
  have hx' : ∃ l', e' x = some l' ∧ l'.length = k := by
    rw [specRun_append, specRun_append, hs] at hmid
    by_cases hk : Small cfg.sz k
    · have h3 : specRun cfg.sz e [.resize x k] = some (e.set x (some (resized l k)), []) := by
        simp only [specRun, specStep, hx]
        rw [if_pos hk]; simp [resized]
      rw [Option.bind_some, h3] at hmid
      simp only [Option.map_some, Option.bind_some, Option.map_eq_some_iff, Prod.mk.injEq] at hmid
      obtain ⟨r, hr, h4, _⟩ := hmid
      refine ⟨resized l k, ?_, resized_length l k⟩
      rw [← h4, specRun_frame (e' := r.1) (os := r.2) hr hch, set_same]
    · have h3 : specRun cfg.sz e [.resize x k] = none := by
        simp only [specRun, specStep, hx]
        rw [if_neg hk]
      rw [Option.bind_some, h3] at hmid; simp at hmid
  obtain ⟨l', hl, hk⟩ := hx'
  obtain ⟨st, h, _, _, h0⟩ := C03_resize cfg hsz _ _ os' hmid hd x _ hl n hn
  exact ⟨st, h, h0 i (by rw [hk]; exact h1) h2⟩

-- Shrinking where the block is and growing there again: the old 7 at index 1 is still in memory, but not seen.
example : (run ⟨8, fun k => if k = 0 then .move else .stay⟩ St.init
    [.ofList 0 [5, 7, 8], .resize 0 1, .resize 0 3, .read 0 0, .read 0 1, (.read 0 2 : Op Int)] >>= fun r => .ok r.2)
    = .ok [.val 5, .val 0, .val 0] := by decide +kernel

/-! ## C04 -/

/-- **C04** fails: at the end of every history, growing a vector when the allocator refuses writes through a null
pointer. Nothing is reported. -/
theorem C04_report_false [Zero T] (cfg : Cfg) (hsz : 0 < cfg.sz) (ops : List (Op T)) (e : Env T) (os : List (Obs T))
    (hs : specRun cfg.sz Env.init ops = some (e, os))
    (hd : ∀ k, k < totalRequests cfg.sz Env.init ops → cfg.dec k ≠ .fail)
    (hfail : cfg.dec (totalRequests cfg.sz Env.init ops) = .fail) (x : Nat) (l : List T) (hx : e x = some l) (n : Nat)
    (hn : Small cfg.sz n) (hgrow : l.length < n) :
    ∃ st, run cfg St.init ops = .ok (st, os) ∧ step cfg st (.resize x n) = .ub .nullDeref := by
  obtain ⟨st, h, hi, hc⟩ := run_spec hsz (Inv.start cfg.sz) hs
    (fun k _ hk => hd k (by simpa [St.init, Mem.empty] using hk))
  refine ⟨st, h, ?_⟩
  have hc' : st.mem.calls = totalRequests cfg.sz Env.init ops := by simpa [St.init, Mem.empty] using hc
  obtain ⟨v, hv, ho⟩ := hi.var hx
  obtain ⟨m', hr, _⟩ := realloc_refused ho (n := n) (by omega) hsz hn (by rw [hc']; exact hfail)
  have hvn : v.size < n := by rw [ho.1]; exact hgrow
  have : allocate cfg st.mem v n = .ub .nullDeref := by
    unfold allocate
    rw [if_neg (by omega), if_neg (by omega), hr, Res.ok_bind]
    dsimp only
    rw [if_pos hvn, forRange_lt hvn]; rfl
  simp only [step, var_ok hv, Res.ok_bind, this]; rfl

/-- **C04** fails: at the end of every history, shrinking a vector when the allocator refuses looks like a success. The
block is live but belongs to no vector any more, and the remaining elements cannot be read. -/
theorem C04_leak_false [Zero T] (cfg : Cfg) (hsz : 0 < cfg.sz) (ops : List (Op T)) (e : Env T) (os : List (Obs T))
    (hs : specRun cfg.sz Env.init ops = some (e, os))
    (hd : ∀ k, k < totalRequests cfg.sz Env.init ops → cfg.dec k ≠ .fail)
    (hfail : cfg.dec (totalRequests cfg.sz Env.init ops) = .fail) (x : Nat) (l : List T) (hx : e x = some l) (n : Nat)
    (hn : 0 < n) (hshrink : n < l.length) :
    ∃ st, run cfg St.init (ops ++ [.resize x n]) = .ok (st, os) ∧ step cfg st (.size x) = .ok (st, some (.size n)) ∧
      (∃ b c, st.mem.blocks b = some c ∧ ∀ y v, st.vars y = some v → v.data ≠ some b) ∧
      ∀ i, step cfg st (.read x i) = .ub .nullDeref := by
  obtain ⟨st, h, hi, hc⟩ := run_spec hsz (Inv.start cfg.sz) hs
    (fun k _ hk => hd k (by simpa [St.init, Mem.empty] using hk))
  have hc' : st.mem.calls = totalRequests cfg.sz Env.init ops := by simpa [St.init, Mem.empty] using hc
  obtain ⟨v, hv, ho⟩ := hi.var hx
  have hsm : Small cfg.sz n := Nat.lt_of_le_of_lt (Nat.mul_le_mul_left _ (Nat.le_of_lt hshrink)) (hi.small x l hx)
  obtain ⟨m', hr, hb'⟩ := realloc_refused ho (n := n) hn hsz hsm (by rw [hc']; exact hfail)
  have hvn : n < v.size := by rw [ho.1]; exact hshrink
  have ha : allocate cfg st.mem v n = .ok (m', ⟨none, n⟩, true) := by
    unfold allocate
    rw [if_neg (by omega), if_neg (by omega), hr, Res.ok_bind]
    dsimp only
    rw [if_neg (by omega), if_neg (by omega)]; rfl
  have hst : step cfg st (.resize x n) = .ok (st.setVar x m' (some ⟨none, n⟩), none) := by
    simp only [step, var_ok hv, Res.ok_bind, ha]; rfl
  refine ⟨st.setVar x m' (some ⟨none, n⟩), ?_, ?_, ?_, fun i => ?_⟩
  · rw [run_append, h, Res.ok_bind]; simp [run, hst]
  · simp [step, St.var]
  · obtain ⟨_, ⟨rfl, _⟩ | ⟨b, _, hvd, hb⟩⟩ := ho
    · simp at hshrink
    · refine ⟨b, _, by rw [setVar_mem, hb']; exact hb, fun y w hw => ?_⟩
      by_cases hy : y = x
      · subst hy; simp at hw; subst hw; simp
      · rw [setVar_ne _ _ _ hy] at hw
        intro hwb
        exact hi.sep y x w v b hy hw hv hwb hvd
  · simp [step, St.var, load]

/-- **C04** fails: a size that needs more than half of the address space is never reported. Either the request is refused,
or a block that is too small is granted and written beyond its end. -/
theorem C04_overflow_false [Zero T] (cfg : Cfg) (hsz : 0 < cfg.sz) (n : Nat) (hn : 2 ^ 63 ≤ cfg.sz * n) (x : Nat) :
    step cfg (St.init : St T) (.sized x n) = .ub .oob ∨ step cfg (St.init : St T) (.sized x n) = .ub .nullDeref := by
  have hn0 : 0 < n := by
    rcases Nat.eq_zero_or_pos n with h | h
    · subst h; simp at hn
    · exact h
  have hreal : realloc cfg (Mem.empty : Mem T) none (wmul cfg.sz n) =
      if cfg.dec 0 = .fail ∨ 2 ^ 63 ≤ wmul cfg.sz n then .ok (⟨fun _ => none, 0, 1⟩, none)
      else .ok (⟨fun k => if k = 0 then some (List.replicate (wmul cfg.sz n / cfg.sz) none) else none, 1, 1⟩, some 0) := by
    rfl
  have hall : ∀ r, (allocate cfg (Mem.empty : Mem T) ⟨none, 0⟩ n = .ub r) →
      step cfg (St.init : St T) (.sized x n) = .ub r := by
    intro r hr
    simp only [step, St.init, hr]; rfl
  by_cases href : cfg.dec 0 = .fail ∨ 2 ^ 63 ≤ wmul cfg.sz n
  · right
    apply hall
    unfold allocate
    rw [if_neg (by omega), if_neg (by simp; omega), hreal, if_pos href, Res.ok_bind]
    dsimp only
    rw [if_pos hn0, forRange_lt hn0]; rfl
  · left
    apply hall
    unfold allocate
    rw [if_neg (by omega), if_neg (by simp; omega), hreal, if_neg href, Res.ok_bind]
    dsimp only
    rw [if_pos hn0]
    have hlt : wmul cfg.sz n / cfg.sz < n := by
      have : ¬ 2 ^ 63 ≤ wmul cfg.sz n := fun h => href (.inr h)
      rw [Nat.div_lt_iff_lt_mul hsz, Nat.mul_comm]; omega
    rw [fill_beyond (b := 0) (cells := List.replicate (wmul cfg.sz n / cfg.sz) none) (by simp) (by simpa using hlt)]
    rfl

/-- **C04**, the part that holds: an operation that needs no new block (moves, destruction, reads, writes, `resize` to the
same size or to zero, assignment of an empty vector or one of the same size, self-assignment) does what it should at the
end of every history, also when the allocator refuses everything from there on. What is missing is every other operation,
see the theorems above. -/
theorem C04_no_request_partial [Zero T] (cfg : Cfg) (hsz : 0 < cfg.sz) (ops : List (Op T)) (e e' : Env T)
    (os os' : List (Obs T)) (later : List (Op T)) (hs : specRun cfg.sz Env.init ops = some (e, os))
    (hd : ∀ k, k < totalRequests cfg.sz Env.init ops → cfg.dec k ≠ .fail)
    (hs' : specRun cfg.sz e later = some (e', os')) (hfree : totalRequests cfg.sz e later = 0) :
    ∃ st, run cfg St.init (ops ++ later) = .ok (st, os ++ os') := by
  obtain ⟨st, h, hi, _⟩ := run_spec hsz (Inv.start cfg.sz) hs
    (fun k _ hk => hd k (by simpa [St.init, Mem.empty] using hk))
  obtain ⟨st', h', _⟩ := run_spec hsz hi hs' (fun k h1 h2 => by omega)
  exact ⟨st', by rw [run_append, h, Res.ok_bind, h']; rfl⟩

-- An allocator that refuses the second request: growing, shrinking, assigning a vector of another size.
example : (run ⟨8, fun k => if k = 0 then .move else .fail⟩ St.init [.ofList 0 [1, 2], (.resize 0 3 : Op Int)]
    >>= fun r => .ok r.2) = .ub .nullDeref := by decide +kernel
example : (run ⟨8, fun k => if k = 0 then .move else .fail⟩ St.init
    [.ofList 0 [1, 2], .resize 0 1, .size 0, (.destroy 0 : Op Int)] >>= fun r => .ok (r.2, r.1.mem.blocks 0))
    = .ok ([.size 1], some [some 1, some 2]) := by decide +kernel
-- `Vector<double>(2^61 + 1)`: eight bytes are requested, the second element is outside.
example : (run ⟨8, fun _ => .move⟩ St.init [(.sized 0 (2 ^ 61 + 1) : Op Int)] >>= fun r => .ok r.2) = .ub .oob := by
  decide +kernel
-- No memory needed: works with an allocator that refuses everything after the first two requests.
example : (run ⟨8, fun k => if k ≤ 1 then .move else .fail⟩ St.init
    [.ofList 0 [1, 2], .ofList 1 [3, 4], .copyAssign 0 1, .resize 1 0, .moveCtor 2 0, .read 2 1,
     (.size 0 : Op Int)] >>= fun r => .ok r.2) = .ok [.val 4, .size 0] := by decide +kernel

/-! ## C05 -/

/-- **C05.** A copy and its original are independent: whatever happens later, as long as no operation is applied to one of
the two, that one keeps its content. `copy` is either way of copying. -/
theorem C05_copy [Zero T] (cfg : Cfg) (hsz : 0 < cfg.sz) (ops later : List (Op T)) (e e' : Env T) (os os' : List (Obs T))
    (x y : Nat) (copy : Op T) (hcopy : copy = .copyCtor y x ∨ copy = .copyAssign y x)
    (hs : specRun cfg.sz Env.init ops = some (e, os)) (l : List T) (hx : e x = some l)
    (hs' : specRun cfg.sz Env.init (ops ++ [copy] ++ later) = some (e', os')) (hd : ∀ k, cfg.dec k ≠ .fail) :
    ∃ st, run cfg St.init (ops ++ [copy] ++ later) = .ok (st, os') ∧
      ∀ z, z = x ∨ z = y → (∀ op ∈ later, ¬ op.Changes z) →
        step cfg st (.size z) = .ok (st, some (.size l.length)) ∧
        ∀ i (h : i < l.length), step cfg st (.read z i) = .ok (st, some (.val l[i])) := by
  obtain ⟨st, h, hi, _⟩ := run_spec hsz (Inv.start cfg.sz) hs' (fun k _ _ => hd k)
  refine ⟨st, h, fun z hz hch => ?_⟩
  rw [specRun_append, specRun_append, hs] at hs'
  have hmid : specRun cfg.sz e [copy] = some (e.set y (some l), []) ∨ specRun cfg.sz e [copy] = none := by
    rcases hcopy with rfl | rfl
    · cases hy : e y <;> simp [specRun, specStep, hx, hy]
    · cases hy : e y <;> simp [specRun, specStep, hx, hy]
  rcases hmid with hmid | hmid
  · rw [Option.bind_some, hmid] at hs'
    obtain ⟨r, hr, _⟩ : ∃ r, specRun cfg.sz (e.set y (some l)) later = some r ∧ r.1 = e' := by
      simp only [Option.map_some, Option.bind_some, Option.map_eq_some_iff, Prod.mk.injEq] at hs'
      obtain ⟨r, hr, h1, _⟩ := hs'; exact ⟨r, hr, h1⟩
    rename_i hre
    have hz0 : (e.set y (some l)) z = some l := by
      rcases hz with rfl | rfl
      · by_cases hzy : z = y
        · subst hzy; simp
        · rw [set_ne _ _ hzy]; exact hx
      · simp
    have hze : e' z = some l := by
      rw [← hre, specRun_frame (e' := r.1) (os := r.2) hr hch]; exact hz0
    obtain ⟨v, hv, ho⟩ := hi.var hze
    exact ⟨by simp [step, var_ok hv, ho.1], fun i hlt => by simp [step, var_ok hv, load_ok ho hlt]⟩
  · rw [Option.bind_some, hmid] at hs'; simp at hs'

/-- **C05.** After a move the target has the content of the source, the source has size 0 and can be used again. `mv` is
either way of moving. -/
theorem C05_move [Zero T] (cfg : Cfg) (hsz : 0 < cfg.sz) (ops : List (Op T)) (e e' : Env T) (os os' : List (Obs T))
    (x y : Nat) (hxy : x ≠ y) (mv : Op T) (hmv : mv = .moveCtor y x ∨ mv = .moveAssign y x)
    (hs : specRun cfg.sz Env.init ops = some (e, os)) (l : List T) (hx : e x = some l)
    (hs' : specRun cfg.sz Env.init (ops ++ [mv]) = some (e', os')) (hd : ∀ k, cfg.dec k ≠ .fail) :
    ∃ st, run cfg St.init (ops ++ [mv]) = .ok (st, os') ∧
      step cfg st (.size y) = .ok (st, some (.size l.length)) ∧
      (∀ i (h : i < l.length), step cfg st (.read y i) = .ok (st, some (.val l[i]))) ∧
      step cfg st (.size x) = .ok (st, some (.size 0)) ∧
      ∀ n a i, Small cfg.sz n → i < n → ∃ st', run cfg st [.resize x n, .write x i a, .read x i, .size x, .read x 0]
        = .ok (st', [.val a, .size n, .val (if i = 0 then a else 0)]) := by
  obtain ⟨st, h, hi, _⟩ := run_spec hsz (Inv.start cfg.sz) hs' (fun k _ _ => hd k)
  refine ⟨st, h, ?_⟩
  have he' : e' = (e.set y (some l)).set x (some []) := by
    rw [specRun_append, hs] at hs'
    rcases hmv with rfl | rfl <;> cases hy : e y <;>
      simp [specRun, specStep, hx, hy, hxy.symm] at hs' <;> exact hs'.1.symm
  have hy' : e' y = some l := by rw [he', set_ne _ _ hxy.symm]; simp
  have hx' : e' x = some [] := by rw [he']; simp
  obtain ⟨v, hv, ho⟩ := hi.var hy'
  obtain ⟨w, hw, how⟩ := hi.var hx'
  refine ⟨by simp [step, var_ok hv, ho.1], fun i hlt => by simp [step, var_ok hv, load_ok ho hlt],
    by simp [step, var_ok hw, how.1], fun n a i hn hin => ?_⟩
  have hsp : specRun cfg.sz e' [.resize x n, .write x i a, .read x i, .size x, .read x 0] =
      some ((e'.set x (some (List.replicate n 0))).set x (some ((List.replicate n 0).set i a)),
        [.val a, .size n, .val (if i = 0 then a else 0)]) := by
    have h0 : 0 < n := by omega
    simp [specRun, specStep, hx', hn, hin, h0, List.getElem_set]
  obtain ⟨st', h', _⟩ := run_spec hsz hi hsp (fun k _ _ => hd k)
  exact ⟨st', h'⟩

/-- **C05.** Copy- and move-assignment of a vector to itself change nothing at all, in any state, with any allocator. -/
theorem C05_self [Zero T] (cfg : Cfg) (st : St T) (x : Nat) (v : VObj) (hx : st.vars x = some v) :
    step cfg st (.copyAssign x x) = .ok (st, none) ∧ step cfg st (.moveAssign x x) = .ok (st, none) := by
  simp [step, var_ok hx]

example : (run ⟨8, fun _ => .stay⟩ St.init
    [.ofList 0 [1, 2], .copyCtor 1 0, .write 1 0 7, .resize 1 5, .read 0 0, .destroy 1, .read 0 1, .moveCtor 1 0,
     .size 0, .read 1 1, .resize 0 1, (.read 0 0 : Op Int)] >>= fun r => .ok r.2)
    = .ok [.val 1, .val 2, .size 0, .val 2, .val 0] := by decide +kernel

end Malg
