import Verif.Lemmas.ViewMem
import Verif.Props.View
/-!
# C108: lifetimes of views

A view is a pointer. It shows the object it points to as that object is now, for as long as that object lives.
-/
namespace Malg
open ViewMem
variable {T : Type}

/-! ## Which views can be used -/

/-- C108: after any program, object `p` can be looked at if and only if its pointers lead to a living matrix. If they lead to something that
has ended, then reading `p`, asking for its size and writing to it are all undefined. If they lead to neither, all of this goes on
for ever. -/
theorem C108_dangling {cs : List (Cmd T)} {h : Heap T} (hr : run .empty cs = .ok h) (p : Nat) :
    ((∃ b, look h p = .ok b) ↔ ∃ q A, Reach h p q ∧ h.obj q = some (.mat A)) ∧
    ((∃ q, Reach h p q ∧ ¬ Alive h q) ↔ look h p = .ub .useAfterFree) ∧
    ((∃ q, Reach h p q ∧ ¬ Alive h q) → ∀ r c x, ViewMem.write h p r c x = .ub .useAfterFree) ∧
    ((∀ q, Reach h p q → ∃ t, Points h q t) → look h p = .diverge ∧ ∀ r c x, ViewMem.write h p r c x = .diverge) := by
  rcases resolves_or (run_bounded hr) p with ⟨⟨m, hm⟩, hall, q, A, hq, hA⟩ | ⟨⟨q, hq, hd⟩, hn, hl, hw⟩ | ⟨hall, hn, hl, hw⟩
  · have hl := hm.look (run_bounded hr)
    refine ⟨⟨fun _ => ⟨q, A, hq, hA⟩, fun _ => ⟨_, hl⟩⟩, ⟨fun ⟨q, hq, hd⟩ => absurd (hall q hq) hd, fun e => ?_⟩,
      fun ⟨q, hq, hd⟩ => absurd (hall q hq) hd, fun hall => ?_⟩
    · rw [hl] at e; cases e
    · obtain ⟨t, o, e, ht⟩ := hall q hq
      rw [hA] at e; cases e; cases ht
  · refine ⟨⟨fun ⟨b, e⟩ => ?_, fun ⟨u, A, hu, hA⟩ => absurd hA (hn u A hu)⟩, ⟨fun _ => hl, fun _ => ⟨q, hq, hd⟩⟩, fun _ => hw, fun hall => ?_⟩
    · rw [hl] at e; cases e
    · obtain ⟨t, o, e, ht⟩ := hall q hq
      exact absurd ⟨o, e⟩ hd
  · refine ⟨⟨fun ⟨b, e⟩ => ?_, fun ⟨u, A, hu, hA⟩ => absurd hA (hn u A hu)⟩, ⟨fun ⟨q, hq, hd⟩ => absurd (hall q hq) hd, fun e => ?_⟩,
      fun ⟨q, hq, hd⟩ => absurd (hall q hq) hd, fun _ => ⟨hl, hw⟩⟩
    · rw [hl] at e; cases e
    · rw [hl] at e; cases e

/-- C108: a view is always made of an object that has been there before it. -/
theorem C108_older {h h' : Heap T} (p : Nat) :
    (∀ row col, step h (.view p row col) = .ok h' → p < h.next) ∧ (∀ er ec, step h (.cof p er ec) = .ok h' → p < h.next) := by
  constructor
  · intro row col e
    by_contra hp
    rw [show step h (.view p row col) = .ub .nullDeref from if_pos (by omega)] at e
    cases e
  · intro er ec e
    by_contra hp
    rw [show step h (.cof p er ec) = .ub .nullDeref from if_pos (by omega)] at e
    cases e

namespace ViewMem

/-- No pointer dangles. -/
def Closed (h : Heap T) : Prop := ∀ p q, Points h p q → Alive h q

theorem Closed.resolves {h : Heap T} (hc : Closed h) (ho : Ordered h) {p : Nat} (hp : Alive h p) : ∃ m, Resolves h p m := by
  induction p using Nat.strong_induction_on with
  | _ p ih =>
    obtain ⟨o, e⟩ := hp
    cases o with
    | mat A => exact ⟨_, .mat e⟩
    | view q row col =>
      have hq : Points h p q := ⟨_, e, rfl⟩
      obtain ⟨m, hm⟩ := ih q (ho p q hq) (hc p q hq)
      exact ⟨_, .view e hm⟩
    | cof q er ec =>
      have hq : Points h p q := ⟨_, e, rfl⟩
      obtain ⟨m, hm⟩ := ih q (ho p q hq) (hc p q hq)
      exact ⟨_, .cof e hm⟩

theorem Same.alive {h h' : Heap T} (hs : Same h h') {p} : Alive h p → Alive h' p := by
  rintro ⟨o, e⟩
  rcases hs.2 p with k | ⟨A, B, -, k⟩
  · exact ⟨o, k ▸ e⟩
  · exact ⟨_, k⟩

theorem Same.closed {h h' : Heap T} (hs : Same h h') (hc : Closed h) : Closed h' := fun p q hp => hs.alive (hc p q (hs.points hp))

theorem closed_alloc {h : Heap T} {o : Obj T} (hb : Bounded h) (hc : Closed h) (hq : ∀ q, o.target = some q → Alive h q) :
    Closed (h.alloc o) := by
  have hal : ∀ q, Alive h q → Alive (h.alloc o) q := fun q ⟨o', e⟩ => ⟨o', by rw [alloc_obj_lt (hb q o' e)]; exact e⟩
  rintro p q ⟨o', e, ht⟩
  by_cases hp : p = h.next
  · subst hp
    rw [alloc_obj_next] at e; cases e
    exact hal q (hq q ht)
  · have : (h.alloc o).obj p = h.obj p := if_neg hp
    exact hal q (hc p q ⟨o', this ▸ e, ht⟩)

/-- A result that is not undefined, or only by an index out of range. -/
def OnlyOob {α : Type} (r : Res α) : Prop := ∀ k, r = .ub k → k = .oob

theorem OnlyOob.bind {α β : Type} {r : Res α} {f : α → Res β} (h1 : OnlyOob r) (h2 : ∀ a, r = .ok a → OnlyOob (f a)) : OnlyOob (r >>= f) := by
  intro k e
  cases r with
  | ok a => exact h2 a rfl k e
  | ub k' => cases e; exact h1 _ rfl
  | _ => cases e

theorem OnlyOob.forRange {σ : Type} {body : Nat → σ → Res σ} (I : σ → Prop) (hb : ∀ i s, I s → OnlyOob (body i s) ∧ ∀ s', body i s = .ok s' → I s')
    {lo hi : Nat} {s : σ} (hs : I s) : OnlyOob (forRange lo hi s body) ∧ ∀ s', Malg.forRange lo hi s body = .ok s' → I s' := by
  by_cases hle : lo ≤ hi
  · induction hi, hle using Nat.le_induction with
    | base =>
      rw [forRange_ge (Nat.le_refl _)]
      exact ⟨fun k => (nomatch ·), fun s' e => by cases e; exact hs⟩
    | succ n hn ih =>
      rw [forRange_succ_last hn]
      refine ⟨ih.1.bind fun a e => (hb _ _ (ih.2 a e)).1, fun s' e => ?_⟩
      obtain ⟨a, h1, h2⟩ := Res.bind_eq_ok.1 e
      exact (hb _ _ (ih.2 a h1)).2 _ h2
  · rw [forRange_ge (by omega)]
    exact ⟨fun k => (nomatch ·), fun s' e => by cases e; exact hs⟩

theorem Resolves.oob {h : Heap T} {p m} (hm : Resolves h p m) (s : Store T) :
    (∀ r c, OnlyOob ((m.view s).at_ r c)) ∧ ∀ r c x, OnlyOob (m.setAt s r c x) := by
  induction hm with
  | @mat p A e =>
    constructor
    · intro r c
      show OnlyOob (vget _ _)
      unfold vget
      split
      · intro k e; cases e
      · intro k e; cases e; rfl
    · intro r c x
      show OnlyOob (((vset _ _ x) >>= fun d => Res.ok ({ s p with data := d } : Mat T)) >>= fun A => Res.ok (s.put p A))
      refine OnlyOob.bind (OnlyOob.bind ?_ fun _ _ k e => by cases e) fun _ _ k e => by cases e
      unfold vset
      split
      · intro k e; cases e
      · intro k e; cases e; rfl
  | view _ _ ih => exact ⟨fun r c => ih.1 _ _, fun r c x => ih.2 _ _ _⟩
  | cof _ _ ih => exact ⟨fun r c => ih.1 _ _, fun r c x => ih.2 _ _ _⟩

theorem onlyOob_assign {h : Heap T} (hb : Bounded h) {p q m m'} (hm : Resolves h p m) (hm' : Resolves h q m') : OnlyOob (assign h p q) := by
  rw [hm.assign hb hm']
  refine OnlyOob.bind ?_ fun _ _ k e => by cases e
  unfold MRef.assign
  split
  · intro k e; cases e
  · split
    · intro k e; cases e
    · refine (OnlyOob.forRange (fun _ => True) (fun r s _ => ⟨?_, fun _ _ => trivial⟩) trivial).1
      refine (OnlyOob.forRange (fun _ => True) (fun c s _ => ⟨?_, fun _ _ => trivial⟩) trivial).1
      exact ((hm'.oob s).1 r c).bind fun x _ => (hm.oob s).2 r c _

theorem step_guarded {h : Heap T} {c : Cmd T} (hb : Bounded h) (ho : Ordered h) (hc : Closed h) (hg : Guarded h c) :
    OnlyOob (step h c) ∧ ∀ h', step h c = .ok h' → Closed h' ∧ Ordered h' := by
  have hlt : ∀ {p}, Alive h p → p < h.next := fun ⟨o, e⟩ => hb _ o e
  have halloc : ∀ {o : Obj T}, (∀ q, o.target = some q → Alive h q) → Closed (h.alloc o) ∧ Ordered (h.alloc o) := fun hq =>
    ⟨closed_alloc hb hc hq, ordered_alloc ho fun q e => hlt (hq q e)⟩
  cases c with
  | mat A =>
    exact ⟨fun k => (nomatch ·), fun h' e => by cases e; exact halloc fun q hq => by cases hq⟩
  | change p A =>
    obtain ⟨B, hp⟩ : ∃ B, h.obj p = some (.mat B) := hg
    simp only [step, hp]
    exact ⟨fun k => (nomatch ·), fun h' e => by cases e; exact ⟨(same_put hp).closed hc, (same_put hp).ordered ho⟩⟩
  | view p row col =>
    have hp : Alive h p := hg
    have := hlt hp
    simp only [step]
    rw [if_neg (by omega)]
    split
    · exact ⟨fun k => (nomatch ·), fun h' e => by cases e; exact halloc fun q hq => by cases hq; exact hp⟩
    · exact ⟨fun k => (nomatch ·), fun h' => (nomatch ·)⟩
  | cof p er ec =>
    have hp : Alive h p := hg
    have := hlt hp
    simp only [step]
    rw [if_neg (by omega)]
    exact ⟨fun k => (nomatch ·), fun h' e => by cases e; exact halloc fun q hq => by cases hq; exact hp⟩
  | copy p =>
    obtain ⟨o, hp⟩ : Alive h p := hg
    simp only [step, hp]
    exact ⟨fun k => (nomatch ·), fun h' e => by cases e; exact halloc fun q hq => hc p q ⟨o, hp, hq⟩⟩
  | write p r c x =>
    obtain ⟨m, hm⟩ := hc.resolves ho hg
    refine ⟨?_, fun h' e => ⟨(same_writeN e).closed hc, (same_writeN e).ordered ho⟩⟩
    show OnlyOob (ViewMem.write h p r c x)
    rw [hm.write hb]
    exact ((hm.oob _).2 r c x).bind fun _ _ k e => by cases e
  | assign p q =>
    obtain ⟨m, hm⟩ := hc.resolves ho hg.1
    obtain ⟨m', hm'⟩ := hc.resolves ho hg.2
    exact ⟨onlyOob_assign hb hm hm', fun h' e => ⟨(same_assign e).closed hc, (same_assign e).ordered ho⟩⟩
  | rebind p q =>
    obtain ⟨⟨_, _, _, hp⟩, t, er, ec, hq, htp⟩ := hg
    simp only [step, hp, hq]
    refine ⟨fun k => (nomatch ·), fun h' e => ?_⟩
    cases e
    have hal : ∀ {a}, Alive h a → Alive (h.put p (some (.cof t er ec))) a := fun {a} ⟨o, e⟩ => by
      by_cases ha : a = p
      · exact ⟨_, if_pos ha⟩
      · exact ⟨o, (if_neg ha).trans e⟩
    have hpts : ∀ {a b}, Points (h.put p (some (.cof t er ec))) a b → Points h a b ∨ a = p ∧ b = t := by
      rintro a b ⟨o, e, ht⟩
      by_cases ha : a = p
      · have : (h.put p (some (.cof t er ec))).obj a = some (.cof t er ec) := if_pos ha
        rw [this] at e; cases e; cases ht; exact .inr ⟨ha, rfl⟩
      · have : (h.put p (some (.cof t er ec))).obj a = h.obj a := if_neg ha
        exact .inl ⟨o, this ▸ e, ht⟩
    constructor
    · intro a b hab
      rcases hpts hab with hab | ⟨rfl, rfl⟩
      · exact hal (hc a b hab)
      · exact hal (hc q b ⟨_, hq, rfl⟩)
    · intro a b hab
      rcases hpts hab with hab | ⟨rfl, rfl⟩
      · exact ho a b hab
      · exact htp
  | destroy p =>
    obtain ⟨⟨o, hp⟩, hn⟩ := hg
    simp only [step, hp]
    refine ⟨fun k => (nomatch ·), fun h' e => ?_⟩
    cases e
    refine ⟨?_, ordered_none ho⟩
    rintro a q ⟨o', e, ht⟩
    by_cases ha : a = p
    · have : (h.put p none).obj a = none := if_pos ha
      rw [this] at e; cases e
    · have ea : (h.put p none).obj a = h.obj a := if_neg ha
      have hpt : Points h a q := ⟨o', ea ▸ e, ht⟩
      have hqp : q ≠ p := fun e => hn a (e ▸ hpt)
      obtain ⟨o'', e''⟩ := hc a q hpt
      exact ⟨o'', (if_neg hqp).trans e''⟩

theorem step_bounded {h h' : Heap T} {c : Cmd T} (hb : Bounded h) (e : step h c = .ok h') : Bounded h' :=
  (step_kept (R := fun _ => False) hb e fun _ _ _ => id).2

theorem run_guarded {cs : List (Cmd T)} : ∀ {h : Heap T}, Bounded h → Ordered h → Closed h → Obeys Guarded h cs →
    OnlyOob (run h cs) ∧ ∀ h', run h cs = .ok h' → Closed h' ∧ Ordered h' := by
  induction cs with
  | nil => intro h _ ho hc _; exact ⟨fun k => (nomatch ·), fun h' e => by cases e; exact ⟨hc, ho⟩⟩
  | cons c cs ih =>
    intro h hb ho hc hg
    obtain ⟨h1, h2⟩ := step_guarded hb ho hc hg.1
    refine ⟨h1.bind fun g e => (ih (step_bounded hb e) (h2 g e).2 (h2 g e).1 (hg.2 g e)).1, fun h' e => ?_⟩
    obtain ⟨g, e1, e2⟩ := Res.bind_eq_ok.1 e
    exact (ih (step_bounded hb e1) (h2 g e1).2 (h2 g e1).1 (hg.2 g e1)).2 h' e2

theorem Scoped.guarded {h : Heap T} (ho : Ordered h) {c : Cmd T} (hs : Scoped h c) : Guarded h c := by
  cases c with
  | destroy p =>
    refine ⟨hs.1, fun q hq => ?_⟩
    obtain ⟨o, e, -⟩ := id hq
    have h1 := hs.2 q ⟨o, e⟩
    have h2 := ho q p hq
    omega
  | _ => exact hs

theorem closed_empty : Closed (Heap.empty : Heap T) := fun _ _ ⟨_, e, _⟩ => by cases e

theorem obeys_scoped {cs : List (Cmd T)} : ∀ {h : Heap T}, Bounded h → Ordered h → Closed h → Obeys Scoped h cs → Obeys Guarded h cs := by
  induction cs with
  | nil => intro h _ _ _ _; trivial
  | cons c cs ih =>
    intro h hb ho hc hs
    have hg := hs.1.guarded ho
    have := (step_guarded hb ho hc hg).2
    exact ⟨hg, fun h' e => ih (step_bounded hb e) (this h' e).2 (this h' e).1 (hs.2 h' e)⟩

end ViewMem

/-- C108: a program that ends the lifetime of an object only when no living view points to it, rebinds cofactor views to older objects only, and
otherwise names living objects, never uses or destroys an object that has ended: it can be undefined by an index out of range only, and
all its objects can be looked at. -/
theorem C108_guarded_partial {cs : List (Cmd T)} (hg : Obeys Guarded .empty cs) :
    (∀ k, run .empty cs = .ub k → k = .oob) ∧ ∀ h, run .empty cs = .ok h → ∀ p, Alive h p → ∃ b, look h p = .ok b := by
  obtain ⟨h1, h2⟩ := run_guarded bounded_empty ordered_empty closed_empty hg
  refine ⟨h1, fun h e p hp => ?_⟩
  obtain ⟨hc, ho⟩ := h2 h e
  obtain ⟨m, hm⟩ := hc.resolves ho hp
  exact ⟨_, hm.look (run_bounded e)⟩

/-- C108: in particular, local variables are safe. They end in the reverse order of their construction, so a view never outlives what it
shows, unless a cofactor view is rebound to something younger (`C108_rebind_false`). -/
theorem C108_scoped_partial {cs : List (Cmd T)} (hs : Obeys Scoped .empty cs) :
    (∀ k, run .empty cs = .ub k → k = .oob) ∧ ∀ h, run .empty cs = .ok h → ∀ p, Alive h p → ∃ b, look h p = .ok b :=
  C108_guarded_partial (obeys_scoped bounded_empty ordered_empty closed_empty hs)

/-! ## What views show -/

namespace ViewMem
theorem Resolves.kept {h h' : Heap T} {R : Nat → Prop} (hb : Bounded h) (hk : Kept R h h') {p m} (hm : Resolves h p m) :
    (∀ q, Reach h p q → Alive h' q ∧ R q) → Resolves h' p m := by
  induction hm with
  | @mat p A e =>
    intro hall
    obtain ⟨⟨o, eo⟩, -⟩ := hall p .refl
    rcases hk.2 p (hb p _ e) with k | k | ⟨A', B, k, k'⟩ | ⟨-, _, _, _, _, _, _, k, -⟩
    · rw [k] at eo; cases eo
    · exact .mat (k.trans e)
    · exact .mat k'
    · rw [k] at e; cases e
  | @view p q row col m e _ ih =>
    intro hall
    obtain ⟨⟨o, eo⟩, -⟩ := hall p .refl
    rcases hk.2 p (hb p _ e) with k | k | ⟨A', B, k, k'⟩ | ⟨-, _, _, _, _, _, _, k, -⟩
    · rw [k] at eo; cases eo
    · exact .view (k.trans e) (ih fun t ht => hall t (.head ⟨_, e, rfl⟩ ht))
    · rw [k] at e; cases e
    · rw [k] at e; cases e
  | @cof p q er ec m e _ ih =>
    intro hall
    obtain ⟨⟨o, eo⟩, hR⟩ := hall p .refl
    rcases hk.2 p (hb p _ e) with k | k | ⟨A', B, k, k'⟩ | ⟨k, -⟩
    · rw [k] at eo; cases eo
    · exact .cof (k.trans e) (ih fun t ht => hall t (.head ⟨_, e, rfl⟩ ht))
    · rw [k] at e; cases e
    · exact absurd hR k

theorem run_append {h : Heap T} {as bs : List (Cmd T)} : run h (as ++ bs) = (run h as >>= fun h => run h bs) := by
  induction as generalizing h with
  | nil => rfl
  | cons a as ih =>
    show (step h a >>= fun h => run h (as ++ bs)) = ((step h a >>= fun h => run h as) >>= fun h => run h bs)
    cases step h a with
    | ok g => exact ih
    | _ => rfl

theorem contents_mat {h : Heap T} {v A} (e : h.obj v = some (.mat A)) : h.contents v = A := by unfold Heap.contents; rw [e]

theorem contents_load {h : Heap T} {s : Store T} (hs : ∀ w, (∀ A, h.obj w ≠ some (.mat A)) → s w = .empty0) : (h.load s).contents = s := by
  funext w
  unfold Heap.contents
  rcases hw : h.obj w with _ | (A | _ | _)
  · rw [load_none hw]; exact (hs w fun A e => by rw [hw] at e; cases e).symm
  · rw [load_mat hw]
  · rw [load_view hw]; exact (hs w fun A e => by rw [hw] at e; cases e).symm
  · rw [load_cof hw]; exact (hs w fun A e => by rw [hw] at e; cases e).symm

theorem contents_not {h : Heap T} {w} (hn : ∀ A, h.obj w ≠ some (.mat A)) : h.contents w = .empty0 := by
  unfold Heap.contents
  rcases hw : h.obj w with _ | (A | _ | _)
  · rfl
  · exact absurd hw (hn A)
  · rfl
  · rfl

theorem Resolves.load {h : Heap T} {p m} (hm : Resolves h p m) (s : Store T) : Resolves (h.load s) p m := by
  induction hm with
  | mat e => exact .mat (load_mat e s)
  | view e _ ih => exact .view (load_view e s) ih
  | cof e _ ih => exact .cof (load_cof e s) ih

end ViewMem

/-- C108: the view follows its matrix. Whatever the program does after the view has been made, assigning to the matrix, resizing it, writing
to it directly or through other views: as long as both live and no cofactor view on the way is rebound, the view shows the selected block of what the matrix holds now, at the present
size of the matrix. `ViewChain` gives the block for views of views too. -/
theorem C108_follows {cs₀ cs : List (Cmd T)} {h h' : Heap T} (h0 : run .empty cs₀ = .ok h) (hr : run h cs = .ok h') {p : Nat} {m}
    (hm : Resolves h p m) (hl : ∀ q, Reach h p q → Alive h' q) (hn : ∀ a b, .rebind a b ∈ cs → ¬ Reach h p a) {v N M n k : Nat} {ρ κ} (hc : ViewChain v N M m n k ρ κ) {A e}
    (hv : h'.obj v = some (.mat A)) (hA : A.Holds N M e) :
    ∃ b, look h' p = .ok b ∧ Rep b n k fun r c => e (ρ r) (κ c) := by
  have hb := run_bounded h0
  obtain ⟨hk, hb'⟩ := run_kept hb hr hn
  have hm' := hm.kept hb hk fun q hq => ⟨hl q hq, hq⟩
  have hA' : (h'.contents v).Holds N M e := by rw [contents_mat hv]; exact hA
  exact ⟨_, hm'.look hb', (hc.on hA.fits).1.reads _ e hA'⟩

/-- C108, spelled out for a view made directly of a matrix, whose size may have changed since. -/
theorem C108_follows_block_partial {cs₀ cs : List (Cmd T)} {h h' : Heap T} (h0 : run .empty cs₀ = .ok h) (hr : run h cs = .ok h') {p v : Nat}
    {row col : Range} (hp : h.obj p = some (.view v row col)) (hok : viewOk row col = true) {A : Mat T} {N M : Nat} {e}
    (hp' : Alive h' p) (hv : h'.obj v = some (.mat A)) (hA : A.Holds N M e) (h1 : row.start ≤ N)
    (h2 : col.start ≤ M) :
    ∃ b, look h' p = .ok b ∧
      Rep b (min row.stop N - row.start) (min col.stop M - col.start) fun r c => e (row.start + r) (col.start + c) := by
  have hb := run_bounded h0
  obtain ⟨hk, hb'⟩ := run_kept (R := fun _ => False) hb hr fun _ _ _ => id
  have hp2 : h'.obj p = some (.view v row col) := by
    obtain ⟨o, eo⟩ := hp'
    rcases hk.2 p (hb p _ hp) with k | k | ⟨A', B, k, k'⟩ | ⟨-, _, _, _, _, _, _, k, -⟩
    · rw [k] at eo; cases eo
    · exact k.trans hp
    · rw [k] at hp; cases hp
    · rw [k] at hp; cases hp
  have hm' : Resolves h' p ((MRef.var v).sub row col) := .view hp2 (.mat hv)
  have hA' : (h'.contents v).Holds N M e := by rw [contents_mat hv]; exact hA
  exact ⟨_, hm'.look hb', ((ViewChain.sub row col .var hok h1 h2).on hA.fits).1.reads _ e hA'⟩

/-- C108: a write through one view is seen through every other view, exactly where both show the same cell of the same matrix. -/
theorem C108_alias {cs : List (Cmd T)} {h : Heap T} (h0 : run .empty cs = .ok h) {p q : Nat} {m m'} (hm : Resolves h p m) (hm' : Resolves h q m') {v N M n k w N' M' n' k' : Nat}
    {ρ κ ρ' κ' : Nat → Nat} (hc : ViewChain v N M m n k ρ κ) (hc' : ViewChain w N' M' m' n' k' ρ' κ') {A B : Mat T} {e f}
    (hv : h.obj v = some (.mat A)) (hA : A.Holds N M e) (hw : h.obj w = some (.mat B)) (hB : B.Holds N' M' f) {r c : Nat} (hr : r < n)
    (hk : c < k) (x : T) :
    ∃ h', ViewMem.write h p r c x = .ok h' ∧ ∃ b, look h' q = .ok b ∧
      Rep b n' k' fun i j => if w = v ∧ ρ' i = ρ r ∧ κ' j = κ c then x else f (ρ' i) (κ' j) := by
  have hA' : (h.contents v).Holds N M e := by rw [contents_mat hv]; exact hA
  have hB' : (h.contents w).Holds N' M' f := by rw [contents_mat hw]; exact hB
  obtain ⟨s', h1, h2, h3⟩ := (hc.on hA.fits).1.write _ e r c x hA' hr hk
  have hb := run_bounded h0
  refine ⟨h.load s', by rw [hm.write hb, h1]; rfl, m'.view s', (hm'.look_load hb s'), ?_⟩
  have on' := (hc'.on hB.fits).1
  by_cases hwv : w = v
  · subst hwv
    have hNM : N' = N ∧ M' = M := by
      rw [hv] at hw; cases hw
      exact ⟨hB.rep.rows.symm.trans hA.rep.rows, hB.rep.cols.symm.trans hA.rep.cols⟩
    obtain ⟨rfl, rfl⟩ := hNM
    have hrep := on'.reads s' _ h2
    have hef : ∀ i j, i < N' → j < M' → e i j = f i j := fun i j hi hj => by
      rw [hv] at hw; cases hw
      exact Res.ok.inj ((hA.rep.get i j hi hj).symm.trans (hB.rep.get i j hi hj))
    refine hrep.congr fun i j hi hj => ?_
    rw [hef _ _ (on'.rho_lt i hi) (on'.kap_lt j hj)]
    simp
  · have hB2 : (s' w).Holds N' M' f := by rw [h3 w hwv]; exact hB'
    have hrep := on'.reads s' _ hB2
    refine hrep.congr fun i j hi hj => ?_
    rw [if_neg fun h => hwv h.1]

/-- C108: views of different matrices, and views of parts of a matrix with no row or no column in common, do not disturb each other. -/
theorem C108_disjoint {cs : List (Cmd T)} {h : Heap T} (h0 : run .empty cs = .ok h) {p q : Nat} {m m'} (hm : Resolves h p m) (hm' : Resolves h q m') {v N M n k w N' M' n' k' : Nat}
    {ρ κ ρ' κ' : Nat → Nat} (hc : ViewChain v N M m n k ρ κ) (hc' : ViewChain w N' M' m' n' k' ρ' κ') {A B : Mat T} {e f}
    (hv : h.obj v = some (.mat A)) (hA : A.Holds N M e) (hw : h.obj w = some (.mat B)) (hB : B.Holds N' M' f)
    (hd : w ≠ v ∨ (∀ i r, i < n' → r < n → ρ' i ≠ ρ r) ∨ ∀ j c, j < k' → c < k → κ' j ≠ κ c) {r c : Nat} (hr : r < n) (hk : c < k) (x : T) :
    ∃ h', ViewMem.write h p r c x = .ok h' ∧ ∃ b, look h' q = .ok b ∧ Rep b n' k' fun i j => f (ρ' i) (κ' j) := by
  obtain ⟨h', h1, b, h2, h3⟩ := C108_alias h0 hm hm' hc hc' hv hA hw hB hr hk x
  refine ⟨h', h1, b, h2, h3.congr fun i j hi hj => if_neg ?_⟩
  rintro ⟨rfl, e1, e2⟩
  rcases hd with hd | hd | hd
  · exact hd rfl
  · exact hd i r hi hr e1
  · exact hd j c hj hk e2

/-- C108: assigning to a view copies the elements of the source into the matrix behind it (with the proviso of C16 about overlapping
blocks). Pointers stay as they are: the view still shows the same block of the same matrix. -/
theorem C108_assign {cs : List (Cmd T)} {h : Heap T} (h0 : run .empty cs = .ok h) {p q : Nat} {m m'} (hm : Resolves h p m) (hm' : Resolves h q m') {v N M n k w N' M' : Nat}
    {ρ κ ρ' κ' : Nat → Nat} (hc : ViewChain v N M m n k ρ κ) (hc' : ViewChain w N' M' m' n k ρ' κ') {A B : Mat T} {e f}
    (hv : h.obj v = some (.mat A)) (hA : A.Holds N M e) (hw : h.obj w = some (.mat B)) (hB : B.Holds N' M' f)
    (hnc : w = v → NoClobber n k ρ κ ρ' κ') :
    ∃ h', step h (.assign p q) = .ok h' ∧ Overwritten h.contents h'.contents v N M e n k ρ κ (fun r c => f (ρ' r) (κ' c)) ∧
      (∀ a b, Points h' a b ↔ Points h a b) ∧ Resolves h' p m ∧
      ∃ b, look h' p = .ok b ∧ Rep b n k fun r c => f (ρ' r) (κ' c) := by
  have hA' : (h.contents v).Holds N M e := by rw [contents_mat hv]; exact hA
  have hB' : (h.contents w).Holds N' M' f := by rw [contents_mat hw]; exact hB
  obtain ⟨s', h1, E, hE, h2, h3, h4⟩ := C16_assign_partial hc hc' hnc hA' hB'
  have hco : (h.load s').contents = s' := contents_load fun u hu => by
    by_cases huv : u = v
    · exact absurd hv (huv ▸ hu A)
    · rw [h4 u huv]; exact contents_not hu
  have on := (hc.on hA.fits).1
  have hb := run_bounded h0
  refine ⟨h.load s', by show assign h p q = _; rw [hm.assign hb hm', h1]; rfl, ⟨E, by rw [hco]; exact hE, h2, h3, by rw [hco]; exact h4⟩, ?_,
    hm.load s', m.view s', hm.look_load hb s', ?_⟩
  · intro a b
    unfold Points
    rcases ha : h.obj a with _ | (X | _ | _)
    · rw [load_none ha]
    · rw [load_mat ha]
      constructor <;> rintro ⟨o, e, ht⟩ <;> cases e <;> cases ht
    · rw [load_view ha]
    · rw [load_cof ha]
  · exact (on.reads s' E hE).congr fun i j hi hj => h2 i j hi hj

/-- C108: a copied view is a second view of the same object, not a view of the view: it shows the same, and goes on doing so when the first
one ends. -/
theorem C108_copy {h : Heap T} (ho : ∃ cs, run .empty cs = .ok h) {p : Nat} {m} (hm : Resolves h p m) (hp : ∃ q, Points h p q) :
    ∃ h', run h [.copy p, .destroy p] = .ok h' ∧ Resolves h' h.next m ∧ look h' h.next = look h p := by
  obtain ⟨cs, hcs⟩ := ho
  have hb := run_bounded hcs
  obtain ⟨q0, hq0⟩ := hp
  obtain ⟨o, eo, ht⟩ := id hq0
  have hpn := hb p o eo
  set g := (h.alloc o).put p none with hg
  have hrun : run h [.copy p, .destroy p] = .ok g := by
    have e1 : step h (.copy p) = .ok (h.alloc o) := by simp only [step, eo]
    have e2 : step (h.alloc o) (.destroy p) = .ok g := by
      have : (h.alloc o).obj p = some o := by rw [alloc_obj_lt hpn]; exact eo
      simp only [step, this]; rfl
    show (step h (.copy p) >>= fun h => step h (.destroy p) >>= fun h => .ok h) = _
    rw [e1, Res.ok_bind, e2, Res.ok_bind]
  have hlow : ∀ q o', q ≠ p → h.obj q = some o' → g.obj q = some o' := fun q o' hq e => by
    have : g.obj q = (h.alloc o).obj q := if_neg hq
    rw [this, alloc_obj_lt (hb q _ e)]; exact e
  have hnext : g.obj h.next = some o := by
    have : g.obj h.next = (h.alloc o).obj h.next := if_neg (by omega)
    rw [this, alloc_obj_next]
  have up : ∀ {q m'}, Resolves h q m' → ¬ Reach h q p → Resolves g q m' := by
    intro q m' hm'
    induction hm' with
    | mat e => exact fun hn => .mat (hlow _ _ (fun h => hn (h ▸ .refl)) e)
    | view e _ ih => exact fun hn => .view (hlow _ _ (fun h => hn (h ▸ .refl)) e) (ih fun h => hn (.head ⟨_, e, rfl⟩ h))
    | cof e _ ih => exact fun hn => .cof (hlow _ _ (fun h => hn (h ▸ .refl)) e) (ih fun h => hn (.head ⟨_, e, rfl⟩ h))
  have hcyc := hm.acyclic hq0
  have hres : Resolves g h.next m := by
    cases hm with
    | mat e => rw [eo] at e; cases e; cases ht
    | view e hq => rw [eo] at e; cases e; cases ht; exact .view hnext (up hq hcyc)
    | cof e hq => rw [eo] at e; cases e; cases ht; exact .cof hnext (up hq hcyc)
  have hgb : Bounded g := by
    have : run .empty (cs ++ [.copy p, .destroy p]) = .ok g := by rw [run_append, hcs]; exact hrun
    exact run_bounded this
  have hcon : ∀ {q m'}, Resolves h q m' → ¬ Reach h q p → m'.view g.contents = m'.view h.contents := by
    intro q m' hm'
    induction hm' with
    | @mat q A e =>
      intro hn
      show (g.contents q).toMB = (h.contents q).toMB
      rw [contents_mat e, contents_mat (hlow q _ (fun h => hn (h ▸ .refl)) e)]
    | view e _ ih => intro hn; show (MRef.view _ _).view _ _ = (MRef.view _ _).view _ _; rw [ih fun h => hn (.head ⟨_, e, rfl⟩ h)]
    | cof e _ ih => intro hn; show (MRef.view _ _).cofactor _ _ = (MRef.view _ _).cofactor _ _; rw [ih fun h => hn (.head ⟨_, e, rfl⟩ h)]
  refine ⟨g, hrun, hres, ?_⟩
  rw [hres.look hgb, hm.look hb]
  cases hm with
  | mat e => rw [eo] at e; cases e; cases ht
  | view e hq => rw [eo] at e; cases e; cases ht; show Res.ok ((MRef.view _ _).view _ _) = Res.ok ((MRef.view _ _).view _ _); rw [hcon hq hcyc]
  | cof e hq => rw [eo] at e; cases e; cases ht; show Res.ok ((MRef.view _ _).cofactor _ _) = Res.ok ((MRef.view _ _).cofactor _ _); rw [hcon hq hcyc]

/-- C108: a copied matrix is a matrix of its own: writing to it, directly or through views of it, does not reach the original. -/
theorem C108_copy_matrix {h : Heap T} (ho : ∃ cs, run .empty cs = .ok h) {p : Nat} {A : Mat T} {N M : Nat} {e} (hp : h.obj p = some (.mat A))
    (hA : A.Holds N M e) {r c : Nat} (hr : r < N) (hk : c < M) (x : T) :
    ∃ h', run h [.copy p, .write h.next r c x] = .ok h' ∧ (∃ b, look h' p = .ok b ∧ Rep b N M e) ∧
      ∃ b, look h' h.next = .ok b ∧ Rep b N M fun i j => if i = r ∧ j = c then x else e i j := by
  obtain ⟨cs, hcs⟩ := ho
  have hpn := run_bounded hcs p _ hp
  have e1 : step h (.copy p) = .ok (h.alloc (.mat A)) := by simp only [step, hp]
  have hn : (h.alloc (.mat A)).obj h.next = some (.mat A) := alloc_obj_next
  have ho : (h.alloc (.mat A)).obj p = some (.mat A) := by rw [alloc_obj_lt hpn]; exact hp
  have h0 : run .empty (cs ++ [.copy p]) = .ok (h.alloc (.mat A)) := by
    rw [run_append, hcs]
    show (step h (.copy p) >>= fun h => .ok h) = _
    rw [e1, Res.ok_bind]
  obtain ⟨h', h1, b, h2, h3⟩ := C108_alias h0 (.mat hn) (.mat ho) .var .var hn hA ho hA hr hk x
  obtain ⟨h'', h1', b', h2', h3'⟩ := C108_alias h0 (.mat hn) (.mat hn) .var .var hn hA hn hA hr hk x
  rw [h1] at h1'; cases h1'
  refine ⟨h', ?_, ⟨b, h2, h3.congr fun i j _ _ => if_neg fun h => absurd h.1 (by omega)⟩, b', h2', h3'.congr fun i j _ _ => by simp⟩
  show (step h (.copy p) >>= fun g => step g (.write h.next r c x) >>= fun g => .ok g) = _
  rw [e1, Res.ok_bind]
  show (ViewMem.write (h.alloc (.mat A)) h.next r c x >>= fun g => .ok g) = _
  rw [h1, Res.ok_bind]

/-- C108: assigning a cofactor view to one of the same type copies no elements (all matrices keep their contents) and checks no sizes. The
target becomes a second view of what the source shows. -/
theorem C108_rebind {cs : List (Cmd T)} {h : Heap T} (h0 : run .empty cs = .ok h) {p q : Nat} {t er ec t' er' ec' : Nat}
    (hp : h.obj p = some (.cof t er ec)) (hq : h.obj q = some (.cof t' er' ec')) :
    ∃ h', step h (.rebind p q) = .ok h' ∧ h'.contents = h.contents ∧ (∀ a, a ≠ p → h'.obj a = h.obj a) ∧ h'.obj p = h.obj q ∧
      ∀ m, Resolves h q m → ¬ Reach h t' p → Resolves h' p m ∧ look h' p = look h q := by
  set g := h.put p (some (.cof t' er' ec')) with hg
  have hstep : step h (.rebind p q) = .ok g := by simp only [step, hp, hq]; rfl
  have hne : ∀ a, a ≠ p → g.obj a = h.obj a := fun a ha => if_neg ha
  have hgp : g.obj p = some (.cof t' er' ec') := if_pos rfl
  have hb := run_bounded h0
  have hgb : Bounded g := bounded_put hb (hb _ _ hp)
  have hcon : g.contents = h.contents := by
    funext a
    by_cases ha : a = p
    · subst ha
      rw [contents_not fun A e => (by rw [hgp] at e; cases e), contents_not fun A e => (by rw [hp] at e; cases e)]
    · unfold Heap.contents; rw [hne a ha]
  refine ⟨g, hstep, hcon, hne, hgp.trans hq.symm, fun m hm hn => ?_⟩
  have up : ∀ {a m'}, Resolves h a m' → ¬ Reach h a p → Resolves g a m' := by
    intro a m' hm'
    induction hm' with
    | mat e => exact fun hn => .mat ((hne _ fun h => hn (h ▸ .refl)).trans e)
    | view e _ ih => exact fun hn => .view ((hne _ fun h => hn (h ▸ .refl)).trans e) (ih fun h => hn (.head ⟨_, e, rfl⟩ h))
    | cof e _ ih => exact fun hn => .cof ((hne _ fun h => hn (h ▸ .refl)).trans e) (ih fun h => hn (.head ⟨_, e, rfl⟩ h))
  have hres : Resolves g p m := by
    cases hm with
    | mat e => rw [hq] at e; cases e
    | view e _ => rw [hq] at e; cases e
    | cof e hm => rw [hq] at e; cases e; exact .cof hgp (up hm hn)
  exact ⟨hres, by rw [hres.look hgb, hm.look hb, hcon]⟩

/-! ## What goes wrong -/

/-- C108: a view does not keep what it shows alive. In `auto V = (A + B)(Range::all(), Range::all());` the sum ends with the statement, and
every use of the living view `V` is undefined. -/
theorem C108_temporary_false :
    ¬ ∀ (cs : List (Cmd Int)) (h : Heap Int) (p : Nat), run .empty cs = .ok h → Alive h p → ∃ b, look h p = .ok b := by
  intro hall
  have hr : run .empty [.mat ⟨2, 2, [1, 2, 3, 4]⟩, .view 0 ⟨0, 2⟩ ⟨0, 2⟩, .destroy 0] =
    .ok (((Heap.empty.alloc (.mat (⟨2, 2, [1, 2, 3, 4]⟩ : Mat Int))).alloc (.view 0 ⟨0, 2⟩ ⟨0, 2⟩)).put 0 none) := rfl
  obtain ⟨b, hb⟩ := hall _ _ 1 hr ⟨_, rfl⟩
  cases hb

/-- C108: a view is not told when its matrix shrinks. The view of the last row of a `3 × 2` matrix that is then resized to `1 × 2` claims
`2 ^ 64 - 1` rows, and reading its first element is out of bounds, although the matrix lives. -/
theorem C108_shrink_false :
    ¬ ∀ (cs : List (Cmd Int)) (h : Heap Int) (p q : Nat) (A : Mat Int) (b : MB Int), run .empty cs = .ok h → Points h p q →
      h.obj q = some (.mat A) → look h p = .ok b → b.rows ≤ A.rows ∧ (0 < b.rows → 0 < b.cols → ∃ x, b.at_ 0 0 = .ok x) := by
  intro hall
  have hr : run .empty [.mat ⟨3, 2, [1, 2, 3, 4, 5, 6]⟩, .view 0 ⟨2, 3⟩ ⟨0, 2⟩, .change 0 ⟨1, 2, [1, 2]⟩] =
    .ok (((Heap.empty.alloc (.mat (⟨3, 2, [1, 2, 3, 4, 5, 6]⟩ : Mat Int))).alloc (.view 0 ⟨2, 3⟩ ⟨0, 2⟩)).put 0 (some (.mat ⟨1, 2, [1, 2]⟩))) := rfl
  obtain ⟨h1, -⟩ := hall _ _ 1 0 ⟨1, 2, [1, 2]⟩ ((⟨1, 2, [1, 2]⟩ : Mat Int).toMB.view ⟨2, 3⟩ ⟨0, 2⟩) hr ⟨_, rfl, rfl⟩ rfl rfl
  revert h1
  decide +kernel

/-- C16: assignment to a `CofactorView` of a `CofactorView` of the same type does not copy the elements, as all other assignments to views
do (`C16_assign_partial`): seen through another view `p'` of what `p` shows, nothing changes. -/
theorem C16_cofactor_false :
    ¬ ∀ (cs : List (Cmd Int)) (h h' : Heap Int) (p p' q t er ec t' er' ec' : Nat) (b b' : MB Int), run .empty cs = .ok h →
      h.obj p = some (.cof t er ec) → h.obj p' = h.obj p → p' ≠ p → h.obj q = some (.cof t' er' ec') → t' ≠ t →
      step h (.rebind p q) = .ok h' → look h' p' = .ok b → look h q = .ok b' → b.rows = b'.rows → b.cols = b'.cols →
      ∀ r c, r < b'.rows → c < b'.cols → b.at_ r c = b'.at_ r c := by
  intro hall
  let A : Mat Int := ⟨2, 2, [1, 2, 3, 4]⟩
  let B : Mat Int := ⟨2, 2, [5, 6, 7, 8]⟩
  let h : Heap Int := ((((Heap.empty.alloc (.mat A)).alloc (.mat B)).alloc (.cof 0 0 0)).alloc (.cof 1 0 0)).alloc (.cof 0 0 0)
  have := hall [.mat A, .mat B, .cof 0 0 0, .cof 1 0 0, .cof 0 0 0] h (h.put 2 (some (.cof 1 0 0))) 2 4 3 0 0 0 1 0 0 (A.toMB.cofactor 0 0)
    (B.toMB.cofactor 0 0) rfl rfl rfl (by decide) rfl (by decide) rfl rfl rfl rfl rfl 0 0 (by decide +kernel) (by decide +kernel)
  revert this
  decide +kernel

/-- C108: a cofactor view in an outer scope, assigned one of a matrix in an inner scope, dangles when the inner scope is left; the assignment
looks like all the others that copy elements. -/
theorem C108_rebind_false :
    ¬ ∀ (cs : List (Cmd Int)) (h : Heap Int) (p : Nat), Obeys Local .empty cs → run .empty cs = .ok h → Alive h p → look h p ≠ .ub .useAfterFree := by
  intro hall
  let A : Mat Int := ⟨2, 2, [1, 2, 3, 4]⟩
  let B : Mat Int := ⟨2, 2, [5, 6, 7, 8]⟩
  let h : Heap Int := (((((Heap.empty.alloc (.mat A)).alloc (.cof 0 0 0)).alloc (.mat B)).alloc (.cof 2 0 0)).put 1 (some (.cof 2 0 0)))
  refine hall [.mat A, .cof 0 0 0, .mat B, .cof 2 0 0, .rebind 1 3, .destroy 3, .destroy 2] ((h.put 3 none).put 2 none) 1 ?_ rfl ⟨_, rfl⟩ rfl
  refine ⟨trivial, fun h e => ?_⟩; cases e
  refine ⟨⟨_, rfl⟩, fun h e => ?_⟩; cases e
  refine ⟨trivial, fun h e => ?_⟩; cases e
  refine ⟨⟨_, rfl⟩, fun h e => ?_⟩; cases e
  refine ⟨⟨⟨_, _, _, rfl⟩, _, _, _, rfl⟩, fun h e => ?_⟩; cases e
  refine ⟨⟨⟨_, rfl⟩, fun q ⟨o, hq⟩ => ?_⟩, fun h e => ?_⟩
  · by_contra hlt
    obtain ⟨q, rfl⟩ : ∃ k, q = k + 4 := ⟨q - 4, by omega⟩
    cases hq
  cases e
  refine ⟨⟨⟨_, rfl⟩, fun q ⟨o, hq⟩ => ?_⟩, fun h e => trivial⟩
  by_contra hlt
  obtain ⟨q, rfl⟩ : ∃ k, q = k + 3 := ⟨q - 3, by omega⟩
  rcases q with _ | q <;> cases hq

/-- C108: a cofactor view can even be made to show itself; asking for its size then never ends. -/
theorem C108_cycle_false :
    ¬ ∀ (cs : List (Cmd Int)) (h : Heap Int) (p : Nat), Obeys Local .empty cs → run .empty cs = .ok h → Alive h p → look h p ≠ .diverge := by
  intro hall
  let A : Mat Int := ⟨3, 3, [1, 2, 3, 4, 5, 6, 7, 8, 9]⟩
  let h : Heap Int := (((Heap.empty.alloc (.mat A)).alloc (.cof 0 0 0)).alloc (.cof 1 0 0)).put 1 (some (.cof 1 0 0))
  refine hall [.mat A, .cof 0 0 0, .cof 1 0 0, .rebind 1 2] h 1 ?_ rfl ⟨_, rfl⟩ rfl
  refine ⟨trivial, fun h e => ?_⟩; cases e
  refine ⟨⟨_, rfl⟩, fun h e => ?_⟩; cases e
  refine ⟨⟨_, rfl⟩, fun h e => ?_⟩; cases e
  exact ⟨⟨⟨_, _, _, rfl⟩, _, _, _, rfl⟩, fun h e => trivial⟩

/-! ## Examples -/

section examples

/-- A `3 × 3` matrix with rows `1 2 3`, `4 5 6`, `7 8 9`. -/
private def A3 : Mat Int := ⟨3, 3, [1, 2, 3, 4, 5, 6, 7, 8, 9]⟩

/-- What object `p` shows at the end of a program. -/
private def shows (cs : List (Cmd Int)) (p n m : Nat) : List (List (Res Int)) :=
  (List.range n).map fun r => (List.range m).map fun c => do
    let h ← run .empty cs
    let b ← look h p
    b.at_ r c

-- A view of a view and a cofactor view of it; a write through the second is seen through the first and in the matrix.
example : shows [.mat A3, .view 0 ⟨1, 3⟩ ⟨0, 3⟩, .cof 1 0 1, .write 2 0 1 60] 0 3 3 =
    [[.ok 1, .ok 2, .ok 3], [.ok 4, .ok 5, .ok 6], [.ok 7, .ok 8, .ok 60]] := by decide +kernel
example : shows [.mat A3, .view 0 ⟨1, 3⟩ ⟨0, 3⟩, .cof 1 0 1, .write 2 0 1 60] 1 2 3 =
    [[.ok 4, .ok 5, .ok 6], [.ok 7, .ok 8, .ok 60]] := by decide +kernel
-- The matrix is replaced by another one: the view shows the block of the new one.
example : shows [.mat A3, .view 0 ⟨1, 3⟩ ⟨0, 2⟩, .change 0 ⟨3, 2, [10, 20, 30, 40, 50, 60]⟩] 1 2 2 =
    [[.ok 30, .ok 40], [.ok 50, .ok 60]] := by decide +kernel
-- The view is gone, its copy still works.
example : shows [.mat A3, .view 0 ⟨1, 3⟩ ⟨0, 2⟩, .copy 1, .destroy 1] 2 2 2 = [[.ok 4, .ok 5], [.ok 7, .ok 8]] := by decide +kernel
-- A view of a view that is gone cannot be used any more, although the matrix lives.
example : shows [.mat A3, .view 0 ⟨1, 3⟩ ⟨0, 2⟩, .view 1 ⟨0, 1⟩ ⟨0, 1⟩, .destroy 1] 2 1 1 = [[.ub .useAfterFree]] := by decide +kernel
-- The shrunk matrix of `C108_shrink_false`.
example : shows [.mat ⟨3, 2, [1, 2, 3, 4, 5, 6]⟩, .view 0 ⟨2, 3⟩ ⟨0, 2⟩, .change 0 ⟨1, 2, [1, 2]⟩] 1 1 1 = [[.ub .oob]] := by decide +kernel
-- Assigning one view to another copies elements; `w` still shows its own matrix.
example : shows [.mat A3, .mat ⟨1, 3, [0, 0, 0]⟩, .view 0 ⟨1, 2⟩ ⟨0, 3⟩, .view 1 ⟨0, 1⟩ ⟨0, 3⟩, .assign 3 2, .write 2 0 0 44] 3 1 3 =
    [[.ok 4, .ok 5, .ok 6]] := by decide +kernel
-- Assigning one cofactor view to another copies nothing: the first matrix is as before, and the first view now shows the second one.
example : shows [.mat A3, .mat ⟨2, 2, [10, 20, 30, 40]⟩, .cof 0 0 0, .cof 1 1 1, .rebind 2 3, .write 2 0 0 11] 0 1 3 = [[.ok 1, .ok 2, .ok 3]] := by
  decide +kernel
example : shows [.mat A3, .mat ⟨2, 2, [10, 20, 30, 40]⟩, .cof 0 0 0, .cof 1 1 1, .rebind 2 3, .write 2 0 0 11] 1 2 2 =
    [[.ok 11, .ok 20], [.ok 30, .ok 40]] := by decide +kernel
-- A scoped program, to which `C108_scoped_partial` applies.
example : Obeys Scoped (.empty : Heap Int) [.mat A3, .view 0 ⟨1, 3⟩ ⟨0, 2⟩, .copy 1, .destroy 2] := by
  refine ⟨trivial, fun h e => ?_⟩; cases e
  refine ⟨⟨_, rfl⟩, fun h e => ?_⟩; cases e
  refine ⟨⟨_, rfl⟩, fun h e => ?_⟩; cases e
  refine ⟨⟨⟨_, rfl⟩, fun q ⟨o, hq⟩ => ?_⟩, fun h e => trivial⟩
  by_contra hlt
  obtain ⟨q, rfl⟩ : ∃ k, q = k + 3 := ⟨q - 3, by omega⟩
  cases hq

end examples

end Malg
