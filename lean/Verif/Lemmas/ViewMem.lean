import Verif.Spec.ViewMem
import Verif.Lemmas.Loops
import Mathlib.Data.Fintype.Card
/-!
# Lifetimes of views: lemmas
-/
namespace Malg.ViewMem
variable {T : Type}

@[ext] theorem Heap.ext {a b : Heap T} (h1 : ∀ p, a.obj p = b.obj p) (h2 : a.next = b.next) : a = b := by
  cases a; cases b; cases h2
  congr
  exact funext h1

/-- The same objects, the matrices with contents `s`. -/
def Heap.load (h : Heap T) (s : Store T) : Heap T :=
  { h with obj := fun p => match h.obj p with
      | some (.mat _) => some (.mat (s p))
      | o => o }

theorem load_mat {h : Heap T} {p A} (e : h.obj p = some (.mat A)) (s : Store T) : (h.load s).obj p = some (.mat (s p)) := by
  unfold Heap.load; dsimp only; rw [e]
theorem load_view {h : Heap T} {p q row col} (e : h.obj p = some (.view q row col)) (s : Store T) :
    (h.load s).obj p = some (.view q row col) := by
  unfold Heap.load; dsimp only; rw [e]
theorem load_cof {h : Heap T} {p q er ec} (e : h.obj p = some (.cof q er ec)) (s : Store T) :
    (h.load s).obj p = some (.cof q er ec) := by
  unfold Heap.load; dsimp only; rw [e]
theorem load_none {h : Heap T} {p} (e : h.obj p = none) (s : Store T) : (h.load s).obj p = none := by
  unfold Heap.load; dsimp only; rw [e]

theorem load_contents (h : Heap T) : h.load h.contents = h := by
  refine Heap.ext (fun p => ?_) ?_
  · unfold Heap.load Heap.contents
    dsimp only
    rcases h.obj p with _ | (_ | _ | _) <;> rfl
  · rfl

theorem load_put {h : Heap T} {p A} (e : h.obj p = some (.mat A)) (s : Store T) (B : Mat T) :
    (h.load s).put p (some (.mat B)) = h.load (s.put p B) := by
  refine Heap.ext (fun q => ?_) ?_
  · by_cases hq : q = p
    · subst hq
      rw [load_mat e]
      simp [Heap.put, Store.put]
    · have : ((h.load s).put p (some (.mat B))).obj q = (h.load s).obj q := if_neg hq
      rw [this]
      unfold Heap.load Store.put
      dsimp only
      rcases h.obj q with _ | (_ | _ | _) <;> simp [hq]
  · rfl

/-! ## Following pointers -/

/-- From `p` one follows `d` pointers, to a matrix or to something that has ended. -/
inductive Chain (h : Heap T) : Nat → Nat → Prop
  | none {p} : h.obj p = none → Chain h p 0
  | mat {p A} : h.obj p = some (.mat A) → Chain h p 0
  | next {p q d} : Points h p q → Chain h q d → Chain h p (d + 1)

/-- Only allocated addresses have objects. -/
def Bounded (h : Heap T) : Prop := ∀ p o, h.obj p = some o → p < h.next

theorem Points.det {h : Heap T} {p a b} : Points h p a → Points h p b → a = b := by
  rintro ⟨o, e, t⟩ ⟨o', e', t'⟩
  rw [e] at e'; cases e'
  rw [t] at t'; exact Option.some.inj t'

theorem Chain.det {h : Heap T} {p a} (ha : Chain h p a) : ∀ {b}, Chain h p b → a = b := by
  induction ha with
  | none e =>
    rintro _ (e' | e' | ⟨⟨o, e', -⟩, -⟩)
    · rfl
    · rfl
    · rw [e] at e'; cases e'
  | mat e =>
    rintro _ (e' | e' | ⟨⟨o, e', t⟩, -⟩)
    · rfl
    · rfl
    · rw [e] at e'; cases e'; cases t
  | @next p q d hp hq ih =>
    rintro _ (e' | e' | ⟨hp', hq'⟩)
    · obtain ⟨o, e, t⟩ := hp; rw [e] at e'; cases e'
    · obtain ⟨o, e, t⟩ := hp; rw [e] at e'; cases e'; cases t
    · cases hp.det hp'
      rw [ih hq']

theorem Chain.under {h : Heap T} {p d} (hc : Chain h p d) : ∀ {c}, c < d → ∃ q o, h.obj q = some o ∧ Chain h q (c + 1) := by
  induction hc with
  | none => intro c hcd; omega
  | mat => intro c hcd; omega
  | @next p q d hp hq ih =>
    intro c hcd
    by_cases hc : c = d
    · obtain ⟨o, e, t⟩ := id hp
      exact ⟨p, o, e, hc ▸ .next hp hq⟩
    · exact ih (by omega)

theorem Chain.le {h : Heap T} (hb : Bounded h) {p d} (hc : Chain h p d) : d ≤ h.next := by
  choose f o e g using fun c : Fin d => hc.under c.2
  have hinj : Function.Injective fun c : Fin d => (⟨f c, hb _ _ (e c)⟩ : Fin h.next) := by
    intro a b hab
    have hab : f a = f b := congrArg Fin.val hab
    have := (g a).det (hab ▸ g b)
    exact Fin.ext (by omega)
  simpa using Fintype.card_le_of_injective _ hinj

theorem Resolves.chain {h : Heap T} {p m} (hm : Resolves h p m) : ∃ d, Chain h p d := by
  induction hm with
  | mat e => exact ⟨0, .mat e⟩
  | view e _ ih => obtain ⟨d, hd⟩ := ih; exact ⟨d + 1, .next ⟨_, e, rfl⟩ hd⟩
  | cof e _ ih => obtain ⟨d, hd⟩ := ih; exact ⟨d + 1, .next ⟨_, e, rfl⟩ hd⟩

theorem Chain.reach {h : Heap T} {p q d} (hpq : Reach h p q) : Chain h p d → ∃ c, c ≤ d ∧ Chain h q c := by
  induction hpq using Relation.ReflTransGen.head_induction_on generalizing d with
  | refl => exact fun hc => ⟨d, Nat.le_refl d, hc⟩
  | head h1 _ ih =>
    intro hc
    cases hc with
    | none e => obtain ⟨o, e', -⟩ := h1; rw [e] at e'; cases e'
    | mat e => obtain ⟨o, e', t⟩ := h1; rw [e] at e'; cases e'; cases t
    | next h1' hc =>
      cases h1.det h1'
      obtain ⟨c, h1, h2⟩ := ih hc
      exact ⟨c, by omega, h2⟩

/-- Who can be resolved does not come back to itself. -/
theorem Resolves.acyclic {h : Heap T} {p q m} (hm : Resolves h p m) (hp : Points h p q) : ¬ Reach h q p := by
  intro hq
  obtain ⟨d, hd⟩ := hm.chain
  cases hd with
  | none e => obtain ⟨o, e', -⟩ := hp; rw [e] at e'; cases e'
  | mat e => obtain ⟨o, e', t⟩ := hp; rw [e] at e'; cases e'; cases t
  | next h1 hc =>
    cases hp.det h1
    obtain ⟨c, h1, h2⟩ := hc.reach hq
    have := h2.det (.next hp hc)
    omega

theorem Resolves.lookN_load {h : Heap T} {p m} (hm : Resolves h p m) (s : Store T) :
    ∀ {fuel d}, Chain h p d → d < fuel → lookN (h.load s) fuel p = .ok (m.view s) := by
  induction hm with
  | mat e =>
    rintro (_ | fuel) d - hf
    · omega
    · rw [lookN, load_mat e]; rfl
  | view e _ ih =>
    rintro (_ | fuel) d hc hf
    · omega
    · rw [lookN, load_view e]
      dsimp only
      cases hc with
      | none e' => rw [e] at e'; cases e'
      | mat e' => rw [e] at e'; cases e'
      | next hp hc => obtain ⟨o, e', t⟩ := hp; rw [e] at e'; cases e'; cases t; rw [ih hc (by omega)]; rfl
  | cof e _ ih =>
    rintro (_ | fuel) d hc hf
    · omega
    · rw [lookN, load_cof e]
      dsimp only
      cases hc with
      | none e' => rw [e] at e'; cases e'
      | mat e' => rw [e] at e'; cases e'
      | next hp hc => obtain ⟨o, e', t⟩ := hp; rw [e] at e'; cases e'; cases t; rw [ih hc (by omega)]; rfl

theorem Resolves.writeN_load {h : Heap T} {p m} (hm : Resolves h p m) (s : Store T) (x : T) :
    ∀ {fuel d} r c, Chain h p d → d < fuel → writeN (h.load s) fuel p r c x = (m.setAt s r c x >>= fun s' => .ok (h.load s')) := by
  induction hm with
  | @mat p A e =>
    rintro (_ | fuel) d r c - hf
    · omega
    · rw [writeN, load_mat e]
      dsimp only
      show ((s p).setAt r c x >>= fun A => Res.ok ((h.load s).put p (some (.mat A)))) =
        (((s p).setAt r c x >>= fun A => Res.ok (s.put p A)) >>= fun s' => .ok (h.load s'))
      cases hA : (s p).setAt r c x <;> first | rfl | (simp only [Res.ok_bind, load_put e])
  | view e _ ih =>
    rintro (_ | fuel) d r c hc hf
    · omega
    · rw [writeN, load_view e]
      cases hc with
      | none e' => rw [e] at e'; cases e'
      | mat e' => rw [e] at e'; cases e'
      | next hp hc => obtain ⟨o, e', t⟩ := hp; rw [e] at e'; cases e'; cases t; exact ih _ _ hc (by omega)
  | cof e _ ih =>
    rintro (_ | fuel) d r c hc hf
    · omega
    · rw [writeN, load_cof e]
      cases hc with
      | none e' => rw [e] at e'; cases e'
      | mat e' => rw [e] at e'; cases e'
      | next hp hc => obtain ⟨o, e', t⟩ := hp; rw [e] at e'; cases e'; cases t; exact ih _ _ hc (by omega)

theorem Resolves.look_load {h : Heap T} (hb : Bounded h) {p m} (hm : Resolves h p m) (s : Store T) : look (h.load s) p = .ok (m.view s) := by
  obtain ⟨d, hd⟩ := hm.chain
  have := hd.le hb
  exact hm.lookN_load s hd (Nat.lt_succ_of_le this)

theorem Resolves.write_load {h : Heap T} (hb : Bounded h) {p m} (hm : Resolves h p m) (s : Store T) (r c : Nat) (x : T) :
    write (h.load s) p r c x = (m.setAt s r c x >>= fun s' => .ok (h.load s')) := by
  obtain ⟨d, hd⟩ := hm.chain
  have := hd.le hb
  exact hm.writeN_load s x r c hd (Nat.lt_succ_of_le this)

/-- Loops commute with an embedding of the states. -/
theorem forRange_embed {σ τ : Type} (F : σ → τ) {body : Nat → σ → Res σ} {body' : Nat → τ → Res τ}
    (hb : ∀ i s, body' i (F s) = (body i s >>= fun s' => .ok (F s'))) (lo hi : Nat) (s : σ) :
    forRange lo hi (F s) body' = (forRange lo hi s body >>= fun s' => .ok (F s')) := by
  by_cases h : lo ≤ hi
  · induction hi, h using Nat.le_induction with
    | base => simp
    | succ n hn ih =>
      rw [forRange_succ_last hn, forRange_succ_last hn, ih]
      cases forRange lo n s body with
      | ok a => simp only [Res.ok_bind]; exact hb n a
      | _ => rfl
  · rw [forRange_ge (by omega), forRange_ge (by omega)]; rfl

theorem Resolves.assign_load {h : Heap T} (hb : Bounded h) {p q m m'} (hm : Resolves h p m) (hm' : Resolves h q m') (s : Store T) :
    assign (h.load s) p q = (m.assign m'.view id s >>= fun s' => .ok (h.load s')) := by
  unfold assign MRef.assign
  rw [hm.look_load hb s, Res.ok_bind, hm'.look_load hb s, Res.ok_bind]
  split
  · rfl
  · split
    · rfl
    · refine forRange_embed h.load (fun r s => ?_) _ _ _
      refine forRange_embed h.load (fun c s => ?_) _ _ _
      rw [hm'.look_load hb s, Res.ok_bind]
      cases (m'.view s).at_ r c with
      | ok x => simp only [Res.ok_bind]; exact hm.write_load hb s _ _ _
      | _ => rfl

theorem Resolves.look {h : Heap T} (hb : Bounded h) {p m} (hm : Resolves h p m) : look h p = .ok (m.view h.contents) := by
  have := hm.look_load hb h.contents
  rwa [load_contents] at this
theorem Resolves.write {h : Heap T} (hb : Bounded h) {p m} (hm : Resolves h p m) (r c : Nat) (x : T) :
    write h p r c x = (m.setAt h.contents r c x >>= fun s' => .ok (h.load s')) := by
  have := hm.write_load hb h.contents r c x
  rwa [load_contents] at this
theorem Resolves.assign {h : Heap T} (hb : Bounded h) {p q m m'} (hm : Resolves h p m) (hm' : Resolves h q m') :
    assign h p q = (m.assign m'.view id h.contents >>= fun s' => .ok (h.load s')) := by
  have := hm.assign_load hb hm' h.contents
  rwa [load_contents] at this

/-- Either one comes to a matrix, or to something that has ended, or to neither ever. -/
theorem resolves_or {h : Heap T} (hb : Bounded h) (p : Nat) :
    ((∃ m, Resolves h p m) ∧ (∀ q, Reach h p q → Alive h q) ∧ ∃ q A, Reach h p q ∧ h.obj q = some (.mat A)) ∨
    ((∃ q, Reach h p q ∧ ¬ Alive h q) ∧ (∀ q A, Reach h p q → h.obj q ≠ some (.mat A)) ∧ look h p = .ub .useAfterFree ∧
      ∀ r c x, write h p r c x = .ub .useAfterFree) ∨
    ((∀ q, Reach h p q → Alive h q) ∧ (∀ q A, Reach h p q → h.obj q ≠ some (.mat A)) ∧ look h p = .diverge ∧
      ∀ r c x, write h p r c x = .diverge) := by
  by_cases hd : ∃ d, Chain h p d
  · obtain ⟨d, hd⟩ := hd
    have hf : d < h.next + 1 := Nat.lt_succ_of_le (hd.le hb)
    unfold ViewMem.look ViewMem.write
    revert hf
    generalize h.next + 1 = fuel
    intro hf
    refine or_assoc.1 (.inl ?_)
    induction hd generalizing fuel with
    | @none p e =>
      obtain ⟨f, rfl⟩ : ∃ f, fuel = f + 1 := ⟨fuel - 1, by omega⟩
      refine .inr ⟨⟨p, .refl, fun ⟨o, e'⟩ => by rw [e] at e'; cases e'⟩, fun q A hq => ?_, by rw [lookN, e], fun r c x => by rw [writeN, e]⟩
      rcases Relation.ReflTransGen.cases_head hq with rfl | ⟨u, ⟨o', e1, e2⟩, hu⟩
      · rw [e]; exact (nomatch ·)
      · rw [e] at e1; cases e1
    | @mat p A e =>
      refine .inl ⟨⟨_, .mat e⟩, fun q hq => ?_, p, A, .refl, e⟩
      rcases Relation.ReflTransGen.cases_head hq with rfl | ⟨u, ⟨o', e1, e2⟩, hu⟩
      · exact ⟨_, e⟩
      · rw [e] at e1; cases e1; cases e2
    | @next p q d hp hq ih =>
      obtain ⟨f, rfl⟩ : ∃ f, fuel = f + 1 := ⟨fuel - 1, by omega⟩
      have hreach : ∀ t, Reach h p t → t = p ∨ Reach h q t := by
        intro t ht
        rcases Relation.ReflTransGen.cases_head ht with rfl | ⟨u, h1, hu⟩
        · exact .inl rfl
        · cases hp.det h1; exact .inr hu
      obtain ⟨o, e, t⟩ := id hp
      rcases ih f (by omega) with ⟨⟨m, hm⟩, h1, u, A, h2, h3⟩ | ⟨⟨u, hu, hn⟩, h1, h2, h3⟩
      · refine .inl ⟨?_, fun t ht => (hreach t ht).elim (fun e' => e' ▸ ⟨_, e⟩) (h1 t), u, A, .head hp h2, h3⟩
        cases o with
        | mat A => cases t
        | view q' row col => cases t; exact ⟨_, .view e hm⟩
        | cof q' er ec => cases t; exact ⟨_, .cof e hm⟩
      · refine .inr ⟨⟨u, .head hp hu, hn⟩, fun t' A ht => (hreach t' ht).elim (fun e' => ?_) (h1 t' A), ?_, fun r c x => ?_⟩
        · subst e'; rw [e]; intro hh; cases hh; cases t
        · cases o with
          | mat A => cases t
          | view q' row col => cases t; rw [lookN, e]; dsimp only; rw [h2]; rfl
          | cof q' er ec => cases t; rw [lookN, e]; dsimp only; rw [h2]; rfl
        · cases o with
          | mat A => cases t
          | view q' row col => cases t; rw [writeN, e]; exact h3 _ _ x
          | cof q' er ec => cases t; rw [writeN, e]; exact h3 _ _ x
  · have hback : ∀ q, Reach h p q → ¬ ∃ d, Chain h q d := by
      intro q hq
      induction hq with
      | refl => exact hd
      | tail _ h2 ih => rintro ⟨d, hc⟩; exact ih ⟨d + 1, .next h2 hc⟩
    refine .inr (.inr ⟨fun q hq => ?_, fun q A hq e => hback q hq ⟨0, .mat e⟩, ?_, ?_⟩)
    · rcases e : h.obj q with _ | o
      · exact absurd ⟨0, .none e⟩ (hback q hq)
      · exact ⟨o, e⟩
    · unfold ViewMem.look
      revert hd
      generalize h.next + 1 = fuel
      clear hback
      induction fuel generalizing p with
      | zero => intro _; rfl
      | succ f ih =>
        intro hd
        rw [lookN]
        rcases e : h.obj p with _ | (A | ⟨q, row, col⟩ | ⟨q, er, ec⟩)
        · exact absurd ⟨0, .none e⟩ hd
        · exact absurd ⟨0, .mat e⟩ hd
        · dsimp only; rw [ih q fun ⟨d, hc⟩ => hd ⟨d + 1, .next ⟨_, e, rfl⟩ hc⟩]; rfl
        · dsimp only; rw [ih q fun ⟨d, hc⟩ => hd ⟨d + 1, .next ⟨_, e, rfl⟩ hc⟩]; rfl
    · unfold ViewMem.write
      revert hd
      generalize h.next + 1 = fuel
      clear hback
      induction fuel generalizing p with
      | zero => intro _ _ _ _; rfl
      | succ f ih =>
        intro hd r c x
        rw [writeN]
        rcases e : h.obj p with _ | (A | ⟨q, row, col⟩ | ⟨q, er, ec⟩)
        · exact absurd ⟨0, .none e⟩ hd
        · exact absurd ⟨0, .mat e⟩ hd
        · exact ih q (fun ⟨d, hc⟩ => hd ⟨d + 1, .next ⟨_, e, rfl⟩ hc⟩) _ _ _
        · exact ih q (fun ⟨d, hc⟩ => hd ⟨d + 1, .next ⟨_, e, rfl⟩ hc⟩) _ _ _

/-! ## Steps -/

/-- Pointers lead to older objects. -/
def Ordered (h : Heap T) : Prop := ∀ p q, Points h p q → q < p

/-- Going from `h` to `h'`, contents of matrices may change, cofactor views outside `R` may be rebound, and nothing else happens to objects
that live on. -/
def Kept (R : Nat → Prop) (h h' : Heap T) : Prop :=
  h.next ≤ h'.next ∧ ∀ p, p < h.next → h'.obj p = none ∨ h'.obj p = h.obj p ∨
    (∃ A B, h.obj p = some (.mat A) ∧ h'.obj p = some (.mat B)) ∨
    ¬ R p ∧ ∃ t er ec t' er' ec', h.obj p = some (.cof t er ec) ∧ h'.obj p = some (.cof t' er' ec')

theorem Kept.refl {R : Nat → Prop} (h : Heap T) : Kept R h h := ⟨Nat.le_refl _, fun _ _ => .inr (.inl rfl)⟩

theorem Kept.trans {R : Nat → Prop} {a b c : Heap T} (h1 : Kept R a b) (h2 : Kept R b c) : Kept R a c := by
  refine ⟨Nat.le_trans h1.1 h2.1, fun p hp => ?_⟩
  have := h1.2 p hp
  rcases h2.2 p (by have := h1.1; omega) with h | h | ⟨A, B, h, h'⟩ | ⟨hR, t, er, ec, t', er', ec', h, h'⟩
  · exact .inl h
  · rw [h]; exact this
  · rcases this with k | k | ⟨A', B', k, k'⟩ | ⟨-, _, _, _, _, _, _, -, k⟩
    · rw [k] at h; cases h
    · exact .inr (.inr (.inl ⟨A, B, k ▸ h, h'⟩))
    · exact .inr (.inr (.inl ⟨A', B, k, h'⟩))
    · rw [k] at h; cases h
  · rcases this with k | k | ⟨A', B', k, k'⟩ | ⟨-, _, _, _, _, _, _, k, -⟩
    · rw [k] at h; cases h
    · exact .inr (.inr (.inr ⟨hR, t, er, ec, t', er', ec', k ▸ h, h'⟩))
    · rw [k'] at h; cases h
    · exact .inr (.inr (.inr ⟨hR, _, _, _, t', er', ec', k, h'⟩))

/-- Only contents change. -/
def Same (h h' : Heap T) : Prop := h'.next = h.next ∧ ∀ p, h'.obj p = h.obj p ∨ ∃ A B, h.obj p = some (.mat A) ∧ h'.obj p = some (.mat B)

theorem Same.refl (h : Heap T) : Same h h := ⟨rfl, fun _ => .inl rfl⟩

theorem Same.trans {a b c : Heap T} (h1 : Same a b) (h2 : Same b c) : Same a c := by
  refine ⟨h2.1.trans h1.1, fun p => ?_⟩
  rcases h2.2 p with h | ⟨A, B, h, h'⟩
  · rw [h]; exact h1.2 p
  · rcases h1.2 p with k | ⟨A', B', k, k'⟩
    · exact .inr ⟨A, B, k ▸ h, h'⟩
    · exact .inr ⟨A', B, k, h'⟩

theorem Same.kept {R : Nat → Prop} {h h' : Heap T} (hs : Same h h') : Kept R h h' :=
  ⟨Nat.le_of_eq hs.1.symm, fun p _ => (hs.2 p).elim (fun e => .inr (.inl e)) fun e => .inr (.inr (.inl e))⟩

theorem Same.points {h h' : Heap T} (hs : Same h h') {p q} : Points h' p q → Points h p q := by
  rintro ⟨o, e, ht⟩
  rcases hs.2 p with k | ⟨A, B, -, k⟩
  · exact ⟨o, k ▸ e, ht⟩
  · rw [k] at e; cases e; cases ht

theorem Same.bounded {h h' : Heap T} (hs : Same h h') (hb : Bounded h) : Bounded h' := by
  intro p o e
  rw [hs.1]
  rcases hs.2 p with k | ⟨A, B, k, k'⟩
  · exact hb p o (k ▸ e)
  · exact hb p _ k

theorem Same.ordered {h h' : Heap T} (hs : Same h h') (ho : Ordered h) : Ordered h' := fun p q hp => ho p q (hs.points hp)

theorem bounded_put {h : Heap T} {p o} (hb : Bounded h) (hp : p < h.next) : Bounded (h.put p o) := by
  intro q o' e
  by_cases hq : q = p
  · exact hq ▸ hp
  · have : (h.put p o).obj q = h.obj q := if_neg hq
    exact hb q o' (this ▸ e)

theorem same_put {h : Heap T} {p A B} (e : h.obj p = some (.mat A)) : Same h (h.put p (some (.mat B))) := by
  refine ⟨rfl, fun q => ?_⟩
  by_cases hq : q = p
  · subst hq; exact .inr ⟨A, B, e, if_pos rfl⟩
  · exact .inl (if_neg hq)

theorem same_writeN {h h' : Heap T} {x : T} : ∀ {fuel p r c}, writeN h fuel p r c x = .ok h' → Same h h' := by
  intro fuel
  induction fuel with
  | zero => intro p r c e; cases e
  | succ fuel ih =>
    intro p r c e
    rw [writeN] at e
    split at e
    · cases e
    · rename_i A hp
      obtain ⟨B, -, e⟩ := Res.bind_eq_ok.1 e
      cases e
      exact same_put hp
    · exact ih e
    · exact ih e

theorem forRange_pre {σ : Type} {R : σ → σ → Prop} (hr : ∀ s, R s s) (ht : ∀ {a b c}, R a b → R b c → R a c) {body : Nat → σ → Res σ}
    (hb : ∀ i s s', body i s = .ok s' → R s s') {lo hi : Nat} {s s' : σ} (h : forRange lo hi s body = .ok s') : R s s' := by
  by_cases hle : lo ≤ hi
  · induction hi, hle using Nat.le_induction generalizing s' with
    | base => rw [forRange_ge (Nat.le_refl _)] at h; cases h; exact hr s
    | succ n hn ih =>
      rw [forRange_succ_last hn] at h
      obtain ⟨a, h1, h2⟩ := Res.bind_eq_ok.1 h
      exact ht (ih h1) (hb _ _ _ h2)
  · rw [forRange_ge (by omega)] at h; cases h; exact hr s

theorem same_assign {h h' : Heap T} {p q} (e : assign h p q = .ok h') : Same h h' := by
  unfold assign at e
  obtain ⟨a, -, e⟩ := Res.bind_eq_ok.1 e
  obtain ⟨b, -, e⟩ := Res.bind_eq_ok.1 e
  split at e
  · cases e
  · split at e
    · cases e
    · refine forRange_pre Same.refl Same.trans (fun r g g' e => ?_) e
      refine forRange_pre Same.refl Same.trans (fun c g g' e => ?_) e
      obtain ⟨b, -, e⟩ := Res.bind_eq_ok.1 e
      obtain ⟨x, -, e⟩ := Res.bind_eq_ok.1 e
      exact same_writeN e

theorem alloc_obj_lt {h : Heap T} {o p} (hp : p < h.next) : (h.alloc o).obj p = h.obj p := if_neg (by omega)
theorem alloc_obj_next {h : Heap T} {o} : (h.alloc o).obj h.next = some o := if_pos rfl

theorem kept_alloc {R : Nat → Prop} (h : Heap T) (o : Obj T) : Kept R h (h.alloc o) :=
  ⟨Nat.le_succ _, fun _ hp => .inr (.inl (alloc_obj_lt hp))⟩

theorem bounded_alloc {h : Heap T} {o : Obj T} (hb : Bounded h) : Bounded (h.alloc o) := by
  intro p o' e
  show p < h.next + 1
  by_cases hp : p = h.next
  · omega
  · have : (h.alloc o).obj p = h.obj p := if_neg hp
    have := hb p o' (this ▸ e)
    omega

theorem ordered_alloc {h : Heap T} {o : Obj T} (ho : Ordered h) (hq : ∀ q, o.target = some q → q < h.next) : Ordered (h.alloc o) := by
  rintro p q ⟨o', e, t⟩
  by_cases hp : p = h.next
  · subst hp
    rw [alloc_obj_next] at e; cases e
    exact hq q t
  · have : (h.alloc o).obj p = h.obj p := if_neg hp
    exact ho p q ⟨o', this ▸ e, t⟩

theorem kept_none {R : Nat → Prop} {h : Heap T} {p} : Kept R h (h.put p none) := by
  refine ⟨Nat.le_refl _, fun q _ => ?_⟩
  by_cases hq : q = p
  · exact .inl (if_pos hq)
  · exact .inr (.inl (if_neg hq))

theorem ordered_none {h : Heap T} {p} (ho : Ordered h) : Ordered (h.put p none) := by
  rintro q t ⟨o, e, ht⟩
  by_cases hq : q = p
  · have : (h.put p none).obj q = none := if_pos hq
    rw [this] at e; cases e
  · have : (h.put p none).obj q = h.obj q := if_neg hq
    exact ho q t ⟨o, this ▸ e, ht⟩

theorem step_kept {R : Nat → Prop} {h h' : Heap T} {c : Cmd T} (hb : Bounded h) (e : step h c = .ok h') (hR : ∀ p q, c = .rebind p q → ¬ R p) :
    Kept R h h' ∧ Bounded h' := by
  cases c with
  | mat A => cases e; exact ⟨kept_alloc _ _, bounded_alloc hb⟩
  | change p A =>
    simp only [step] at e
    split at e
    · cases e
    · rename_i hp; cases e; exact ⟨(same_put hp).kept, (same_put hp).bounded hb⟩
    · cases e
  | view p row col =>
    simp only [step] at e
    split at e
    · cases e
    · split at e
      · cases e; exact ⟨kept_alloc _ _, bounded_alloc hb⟩
      · cases e
  | cof p er ec =>
    simp only [step] at e
    split at e
    · cases e
    · cases e; exact ⟨kept_alloc _ _, bounded_alloc hb⟩
  | copy p =>
    simp only [step] at e
    split at e
    · cases e
    · cases e; exact ⟨kept_alloc _ _, bounded_alloc hb⟩
  | write p r c x => exact ⟨(same_writeN e).kept, (same_writeN e).bounded hb⟩
  | assign p q => exact ⟨(same_assign e).kept, (same_assign e).bounded hb⟩
  | rebind p q =>
    simp only [step] at e
    split at e
    · rename_i hp hq
      cases e
      refine ⟨⟨Nat.le_refl _, fun a _ => ?_⟩, bounded_put hb (hb _ _ hp)⟩
      by_cases ha : a = p
      · subst ha
        exact .inr (.inr (.inr ⟨hR _ _ rfl, _, _, _, _, _, _, hp, if_pos rfl⟩))
      · exact .inr (.inl (if_neg ha))
    · cases e
    · cases e
  | destroy p =>
    simp only [step] at e
    split at e
    · cases e
    · rename_i hp; cases e; exact ⟨kept_none, bounded_put hb (hb _ _ hp)⟩

theorem run_kept {R : Nat → Prop} {cs : List (Cmd T)} : ∀ {h h' : Heap T}, Bounded h → run h cs = .ok h' → (∀ p q, .rebind p q ∈ cs → ¬ R p) →
    Kept R h h' ∧ Bounded h' := by
  induction cs with
  | nil => intro h h' ho e _; cases e; exact ⟨.refl _, ho⟩
  | cons c cs ih =>
    intro h h' ho e hR
    obtain ⟨g, h1, h2⟩ := Res.bind_eq_ok.1 e
    obtain ⟨k1, o1⟩ := step_kept (R := R) ho h1 fun p q hc => hR p q (hc ▸ List.mem_cons_self)
    obtain ⟨k2, o2⟩ := ih o1 h2 fun p q hc => hR p q (List.mem_cons_of_mem _ hc)
    exact ⟨k1.trans k2, o2⟩

theorem bounded_empty : Bounded (Heap.empty : Heap T) := fun _ _ e => by cases e

theorem run_bounded {cs : List (Cmd T)} {h : Heap T} (e : run .empty cs = .ok h) : Bounded h :=
  (run_kept (R := fun _ => False) bounded_empty e fun _ _ _ => id).2

theorem ordered_empty : Ordered (Heap.empty : Heap T) := fun _ _ ⟨_, e, _⟩ => by cases e

end Malg.ViewMem
