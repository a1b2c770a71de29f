import Verif.Model.Repaired
import Verif.Spec.CppText
import Verif.Lemmas.IoRead
import Verif.Props.Matrix
/-!
# C101: the C++ declarations printed by `to_cpp`

`Model/Repaired.lean` lists the edit without which `to_cpp` does not compile.
-/
namespace Malg
open Io Fix CppText
variable {T α : Type}

/-- The reader `p` reads the printed text of `x`, after white space and before `,` or `}`. -/
structure ReadsText (p : List Char → Option (α × List Char)) (el : α → List Char) (x : α) : Prop where
  head : ∃ c l, el x = c :: l ∧ isSpace c = false ∧ c ≠ '}'
  read : ∀ ws d t, AllSpace ws → (d = ',' ∨ d = '}') → p (ws ++ (el x ++ d :: t)) = some (x, d :: t)

theorem fmtNatF_zero (fuel n : Nat) (h : n < fuel) (l : List Char) (e : fmtNatF fuel n = '0' :: l) : n = 0 := by
  induction fuel generalizing n l with
  | zero => omega
  | succ fuel ih =>
    rw [fmtNatF] at e
    by_cases h10 : n < 10
    · rw [if_pos h10] at e
      have h1 := congrArg Char.toNat (List.cons.inj e).1
      rw [digit_toNat h10] at h1
      have h2 : ('0' : Char).toNat = 48 := by decide
      omega
    · rw [if_neg h10] at e
      have hq : n / 10 < fuel := by omega
      cases hs : fmtNatF fuel (n / 10) with
      | nil => exact absurd hs (fmtNatF_spec fuel _ hq).2.2
      | cons c l' =>
        rw [hs, List.cons_append] at e
        have := ih (n / 10) hq l' (by rw [hs, (List.cons.inj e).1])
        omega

theorem fmtNat_no_octal (n : Nat) (c : Char) (l : List Char) : fmtNat n ≠ '0' :: c :: l := by
  intro h
  have h0 := fmtNatF_zero (n + 1) n (by omega) _ h
  subst h0
  have : fmtNat 0 = ['0'] := by decide
  rw [this] at h; simp at h

theorem intLit_digits (n : Nat) (neg : Bool) {d : Char} (t : List Char) (hd : isDigit d = false) :
    intLit.digits (fmtNat n ++ d :: t) neg = some (if neg then -(n : Int) else (n : Int), d :: t) := by
  obtain ⟨h1, h2⟩ := takeWhile_digits (t := t) (fmtNat_digits n) hd
  unfold intLit.digits
  rw [h1, h2]
  split
  · rename_i h; exact absurd h (fmtNat_ne_nil n)
  · rename_i h; exact absurd h (fmtNat_no_octal n _ _)
  · rw [natOf_fmtNat]

/-- Integers print as literals. -/
theorem intLit_reads (x : Int) : ReadsText intLit fmtInt x := by
  have hdel : ∀ d : Char, d = ',' ∨ d = '}' → isDigit d = false := by rintro d (rfl | rfl) <;> decide
  by_cases hx : x < 0
  · refine ⟨⟨'-', fmtNat x.natAbs, by simp [fmtInt, hx], by decide, by decide⟩, fun ws d t hws hd => ?_⟩
    unfold intLit
    rw [dropWhile_space hws, fmtInt, if_pos hx, List.cons_append, List.dropWhile_cons, if_neg (by decide)]
    simp only [intLit_digits _ _ t (hdel d hd), if_true]
    congr 2; omega
  · obtain ⟨c, l, h, hc⟩ := fmtNat_head x.natAbs
    refine ⟨⟨c, l, by simp [fmtInt, hx, h], isSpace_of_isDigit hc, ?_⟩, fun ws d t hws hd => ?_⟩
    · rintro rfl; revert hc; decide
    · unfold intLit
      rw [dropWhile_space hws, fmtInt, if_neg hx, h, List.cons_append, List.dropWhile_cons,
        if_neg (by rw [isSpace_of_isDigit hc]; decide), ← List.cons_append, ← h]
      split
      · rename_i l' h'
        rw [h] at h'
        have := (List.cons.inj h').1
        subst this; exact absurd hc (by decide)
      · rw [intLit_digits _ _ t (hdel d hd)]
        simp only [Bool.false_eq_true, if_false]
        congr 2; omega

theorem items_text {p : List Char → Option (α × List Char)} {el : α → List Char} {sp t : List Char} (hsp : AllSpace sp)
    (l : List α) (hne : l ≠ []) (hl : ∀ x ∈ l, ReadsText p el x) (fuel : Nat) (hf : l.length ≤ fuel) (ws : List Char)
    (hws : AllSpace ws) :
    items p fuel (ws ++ ((',' :: sp).intercalate (l.map el) ++ '}' :: t)) = some (l, t) := by
  induction l generalizing fuel ws with
  | nil => exact absurd rfl hne
  | cons x l ih =>
    cases fuel with
    | zero => simp at hf
    | succ fuel =>
      have hx := hl x (by simp)
      cases l with
      | nil =>
        simp only [List.map_cons, List.map_nil, List.intercalate_singleton, items]
        rw [hx.read ws '}' t hws (Or.inr rfl)]
        rfl
      | cons y l =>
        simp only [List.map_cons, List.intercalate_cons_cons, items]
        have e1 : ∀ u : List Char, ws ++ (el x ++ (',' :: sp) ++ u ++ '}' :: t) = ws ++ (el x ++ ',' :: (sp ++ (u ++ '}' :: t))) := by
          intro u; simp
        rw [e1, hx.read ws ',' _ hws (Or.inl rfl)]
        have := ih (by simp) (fun z hz => hl z (by simp [hz])) fuel (by simpa using hf) sp hsp
        rw [List.map_cons] at this
        show Option.map _ (items p fuel _) = _
        rw [this]; rfl

theorem length_intercalate (sp : List Char) (l : List (List Char)) :
    l.length ≤ ((',' :: sp).intercalate l).length + 1 := by
  induction l with
  | nil => simp
  | cons a l ih =>
    cases l with
    | nil => simp
    | cons b l => rw [List.intercalate_cons_cons]; simp at ih ⊢; omega

/-- The text of a list in braces, with separator `,` and blanks. -/
def braced (sp : List Char) (el : α → List Char) (l : List α) : List Char :=
  '{' :: ((',' :: sp).intercalate (l.map el) ++ ['}'])

theorem braces_text {p : List Char → Option (α × List Char)} {el : α → List Char} {sp : List Char} (hsp : AllSpace sp)
    (l : List α) (hl : ∀ x ∈ l, ReadsText p el x) (ws t : List Char) (hws : AllSpace ws) :
    braces p (ws ++ (braced sp el l ++ t)) = some (l, t) := by
  unfold braces braced
  rw [dropWhile_space hws, List.cons_append, List.dropWhile_cons, if_neg (by decide)]
  simp only [List.append_assoc, List.singleton_append]
  cases l with
  | nil => simp [isSpace]
  | cons x l =>
    obtain ⟨c, u, h1, h2, h3⟩ := (hl x (by simp)).head
    have e1 : ∃ v, (',' :: sp).intercalate ((x :: l).map el) ++ '}' :: t = c :: v := by
      cases l with
      | nil => exact ⟨u ++ '}' :: t, by simp [h1]⟩
      | cons y l =>
        exact ⟨u ++ (',' :: sp) ++ (',' :: sp).intercalate ((y :: l).map el) ++ '}' :: t, by
          rw [List.map_cons, List.map_cons, List.intercalate_cons_cons, h1]; simp⟩
    obtain ⟨v, hv⟩ := e1
    have e2 := items_text (p := p) (t := t) hsp (x :: l) (by simp) hl
      (((',' :: sp).intercalate ((x :: l).map el) ++ '}' :: t).length + 1)
      (by have := length_intercalate sp ((x :: l).map el); simp at this ⊢; omega) [] (by intro c hc; simp at hc)
    rw [List.nil_append] at e2
    rw [show (((',' :: sp).intercalate ((x :: l).map el) ++ '}' :: t).dropWhile isSpace) = c :: v by
      rw [hv, List.dropWhile_cons, if_neg (by rw [h2]; decide)]]
    split
    · rename_i h; exact absurd (List.cons.inj h).1 h3
    · exact e2

/-- A braced list of printable items is itself printable as an item. -/
theorem braced_reads {p : List Char → Option (α × List Char)} {el : α → List Char} {sp : List Char} (hsp : AllSpace sp)
    (l : List α) (hl : ∀ x ∈ l, ReadsText p el x) : ReadsText (braces p) (braced sp el) l :=
  ⟨⟨'{', _, rfl, by decide, by decide⟩, fun ws d t hws _ => braces_text hsp l hl ws (d :: t) hws⟩

theorem vtab_map {β : Type} (n : Nat) (f : Nat → α) (g : α → β) : (vtab n f).map g = vtab n fun i => g (f i) := by
  simp [vtab]

/-- C101: the declaration of a vector of integers is `malg::Vector<type> name = ` and a braced list that reads back as the
elements, in order, with nothing left over; the list constructor makes the vector. Holds for every element type whose
printed text reads back. -/
theorem C101_vector_partial {p : List Char → Option (T × List Char)} {el : T → List Char} (name type : List Char)
    {v : List T} (hv : v.length < allocMax) (hl : ∀ x ∈ v, ReadsText p el x) :
    ∃ text, toCppVec el name type v = .ok ("malg::Vector<".toList ++ type ++ "> ".toList ++ name ++ " = ".toList ++ text) ∧
      braces p text = some (v, []) ∧ vnewList v.length v = .ok v := by
  refine ⟨braced [' '] el v, ?_, ?_, ?_⟩
  · cases v with
    | nil => simp [toCppVec, forRange, loopN, braced]
    | cons x0 v0 =>
      have hrep := list_eq_vtab_getD (x0 :: v0) x0
      generalize hw : x0 :: v0 = v at *
      unfold toCppVec
      dsimp only
      rw [sepLoop (lt_trans hv allocMax_lt_W) ", ".toList _ (cell := fun i => el (v.getD i x0)) (fun i o hi => by
        rw [vget_ok_iff.2 (show v[i]? = some (v.getD i x0) by
          rw [List.getD_eq_getElem?_getD, List.getElem?_eq_getElem hi]; rfl), Res.ok_bind]
        rfl), Res.ok_bind]
      rw [← vtab_map v.length (fun i => v.getD i x0) el, ← hrep]
      simp [braced]
  · have := braces_text (p := p) (el := el) (sp := [' ']) (by intro c hc; simp at hc; subst hc; decide) v hl [] []
      (by intro c hc; simp at hc)
    simpa using this
  · rw [vnewList, if_pos rfl, if_pos hv]

/-- C101: the declaration of a matrix of integers that has rows and columns is `malg::Matrix<type> name = ` and a nested
list that reads back as the rows; the constructor for nested lists makes the matrix. Missing: matrices without rows or
columns (`C101_empty_false`) and complex numbers (`C101_complex_false`). -/
theorem C101_matrix_partial [Zero T] {p : List Char → Option (T × List Char)} {el : T → List Char}
    (name type : List Char) {A : MB T} {n m : Nat} {e} (hA : Rep A n m e) (hn : 0 < n) (hm : 0 < m)
    (hl : ∀ r c, r < n → c < m → ReadsText p el (e r c)) :
    ∃ text rows, toCppMat el name type A =
        .ok ("malg::Matrix<".toList ++ type ++ "> ".toList ++ name ++ " = ".toList ++ text) ∧
      braces (braces p) text = some (rows, []) ∧ Returns (Mat.ofNested rows) n m e := by
  have hnil : AllSpace [] := by intro c hc; simp at hc
  refine ⟨braced [] (braced [] el) (vtab n fun r => vtab m (e r)), vtab n fun r => vtab m (e r), ?_, ?_, ?_⟩
  · unfold toCppMat
    rw [hA.rows, hA.cols]
    dsimp only
    rw [sepLoop hA.fits.2.1 ",".toList _ (cell := fun r => braced [] el (vtab m (e r))) (fun r o hr => by
      rw [sepLoop hA.fits.2.2 ",".toList _ (cell := fun c => el (e r c)) (fun c o hc => by
        rw [hA.get r c hr hc, Res.ok_bind]; rfl), Res.ok_bind, ← vtab_map m (e r) el]
      simp [braced]), Res.ok_bind, ← vtab_map n (fun r => vtab m (e r)) (braced [] el)]
    simp [braced]
  · have := braces_text (p := braces p) (el := braced [] el) hnil (vtab n fun r => vtab m (e r)) (fun l hl' => by
      simp only [vtab, List.mem_map, List.mem_range] at hl'
      obtain ⟨r, hr, rfl⟩ := hl'
      apply braced_reads hnil
      intro x hx
      simp only [List.mem_map, List.mem_range] at hx
      obtain ⟨c, hc, rfl⟩ := hx
      exact hl r c hr hc) [] [] hnil
    simpa using this
  · have hv : ∀ r, r < n → (vtab n fun r => vtab m (e r))[r]? = some (vtab m (e r)) := fun r hr => by
      simp [vtab, hr]
    exact C07_nested hn hm hA.fits (by simp) ⟨_, hv 0 hn, by simp⟩ fun r hr =>
      ⟨_, hv r hr, fun c hc => by simp [vtab, hc]⟩

/-- C101 for integers. -/
theorem C101_integers (name type : List Char) {A : MB Int} {n m : Nat} {e} (hA : Rep A n m e) (hn : 0 < n) (hm : 0 < m) :
    ∃ text rows, toCppMat fmtInt name type A =
        .ok ("malg::Matrix<".toList ++ type ++ "> ".toList ++ name ++ " = ".toList ++ text) ∧
      braces (braces intLit) text = some (rows, []) ∧ Returns (Mat.ofNested rows) n m e :=
  C101_matrix_partial name type hA hn hm fun _ _ _ _ => intLit_reads _

/-- C101 is false for matrices without entries: all matrices without rows print alike, whatever their number of columns,
and the list printed for a matrix without columns makes the constructor throw. -/
theorem C101_empty_false (el : Int → List Char) (name type : List Char) {A B : MB Int} {m k n : Nat} {e f g} {C : MB Int}
    (hA : Rep A 0 m e) (hB : Rep B 0 k f) (hC : Rep C (n + 1) 0 g) :
    toCppMat el name type A = toCppMat el name type B ∧
    ∃ text rows, toCppMat el name type C =
        .ok ("malg::Matrix<".toList ++ type ++ "> ".toList ++ name ++ " = ".toList ++ text) ∧
      braces (braces intLit) text = some (rows, []) ∧ Mat.ofNested rows = .throw .invalidArgument := by
  have hnil : AllSpace [] := by intro c hc; simp at hc
  refine ⟨?_, braced [] (braced [] el) (vtab (n + 1) fun _ => []), vtab (n + 1) fun _ => [], ?_, ?_, ?_⟩
  · unfold toCppMat
    rw [hA.rows, hB.rows]
    simp [forRange, loopN]
  · unfold toCppMat
    rw [hC.rows, hC.cols]
    dsimp only
    rw [sepLoop hC.fits.2.1 ",".toList _ (cell := fun _ => braced [] el []) (fun r o hr => by
      simp [forRange, loopN, braced]), Res.ok_bind, ← vtab_map (n + 1) (fun _ => []) (braced [] el)]
    simp [braced]
  · have := braces_text (p := braces intLit) (el := braced [] el) hnil (vtab (n + 1) fun _ => []) (fun l hl' => by
      simp only [vtab, List.mem_map, List.mem_range] at hl'
      obtain ⟨r, hr, rfl⟩ := hl'
      exact braced_reads hnil _ (by simp)) [] [] hnil
    simpa using this
  · rw [show (vtab (n + 1) fun _ => ([] : List Int)) = [] :: vtab n fun _ => [] by
    simp [vtab, List.range_succ_eq_map]]
    exact C07_nested_empty.2 _

/-- C101 is false for complex numbers: `1+2i` is no item of such a list, neither as an integer nor as a pair. -/
theorem C101_complex_false :
    toCppVec (cpxText fmtInt fmtIntP) "v".toList "std::complex<int>".toList [(1, 2), (3, -4)] =
      .ok "malg::Vector<std::complex<int>> v = {1+2i, 3-4i}".toList ∧
    braces intLit "{1+2i, 3-4i}".toList = none ∧ braces (braces intLit) "{1+2i, 3-4i}".toList = none := by
  decide +kernel

example : toCppVec (cpxText fmtInt fmtIntP) "v".toList "std::complex<int>".toList [(0, 0), (-1, -7)] =
    .ok "malg::Vector<std::complex<int>> v = {0+0i, -1-7i}".toList := by decide +kernel
example : toCppMat fmtInt "A".toList "int".toList (⟨2, 2, [1, -20, 3, 4]⟩ : Mat Int).toMB =
    .ok "malg::Matrix<int> A = {{1,-20},{3,4}}".toList := by decide +kernel
example : toCppVec fmtInt "v".toList "int".toList [1, -20, 3] = .ok "malg::Vector<int> v = {1, -20, 3}".toList := by
  decide +kernel

end Malg
