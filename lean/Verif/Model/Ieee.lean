import Verif.Model.Float
/-!
# IEEE 754 numbers with infinities, NaN and signed zeros

`Verif.Model.Float` leaves out the largest exponent. Here a number of a binary format is what IEEE 754-2008 makes of it: NaN (one of
them, without sign and payload), an infinity, or a finite number below `2^emax`, where zero has a sign (sections 3.3, 6.1–6.3, 7.3,
7.4; round to nearest, ties to even; default exception handling, so no operation stops the program). `double` is
`p = 53, emin = -1074, emax = 1024`.
-/
namespace Malg

/-- A number of a binary format. -/
inductive Ieee (K : Type) [Field K] [LinearOrder K] [IsStrictOrderedRing K] [FloorRing K] (p : ℕ) (emin : ℤ) (emax : ℕ)
  | nan
  | inf (neg : Bool)
  /-- `negZero` is set for the negative zero only. -/
  | fin (x : Fl K p emin) (negZero : Bool) (hz : negZero = true → x.val = 0) (hx : |x.val| < 2 ^ emax)

namespace Ieee
variable {K : Type} [Field K] [LinearOrder K] [IsStrictOrderedRing K] [FloorRing K] {p : ℕ} {emin : ℤ} {emax : ℕ}

instance : DecidableEq (Ieee K p emin emax)
  | nan, nan => isTrue rfl
  | nan, inf _ => isFalse nofun
  | nan, fin .. => isFalse nofun
  | inf _, nan => isFalse nofun
  | inf a, inf b => if h : a = b then isTrue (h ▸ rfl) else isFalse fun e => h (by cases e; rfl)
  | inf _, fin .. => isFalse nofun
  | fin .., nan => isFalse nofun
  | fin .., inf _ => isFalse nofun
  | fin x a _ _, fin y b _ _ =>
    if h : x = y ∧ a = b then isTrue (by obtain ⟨rfl, rfl⟩ := h; rfl) else isFalse fun e => h (by cases e; exact ⟨rfl, rfl⟩)

/-- The sign bit. -/
def sign : Ieee K p emin emax → Bool
  | nan => false
  | inf s => s
  | fin x z _ _ => z || decide (x.val < 0)

/-- The exact result `r`, rounded; `neg` is the sign of a zero or of an infinity. -/
def mk (neg : Bool) (r : K) : Ieee K p emin emax :=
  if h : |(Fl.of p emin r).val| < 2 ^ emax then
    fin (Fl.of p emin r) (neg && decide ((Fl.of p emin r).val = 0)) (by simp) h
  else inf neg

instance : Zero (Ieee K p emin emax) := ⟨fin 0 false (by simp) (by
  have : (0 : Fl K p emin).val = 0 := rfl
  rw [this, abs_zero]; exact pow_pos zero_lt_two _)⟩
instance : One (Ieee K p emin emax) := ⟨mk false 1⟩
instance : NatCast (Ieee K p emin emax) := ⟨fun n => mk false n⟩

instance : Neg (Ieee K p emin emax) := ⟨fun
  | nan => nan
  | inf s => inf !s
  | fin x z _ hx => fin (-x) (!z && decide (x.val = 0))
      (fun h => by
        have : (-x).val = -x.val := rfl
        rw [this, neg_eq_zero]
        simpa using (Bool.and_eq_true_iff.1 h).2)
      (by
        have : (-x).val = -x.val := rfl
        rwa [this, abs_neg])⟩

/-- An exact sum of zero is negative only if both operands are. -/
instance : Add (Ieee K p emin emax) := ⟨fun
  | nan, _ => nan
  | _, nan => nan
  | inf s, inf t => if s = t then inf s else nan
  | inf s, fin .. => inf s
  | fin .., inf t => inf t
  | a@(fin x _ _ _), b@(fin y _ _ _) =>
    mk (if x.val + y.val = 0 then a.sign && b.sign else decide (x.val + y.val < 0)) (x.val + y.val)⟩

instance : Sub (Ieee K p emin emax) := ⟨fun a b => a + -b⟩

instance : Mul (Ieee K p emin emax) := ⟨fun
  | nan, _ => nan
  | _, nan => nan
  | inf s, inf t => inf (s ^^ t)
  | inf s, b@(fin y _ _ _) => if y.val = 0 then nan else inf (s ^^ b.sign)
  | a@(fin x _ _ _), inf t => if x.val = 0 then nan else inf (a.sign ^^ t)
  | a@(fin x _ _ _), b@(fin y _ _ _) => mk (a.sign ^^ b.sign) (x.val * y.val)⟩

/-- Division never stops the program. -/
def div : Ieee K p emin emax → Ieee K p emin emax → Ieee K p emin emax
  | nan, _ => nan
  | _, nan => nan
  | inf _, inf _ => nan
  | inf s, b@(fin ..) => inf (s ^^ b.sign)
  | a@(fin ..), inf t => mk (a.sign ^^ t) 0
  | a@(fin x _ _ _), b@(fin y _ _ _) =>
    if y.val = 0 then (if x.val = 0 then nan else inf (a.sign ^^ b.sign)) else mk (a.sign ^^ b.sign) (x.val / y.val)

instance : CDiv (Ieee K p emin emax) := ⟨fun a b => .ok (div a b)⟩

/-- `a < b` and `a <= b`: false if one of them is a NaN; the signs of zeros do not matter. -/
def lt : Ieee K p emin emax → Ieee K p emin emax → Bool
  | nan, _ => false
  | _, nan => false
  | inf s, inf t => s && !t
  | inf s, fin .. => s
  | fin .., inf t => !t
  | fin x _ _ _, fin y _ _ _ => decide (x.val < y.val)

def le : Ieee K p emin emax → Ieee K p emin emax → Bool
  | nan, _ => false
  | _, nan => false
  | inf s, inf t => s || !t
  | inf s, fin .. => s
  | fin .., inf t => !t
  | fin x _ _ _, fin y _ _ _ => decide (x.val ≤ y.val)

instance : LT (Ieee K p emin emax) := ⟨fun a b => lt a b = true⟩
instance : LE (Ieee K p emin emax) := ⟨fun a b => le a b = true⟩
instance : DecidableRel (α := Ieee K p emin emax) (· < ·) := fun a b => inferInstanceAs (Decidable (lt a b = true))
instance : DecidableRel (α := Ieee K p emin emax) (· ≤ ·) := fun a b => inferInstanceAs (Decidable (le a b = true))

/-- `std::max(a, b)`, [alg.min.max]: `(a < b) ? b : a`. -/
instance : Max (Ieee K p emin emax) := ⟨fun a b => if a < b then b else a⟩

/-- `std::abs`. -/
def abs : Ieee K p emin emax → Ieee K p emin emax
  | nan => nan
  | inf _ => inf false
  | a@(fin ..) => if a.sign then -a else a

/-- The value of a finite number. -/
def fl : Ieee K p emin emax → Option (Fl K p emin)
  | fin x _ _ _ => some x
  | _ => none

/-- `static_cast<std::size_t>`, undefined for NaN, infinities and everything out of range, [conv.fpint]. -/
def toSize (a : Ieee ℚ p emin emax) : Res Nat :=
  match a with
  | fin x _ _ _ => if -1 < x.val ∧ ⌊x.val⌋₊ < W then .ok ⌊x.val⌋₊ else .ub .badCast
  | _ => .ub .badCast

end Ieee

/-- `double`. -/
abbrev IDouble := Ieee ℚ 53 (-1074) 1024

end Malg
