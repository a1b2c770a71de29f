import Verif.Model.Io
import Verif.Model.Float
/-!
# Floating point numbers in streams

What `stream << x` prints for a floating point number under the default flags (`%g` with the precision of the stream, six by
default, [facet.num.put.virtuals] and C11 7.21.6.1) and what `stream >> x` reads (libstdc++: `num_get::_M_extract_float` collects
the characters, `strtod` converts them). The streams of `io.hpp` are used with these flags and whatever precision the caller has
set (`io.hpp:31,56,77,103,127`). A negative zero, infinities and NaN are not represented (`Model/Float.lean`).
-/
namespace Malg
namespace Io

/-! ## Formatting -/

/-- Removes trailing zeros. -/
def stripZeros (l : List Char) : List Char := (l.reverse.dropWhile (· == '0')).reverse

/-- The decimal exponent of a number other than zero, and its `P` significant digits as a number, halves to even. -/
def sciDigits (P : Nat) (x : ℚ) : Nat × Int :=
  let E := Int.log 10 |x|
  let s := (rne (|x| / 10 ^ (E + 1 - P))).toNat
  if s = 10 ^ P then (10 ^ (P - 1), E + 1) else (s, E)

/-- A fractional part, without the point if it is empty. -/
def fracPart (l : List Char) : List Char := if l.isEmpty then [] else '.' :: l

/-- The exponent, with a sign and at least two digits. -/
def expPart (X : Int) : List Char :=
  ['e', if X < 0 then '-' else '+'] ++ (if X.natAbs < 10 then '0' :: fmtNat X.natAbs else fmtNat X.natAbs)

/-- `%g` with precision `P` for a positive number with the significant digits `s` and the exponent `X`. -/
def fmtGPos (P : Nat) (s : Nat) (X : Int) : List Char :=
  let ds := fmtNat s
  if 0 ≤ X ∧ X < P then ds.take (X.toNat + 1) ++ fracPart (stripZeros (ds.drop (X.toNat + 1)))
  else if -4 ≤ X ∧ X < 0 then ['0', '.'] ++ List.replicate (-X - 1).toNat '0' ++ stripZeros ds
  else ds.take 1 ++ fracPart (stripZeros (ds.drop 1)) ++ expPart X

/-- `stream << x` with the precision `P` of the stream; zero counts as one. -/
def fmtG (P : Nat) (x : ℚ) : List Char :=
  if x = 0 then ['0']
  else
    let (s, X) := sciDigits (max P 1) x
    (if x < 0 then ['-'] else []) ++ fmtGPos (max P 1) s X

/-! ## Reading -/

/-- The digits after a decimal point, if there is one. -/
def splitPoint : List Char → List Char × List Char
  | '.' :: l => (l.takeWhile isDigit, l.dropWhile isDigit)
  | l => ([], l)

/-- The exponent, if there is one; `none` for an `e` without digits. -/
def splitExp : List Char → Option Int × List Char
  | [] => (some 0, [])
  | c :: l =>
    if c = 'e' ∨ c = 'E' then
      let (neg, r) := splitSign l
      let ds := r.takeWhile isDigit
      (if ds.isEmpty then none else some (if neg then -(natOf ds : Int) else natOf ds), r.dropWhile isDigit)
    else (some 0, c :: l)

/-- The largest number of the format. -/
def Fl.largest (p : ℕ) (emin emax : ℤ) : Fl ℚ p emin := .of p emin ((2 ^ p - 1) * 2 ^ (emax - p))

/-- Extraction of a floating point number of the format `p`, `emin` with numbers below `2^emax`: the decimal value rounded to
nearest; text that is no number gives zero and a failure, an overflow the largest number and a failure. -/
def parseFloat (p : ℕ) (emin emax : ℤ) (l : List Char) : Parsed (Fl ℚ p emin) :=
  let (neg, r) := splitSign l
  let ip := r.takeWhile isDigit
  let (fp, r) := splitPoint (r.dropWhile isDigit)
  if (ip ++ fp).isEmpty then ⟨some 0, r, false, r.isEmpty⟩
  else
    match splitExp r with
    | (none, r) => ⟨some 0, r, false, r.isEmpty⟩
    | (some e, r) =>
      let q : ℚ := natOf (ip ++ fp) * 10 ^ (e - fp.length)
      if 2 ^ emax ≤ rnd p emin q then
        ⟨some (if neg then -Fl.largest p emin emax else Fl.largest p emin emax), r, false, r.isEmpty⟩
      else ⟨some (.of p emin (if neg then -q else q)), r, true, r.isEmpty⟩

/-- Floating point numbers in a stream with precision `P`. -/
def floatCodec (p : ℕ) (emin emax : ℤ) (P : Nat) : Codec (Fl ℚ p emin) := ⟨fun x => fmtG P x.val, parseFloat p emin emax⟩

/-- `double` and `float` in a stream with precision `P`. -/
abbrev doubleCodec (P : Nat) : Codec Double := floatCodec 53 (-1074) 1024 P
abbrev singleCodec (P : Nat) : Codec (Fl ℚ 24 (-149)) := floatCodec 24 (-149) 128 P

end Io
end Malg
