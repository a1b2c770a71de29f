import Verif.Model.View
import Verif.Model.Control
/-!
# `io.hpp`

Text is a list of characters. Writing appends to a stream that never fails, so the printing functions return the text
they append. `fmt` is what `stream << x` prints for an element under the flags of the stream, `fmtM` what it prints under
default flags and the same precision (the scratch stream of `get_longhest_value` copies nothing else). `to_cpp` (329-376)
does not compile when used (`v->size()` on an object); see `Model/Repaired.lean`.
-/
namespace Malg
namespace Io
variable {T : Type}

/-! ## The standard library: formatting -/

/-- The decimal digit `d`. -/
def digit (d : Nat) : Char := Char.ofNat (48 + d)

/-- Decimal digits of `n`, most significant first; `fuel` bounds the number of digits. -/
def fmtNatF : Nat → Nat → List Char
  | 0, _ => []
  | fuel + 1, n => if n < 10 then [digit n] else fmtNatF fuel (n / 10) ++ [digit (n % 10)]

/-- `stream << n` for an unsigned integer. -/
def fmtNat (n : Nat) : List Char := fmtNatF (n + 1) n

/-- `stream << x` for a signed integer. -/
def fmtInt (x : Int) : List Char := if x < 0 then '-' :: fmtNat x.natAbs else fmtNat x.natAbs

/-- `std::setw(w)` followed by an output with text `s`: blanks on the left. -/
def pad (w : Nat) (s : List Char) : List Char := List.replicate (w - s.length) ' ' ++ s

/-! ## The standard library: input -/

/-- An input stream: the characters not yet extracted, and the state flags `eofbit` and `failbit`. -/
structure IStream where
  rest : List Char
  eof : Bool
  fail : Bool
  deriving DecidableEq, Repr

/-- A freshly opened stream. -/
def IStream.start (text : List Char) : IStream := ⟨text, false, false⟩

/-- `std::isspace` in the classic locale. -/
def isSpace (c : Char) : Bool := c == ' ' || (9 ≤ c.toNat && c.toNat ≤ 13)

/-- The input sentry with `skipws`, [istream.sentry]: `none` when the extraction must not start. -/
def sentry (s : IStream) : Option (List Char) × IStream :=
  if s.eof || s.fail then (none, { s with fail := true })
  else
    match s.rest.dropWhile isSpace with
    | [] => (none, ⟨[], true, true⟩)
    | c :: l => (some (c :: l), { s with rest := c :: l })

/-- `stream >> c` for a `char`: the extracted character, `none` if the variable is not written. -/
def readChar (s : IStream) : Option Char × IStream :=
  match sentry s with
  | (some (c :: l), s) => (some c, { s with rest := l })
  | (_, s) => (none, s)

/-- What the numeric extraction does once the sentry has succeeded. -/
structure Parsed (T : Type) where
  /-- the value written to the variable, `none` if it is left alone -/
  value : Option T
  rest : List Char
  ok : Bool
  eof : Bool

/-- How elements are written and read. -/
structure Codec (T : Type) where
  fmt : T → List Char
  parse : List Char → Parsed T

/-- `stream >> x`: the value written to the variable, `none` if it is left alone. -/
def Codec.read (c : Codec T) (s : IStream) : Option T × IStream :=
  match sentry s with
  | (some l, _) =>
    let p := c.parse l
    (p.value, ⟨p.rest, p.eof, !p.ok⟩)
  | (none, s) => (none, s)

def isDigit (c : Char) : Bool := 48 ≤ c.toNat && c.toNat ≤ 57

/-- The value of a digit string. -/
def natOf (l : List Char) : Nat := l.foldl (fun a c => 10 * a + (c.toNat - 48)) 0

/-- The optional sign: `true` for `-`. -/
def splitSign : List Char → Bool × List Char
  | '-' :: l => (true, l)
  | '+' :: l => (false, l)
  | l => (false, l)

/-- Extraction of a signed integer type with the range `lo … hi`, [facet.num.get.virtuals] as implemented by libstdc++: no
digits give zero and a failure, an overflow gives the nearest limit and a failure. -/
def parseInt (lo hi : Int) (l : List Char) : Parsed Int :=
  let (neg, r) := splitSign l
  let ds := r.takeWhile isDigit
  let rest := r.dropWhile isDigit
  let v : Int := if neg then -(natOf ds : Int) else natOf ds
  if ds.isEmpty then ⟨some 0, rest, false, rest.isEmpty⟩
  else if v < lo then ⟨some lo, rest, false, rest.isEmpty⟩
  else if hi < v then ⟨some hi, rest, false, rest.isEmpty⟩
  else ⟨some v, rest, true, rest.isEmpty⟩

/-- Extraction of a `std::size_t`: a minus sign negates modulo `2^64`. -/
def parseSize (l : List Char) : Parsed Nat :=
  let (neg, r) := splitSign l
  let ds := r.takeWhile isDigit
  let rest := r.dropWhile isDigit
  if ds.isEmpty then ⟨some 0, rest, false, rest.isEmpty⟩
  else if W ≤ natOf ds then ⟨some (W - 1), rest, false, rest.isEmpty⟩
  else ⟨some (if neg then wsub 0 (natOf ds) else natOf ds), rest, true, rest.isEmpty⟩

/-- Signed integers with the range `lo … hi`. -/
def intCodec (lo hi : Int) : Codec Int := ⟨fmtInt, parseInt lo hi⟩

/-- Sizes. -/
def sizeCodec : Codec Nat := ⟨fmtNat, parseSize⟩

/-- Characters: written as they are, read with `skipws`. -/
def charCodec : Codec Char :=
  ⟨fun c => [c], fun l => match l with | [] => ⟨none, [], false, true⟩ | c :: l => ⟨some c, l, true, false⟩⟩

/-- `std::complex`, written `(re,im)` and read as libstdc++ does when it starts with a parenthesis; the two other accepted
forms (`re` and `(re)`) are left out, they end in a failure here. -/
def complexCodec (c : Codec T) : Codec (T × T) :=
  ⟨fun z => ['('] ++ c.fmt z.1 ++ [','] ++ c.fmt z.2 ++ [')'],
   fun l =>
    match readChar ⟨l, false, false⟩ with
    | (some '(', s) =>
      match c.read s with
      | (some re, s) =>
        match readChar s with
        | (some ',', s) =>
          match c.read s with
          | (some im, s) =>
            match readChar s with
            | (some ')', s) => ⟨some (re, im), s.rest, !s.fail, s.eof⟩
            | (_, s) => ⟨none, s.rest, false, s.eof⟩
          | (_, s) => ⟨none, s.rest, false, s.eof⟩
        | (_, s) => ⟨none, s.rest, false, s.eof⟩
      | (_, s) => ⟨none, s.rest, false, s.eof⟩
    | (_, s) => ⟨none, s.rest, false, s.eof⟩⟩

/-! ## Printing -/

/-- `details::get_longhest_value`, `io.hpp:27-42`. -/
def longest (fmtM : T → List Char) (size : Nat) (get : Nat → Res T) : Res Nat :=
  forRange 0 size 0 fun i w => do
    let x ← get i
    return (if w < (fmtM x).length then (fmtM x).length else w)

/-- `std::ostream << Vector`, `io.hpp:51-65`. -/
def printVec (fmtM fmt : T → List Char) (v : List T) : Res (List Char) := do
  let w ← longest fmtM v.length (vget v)
  forRange 0 v.length [] fun i out => do
    let x ← vget v i
    let out := out ++ pad w (fmt x)
    return (if i < wsub v.length 1 then out ++ [' '] else out)

/-- The loops of the matrix printers, `io.hpp:79-89` and `131-141`. -/
def printRows (w : Nat) (fmt : T → List Char) (A : MB T) : Res (List Char) :=
  forRange 0 A.rows [] fun r out => do
    let out ← forRange 0 A.cols out fun c out => do
      let x ← A.at_ r c
      let out := out ++ pad w (fmt x)
      return (if c < wsub A.cols 1 then out ++ [' '] else out)
    return (if r < wsub A.rows 1 then out ++ ['\n'] else out)

/-- `std::ostream << MatrixBase`, `io.hpp:72-91`. -/
def printMat (fmtM fmt : T → List Char) (A : MB T) : Res (List Char) := do
  let w ← longest fmtM A.size A.lin
  printRows w fmt A

/-- `std::ofstream << Vector`, `io.hpp:98-115`. -/
def writeVec (fmtM fmt : T → List Char) (v : List T) : Res (List Char) := do
  let w ← longest fmtM v.length (vget v)
  let out ← forRange 0 v.length [] fun i out => do
    let x ← vget v i
    let out := out ++ pad w (fmt x)
    return (if i < wsub v.length 1 then out ++ [' '] else out)
  return ['V', ' '] ++ fmtNat v.length ++ ['\n'] ++ out ++ ['\n']

/-- `std::ofstream << MatrixBase`, `io.hpp:122-144`. -/
def writeMat (fmtM fmt : T → List Char) (A : MB T) : Res (List Char) := do
  let w ← longest fmtM A.size A.lin
  let out ← printRows w fmt A
  return ['M', ' '] ++ fmtNat A.rows ++ [' '] ++ fmtNat A.cols ++ ['\n'] ++ out ++ ['\n']

/-- `std::ostream << Range`, `io.hpp:150-154`. -/
def printRange (r : Range) : List Char := ['['] ++ fmtNat r.start ++ [',', ' '] ++ fmtNat r.stop ++ [']']

/-- `std::ostream << StateSpace`, `io.hpp:217-230`. -/
def printStateSpace (fmtM fmt : T → List Char) (sys : StateSpace T) : Res (List Char) := do
  let a ← printMat fmtM fmt sys.A.toMB
  let b ← printMat fmtM fmt sys.B.toMB
  let c ← printMat fmtM fmt sys.C.toMB
  let d ← printMat fmtM fmt sys.D.toMB
  return "A =\n".toList ++ a ++ "\nB =\n".toList ++ b ++ "\nC =\n".toList ++ c ++ "\nD =\n".toList ++ d ++
    "\nContinuous-time state-space model.\n".toList

/-- `std::ostream << DiscreteStateSpace`, `io.hpp:236-250`. -/
def printDiscrete (fmtM fmt : T → List Char) (sys : DiscreteStateSpace T) : Res (List Char) := do
  let a ← printMat fmtM fmt sys.A.toMB
  let b ← printMat fmtM fmt sys.B.toMB
  let c ← printMat fmtM fmt sys.C.toMB
  let d ← printMat fmtM fmt sys.D.toMB
  return "A =\n".toList ++ a ++ "\nB =\n".toList ++ b ++ "\nC =\n".toList ++ c ++ "\nD =\n".toList ++ d ++
    "\nSample time: ".toList ++ fmt sys.sampleTime ++ " seconds\nDiscrete-time state-space model.\n".toList

/-- `dump_vector`, `io.hpp:256-262` (the scratch stream has default flags). -/
def dumpVec (fmtM : T → List Char) (name : List Char) (v : List T) : Res (List Char) := do
  let s ← printVec fmtM fmtM v
  return name ++ " = ".toList ++ s

/-- `dump_matrix`, `io.hpp:268-275`. -/
def dumpMat (fmtM : T → List Char) (name : List Char) (A : MB T) : Res (List Char) := do
  let s ← printMat fmtM fmtM A
  return name ++ " = \n".toList ++ s

/-- `to_matlab(Vector)`, `io.hpp:281-294`. -/
def matlabVec (fmt : T → List Char) (name : List Char) (v : List T) : Res (List Char) := do
  let out ← forRange 0 v.length (name ++ " = [".toList) fun i out => do
    let x ← vget v i
    let out := out ++ fmt x
    return (if i < wsub v.length 1 then out ++ [' '] else out)
  return out ++ [']']

/-- `to_matlab(MatrixBase)`, `io.hpp:300-321`; `fmt` is the element itself, or for complex elements the real part
followed by the imaginary part with its sign and an `i` (`matlabComplex`). -/
def matlabMat (fmt : T → List Char) (name : List Char) (A : MB T) : Res (List Char) := do
  let out ← forRange 0 A.rows (name ++ " = [".toList) fun r out => do
    let out ← forRange 0 A.cols (out ++ ['[']) fun c out => do
      let x ← A.at_ r c
      let out := out ++ fmt x
      return (if c < wsub A.cols 1 then out ++ [' '] else out)
    return out ++ [']', ';']
  return out ++ [']']

/-- `std::showpos`: a plus sign in front of what is not negative. -/
def showpos (fmt : Int → List Char) (x : Int) : List Char := if x < 0 then fmt x else '+' :: fmt x

/-- The complex branch of `to_matlab`, `io.hpp:309`. -/
def matlabComplex (fmt : Int → List Char) (z : Int × Int) : List Char := fmt z.1 ++ showpos fmt z.2 ++ ['i']

/-! ## Reading -/

/-- `lhs >> rhs[i]`, `io.hpp:178`. -/
def readItem (c : Codec T) (i : Nat) (q : IStream × List T) : Res (IStream × List T) :=
  match c.read q.1 with
  | (none, s) => .ok (s, q.2)
  | (some x, s) => do
    let v ← vset q.2 i x
    return (s, v)

/-- `lhs >> rhs(r, c)`, `io.hpp:207`. -/
def readEntry (c : Codec T) (r k : Nat) (q : IStream × Mat T) : Res (IStream × Mat T) :=
  match c.read q.1 with
  | (none, s) => .ok (s, q.2)
  | (some x, s) => do
    let A ← q.2.setAt r k x
    return (s, A)

/-- `std::ifstream >> Vector`, `io.hpp:161-181`: the stream and the vector afterwards. `type` and `size` start
uninitialised; reading them when nothing was extracted is undefined. -/
def readVec [Zero T] (c : Codec T) (s : IStream) (v : List T) : Res (IStream × List T) :=
  match readChar s with
  | (none, _) => .ub .uninit
  | (some t, s) =>
    if t ≠ 'V' then .ok (s, v)
    else
      match sizeCodec.read s with
      | (none, _) => .ub .uninit
      | (some n, s) => do
        let v ← vresize v n
        forRange 0 v.length (s, v) fun i q => readItem c i q

/-- `std::ifstream >> Matrix`, `io.hpp:188-211`. -/
def readMat [Zero T] (c : Codec T) (s : IStream) (A : Mat T) : Res (IStream × Mat T) :=
  match readChar s with
  | (none, _) => .ub .uninit
  | (some t, s) =>
    if t ≠ 'M' then .ok (s, A)
    else
      match sizeCodec.read s with
      | (none, _) => .ub .uninit
      | (some rows, s) =>
        match sizeCodec.read s with
        | (none, _) => .ub .uninit
        | (some cols, s) => do
          let A ← A.resize rows cols
          forRange 0 A.rows (s, A) fun r q =>
            forRange 0 A.cols q fun k q => readEntry c r k q

end Io
end Malg
