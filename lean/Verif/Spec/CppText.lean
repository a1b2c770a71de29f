import Verif.Model.Io
/-!
# Reading braced initializer lists of C++

The part of the C++ grammar needed to say what the text printed by `to_cpp` denotes: `{ item , item , … }` with optional
white space, [dcl.init], and decimal integer literals with an optional minus sign, [lex.icon].
-/
namespace Malg.CppText
open Io
variable {α : Type}

/-- A decimal integer literal, possibly negated. A leading `0` would make the literal octal and is not accepted. -/
def intLit (cs : List Char) : Option (Int × List Char) :=
  match cs.dropWhile isSpace with
  | '-' :: l => digits l true
  | l => digits l false
where
  digits (l : List Char) (neg : Bool) : Option (Int × List Char) :=
    match l.takeWhile isDigit with
    | [] => none
    | '0' :: _ :: _ => none
    | ds => some (if neg then -(natOf ds : Int) else (natOf ds : Int), l.dropWhile isDigit)

/-- `item , … , item }`, at most `fuel` items. -/
def items (p : List Char → Option (α × List Char)) : Nat → List Char → Option (List α × List Char)
  | 0, _ => none
  | fuel + 1, cs =>
    match p cs with
    | none => none
    | some (x, rest) =>
      match rest.dropWhile isSpace with
      | ',' :: r => (items p fuel r).map fun q => (x :: q.1, q.2)
      | '}' :: r => some ([x], r)
      | _ => none

/-- A braced list whose items are read by `p`. -/
def braces (p : List Char → Option (α × List Char)) (cs : List Char) : Option (List α × List Char) :=
  match cs.dropWhile isSpace with
  | '{' :: r =>
    match r.dropWhile isSpace with
    | '}' :: t => some ([], t)
    | _ => items p (r.length + 1) r
  | _ => none

example : braces intLit " {1, -20 ,3} x".toList = some ([1, -20, 3], " x".toList) := by decide +kernel
example : braces (braces intLit) "{{1,2},{3,4}}".toList = some ([[1, 2], [3, 4]], []) := by decide +kernel
example : braces intLit "{1 2}".toList = none ∧ braces intLit "{1,}".toList = none ∧ braces intLit "{07}".toList = none := by
  decide +kernel

end Malg.CppText
