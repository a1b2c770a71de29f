/-!
# `type_traits.hpp`: element types

The arithmetic types of C++17 on an LP64 platform (x86-64 Linux: plain `char` and `wchar_t` signed, `long` 64 bits,
`long double` with a 64 bit significand) and the complex types over them.
-/
namespace Malg

/-- Arithmetic types. -/
inductive Arith
  | bool | char | schar | uchar | wchar | char16 | char32
  | short | ushort | int | uint | long | ulong | llong | ullong
  | float | double | ldouble
  deriving DecidableEq, Repr

namespace Arith

/-- All of them. -/
def all : List Arith :=
  [.bool, .char, .schar, .uchar, .wchar, .char16, .char32, .short, .ushort, .int, .uint, .long, .ulong, .llong, .ullong,
   .float, .double, .ldouble]

def isFloat : Arith → Bool
  | .float | .double | .ldouble => true
  | _ => false

def signed : Arith → Bool
  | .char | .schar | .wchar | .short | .int | .long | .llong => true
  | .float | .double | .ldouble => true
  | _ => false

/-- Bits of an integer type; significand bits of a floating type. -/
def bits : Arith → Nat
  | .bool => 1
  | .char | .schar | .uchar => 8
  | .char16 | .short | .ushort => 16
  | .wchar | .char32 | .int | .uint => 32
  | .long | .ulong | .llong | .ullong => 64
  | .float => 24
  | .double => 53
  | .ldouble => 64

/-- Integer conversion rank, [conv.rank]. -/
def rank : Arith → Nat
  | .bool => 0
  | .char | .schar | .uchar => 1
  | .char16 | .short | .ushort => 2
  | .wchar | .char32 | .int | .uint => 3
  | .long | .ulong => 4
  | .llong | .ullong => 5
  | .float => 6
  | .double => 7
  | .ldouble => 8

/-- Integral promotion, [conv.prom]. -/
def promote : Arith → Arith
  | .bool | .char | .schar | .uchar | .char16 | .short | .ushort | .wchar => .int
  | .char32 => .uint
  | t => t

/-- The unsigned type of the same rank. -/
def toUnsigned : Arith → Arith
  | .int => .uint
  | .long => .ulong
  | .llong => .ullong
  | t => t

/-- Usual arithmetic conversions, [expr.arith.conv]. -/
def usual (a b : Arith) : Arith :=
  if a.isFloat ∨ b.isFloat then (if a.rank ≥ b.rank then a else b)
  else
    let a := a.promote
    let b := b.promote
    if a = b then a
    else if a.signed = b.signed then (if a.rank ≥ b.rank then a else b)
    else
      let (s, u) := if a.signed then (a, b) else (b, a)
      if u.rank ≥ s.rank then u
      else if u.bits < s.bits then s
      else s.toUnsigned

/-- `std::common_type_t` of two arithmetic types: the type of `false ? a : b`, so without conversions when the types are
the same, [expr.cond]. -/
def common (a b : Arith) : Arith := if a = b then a else usual a b

end Arith

/-- Element types of vectors and matrices. -/
inductive ElemType
  | real (t : Arith)
  | complex (t : Arith)
  deriving DecidableEq, Repr

namespace ElemType

/-- `is_complex_v<T>`, `type_traits.hpp:16-35`. -/
def isComplex : ElemType → Bool
  | .real _ => false
  | .complex _ => true

/-- `is_complex_t<T>`, `type_traits.hpp:16-27, 42-43`. -/
def inner : ElemType → Arith
  | .real t => t
  | .complex t => t

/-- `extract_common_type_t<T1, T2>`, `type_traits.hpp:53-54`. The other branch of `std::conditional_t` is formed as well;
that `std::common_type_t<T1, T2>` exists for the complex types of the standard (`float`, `double`, `long double`) is
taken for granted. -/
def extract (a b : ElemType) : ElemType :=
  if a.isComplex || b.isComplex then .complex (Arith.common a.inner b.inner)
  else
    match a, b with
    | .real s, .real t => .real (Arith.common s t)
    | a, _ => a

/-- `extract_common_type_3_t<T1, T2, T3>`, `type_traits.hpp:63-64`. -/
def extract3 (a b c : ElemType) : ElemType := extract (extract a b) c

/-- The element type in which `inverse` computes, `linalg.hpp:238`. -/
def withDouble (a : ElemType) : ElemType := extract a (.real .double)

end ElemType
end Malg
