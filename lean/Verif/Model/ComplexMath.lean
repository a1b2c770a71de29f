import Verif.Model.Field
/-!
# `complex_math.hpp`

`std::complex<K>` as a pair over a field (exact arithmetic; the special treatment of infinities and NaN in products and
quotients of `std::complex<float>` etc. is not represented). `c1` and `c2` are the conversions of the operand types to the
common type, `std::common_type_t<T1, T2>`.
-/
namespace Malg

/-- `std::complex<K>`. -/
structure Cpx (K : Type) where
  re : K
  im : K
  deriving DecidableEq, Repr

namespace Cpx
variable {A B K : Type}

/-- Conversion between complex types, [complex.members]. -/
def conv (c : A → K) (z : Cpx A) : Cpx K := ⟨c z.re, c z.im⟩

/-- Conversion from a number: `complex(re, 0)`. -/
def ofReal [Zero K] (x : K) : Cpx K := ⟨x, 0⟩

/-! `std::complex` compound assignments, [complex.member.ops], as in libstdc++. -/

def addC [Add K] (a b : Cpx K) : Cpx K := ⟨a.re + b.re, a.im + b.im⟩
def addR [Add K] (a : Cpx K) (x : K) : Cpx K := ⟨a.re + x, a.im⟩
def subC [Sub K] (a b : Cpx K) : Cpx K := ⟨a.re - b.re, a.im - b.im⟩
def subR [Sub K] (a : Cpx K) (x : K) : Cpx K := ⟨a.re - x, a.im⟩
def mulC [Add K] [Sub K] [Mul K] (a b : Cpx K) : Cpx K := ⟨a.re * b.re - a.im * b.im, a.re * b.im + a.im * b.re⟩
def mulR [Mul K] (a : Cpx K) (x : K) : Cpx K := ⟨a.re * x, a.im * x⟩

def divC [Add K] [Sub K] [Mul K] [CDiv K] (a b : Cpx K) : Res (Cpx K) := do
  let r := a.re * b.re + a.im * b.im
  let n := b.re * b.re + b.im * b.im
  let im ← cdiv (a.im * b.re - a.re * b.im) n
  let re ← cdiv r n
  return ⟨re, im⟩

def divR [CDiv K] (a : Cpx K) (x : K) : Res (Cpx K) := do
  let re ← cdiv a.re x
  let im ← cdiv a.im x
  return ⟨re, im⟩

/-! The operators of the library. -/

/-- `complex + complex`, `complex_math.hpp:13-19`. -/
def addCC [Add K] (c1 : A → K) (c2 : B → K) (l : Cpx A) (r : Cpx B) : Cpx K := addC (conv c1 l) (conv c2 r)
/-- `complex + number`, `complex_math.hpp:25-31`. -/
def addCR [Add K] (c1 : A → K) (c2 : B → K) (l : Cpx A) (r : B) : Cpx K := addR (conv c1 l) (c2 r)
/-- `number + complex`, `complex_math.hpp:37-43`. -/
def addRC [Zero K] [Add K] (c1 : A → K) (c2 : B → K) (l : A) (r : Cpx B) : Cpx K := addC (ofReal (c1 l)) (conv c2 r)
/-- `complex - complex`, `complex_math.hpp:49-55`. -/
def subCC [Sub K] (c1 : A → K) (c2 : B → K) (l : Cpx A) (r : Cpx B) : Cpx K := subC (conv c1 l) (conv c2 r)
/-- `complex - number`, `complex_math.hpp:61-67`. -/
def subCR [Sub K] (c1 : A → K) (c2 : B → K) (l : Cpx A) (r : B) : Cpx K := subR (conv c1 l) (c2 r)
/-- `number - complex`, `complex_math.hpp:73-79`. -/
def subRC [Zero K] [Sub K] (c1 : A → K) (c2 : B → K) (l : A) (r : Cpx B) : Cpx K := subC (ofReal (c1 l)) (conv c2 r)
/-- `complex * complex`, `complex_math.hpp:85-91`. -/
def mulCC [Add K] [Sub K] [Mul K] (c1 : A → K) (c2 : B → K) (l : Cpx A) (r : Cpx B) : Cpx K :=
  mulC (conv c1 l) (conv c2 r)
/-- `complex * number`, `complex_math.hpp:97-103`. -/
def mulCR [Mul K] (c1 : A → K) (c2 : B → K) (l : Cpx A) (r : B) : Cpx K := mulR (conv c1 l) (c2 r)
/-- `number * complex`, `complex_math.hpp:109-115`. -/
def mulRC [Zero K] [Add K] [Sub K] [Mul K] (c1 : A → K) (c2 : B → K) (l : A) (r : Cpx B) : Cpx K :=
  mulC (ofReal (c1 l)) (conv c2 r)
/-- `complex / complex`, `complex_math.hpp:121-127`. -/
def divCC [Add K] [Sub K] [Mul K] [CDiv K] (c1 : A → K) (c2 : B → K) (l : Cpx A) (r : Cpx B) : Res (Cpx K) :=
  divC (conv c1 l) (conv c2 r)
/-- `complex / number`, `complex_math.hpp:133-139`. -/
def divCR [CDiv K] (c1 : A → K) (c2 : B → K) (l : Cpx A) (r : B) : Res (Cpx K) := divR (conv c1 l) (c2 r)
/-- `number / complex`, `complex_math.hpp:145-151`. -/
def divRC [Zero K] [Add K] [Sub K] [Mul K] [CDiv K] (c1 : A → K) (c2 : B → K) (l : A) (r : Cpx B) : Res (Cpx K) :=
  divC (ofReal (c1 l)) (conv c2 r)

end Cpx
end Malg
