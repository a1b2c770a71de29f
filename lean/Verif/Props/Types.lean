import Verif.Model.Types
/-!
# Property C70: the element type of results
-/
namespace Malg
open ElemType

theorem Arith.mem_all (t : Arith) : t ∈ Arith.all := by cases t <;> decide

theorem Arith.common_comm (a b : Arith) : Arith.common a b = Arith.common b a :=
  (by decide +kernel : ∀ a ∈ Arith.all, ∀ b ∈ Arith.all, Arith.common a b = Arith.common b a) a a.mem_all b b.mem_all

theorem Arith.common_assoc (a b c : Arith) :
    Arith.common (Arith.common a b) c = Arith.common a (Arith.common b c) :=
  (by decide +kernel : ∀ a ∈ Arith.all, ∀ b ∈ Arith.all, ∀ c ∈ Arith.all,
    Arith.common (Arith.common a b) c = Arith.common a (Arith.common b c)) a a.mem_all b b.mem_all c c.mem_all

/-- C70: the order of the operands does not matter. -/
theorem C70_commutative (a b : ElemType) : extract a b = extract b a := by
  cases a <;> cases b <;> simp [extract, isComplex, inner, Arith.common_comm]

/-- C70: equal operand types are kept. -/
theorem C70_idempotent (a : ElemType) : extract a a = a := by
  cases a <;> simp [extract, isComplex, inner, Arith.common]

/-- C70: complex exactly when one operand is. -/
theorem C70_complex (a b : ElemType) : (extract a b).isComplex = true ↔ a.isComplex = true ∨ b.isComplex = true := by
  cases a <;> cases b <;> simp [extract, isComplex]

/-- C70: the part type of the result is that of the parts. -/
theorem C70_inner (a b : ElemType) : (extract a b).inner = Arith.common a.inner b.inner := by
  cases a <;> cases b <;> simp [extract, isComplex, inner]

/-- C70: with three operands the grouping does not matter, hence neither does the order. -/
theorem C70_three (a b c : ElemType) :
    extract3 a b c = extract a (extract b c) ∧ extract3 a b c = extract3 b a c ∧ extract3 a b c = extract3 a c b := by
  have hassoc : ∀ a b c : ElemType, extract (extract a b) c = extract a (extract b c) := by
    intro a b c
    cases a <;> cases b <;> cases c <;> simp [extract, isComplex, inner, Arith.common_assoc]
  refine ⟨hassoc a b c, ?_, ?_⟩
  · simp only [extract3, C70_commutative a b]
  · simp only [extract3, hassoc, C70_commutative b c]

/-- C70: the result ranks at least as high as either operand. -/
theorem C70_rank (a b : Arith) : a.rank ≤ (Arith.common a b).rank ∧ b.rank ≤ (Arith.common a b).rank :=
  (by decide +kernel : ∀ a ∈ Arith.all, ∀ b ∈ Arith.all,
    a.rank ≤ (Arith.common a b).rank ∧ b.rank ≤ (Arith.common a b).rank) a a.mem_all b b.mem_all

/-- Smallest integer from which on all integers up to zero are values of the type. -/
def Arith.lo (t : Arith) : Int :=
  if t.isFloat then -(2 ^ t.bits) else if t.signed then -(2 ^ (t.bits - 1)) else 0

/-- Largest integer up to which all integers from zero on are values of the type. -/
def Arith.hi (t : Arith) : Int :=
  if t.isFloat then 2 ^ t.bits else if t.signed then 2 ^ (t.bits - 1) - 1 else 2 ^ t.bits - 1

/-- `a` is a signed integer type meeting an unsigned one at least as wide as it and as `int`. -/
def Arith.signClash (a b : Arith) : Bool :=
  !a.isFloat && a.signed && !b.isFloat && !b.signed && decide (a.bits ≤ b.bits) && decide (32 ≤ b.bits)

/-- `a` is an integer type with more value bits than the floating type `b` has in its significand. -/
def Arith.floatClash (a b : Arith) : Bool :=
  !a.isFloat && b.isFloat && decide (b.bits < a.bits - (if a.signed then 1 else 0))

/-- C70 (partial): every integer value of an operand (for a floating type: of its exact integer range) is a value of the
common type. Missing: the two exceptions, in which values are lost, see `C70_sign_false` and `C70_float_false`. -/
theorem C70_values_partial (a b : Arith) (h1 : a.signClash b = false) (h2 : a.floatClash b = false) (x : Int)
    (hx : a.lo ≤ x ∧ x ≤ a.hi) : (Arith.common a b).lo ≤ x ∧ x ≤ (Arith.common a b).hi := by
  have h := (by decide +kernel : ∀ a ∈ Arith.all, ∀ b ∈ Arith.all, a.signClash b = false → a.floatClash b = false →
    (Arith.common a b).lo ≤ a.lo ∧ a.hi ≤ (Arith.common a b).hi) a a.mem_all b b.mem_all h1 h2
  exact ⟨Int.le_trans h.1 hx.1, Int.le_trans hx.2 h.2⟩

/-- C70 violated: a signed operand meeting an unsigned one that is at least as wide loses its negative values. -/
theorem C70_sign_false (a b : Arith) (h : a.signClash b = true) :
    a.lo ≤ -1 ∧ -1 ≤ a.hi ∧ (Arith.common a b).lo = 0 :=
  (by decide +kernel : ∀ a ∈ Arith.all, ∀ b ∈ Arith.all, a.signClash b = true →
    a.lo ≤ -1 ∧ -1 ≤ a.hi ∧ (Arith.common a b).lo = 0) a a.mem_all b b.mem_all h

/-- C70 violated: an integer operand meeting a floating one with a shorter significand loses values. -/
theorem C70_float_false (a b : Arith) (h : a.floatClash b = true) : (Arith.common a b).hi < a.hi :=
  (by decide +kernel : ∀ a ∈ Arith.all, ∀ b ∈ Arith.all, a.floatClash b = true →
    (Arith.common a b).hi < a.hi) a a.mem_all b b.mem_all h

/-- C70: `inverse` computes with `double` unless the elements are, or are pairs of, `long double`, and stays complex. -/
theorem C70_inverse (a : ElemType) :
    (withDouble a).isComplex = a.isComplex ∧
    (withDouble a).inner = (if a.inner = .ldouble then .ldouble else .double) := by
  refine ⟨by cases a <;> rfl, ?_⟩
  rw [withDouble, C70_inner]
  exact (by decide +kernel : ∀ a ∈ Arith.all, Arith.common a .double = if a = .ldouble then .ldouble else .double)
    a.inner a.inner.mem_all

example : withDouble (.complex .float) = .complex .double ∧ withDouble (.real .ulong) = .real .double := by decide +kernel
example : extract (.real .int) (.real .double) = .real .double := by decide +kernel
example : extract (.real .int) (.complex .float) = .complex .float := by decide +kernel
example : extract (.complex .double) (.complex .float) = .complex .double := by decide +kernel
example : extract (.real .char) (.real .short) = .real .int := by decide +kernel
example : extract (.real .int) (.real .uint) = .real .uint := by decide +kernel
example : extract (.real .ulong) (.real .llong) = .real .ullong := by decide +kernel
example : extract3 (.real .int) (.real .float) (.complex .double) = .complex .double := by decide +kernel
example : Arith.signClash .int .uint = true ∧ Arith.floatClash .int .float = true := by decide +kernel

end Malg
