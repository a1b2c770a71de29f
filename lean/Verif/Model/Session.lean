import Verif.Model.Io
/-!
# Statements that write to and read from a file

`out << a << b` is evaluated from the left, and which operator prints `b` depends on the type of `out << a`. The operators of the
library for files (`io.hpp:99, 123`) take and return `std::ofstream &`; those of the standard library return `std::ostream &`
([ostream.formatted]), so that after a number or a text the operators for streams (`io.hpp:52, 73`) are chosen, which print
no header.
-/
namespace Malg.Io
variable {T : Type}

/-- What can be written and read: a vector, a matrix, or a single element. -/
inductive Obj (T : Type)
  | vec (v : List T)
  | mat (A : Mat T)
  | num (x : T)
  deriving DecidableEq

/-- The operands of `<<`. -/
inductive Item (T : Type)
  | obj (o : Obj T)
  | text (s : List Char)

/-- `lhs << item`: the type of the result (`true` for `std::ofstream &`) and the characters written; `file` is the type of `lhs`. -/
def putItem (fmtM fmt : T → List Char) (file : Bool) : Item T → Res (Bool × List Char)
  | .obj (.vec v) => do
    let t ← if file then writeVec fmtM fmt v else printVec fmtM fmt v
    return (file, t)
  | .obj (.mat A) => do
    let t ← if file then writeMat fmtM fmt A.toMB else printMat fmtM fmt A.toMB
    return (file, t)
  | .obj (.num x) => return (false, fmt x)
  | .text s => return (false, s)

/-- `lhs << a << b …`. -/
def putChain (fmtM fmt : T → List Char) : Bool → List (Item T) → Res (List Char)
  | _, [] => return []
  | file, i :: l => do
    let (file, t) ← putItem fmtM fmt file i
    let u ← putChain fmtM fmt file l
    return t ++ u

/-- A list of statements, each of which begins with the file. -/
def putAll (fmtM fmt : T → List Char) : List (List (Item T)) → Res (List Char)
  | [] => return []
  | st :: l => do
    let t ← putChain fmtM fmt true st
    let u ← putAll fmtM fmt l
    return t ++ u

/-- `in >> x`. -/
def getObj [Zero T] (c : Codec T) (s : IStream) : Obj T → Res (IStream × Obj T)
  | .vec v => do
    let (s, v) ← readVec c s v
    return (s, .vec v)
  | .mat A => do
    let (s, A) ← readMat c s A
    return (s, .mat A)
  | .num x =>
    match c.read s with
    | (some y, s) => return (s, .num y)
    | (none, s) => return (s, .num x)

/-- One `in >> x;` after the other. -/
def getAll [Zero T] (c : Codec T) : IStream → List (Obj T) → Res (IStream × List (Obj T))
  | s, [] => return (s, [])
  | s, o :: l => do
    let (s, o) ← getObj c s o
    let (s, l) ← getAll c s l
    return (s, o :: l)

end Malg.Io
