import Verif.Model.MatHist
import Verif.Spec.Rep
/-!
# Matrix variables as tables

The specification of C11: variables that hold an `n × m` table of entries, without storage.
-/
namespace Malg
namespace MatHist
variable {T : Type}

/-- The value of a matrix variable: a table, or moved from (which, in this library, still has a shape). -/
inductive Val (T : Type)
  | table (n m : Nat) (e : Nat → Nat → T)
  | moved (n m : Nat)

/-- Variables holding tables. -/
abbrev Env (T : Type) := Nat → Option (Val T)

def Env.init : Env T := fun _ => none

def Env.set (e : Env T) (x : Nat) (v : Option (Val T)) : Env T := fun y => if y = x then v else e y

/-- What moving leaves behind: a matrix without elements has nothing to lose. -/
def Val.leave : Val T → Val T
  | .table n m e => if n * m = 0 then .table n m e else .moved n m
  | .moved n m => .moved n m

/-- Entry `(r, c)` of a nested list. -/
def nestedAt [Zero T] (l : List (List T)) (r c : Nat) : T := (l.getD r []).getD c 0

/-- The length of the first row. -/
def width (l : List (List T)) : Nat := (l.getD 0 []).length

/-- No row of a nested list is shorter than the first one. -/
def Rect (l : List (List T)) : Prop := ∀ row ∈ l, width l ≤ row.length

instance (l : List (List T)) : Decidable (Rect l) := inferInstanceAs (Decidable (∀ row ∈ l, _))

/-- What an operation means; `none` if a program must not do this: a variable that exists already or does not exist, an
index out of range, too little data, a shape beyond the address space, use of the content of a moved-from matrix. -/
def specStep [Zero T] (s : Env T) : Op T → Option (Env T × Option (Obs T))
  | .default x => if s x = none then some (s.set x (some (.table 0 0 fun _ _ => 0)), none) else none
  | .new x n m a => if s x = none ∧ Fits n m then some (s.set x (some (.table n m fun _ _ => a)), none) else none
  | .flat x n m l =>
    if s x = none ∧ Fits n m ∧ n * m ≤ l.length then
      some (s.set x (some (.table n m fun r c => l.getD (r * m + c) 0)), none)
    else none
  | .nested x l =>
    if s x = none then
      if l = [] ∨ width l = 0 then some (s, some (.threw .invalidArgument))
      else if Fits l.length (width l) ∧ Rect l then
        some (s.set x (some (.table l.length (width l) (nestedAt l))), none)
      else none
    else none
  | .copy x y =>
    match s x, s y with
    | none, some (.table n m e) => some (s.set x (some (.table n m e)), none)
    | _, _ => none
  | .move x y =>
    match s x, s y with
    | none, some v => some ((s.set x (some v)).set y (some v.leave), none)
    | _, _ => none
  | .destroy x =>
    match s x with
    | some _ => some (s.set x none, none)
    | none => none
  | .assign x y =>
    if x = y then (if s x = none then none else some (s, none))
    else match s x, s y with
      | some v, some (.table n m e) =>
        -- assigning an empty matrix is ignored, see `C10_empty_false` and `C11_empty_false`
        if n * m = 0 then some (s.set x (some v), none) else some (s.set x (some (.table n m e)), none)
      | _, _ => none
  | .moveAssign x y =>
    if x = y then (if s x = none then none else some (s, none))
    else match s x, s y with
      | some v, some (.table n m e) =>
        if n * m = 0 then some (s.set x (some v), none)
        else some ((s.set x (some (.table n m e))).set y (some (.moved n m)), none)
      | some _, some (.moved n m) => some (s.set x (some (.moved n m)), none)
      | _, _ => none
  | .assignNested x l =>
    match s x with
    | some v =>
      if l = [] ∨ width l = 0 then some (s.set x (some v), none)
      else if Fits l.length (width l) ∧ Rect l then
        some (s.set x (some (.table l.length (width l) (nestedAt l))), none)
      else none
    | none => none
  | .reshape x n m =>
    if Fits n m then
      match s x with
      | some (.table n' m' e) =>
        if n' * m' = n * m then
          some (s.set x (some (.table n m fun r c => e ((r * m + c) / m') ((r * m + c) % m'))), none)
        else some (s, some (.threw .invalidArgument))
      | some (.moved n' m') =>
        if n' * m' = n * m then some (s.set x (some (.moved n m)), none)
        else some (s, some (.threw .invalidArgument))
      | none => none
    else none
  | .resize x n m =>
    if Fits n m then
      match s x with
      | some (.table n' m' e) =>
        some (s.set x (some (.table n m fun r c => if r < n' ∧ c < m' then e r c else 0)), none)
      | some (.moved n' m') =>
        if n' = n ∧ m' = m then some (s.set x (some (.moved n m)), none)
        else if m' = m ∨ n * m = 0 then some (s.set x (some (.table n m fun _ _ => 0)), none)
        else none
      | none => none
    else none
  | .removeRow x p =>
    match s x with
    | some (.table n m e) =>
      if p < n then some (s.set x (some (.table (n - 1) m fun r c => e (if r < p then r else r + 1) c)), none)
      else some (s, some (.threw .invalidArgument))
    | _ => none
  | .removeCol x p =>
    match s x with
    | some (.table n m e) =>
      if p < m then some (s.set x (some (.table n (m - 1) fun r c => e r (if c < p then c else c + 1))), none)
      else some (s, some (.threw .invalidArgument))
    | _ => none
  | .set x r c a =>
    match s x with
    | some (.table n m e) =>
      if r < n ∧ c < m then
        some (s.set x (some (.table n m fun i j => if i = r ∧ j = c then a else e i j)), none)
      else none
    | _ => none
  | .setLin x i a =>
    match s x with
    | some (.table n m e) =>
      if i < n * m then
        some (s.set x (some (.table n m fun r c => if r = i / m ∧ c = i % m then a else e r c)), none)
      else none
    | _ => none
  | .get x r c =>
    match s x with
    | some (.table n m e) => if r < n ∧ c < m then some (s, some (.val (e r c))) else none
    | _ => none
  | .getLin x i =>
    match s x with
    | some (.table n m e) => if i < n * m then some (s, some (.val (e (i / m) (i % m)))) else none
    | _ => none
  | .shape x =>
    match s x with
    | some (.table n m _) | some (.moved n m) => some (s, some (.shape n m (n * m) (n * m == 0)))
    | none => none

/-- What a program means. -/
def specRun [Zero T] (s : Env T) : List (Op T) → Option (Env T × List (Obs T))
  | [] => some (s, [])
  | op :: ops =>
    match specStep s op with
    | none => none
    | some (s, o) =>
      match specRun s ops with
      | none => none
      | some (s, os) => some (s, o.toList ++ os)

end MatHist
end Malg
