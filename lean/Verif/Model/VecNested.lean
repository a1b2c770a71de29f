import Verif.Model.VecMem
/-!
# `Vector<Vector<T>>`

`Vector` obtains raw memory from `realloc` and assigns to it; no constructor of an element ever runs. For numbers this makes no difference. Here the
elements are vectors themselves: the outer heap holds objects of type `Vector<T>`, the inner one their blocks. A cell of the outer heap that nothing was stored
in holds no object, and an assignment operator that runs on it reads indeterminate members.
-/
namespace Malg
namespace VecMem
variable {T : Type}

/-- The blocks with elements of type `Vector<T>` and those with elements of type `T`. -/
structure NMem (T : Type) where
  outer : Mem VObj
  inner : Mem T

/-- `_data[i] = T(0.)` where `T` is a vector, `vector.hpp:349, 354`: the number is converted to `std::size_t` for the constructor `Vector(size)`, `vector.hpp:41-46`;
the move assignment of the element, `vector.hpp:247-255`, gives back what the element holds; the temporary is destroyed, `vector.hpp:147-150`. -/
def clearElem [Zero T] (cfg : Cfg) (m : NMem T) (p : Option Nat) (i : Nat) : Res (NMem T) := do
  let (inner, t, _) ← allocate cfg m.inner ⟨none, 0⟩ 0
  let e ← load m.outer p i
  let (inner, e, _) ← deallocate inner e
  let outer ← store m.outer p i t
  let (inner, _, _) ← deallocate inner e
  return ⟨outer, inner⟩

/-- `Vector<Vector<T>>::allocate`, `vector.hpp:328-360`. The first environment is that of the outer heap. -/
def allocateN [Zero T] (cfg icfg : Cfg) (m : NMem T) (v : VObj) (size : Nat) : Res (NMem T × VObj × Bool) :=
  if size = 0 then do
    let (outer, v, b) ← deallocate m.outer v
    return (⟨outer, m.inner⟩, v, b)
  else if size = v.size then .ok (m, v, true)
  else do
    let (outer, p) ← realloc cfg m.outer v.data (wmul cfg.sz size)
    if size > v.size then
      let m ← forRange v.size size ⟨outer, m.inner⟩ fun i m => clearElem icfg m p i
      return (m, ⟨p, size⟩, true)
    else if v.size = 0 then
      let m ← forRange 0 size ⟨outer, m.inner⟩ fun i m => clearElem icfg m p i
      return (m, ⟨p, size⟩, true)
    else return (⟨outer, m.inner⟩, ⟨p, size⟩, true)

/-- `_data[i] = e` for an element that is a vector: the copy assignment, `vector.hpp:218-228`. -/
def setElem [Zero T] (icfg : Cfg) (m : NMem T) (p : Option Nat) (i : Nat) (w : VObj) : Res (NMem T) := do
  let e ← load m.outer p i
  let (inner, e, b) ← allocate icfg m.inner e w.size
  let inner ← if b then fill inner e (fun m k => load m w.data k) else .ok inner
  let outer ← store m.outer p i e
  return ⟨outer, inner⟩

/-- The constructors from a list of vectors and the copy constructor, `vector.hpp:80-104`: `allocate`, then one assignment per element. `ws` are the
elements of the source. -/
def copyN [Zero T] (cfg icfg : Cfg) (m : NMem T) (ws : List VObj) : Res (NMem T × VObj) := do
  let (m, v, b) ← allocateN cfg icfg m ⟨none, 0⟩ ws.length
  let m ← if b then forRange 0 v.size m fun i m => do
      let w ← listAt ws i
      setElem icfg m v.data i w
    else .ok m
  return (m, v)

end VecMem
end Malg
