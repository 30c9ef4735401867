import Verif.Cow.Model

/-! # Specification of channel buffers: value semantics -/

namespace Verif.Cow

variable {V : Type} [Zero V] [Add V]

/-- Reference behaviour: every handle owns its own copy of the samples. -/
def specStep (l : List (Nat × V)) : Op V → List (Nat × V)
  | .silence h => if l.any (fun x => x.1 == h) then l else (h, 0) :: l
  | .clone h k =>
    match l.lookup h with
    | some v => if l.any (fun x => x.1 == k) then l else (k, v) :: l
    | none => l
  | .drop h => l.filter fun x => x.1 ≠ h
  | .write h f => l.map fun x => if x.1 = h then (h, f x.2) else x
  | .add h k =>
    match l.lookup k with
    | some w => if h = k then l else l.map fun x => if x.1 = h then (h, x.2 + w) else x
    | none => l


end Verif.Cow
