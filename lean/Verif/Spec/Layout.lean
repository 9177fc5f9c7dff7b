import Verif.Model.TypeParser
/-
Independent specification of alignment, size and member placement
(docs/gvariant-serialisation.pdf, sections 2.4 and 2.5).
-/
namespace GV.Spec

/-- `n` rounded up to a multiple of `al`. -/
def roundUp (n al : Nat) : Nat := (n + al - 1) / al * al

mutual
/-- Alignment of a type: that of the largest possible child for containers. -/
def align : Ty → Nat
  | .B | .Y | .S | .O | .G => 1
  | .N | .Q => 2
  | .I | .U => 4
  | .X | .T | .D | .V => 8
  | .A e | .M e => align e
  | .tuple ts => alignMax ts
  | .dict k v => max (align k) (align v)
/-- Largest alignment of the members, 1 if there are none. -/
def alignMax : List Ty → Nat
  | [] => 1
  | t :: ts => max (align t) (alignMax ts)
end

mutual
/-- Size of a fixed-size type; `none` for types that are not fixed-size. -/
def size : Ty → Option Nat
  | .B | .Y => some 1
  | .N | .Q => some 2
  | .I | .U => some 4
  | .X | .T | .D => some 8
  | .S | .O | .G | .V | .A _ | .M _ => none
  | .tuple ts =>
    match endAfter 0 ts with
    | none => none
    | some e => some (if ts = [] then 1 else roundUp e (alignMax ts))
  | .dict k v =>
    match size k, size v with
    | some m, some n => some (roundUp (roundUp m (align v) + n) (max (align k) (align v)))
    | _, _ => none
/-- Where a sequence of fixed-size members placed from `pos` on ends, each at the next multiple of
    its alignment. -/
def endAfter : Nat → List Ty → Option Nat
  | pos, [] => some pos
  | pos, t :: ts =>
    match size t with
    | none => none
    | some n => endAfter (roundUp pos (align t) + n) ts
end

/-- Start offsets of a sequence of fixed-size members placed from `pos` on. -/
def startsFrom : Nat → List Ty → List Nat
  | _, [] => []
  | pos, t :: ts => roundUp pos (align t) :: startsFrom (roundUp pos (align t) + (size t).getD 0) ts

/-- `Component c t`: `c` occurs in `t` (a type is a component of itself). -/
inductive Component : Ty → Ty → Prop
  | refl (t) : Component t t
  | array {c t} : Component c t → Component c (.A t)
  | maybe {c t} : Component c t → Component c (.M t)
  | member {c t ts} : Component c t → t ∈ ts → Component c (.tuple ts)
  | key {c k v} : Component c k → Component c (.dict k v)
  | value {c k v} : Component c v → Component c (.dict k v)

end GV.Spec

namespace GV.Spec

/-- Start offset of each member of a structure by the sequential walk of section 2.5.4: start from
    the end of the nearest preceding non-fixed-size member (or 0), round up and add fixed sizes.
    `ends k` is where the `k`-th non-fixed-size member ends; `pos` the position reached, `k` how many
    non-fixed-size members came before. -/
def memberStarts (ends : Nat → Nat) : Nat → Nat → List Ty → List Nat
  | _, _, [] => []
  | pos, k, t :: ts =>
    let start := roundUp pos (align t)
    start :: match size t with
      | some n => memberStarts ends (start + n) k ts
      | none => memberStarts ends (ends k) (k + 1) ts

end GV.Spec

namespace GV.Spec

/-- A structure or dictionary entry. -/
def isStruct : Ty → Bool
  | .tuple _ | .dict _ _ => true
  | _ => false

/-- Members of a structure or dictionary entry. -/
def members : Ty → List Ty
  | .tuple ts => ts
  | .dict k v => [k, v]
  | _ => []

/-- An integer type. -/
def isInt : Ty → Bool
  | .Y | .N | .Q | .I | .U | .X | .T => true
  | _ => false

mutual
/-- Every occurrence of a structure type inside a type, innermost first, left to right. -/
def structOccs : Ty → List Ty
  | .tuple ts => structOccsAll ts ++ [.tuple ts]
  | .dict k v => structOccs k ++ structOccs v ++ [.dict k v]
  | .A e => structOccs e
  | .M e => structOccs e
  | _ => []
/-- The same for a list of types. -/
def structOccsAll : List Ty → List Ty
  | [] => []
  | t :: ts => structOccs t ++ structOccsAll ts
end

/-- `base` is the start of the most recent member whose alignment exceeded that of all members
    before it (0 at first), `best` that alignment, `pos` the position reached.  The condition says
    that adding a later member's distance from `base` to `base` involves no carry. -/
def carryFree : Nat → Nat → Nat → List Ty → Prop
  | _, _, _, [] => True
  | base, best, pos, t :: ts =>
    let start := roundUp pos (align t)
    if align t ≤ best then
      base &&& (start - base) = 0 ∧ carryFree base best (start + (size t).getD 0) ts
    else carryFree start (align t) (start + (size t).getD 0) ts

instance carryFreeDecidable : (base best pos : Nat) → (ts : List Ty) →
    Decidable (carryFree base best pos ts)
  | _, _, _, [] => isTrue trivial
  | base, best, pos, t :: ts => by
    unfold carryFree
    have := carryFreeDecidable base best (roundUp pos (align t) + (size t).getD 0) ts
    have := carryFreeDecidable (roundUp pos (align t)) (align t)
      (roundUp pos (align t) + (size t).getD 0) ts
    infer_instance

end GV.Spec
