import Verif.Spec.Layout
import Verif.Spec.Memory
/-
Independent specification of which bytes of a fixed-size value matter (docs/gvariant-serialisation.pdf,
sections 2.3.4, 2.4 and 2.5.4).
-/
namespace GV.Spec

/-- What a byte of a fixed-size value is for. -/
inductive Role
  /-- padding before a member or at the end of a structure -/
  | pad
  /-- byte of a number -/
  | data
  /-- a boolean: zero or not -/
  | truth
deriving DecidableEq

mutual
/-- The roles of the bytes of a fixed-size type. -/
def roles : Ty → List Role
  | .B => [.truth]
  | .Y => [.data]
  | .N | .Q => List.replicate 2 .data
  | .I | .U => List.replicate 4 .data
  | .X | .T | .D => List.replicate 8 .data
  | .tuple ts => rolesFrom 0 ts ++ List.replicate ((size (.tuple ts)).getD 0 - (rolesFrom 0 ts).length) .pad
  | .dict k v =>
    let r := roles k ++ List.replicate (roundUp (roles k).length (align v) - (roles k).length) .pad ++ roles v
    r ++ List.replicate ((size (.dict k v)).getD 0 - r.length) .pad
  | _ => []
/-- The roles of the bytes of members placed from `pos` on. -/
def rolesFrom : Nat → List Ty → List Role
  | _, [] => []
  | pos, t :: ts =>
    List.replicate (roundUp pos (align t) - pos) .pad ++ roles t ++
      rolesFrom (roundUp pos (align t) + (roles t).length) ts
end

/-- Two bytes that mean the same in their role. -/
def Role.same : Role → UInt8 → UInt8 → Prop
  | .pad, _, _ => True
  | .data, x, y => x = y
  | .truth, x, y => x = 0 ↔ y = 0

/-- Two byte sequences of one length whose bytes mean the same position by position. -/
def SameBytes (rs : List Role) (b b' : Bytes) : Prop :=
  b.length = b'.length ∧ ∀ (i : Nat) (r : Role) (x y : UInt8), rs[i]? = some r → b[i]? = some x → b'[i]? = some y → r.same x y

end GV.Spec
