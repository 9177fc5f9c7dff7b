import Verif.Spec.Decode
/-
Which framing offset belongs to which member of a structure.
-/
namespace GV.Spec

/-- Two byte sequences agree on the positions `lo, …, hi - 1`. -/
def Agree (b b' : Bytes) (lo hi : Nat) : Prop := sub b lo hi = sub b' lo hi

/-- How many of the members before the `k`-th have no fixed size: that many framing offsets belong to
    earlier members. -/
def framesBefore (ts : List Ty) (k : Nat) : Nat := ((ts.take k).filter fun t => (size t).isNone).length

end GV.Spec
