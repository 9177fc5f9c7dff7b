import Verif.Spec.Grammar
/-
Beginnings of type strings, said with the grammar alone: which byte strings can still be completed
to a type string, and what is open at their end.
-/
namespace GV.Spec

/-- Something can be added to `s` (maybe nothing) so that a type string results. -/
def Viable (s : Bytes) : Prop := ∃ w t, Derives (s ++ w) t

/-- `s` is a type string already. -/
def Complete (s : Bytes) : Prop := ∃ t, Derives s t

/-- `s` ends with a bracket `b` that is followed by `n` whole types. -/
def Opens (b : Char) (n : Nat) (s : Bytes) : Prop :=
  ∃ p w ts, s = p ++ ch b :: w ∧ DerivesAll w ts ∧ ts.length = n

/-- `s` ends with the character `c`. -/
def EndsWith (c : Char) (s : Bytes) : Prop := ∃ p, s = p ++ [ch c]

end GV.Spec
