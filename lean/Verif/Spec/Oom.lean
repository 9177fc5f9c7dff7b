import Verif.Spec.Str
/-
Editing text when any edit may fail to happen.
-/
namespace GV.Spec

/-- An edit in place. -/
inductive Edit
  | push (s : Bytes)
  | clear
  | reserve (n : Nat)

/-- What an edit makes of the text. -/
def Edit.onText (t : Bytes) : Edit → Bytes
  | .push s => if (0 : UInt8) ∈ s then t else t ++ s
  | .clear => []
  | .reserve _ => t

/-- Pushed strings are Rust strings. -/
def Edit.Ok : Edit → Prop
  | .push s => Utf8 s
  | _ => True

/-- The text after edits of which some panicked (`false`): these did nothing. -/
def edited : Bytes → List (Edit × Bool) → Bytes
  | t, [] => t
  | t, (_, false) :: es => edited t es
  | t, (e, true) :: es => edited (e.onText t) es

end GV.Spec
