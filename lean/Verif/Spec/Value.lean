import Verif.Model.Base
/-
Values as they can be observed.
-/
namespace GV

/-- What can be observed of a value: numbers by bit pattern, strings by their text, variants by type
    string and data. -/
inductive Val
  | bool (b : Bool)
  | num (n : Nat)
  | str (b : Bytes)
  | variant (ty data : Bytes)
  | arr (vs : List Val)
  | nothing
  | just (v : Val)
  | tup (vs : List Val)

end GV
