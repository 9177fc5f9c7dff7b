import Verif.Spec.Encode
/-
Values with the bytes of all numbers reversed.
-/
namespace GV.Spec

/-- A number of `w` bytes with the bytes in reverse order. -/
def swapNum (w n : Nat) : Nat := le (leBytes w n).reverse

mutual
/-- The value of the type with the bytes of each number in reverse order; what is inside variants is
    left alone. -/
def swap : Ty → Val → Val
  | .N, .num n | .Q, .num n => .num (swapNum 2 n)
  | .I, .num n | .U, .num n => .num (swapNum 4 n)
  | .X, .num n | .T, .num n | .D, .num n => .num (swapNum 8 n)
  | .A e, .arr vs => .arr (vs.map (swap e))
  | .M e, .just v => .just (swap e v)
  | .tuple ts, .tup vs => .tup (swapAll ts vs)
  | .dict k v, .tup vs =>
    match vs with
    | [x, y] => .tup [swap k x, swap v y]
    | _ => .tup vs
  | _, v => v
/-- The same for the members of a structure. -/
def swapAll : List Ty → List Val → List Val
  | t :: ts, v :: vs => swap t v :: swapAll ts vs
  | _, _ => []
end

end GV.Spec
