import Verif.Spec.Tree
/-
Variants in variants: how many a path passes through, and how many a value has along arrays of variants.
-/
namespace GV.Spec

/-- The number of variants that a path goes into. -/
def insides : List Step → Nat
  | [] => 0
  | .inside _ :: p => insides p + 1
  | _ :: p => insides p

mutual
/-- The number of variants: the value, if it is a variant; if it holds an array `av`, also those in that. -/
def chained : Tree → Nat
  | .variant u x => 1 + match u, x with
    | .A .V, .arr xs => chainedAll xs
    | _, _ => 0
  | _ => 0
/-- The sum over a list of values. -/
def chainedAll : List Tree → Nat
  | [] => 0
  | x :: xs => chained x + chainedAll xs
end

end GV.Spec
