import Verif.Spec.Normal
import Verif.Spec.Source
import Verif.Spec.Path
import Verif.Spec.Clean
/-
Values in which variants hold values, not bytes (docs/gvariant-serialisation.pdf, 1.2, 2.5.1): how they are
encoded, when they are of a type, how to go to their parts, and how to tell from bytes that they encode one.
-/
namespace GV.Spec

/-- A value; a variant holds a type and a value of that type. -/
inductive Tree
  | bool (b : Bool)
  | num (n : Nat)
  | str (b : Bytes)
  | variant (u : Ty) (x : Tree)
  | arr (xs : List Tree)
  | nothing
  | just (x : Tree)
  | tup (xs : List Tree)

mutual
/-- The value with each variant replaced by its type string and the encoding of what it holds. -/
def Tree.flat (E : Enc) : Tree → Val
  | .bool b => .bool b
  | .num n => .num n
  | .str b => .str b
  | .variant u x => .variant u.show (enc E u (x.flat E))
  | .arr xs => .arr (Tree.flatAll E xs)
  | .nothing => .nothing
  | .just x => .just (x.flat E)
  | .tup xs => .tup (Tree.flatAll E xs)
/-- The same for several. -/
def Tree.flatAll (E : Enc) : List Tree → List Val
  | [] => []
  | x :: xs => x.flat E :: Tree.flatAll E xs
end

mutual
/-- The value is one of the type; what variants hold is of the type they say. -/
def Tree.Fits : Ty → Tree → Prop
  | t, .bool _ => t = .B
  | t, .num n => ∃ w, numWidth t = some w ∧ n < 256 ^ w
  | t, .str b => isStr t = true ∧ Text b
  | t, .variant u x => t = .V ∧ Tree.Fits u x
  | t, .arr xs => match t with
    | .A e => Tree.FitsEach e xs
    | _ => False
  | t, .nothing => match t with
    | .M _ => True
    | _ => False
  | t, .just x => match t with
    | .M e => Tree.Fits e x
    | _ => False
  | t, .tup xs => match t with
    | .tuple ts => Tree.FitsAll ts xs
    | .dict k v => Tree.FitsAll [k, v] xs
    | _ => False
/-- All are of the type. -/
def Tree.FitsEach : Ty → List Tree → Prop
  | _, [] => True
  | e, x :: xs => Tree.Fits e x ∧ Tree.FitsEach e xs
/-- The values are of the types, one by one. -/
def Tree.FitsAll : List Ty → List Tree → Prop
  | t :: ts, x :: xs => Tree.Fits t x ∧ Tree.FitsAll ts xs
  | [], [] => True
  | _, _ => False
end

mutual
/-- The types named in variants. -/
def Tree.types : Tree → List Ty
  | .variant u x => u :: x.types
  | .arr xs | .tup xs => Tree.typesAll xs
  | .just x => x.types
  | _ => []
/-- The same for several. -/
def Tree.typesAll : List Tree → List Ty
  | [] => []
  | x :: xs => x.types ++ Tree.typesAll xs
end

/-- The bytes of a value. -/
def Tree.enc (E : Enc) (t : Ty) (x : Tree) : Bytes := Spec.enc E t (x.flat E)

/-- One step into a value: the type and the value of the part, if there is one. -/
def Tree.child : Ty → Tree → Step → Option (Ty × Tree)
  | .A e, .arr xs, .elem i => xs[i]?.map fun x => (e, x)
  | .M e, .just x, .content => some (e, x)
  | .tuple ts, .tup xs, .member i => ts[i]?.bind fun t => xs[i]?.map fun x => (t, x)
  | .dict k v, .tup xs, .member i => [k, v][i]?.bind fun t => xs[i]?.map fun x => (t, x)
  | .V, .variant u x, .inside u' => if u = u' then some (u, x) else none
  | _, _, _ => none

/-- The type and the value of the part that a path leads to; `none` if it leads nowhere. -/
def Tree.follow (t : Ty) (x : Tree) : List Step → Option (Ty × Tree)
  | [] => some (t, x)
  | s :: p => (x.child t s).bind fun (u, y) => y.follow u p

/-- The bytes are in normal form, and so is, to any depth, what variants in them hold. -/
def DeepNormal (be : Bool) (t : Ty) (b : Bytes) : Prop := ∃ x : Tree, x.Fits t ∧ x.enc (.pdf be) t = b

mutual
/-- Type strings and data of the variants in a value. -/
def variantsIn : Val → List (Bytes × Bytes)
  | .variant ty d => [(ty, d)]
  | .arr vs | .tup vs => variantsInAll vs
  | .just v => variantsIn v
  | _ => []
/-- The same for several values. -/
def variantsInAll : List Val → List (Bytes × Bytes)
  | [] => []
  | v :: vs => variantsIn v ++ variantsInAll vs
end

/-- The bytes have none of the abnormalities of 2.7.3 as a value of the type, each variant found in them has
    a type string that is one, and what it holds has none either, to a depth less than `n`.
    (The list of 2.7.3 says nothing of variants.) -/
def cleanTo (be : Bool) : Nat → Ty → Bytes → Bool
  | 0, _, _ => false
  | n + 1, t, b => clean t b && (variantsIn (dec (.pdf be) t b)).all fun (ty, d) =>
    match one ty with
    | some u => cleanTo be n u d
    | none => false

/-- The same to any depth. -/
def cleanDeep (be : Bool) (t : Ty) (b : Bytes) : Bool := cleanTo be (b.length + 1) t b

mutual
/-- Opening the variants in a value, to a depth less than `n`, with `rd` to read what they hold. -/
def treeTo (rd : Ty → Bytes → Option Val) : Nat → Val → Option Tree
  | _, .bool b => some (.bool b)
  | _, .num n => some (.num n)
  | _, .str b => some (.str b)
  | 0, .variant _ _ => none
  | n + 1, .variant ty d => do
    let u ← one ty
    let v ← rd u d
    let x ← treeTo rd n v
    some (.variant u x)
  | n, .arr vs => (treesTo rd n vs).map .arr
  | _, .nothing => some .nothing
  | n, .just v => (treeTo rd n v).map .just
  | n, .tup vs => (treesTo rd n vs).map .tup
/-- The same for several. -/
def treesTo (rd : Ty → Bytes → Option Val) : Nat → List Val → Option (List Tree)
  | _, [] => some []
  | n, v :: vs => do
    let x ← treeTo rd n v
    let xs ← treesTo rd n vs
    some (x :: xs)
end

mutual
/-- The value that a source stands for, as a value of a type.  (A `&Variant` comes with bytes; see `WrapOnly`.) -/
def sourceTree : Ty → Src → Tree
  | _, .num n => .num n
  | _, .bool b => .bool b
  | _, .boolRef x => .bool (x ≠ 0)
  | _, .str b => .str b
  | _, .strRef b => .str (text (Rules.crate false) b)
  | _, .variantRef _ _ => .nothing
  | _, .wrap u x => .variant u (sourceTree u x)
  | t, .seq xs => match t with
    | .A e => .arr (sourceTreeEach e xs)
    | _ => .nothing
  | _, .nothing => .nothing
  | t, .just x => match t with
    | .M e => .just (sourceTree e x)
    | _ => .nothing
  | t, .iter xs => match t with
    | .M e => match xs with
      | [] => .nothing
      | x :: _ => .just (sourceTree e x)
    | _ => .nothing
  | t, .tup xs => match t with
    | .tuple ts => .tup (sourceTreeAll ts xs)
    | .dict k v => .tup (sourceTreeAll [k, v] xs)
    | _ => .nothing
/-- The values of all items. -/
def sourceTreeEach : Ty → List Src → List Tree
  | _, [] => []
  | e, x :: xs => sourceTree e x :: sourceTreeEach e xs
/-- The values of the members of a structure. -/
def sourceTreeAll : List Ty → List Src → List Tree
  | t :: ts, x :: xs => sourceTree t x :: sourceTreeAll ts xs
  | _, _ => []
end

mutual
/-- There is no `&Variant` in the source: all variants are made with `VariantWrap`. -/
def WrapOnly : Src → Prop
  | .variantRef _ _ => False
  | .wrap _ x | .just x => WrapOnly x
  | .seq xs | .iter xs | .tup xs => WrapOnlyAll xs
  | _ => True
/-- The same for several. -/
def WrapOnlyAll : List Src → Prop
  | [] => True
  | x :: xs => WrapOnly x ∧ WrapOnlyAll xs
end

end GV.Spec
