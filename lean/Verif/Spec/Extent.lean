import Verif.Spec.Visits
import Verif.Spec.Source
/-
How many bytes the simple values in a value take by themselves.
-/
namespace GV.Spec

mutual
/-- The sizes of all booleans, numbers, strings (with the zero byte) and variants (data, zero byte and type
    string) in a value of a type. -/
def content : Ty → Val → Nat
  | _, .bool _ => 1
  | t, .num _ => (numWidth t).getD 0
  | _, .str b => b.length + 1
  | _, .variant ty d => d.length + 1 + ty.length
  | t, .arr vs => match t with
    | .A e => contentEach e vs
    | _ => 0
  | _, .nothing => 0
  | t, .just v => match t with
    | .M e => content e v
    | _ => 0
  | t, .tup vs => match t with
    | .tuple ts => contentAll ts vs
    | .dict k v => contentAll [k, v] vs
    | _ => 0
/-- The sum over the elements of an array. -/
def contentEach : Ty → List Val → Nat
  | _, [] => 0
  | e, v :: vs => content e v + contentEach e vs
/-- The sum over the members of a structure. -/
def contentAll : List Ty → List Val → Nat
  | t :: ts, v :: vs => content t v + contentAll ts vs
  | _, _ => 0
end

mutual
/-- The same for what is given to the serializer.  A wrapped variant counts as what is wrapped, with a zero byte
    and the type string. -/
def bulk : Ty → Src → Nat
  | t, .num _ => (numWidth t).getD 0
  | _, .bool _ => 1
  | _, .boolRef _ => 1
  | _, .str b => b.length + 1
  | _, .strRef b => (text (Rules.crate false) b).length + 1
  | _, .variantRef _ b => (variantParts b).2.length + 1 + (variantParts b).1.length
  | _, .wrap u x => bulk u x + 1 + u.show.length
  | t, .seq xs => match t with
    | .A e => bulkEach e xs
    | _ => 0
  | _, .nothing => 0
  | t, .just x => match t with
    | .M e => bulk e x
    | _ => 0
  | t, .iter xs => match t, xs with
    | .M e, x :: _ => bulk e x
    | _, _ => 0
  | t, .tup xs => match t with
    | .tuple ts => bulkAll ts xs
    | .dict k v => bulkAll [k, v] xs
    | _ => 0
/-- The sum over the items of a sequence. -/
def bulkEach : Ty → List Src → Nat
  | _, [] => 0
  | e, x :: xs => bulk e x + bulkEach e xs
/-- The sum over the members of a structure. -/
def bulkAll : List Ty → List Src → Nat
  | t :: ts, x :: xs => bulk t x + bulkAll ts xs
  | _, _ => 0
end

mutual
/-- The number of values in what is given to the serializer, what is wrapped in variants included. -/
def units : Src → Nat
  | .wrap _ x => 1 + units x
  | .seq xs => 1 + unitsAll xs
  | .just x => 1 + units x
  | .iter xs => match xs with
    | [] => 1
    | x :: _ => 1 + units x
  | .tup xs => 1 + unitsAll xs
  | _ => 1
/-- The sum over a list. -/
def unitsAll : List Src → Nat
  | [] => 0
  | x :: xs => units x + unitsAll xs
end

end GV.Spec
