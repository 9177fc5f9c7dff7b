import Verif.Spec.Decode
/-
The decoder that the documentation of the crate describes (gvariant/src/lib.rs:104-158): the rules of the
specification, except that strings are read as `Str::to_str` says (lib.rs:746-752) and that a child
overlapping the framing offsets of its container has its default value.  It has no rule of its own for
structures too short for their framing offsets: there all bytes are framing offsets.
-/
namespace GV.Spec

/-- Byte sequences of the members of a structure, of which none may reach into the framing offsets. -/
def memberChildrenDoc (ts : List Ty) (b : Bytes) : List (Option Bytes) :=
  match size (.tuple ts) with
  | some n =>
    if b.length = n then membersFrom b b.length (some b.length) (some 0) 0 ts
    else ts.map fun _ => none
  | none => membersFrom b (b.length - offsetWidth b.length * frameCount ts) (bodyEnd ts b) (some 0) 0 ts

/-- Byte sequences of the elements of an array, of which none may reach into the framing offsets. -/
def arrChildrenDoc (e : Ty) (b : Bytes) : List (Option Bytes) :=
  match size e with
  | some n => if b.length % n = 0 then (chunks n b).map some else []
  | none => elemsFrom b (arrFrame b).1 (align e) 0 (arrFrame b).2

/-- The string before the final NUL, if it is UTF-8 and has no other NUL. -/
def textDoc (b : Bytes) : Bytes :=
  if b.getLast? = some 0 ∧ utf8Valid b.dropLast ∧ (0 : UInt8) ∉ b.dropLast then b.dropLast else []

mutual
/-- The value of a byte sequence. -/
def decDoc (be : Bool) : Ty → Bytes → Val
  | .B, b => .bool (match b with
    | [x] => x ≠ 0
    | _ => false)
  | .Y, b => .num (if b.length = 1 then number be b else 0)
  | .N, b | .Q, b => .num (if b.length = 2 then number be b else 0)
  | .I, b | .U, b => .num (if b.length = 4 then number be b else 0)
  | .X, b | .T, b | .D, b => .num (if b.length = 8 then number be b else 0)
  | .S, b | .O, b | .G, b => .str (textDoc b)
  | .V, b => .variant (variantParts b).1 (variantParts b).2
  | .A e, b => .arr ((arrChildrenDoc e b).map fun o => match o with
    | some x => decDoc be e x
    | none => dflt e)
  | .M e, b =>
    match maybeChild e b with
    | some x => .just (decDoc be e x)
    | none => .nothing
  | .tuple ts, b => .tup (decDocAll be ts (memberChildrenDoc ts b))
  | .dict k v, b =>
    match memberChildrenDoc [k, v] b with
    | [x, y] => .tup [match x with | some x => decDoc be k x | none => dflt k,
                      match y with | some y => decDoc be v y | none => dflt v]
    | _ => .tup []
/-- The values of the members of a structure. -/
def decDocAll (be : Bool) : List Ty → List (Option Bytes) → List Val
  | t :: ts, o :: os =>
    (match o with | some x => decDoc be t x | none => dflt t) :: decDocAll be ts os
  | _, _ => []
end

/-- There is room for the framing offsets of the structure, and no member reaches into them. -/
def Roomy (ts : List Ty) (b : Bytes) : Prop :=
  ∃ e, bodyEnd ts b = some e ∧
    membersFrom b e (some e) (some 0) 0 ts = membersFrom b b.length (some e) (some 0) 0 ts

mutual
/-- Nowhere in the data is there one of the abnormalities for which the crate documents that it departs
    from the specification: a string that is not UTF-8 or has a NUL inside, or a child overlapping
    framing offsets; and no structure is too short for its framing offsets. -/
def Plain : Ty → Bytes → Prop
  | .S, b | .O, b | .G, b => ∀ r, b = r ++ [0] → utf8Valid r ∧ (0 : UInt8) ∉ r
  | .A e, b => (size e = none → ∀ stop ∈ (arrFrame b).2, stop ≤ (arrFrame b).1) ∧
      ∀ x, some x ∈ arrChildren (.pdf false) e b → Plain e x
  | .M e, b => ∀ x, maybeChild e b = some x → Plain e x
  | .tuple ts, b => (size (.tuple ts) = none → Roomy ts b) ∧
      PlainAll ts (memberChildren (.pdf false) ts b)
  | .dict k v, b => (size (.dict k v) = none → Roomy [k, v] b) ∧
      match memberChildren (.pdf false) [k, v] b with
      | [x, y] => (∀ z, x = some z → Plain k z) ∧ (∀ z, y = some z → Plain v z)
      | _ => True
  | _, _ => True
/-- The same for the members of a structure. -/
def PlainAll : List Ty → List (Option Bytes) → Prop
  | t :: ts, o :: os => (∀ x, o = some x → Plain t x) ∧ PlainAll ts os
  | _, _ => True
end

end GV.Spec
