import Verif.Model.Str
import Verif.Spec.Layout
import Verif.Spec.Memory
import Verif.Spec.Value
/-
Independent total decoder, written from docs/gvariant-serialisation.pdf (sections 2.3 to 2.5 and 2.7).
A container is first cut into the byte sequences of its children; a child that the rules of 2.7.3 deny
a byte sequence is `none` and gets its default value.
-/
namespace GV.Spec

/-- Byte order of the data, and two points where implementations differ. -/
structure Rules where
  bigEndian : Bool
  /-- strings that are not UTF-8 or contain a NUL are empty, as `Str::to_str` documents; else a string
      ends at its first NUL (2.7.3, "String with Embedded Nul") -/
  textOnly : Bool
  /-- a child overlapping the framing offsets, and any child of a structure too short for its framing
      offsets, gets its default value; else these abnormalities are ignored (2.7.3, "Child Values
      Overlapping Framing Offsets", "Insufficient Space for Structure Framing Offsets") -/
  disjoint : Bool

/-- The letter of the specification. -/
def Rules.pdf (be : Bool) : Rules := ⟨be, false, false⟩
/-- What the crate does. -/
def Rules.crate (be : Bool) : Rules := ⟨be, true, true⟩

/-- Little-endian number. -/
def le (b : Bytes) : Nat := b.foldr (fun x n => x.toNat + 256 * n) 0

/-- Number in the given byte order. -/
def number (be : Bool) (b : Bytes) : Nat := le (if be then b.reverse else b)

/-- Size of framing offsets in a container of `len` bytes: the least of 0, 1, 2, 4, 8 bytes that can
    hold any of `0, …, len` (2.3.6). -/
def offsetWidth (len : Nat) : Nat :=
  if len < 256 ^ 0 then 0 else if len < 256 ^ 1 then 1 else if len < 256 ^ 2 then 2
  else if len < 256 ^ 4 then 4 else 8

/-- Value of a string (2.4.5, 2.7.3).  `utf8Valid` is characterised by `utf8Valid_iff`. -/
def text (R : Rules) (b : Bytes) : Bytes :=
  match b.reverse with
  | 0 :: r =>
    if R.textOnly then (if utf8Valid r.reverse ∧ (0 : UInt8) ∉ r.reverse then r.reverse else [])
    else r.reverse.takeWhile (· ≠ 0)
  | _ => []

/-- Type string and data of a variant (2.5.1): what follows and what precedes the last zero byte. -/
def variantParts (b : Bytes) : Bytes × Bytes :=
  match b.reverse.dropWhile (· ≠ 0) with
  | [] => ([40, 41], [])
  | _ :: d => ((b.reverse.takeWhile (· ≠ 0)).reverse, d.reverse)

mutual
/-- Default values (2.7.2); object paths are treated like strings. -/
def dflt : Ty → Val
  | .B => .bool false
  | .Y | .N | .Q | .I | .U | .X | .T | .D => .num 0
  | .S | .O | .G => .str []
  | .V => .variant [40, 41] []
  | .A _ => .arr []
  | .M _ => .nothing
  | .tuple ts => .tup (dflts ts)
  | .dict k v => .tup [dflt k, dflt v]
/-- Default values of a list of types. -/
def dflts : List Ty → List Val
  | [] => []
  | t :: ts => dflt t :: dflts ts
end

/-- The byte sequence of a child between two boundaries, if it lies in the first `limit` bytes. -/
def place (b : Bytes) (limit start stop : Nat) : Option Bytes :=
  if start ≤ stop ∧ stop ≤ limit then some (sub b start stop) else none

/-- A byte sequence cut into pieces of `n` bytes. -/
def chunks (n : Nat) (b : Bytes) : List Bytes :=
  (List.range (b.length / n)).map fun i => sub b (i * n) (i * n + n)

/-- Where the framing offsets of a variable-width array begin, and their values; none if the last one
    makes no sense (2.5.3.2, 2.7.3). -/
def arrFrame (b : Bytes) : Nat × List Nat :=
  let w := offsetWidth b.length
  let last := le (b.drop (b.length - w))
  if b = [] ∨ last > b.length ∨ (b.length - last) % w ≠ 0 then (b.length, [])
  else (last, (List.range ((b.length - last) / w)).map fun k =>
    le (sub b (last + k * w) (last + k * w + w)))

/-- Elements of a variable-width array: each starts at the previous end, rounded up. -/
def elemsFrom (b : Bytes) (limit al : Nat) : Nat → List Nat → List (Option Bytes)
  | _, [] => []
  | prev, stop :: stops => place b limit (roundUp prev al) stop :: elemsFrom b limit al stop stops

/-- Byte sequences of the elements of an array of `e`. -/
def arrChildren (R : Rules) (e : Ty) (b : Bytes) : List (Option Bytes) :=
  match size e with
  | some n => if b.length % n = 0 then (chunks n b).map some else []
  | none =>
    let (body, stops) := arrFrame b
    elemsFrom b (if R.disjoint then body else b.length) (align e) 0 stops

/-- Byte sequence of the content of a maybe of `e`, `none` for Nothing (2.5.2, 2.7.3). -/
def maybeChild (e : Ty) (b : Bytes) : Option Bytes :=
  match size e with
  | some n => if b.length = n then some b else none
  | none => if b = [] then none else some b.dropLast

/-- The `k`-th framing offset of a structure counted from the end, if there is room for it. -/
def frame (b : Bytes) (k : Nat) : Option Nat :=
  let w := offsetWidth b.length
  if (k + 1) * w ≤ b.length then
    some (le (sub b (b.length - (k + 1) * w) (b.length - k * w)))
  else none

/-- Number of framing offsets of a structure: one for each non-fixed-size member but the last. -/
def frameCount (ts : List Ty) : Nat := (ts.dropLast.filter fun t => (size t).isNone).length

/-- End of the body of a structure: where its framing offsets begin, if there is room for them. -/
def bodyEnd (ts : List Ty) (b : Bytes) : Option Nat :=
  let w := offsetWidth b.length
  if w * frameCount ts ≤ b.length then some (b.length - w * frameCount ts) else none

/-- Byte sequences of the members of a structure (2.5.4).  `pos` is where the previous member ended
    (`none` if unknown), `k` the number of non-fixed-size members before. -/
def membersFrom (b : Bytes) (limit : Nat) (bodyEnd : Option Nat) :
    Option Nat → Nat → List Ty → List (Option Bytes)
  | _, _, [] => []
  | pos, k, t :: ts =>
    let start := pos.map fun p => roundUp p (align t)
    match size t with
    | some n =>
      (start.bind fun s => place b limit s (s + n)) ::
        membersFrom b limit bodyEnd (start.map (· + n)) k ts
    | none =>
      let stop := if ts = [] then bodyEnd else frame b k
      (start.bind fun s => stop.bind fun e => place b limit s e) ::
        membersFrom b limit bodyEnd stop (k + 1) ts

/-- Byte sequences of the members of a structure with members `ts`. -/
def memberChildren (R : Rules) (ts : List Ty) (b : Bytes) : List (Option Bytes) :=
  match size (.tuple ts) with
  | some n =>
    if b.length = n then membersFrom b b.length (some b.length) (some 0) 0 ts
    else ts.map fun _ => none
  | none =>
    if R.disjoint then
      match bodyEnd ts b with
      | some e => membersFrom b e (some e) (some 0) 0 ts
      | none => ts.map fun _ => none
    else membersFrom b b.length (bodyEnd ts b) (some 0) 0 ts

mutual
/-- The value of a byte sequence. -/
def dec (R : Rules) : Ty → Bytes → Val
  | .B, b =>
    match b with
    | [x] => .bool (x ≠ 0)
    | _ => .bool false
  | .Y, b => .num (if b.length = 1 then number R.bigEndian b else 0)
  | .N, b | .Q, b => .num (if b.length = 2 then number R.bigEndian b else 0)
  | .I, b | .U, b => .num (if b.length = 4 then number R.bigEndian b else 0)
  | .X, b | .T, b | .D, b => .num (if b.length = 8 then number R.bigEndian b else 0)
  | .S, b | .O, b | .G, b => .str (text R b)
  | .V, b => .variant (variantParts b).1 (variantParts b).2
  | .A e, b => .arr ((arrChildren R e b).map fun o => match o with
    | some x => dec R e x
    | none => dflt e)
  | .M e, b =>
    match maybeChild e b with
    | some x => .just (dec R e x)
    | none => .nothing
  | .tuple ts, b => .tup (decAll R ts (memberChildren R ts b))
  | .dict k v, b =>
    match memberChildren R [k, v] b with
    | [x, y] => .tup [match x with | some x => dec R k x | none => dflt k,
                      match y with | some y => dec R v y | none => dflt v]
    | _ => .tup []
/-- The values of the members of a structure. -/
def decAll (R : Rules) : List Ty → List (Option Bytes) → List Val
  | t :: ts, o :: os =>
    (match o with | some x => dec R t x | none => dflt t) :: decAll R ts os
  | _, _ => []
end

/-- The byte sequence has an impossible size for an array of fixed-size elements. -/
def badSize : Ty → Bytes → Bool
  | .A e, b => match size e with
    | some n => b.length % n != 0
    | none => false
  | _, _ => false

mutual
/-- Somewhere inside the data an array of fixed-size elements whose length is not a multiple of the
    element size is an element of an array or the content of a maybe. -/
def ragged (R : Rules) : Ty → Bytes → Bool
  | .A e, b => (arrChildren R e b).any fun o => match o with
    | some x => badSize e x || ragged R e x
    | none => false
  | .M e, b => match maybeChild e b with
    | some x => badSize e x || ragged R e x
    | none => false
  | .tuple ts, b => raggedAny R ts (memberChildren R ts b)
  | .dict k v, b =>
    match memberChildren R [k, v] b with
    | [x, y] => (match x with | some x => ragged R k x | none => false) ||
                (match y with | some y => ragged R v y | none => false)
    | _ => false
  | _, _ => false
/-- The same for the members of a structure. -/
def raggedAny (R : Rules) : List Ty → List (Option Bytes) → Bool
  | t :: ts, o :: os => (match o with | some x => ragged R t x | none => false) || raggedAny R ts os
  | _, _ => false
end

end GV.Spec
