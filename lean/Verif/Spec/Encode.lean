import Verif.Spec.Decode
import Verif.Spec.Str
/-
Independent encoder, written from docs/gvariant-serialisation.pdf (sections 2.3 to 2.5): the bytes of
each value.
-/
namespace GV.Spec

/-- Byte order, and one point where the crate differs. -/
structure Enc where
  bigEndian : Bool
  /-- pad the last element of a variable-width array like the others; the specification pads only
      before an element (2.5.3.2, 2.3.4) -/
  padLast : Bool

/-- The normal form of the specification. -/
def Enc.pdf (be : Bool) : Enc := ⟨be, false⟩
/-- What the crate writes. -/
def Enc.crate (be : Bool) : Enc := ⟨be, true⟩

/-- `w` bytes of a number, least significant first. -/
def leBytes : Nat → Nat → Bytes
  | 0, _ => []
  | w + 1, n => UInt8.ofNat (n % 256) :: leBytes w (n / 256)

/-- `w` bytes of a number in the given byte order. -/
def numBytes (be : Bool) (w n : Nat) : Bytes := if be then (leBytes w n).reverse else leBytes w n

/-- `n` zero bytes. -/
def zeros (n : Nat) : Bytes := List.replicate n 0

/-- Byte sequences one after the other from position `pos` on, each at the next multiple of the
    alignment of its type, with zero bytes in between. -/
def laid : Nat → List (Ty × Bytes) → Bytes
  | _, [] => []
  | pos, (t, b) :: ms =>
    let start := roundUp pos (align t)
    zeros (start - pos) ++ b ++ laid (start + b.length) ms

/-- Where each of them ends. -/
def layEnds : Nat → List (Ty × Bytes) → List Nat
  | _, [] => []
  | pos, (t, b) :: ms =>
    let stop := roundUp pos (align t) + b.length
    stop :: layEnds stop ms

/-- Where each member but the last that is not of fixed size ends. -/
def frameEnds : Nat → List (Ty × Bytes) → List Nat
  | _, [] => []
  | pos, (t, b) :: ms =>
    let stop := roundUp pos (align t) + b.length
    (if (size t).isNone ∧ ms ≠ [] then [stop] else []) ++ frameEnds stop ms

/-- Width of `n` framing offsets after a body of `body` bytes: the least that suits the resulting
    container size.  (Not 0: by the letter of 2.3.6 the offsets of a structure with an empty body could have
    no bytes, so that `([], [])` of type `(ayay)` would be the empty byte sequence.  2.5.3.2 rules this out for
    arrays; GLib and the crate write offsets of one byte in structures too.) -/
def frameWidth (body n : Nat) : Nat :=
  ([1, 2, 4].find? fun w => offsetWidth (body + n * w) ≤ w).getD 8

/-- The bytes of the framing offsets after a body of `body` bytes. -/
def frames (body : Nat) (offs : List Nat) : Bytes :=
  (offs.map (leBytes (frameWidth body offs.length))).flatten

/-- Variable-width array with the given elements (2.5.3.2). -/
def encArr (E : Enc) (e : Ty) (bs : List Bytes) : Bytes :=
  let ms := bs.map fun b => (e, b)
  let b := laid 0 ms
  let body := b ++ zeros (if E.padLast then roundUp b.length (align e) - b.length else 0)
  body ++ frames body.length (layEnds 0 ms)

/-- Structure with the given members (2.5.4). -/
def encStruct (sz : Option Nat) (ms : List (Ty × Bytes)) : Bytes :=
  let body := laid 0 ms
  match sz with
  | some n => body ++ zeros (n - body.length)
  | none => body ++ frames body.length (frameEnds 0 ms).reverse

mutual
/-- The bytes of a value.  (Nothing for a value that is not of the type, see `Fits`.) -/
def enc (E : Enc) : Ty → Val → Bytes
  | .B, .bool b => [if b then 1 else 0]
  | .Y, .num n => numBytes E.bigEndian 1 n
  | .N, .num n | .Q, .num n => numBytes E.bigEndian 2 n
  | .I, .num n | .U, .num n => numBytes E.bigEndian 4 n
  | .X, .num n | .T, .num n | .D, .num n => numBytes E.bigEndian 8 n
  | .S, .str b | .O, .str b | .G, .str b => b ++ [0]
  | .V, .variant ty data => data ++ [0] ++ ty
  | .A e, .arr vs =>
    if (size e).isSome then (vs.map (enc E e)).flatten else encArr E e (vs.map (enc E e))
  | .M e, v =>
    match v with
    | .just x => enc E e x ++ (if (size e).isSome then [] else [0])
    | _ => []
  | .tuple ts, .tup vs => encStruct (size (.tuple ts)) (encAll E ts vs)
  | .dict k v, .tup vs =>
    match vs with
    | [x, y] => encStruct (size (.dict k v)) [(k, enc E k x), (v, enc E v y)]
    | _ => []
  | _, _ => []
/-- The bytes of the members of a structure, with their types. -/
def encAll (E : Enc) : List Ty → List Val → List (Ty × Bytes)
  | t :: ts, v :: vs => (t, enc E t v) :: encAll E ts vs
  | _, _ => []
end

mutual
/-- The value is one of the type. -/
def Fits : Ty → Val → Prop
  | .B, .bool _ => True
  | .Y, .num n => n < 256
  | .N, .num n | .Q, .num n => n < 256 ^ 2
  | .I, .num n | .U, .num n => n < 256 ^ 4
  | .X, .num n | .T, .num n | .D, .num n => n < 256 ^ 8
  | .S, .str b | .O, .str b | .G, .str b => Text b
  | .V, .variant ty _ => (0 : UInt8) ∉ ty
  | .A e, .arr vs => ∀ v ∈ vs, Fits e v
  | .M e, v =>
    match v with
    | .nothing => True
    | .just x => Fits e x
    | _ => False
  | .tuple ts, .tup vs => FitsAll ts vs
  | .dict k v, .tup vs =>
    match vs with
    | [x, y] => Fits k x ∧ Fits v y
    | _ => False
  | _, _ => False
/-- The values are of the types, one by one. -/
def FitsAll : List Ty → List Val → Prop
  | t :: ts, v :: vs => Fits t v ∧ FitsAll ts vs
  | [], [] => True
  | _, _ => False
end

mutual
/-- In every variable-width array within the value (but not inside variants), the last element ends at
    a multiple of the element alignment, so that padding it changes nothing. -/
def EvenEnds (E : Enc) : Ty → Val → Prop
  | .A e, .arr vs => (∀ v ∈ vs, EvenEnds E e v) ∧
      ((size e).isNone → align e ∣ (laid 0 (vs.map fun v => (e, enc E e v))).length)
  | .M e, v =>
    match v with
    | .just x => EvenEnds E e x
    | _ => True
  | .tuple ts, .tup vs => EvenEndsAll E ts vs
  | .dict k v, .tup vs =>
    match vs with
    | [x, y] => EvenEnds E k x ∧ EvenEnds E v y
    | _ => True
  | _, _ => True
/-- The same for the members of a structure. -/
def EvenEndsAll (E : Enc) : List Ty → List Val → Prop
  | t :: ts, v :: vs => EvenEnds E t v ∧ EvenEndsAll E ts vs
  | _, _ => True
end

end GV.Spec
