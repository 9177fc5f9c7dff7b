import Verif.Spec.Decode
/-
What becomes of the rules for children (Spec/Decode.lean, with the crate's choices) if every position is a
64-bit number and sums wrap round.  Framing offsets of 2^63 and more occur only in containers of 4 GiB and
more that are not in normal form; for all other data this decoder is the one of the specification.
-/
namespace GV.Spec

/-- Elements of a variable-width array; the start of each wraps round. -/
def elemsWrap (b : Bytes) (limit al : Nat) : Nat → List Nat → List (Option Bytes)
  | _, [] => []
  | prev, stop :: stops => place b limit (roundUp prev al % 2 ^ 64) stop :: elemsWrap b limit al stop stops

/-- Byte sequences of the elements of an array of `e`. -/
def arrChildrenWrap (e : Ty) (b : Bytes) : List (Option Bytes) :=
  match size e with
  | some n => if b.length % n = 0 then (chunks n b).map some else []
  | none => elemsWrap b (arrFrame b).1 (align e) 0 (arrFrame b).2

/-- Byte sequences of the members of a structure; start and end of each wrap round.  `pos` is where the
    previous member ended, `k` the number of non-fixed-size members before. -/
def membersWrap (b : Bytes) (limit : Nat) : Option Nat → Nat → List Ty → List (Option Bytes)
  | _, _, [] => []
  | pos, k, t :: ts =>
    let start := pos.map fun p => roundUp p (align t)
    match size t with
    | some n =>
      (start.bind fun s => place b limit (s % 2 ^ 64) ((s + n) % 2 ^ 64)) ::
        membersWrap b limit (start.map (· + n)) k ts
    | none =>
      let stop := if ts = [] then some limit else frame b k
      (start.bind fun s => stop.bind fun e => place b limit (s % 2 ^ 64) e) ::
        membersWrap b limit stop (k + 1) ts

/-- Byte sequences of the members of a structure with members `ts`. -/
def memberChildrenWrap (ts : List Ty) (b : Bytes) : List (Option Bytes) :=
  match size (.tuple ts) with
  | some n =>
    if b.length = n then membersFrom b b.length (some b.length) (some 0) 0 ts
    else ts.map fun _ => none
  | none =>
    match bodyEnd ts b with
    | some e => membersWrap b e (some 0) 0 ts
    | none => ts.map fun _ => none

mutual
/-- The value of a byte sequence. -/
def decWrap (be : Bool) : Ty → Bytes → Val
  | .A e, b => .arr ((arrChildrenWrap e b).map fun o => match o with
    | some x => decWrap be e x
    | none => dflt e)
  | .M e, b =>
    match maybeChild e b with
    | some x => .just (decWrap be e x)
    | none => .nothing
  | .tuple ts, b => .tup (decWrapAll be ts (memberChildrenWrap ts b))
  | .dict k v, b =>
    match memberChildrenWrap [k, v] b with
    | [x, y] => .tup [match x with | some x => decWrap be k x | none => dflt k,
                      match y with | some y => decWrap be v y | none => dflt v]
    | _ => .tup []
  | t, b => dec (.crate be) t b
/-- The values of the members of a structure. -/
def decWrapAll (be : Bool) : List Ty → List (Option Bytes) → List Val
  | t :: ts, o :: os =>
    (match o with | some x => decWrap be t x | none => dflt t) :: decWrapAll be ts os
  | _, _ => []
end

mutual
/-- Somewhere inside the data an array of fixed-size elements whose length is not a multiple of the
    element size is an element of an array or the content of a maybe. -/
def raggedWrap : Ty → Bytes → Bool
  | .A e, b => (arrChildrenWrap e b).any fun o => match o with
    | some x => badSize e x || raggedWrap e x
    | none => false
  | .M e, b => match maybeChild e b with
    | some x => badSize e x || raggedWrap e x
    | none => false
  | .tuple ts, b => raggedWrapAny ts (memberChildrenWrap ts b)
  | .dict k v, b =>
    match memberChildrenWrap [k, v] b with
    | [x, y] => (match x with | some x => raggedWrap k x | none => false) ||
                (match y with | some y => raggedWrap v y | none => false)
    | _ => false
  | _, _ => false
/-- The same for the members of a structure. -/
def raggedWrapAny : List Ty → List (Option Bytes) → Bool
  | t :: ts, o :: os => (match o with | some x => raggedWrap t x | none => false) || raggedWrapAny ts os
  | _, _ => false
end

/-- Some element of a variable-width array starts at a position that is not below `2 ^ 64 - d`. -/
def elemsOver (d al : Nat) : Nat → List Nat → Bool
  | _, [] => false
  | prev, stop :: stops => decide (2 ^ 64 ≤ roundUp prev al + d) || elemsOver d al stop stops

/-- The same for an array of `e`. -/
def arrOver (d : Nat) (e : Ty) (b : Bytes) : Bool :=
  match size e with
  | some _ => false
  | none => elemsOver d (align e) 0 (arrFrame b).2

/-- Some member of a structure starts, or a fixed-size one ends, at a position that is not below `2 ^ 64 - d`.
    `pos` is where the previous member ended, `k` the number of non-fixed-size members before. -/
def membersOver (d : Nat) (b : Bytes) : Nat → Nat → List Ty → Bool
  | _, _, [] => false
  | pos, k, t :: ts =>
    let start := roundUp pos (align t)
    match size t with
    | some n => decide (2 ^ 64 ≤ start + n + d) || membersOver d b (start + n) k ts
    | none => decide (2 ^ 64 ≤ start + d) || match frame b k with
      | some stop => membersOver d b stop (k + 1) ts
      | none => false

/-- The same for a structure with members `ts`; without room for the framing offsets there are no positions. -/
def memberOver (d : Nat) (ts : List Ty) (b : Bytes) : Bool :=
  match size (.tuple ts), bodyEnd ts b with
  | none, some _ => membersOver d b 0 0 ts
  | _, _ => false

mutual
/-- A position given by the rules, anywhere inside the data, is not below `2 ^ 64 - d`. -/
def over (R : Rules) (d : Nat) : Ty → Bytes → Bool
  | .A e, b => arrOver d e b || (arrChildren R e b).any fun o => match o with
    | some x => over R d e x
    | none => false
  | .M e, b => match maybeChild e b with
    | some x => over R d e x
    | none => false
  | .tuple ts, b => memberOver d ts b || overAny R d ts (memberChildren R ts b)
  | .dict k v, b => memberOver d [k, v] b ||
    match memberChildren R [k, v] b with
    | [x, y] => (match x with | some x => over R d k x | none => false) ||
                (match y with | some y => over R d v y | none => false)
    | _ => false
  | _, _ => false
/-- The same for the members of a structure. -/
def overAny (R : Rules) (d : Nat) : List Ty → List (Option Bytes) → Bool
  | t :: ts, o :: os => (match o with | some x => over R d t x | none => false) || overAny R d ts os
  | _, _ => false
end

end GV.Spec
