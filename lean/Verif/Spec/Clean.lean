import Verif.Spec.Normal
/-
Normal form told from the bytes alone, without making a value of them or bytes of a value: the conditions of
docs/gvariant-serialisation.pdf, 2.7.3, turned round.  The list there is said to be definitive, but some of
the conditions below are not in it: that framing offsets are no wider than necessary (2.3.6), that nothing
lies between the last member of a structure and its framing offsets (2.5.4), that a variant contains a zero
byte (2.5.1) and that strings are UTF-8 (1.2, "expected and encouraged").
-/
namespace GV.Spec

/-- All bytes are zero. -/
def blank (b : Bytes) : Bool := b.all (· == 0)

/-- The `n` framing offsets of a container of `len` bytes, of which `body` precede them, are no wider than
    necessary: no smaller width would do for the container that would result (2.3.6). -/
def leastWidth (len body n : Nat) : Bool :=
  [1, 2, 4].all fun w => decide (offsetWidth len ≤ w) || decide (256 ^ w ≤ body + n * w)

/-- The pieces of `b` ending at `stops`, each starting at the next multiple of `al` after the previous one;
    `none` if some piece has a negative length or ends after `limit` ("Start or End Boundary of a Child Falls
    Outside the Container", "End Boundary Precedes Start Boundary", "Child Values Overlapping Framing
    Offsets"), or if there is something between two pieces ("Non-zero Padding Bytes"). -/
def cleanElems (b : Bytes) (limit al : Nat) : Nat → List Nat → Option (List Bytes)
  | _, [] => some []
  | prev, stop :: stops =>
    let start := roundUp prev al
    if start ≤ stop ∧ stop ≤ limit ∧ blank (sub b prev start) then
      (cleanElems b limit al stop stops).map (sub b start stop :: ·)
    else none

/-- The elements of an array, unless it is malformed. -/
def cleanArr (e : Ty) (b : Bytes) : Option (List Bytes) :=
  match size e with
  -- "Wrong Size for Fixed Width Array"
  | some n => if b.length % n = 0 then some (chunks n b) else none
  -- "Non-Sense Length for Non-Fixed Width Array" (then there are no stops)
  | none =>
    let (body, stops) := arrFrame b
    if b = [] then some []
    else if stops ≠ [] ∧ leastWidth b.length body stops.length then
      cleanElems b body (align e) 0 stops
    else none

/-- Where a member of type `t` ends that starts at `start`; `last`: it is the last member, `k` of the members
    before are not of fixed size, the body ends at `stop`.  (Beyond the body if there is no framing offset.) -/
def memberStop (b : Bytes) (stop : Nat) (last : Bool) (k start : Nat) (t : Ty) : Nat :=
  match size t with
  | some n => start + n
  | none => if last then stop else (frame b k).getD (stop + 1)

/-- The members of a structure with a body of `stop` bytes, from position `pos` on; `k` of the members
    before are not of fixed size.  `none` on the same conditions as above, or if bytes are left at the end
    that are not (with `slack`) padding. -/
def cleanMembers (b : Bytes) (stop : Nat) (slack : Bool) : Nat → Nat → List Ty → Option (List Bytes)
  | pos, _, [] => if pos = stop ∨ slack ∧ blank (sub b pos stop) then some [] else none
  | pos, k, t :: ts =>
    let start := roundUp pos (align t)
    let e := memberStop b stop ts.isEmpty k start t
    if start ≤ e ∧ e ≤ stop ∧ blank (sub b pos start) then
      (cleanMembers b stop slack e (if (size t).isSome then k else k + 1) ts).map (sub b start e :: ·)
    else none

/-- The members of a structure, unless it is malformed. -/
def cleanStruct (ts : List Ty) (b : Bytes) : Option (List Bytes) :=
  match size (.tuple ts) with
  -- "Wrong Size for Fixed Sized Value"
  | some n => if b.length = n then cleanMembers b n true 0 0 ts else none
  -- "Insufficient Space for Structure Framing Offsets"
  | none => (bodyEnd ts b).bind fun e =>
    if frameCount ts = 0 ∨ b ≠ [] ∧ leastWidth b.length e (frameCount ts) then
      cleanMembers b e false 0 0 ts
    else none

mutual
/-- The bytes have none of the abnormalities of 2.7.3 (nor those it leaves out), as a value of the type.
    Object paths and signatures count as strings, variants are not looked into. -/
def clean : Ty → Bytes → Bool
  -- "Boolean Out of Range", "Wrong Size for Fixed Sized Value"
  | .B, b => b == [0] || b == [1]
  | .Y, b => b.length == 1
  | .N, b | .Q, b => b.length == 2
  | .I, b | .U, b => b.length == 4
  | .X, b | .T, b | .D, b => b.length == 8
  -- "Possibly Unterminated String", "String with Embedded Nul"
  | .S, b | .O, b | .G, b => b.getLast? == some 0 && !b.dropLast.contains 0 && utf8Valid b.dropLast
  | .V, b => b.contains 0
  | .A e, b =>
    match cleanArr e b with
    | some bs => bs.all (clean e)
    | none => false
  | .M e, b => b.isEmpty ||
    match size e with
    -- "Wrong Size for Fixed Sized Maybe"
    | some n => b.length == n && clean e b
    -- "Non-zero Padding Bytes"
    | none => b.getLast? == some 0 && clean e b.dropLast
  | .tuple ts, b =>
    match cleanStruct ts b with
    | some bs => cleanAll ts bs
    | none => false
  | .dict k v, b =>
    match cleanStruct [k, v] b with
    | some [x, y] => clean k x && clean v y
    | _ => false
/-- The same for byte sequences and types one by one. -/
def cleanAll : List Ty → List Bytes → Bool
  | t :: ts, b :: bs => clean t b && cleanAll ts bs
  | [], [] => true
  | _, _ => false
end

end GV.Spec
