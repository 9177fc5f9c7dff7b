import Verif.Spec.RustText
/-
What the functions in the emitted text do, read off the text: calls, statements, fields.
-/
namespace GV.Spec

/-- Take known trees off the front. -/
def Forest.strip : Forest → Forest → Option Forest
  | .nil, f => some f
  | .leaf t r, .leaf t' r' => if t = t' then r.strip r' else none
  | .grp d i r, .grp d' i' r' => if d = d' ∧ i = i' then r.strip r' else none
  | _, _ => none

/-- Take a known token off the end. -/
def dropEnd (t : Tok) : Forest → Option Forest
  | .nil => none
  | .leaf t' .nil => if t = t' then some .nil else none
  | .leaf t' r => (dropEnd t r).map (.leaf t')
  | .grp d i r => (dropEnd t r).map (.grp d i)

/-- Function calls, each followed by a comma: what is called, and what is between the parentheses. -/
def calls : Forest → Option (List (Forest × Forest))
  | .nil => some []
  | .leaf t r => match calls r with
    | some ((p, a) :: cs) => some ((.leaf t p, a) :: cs)
    | _ => none
  | .grp d i r =>
    if d = 40 then
      match r with
      | .leaf t r' => if t = .op 44 then (calls r').map ((.nil, i) :: ·) else none
      | _ => none
    else match calls r with
      | some ((p, a) :: cs) => some ((.grp d i p, a) :: cs)
      | _ => none

/-- The parts of a tuple, given what is between its parentheses: a single part must be followed by a comma, else
    the parentheses only group. -/
def tupleParts (f : Forest) : Option (List Forest) :=
  match atCommas f with
  | [p] => if (dropEnd (.op 44) f).isSome then some [p] else none
  | ps => some ps

/-- A call of `get_child_elem` (gvariant/src/lib.rs:2105-2113 gives the order of its parameters): the type and
    alignment arguments, and the arguments after the data. -/
structure Call where
  elem : Forest
  b : Nat
  i : Int
  a : Nat
  c : Nat
  childSize : Option Nat
  lastChild : Bool
  nFrameOffsets : Nat
deriving DecidableEq, Repr

/-- `aligned_bytes::A…` -/
def alignName (f : Forest) : Option Nat :=
  match (code fmt!"aligned_bytes::").strip f with
  | some (.leaf (.word w) .nil) => numbered fmt!"A" w
  | _ => none

/-- The addressing row a call passes. -/
def Call.row (k : Call) : Row := ⟨k.i, k.a, k.b, k.c⟩

/-- Read `get_child_elem::<T, aligned_bytes::A…>(self.data.as_aligned(), …)`. -/
def readCall (p : Forest × Forest) : Option Call :=
  match (((code fmt!"get_child_elem::<").strip p.1).bind (dropEnd (.op 62))).map atCommas, atCommas p.2 with
  | some [elem, al], [me, i, a, c, size, last, nfo] =>
    if me = code fmt!"self.data.as_aligned()" then do
      let b ← alignName al
      let i ← integer i
      let a ← numeral a
      let c ← numeral c
      let size ← optNumber size
      let last ← truth last
      let nfo ← numeral nfo
      pure ⟨elem, b, i, a, c, size, last, nfo⟩
    else none
  | _, _ => none

/-- All of a list, or nothing. -/
def allSome {α β} (f : α → Option β) : List α → Option (List β)
  | [] => some []
  | a :: as => match f a, allSome f as with
    | some b, some bs => some (b :: bs)
    | _, _ => none

/-- The calls in a tuple. -/
def readCalls : Forest → Option (List Call)
  | .grp d i .nil => if d = 40 then (calls i).bind (allSome readCall) else none
  | _ => none

/-- `f.write_all(b"\0…")?` -/
def readZeros (f : Forest) : Option Cmd :=
  match (code fmt!"f.write_all").strip f with
  | some (.grp d (.leaf (.word w) (.leaf (.lit z) .nil)) r) =>
    if d = 40 ∧ w = fmt!"b" ∧ r = code fmt!"?" ∧ z.all (· == 0) then some (.zeros z.length) else none
  | _ => none

/-- `off += write_padding::<A…, _>(off, f)?` -/
def readWritePadding (f : Forest) : Option Cmd :=
  match (code fmt!"off += write_padding::<").strip f with
  | some (.leaf (.word w) r) =>
    if r = code fmt!", _>(off, f)?" then (numbered fmt!"A" w).map .writePadding else none
  | _ => none

/-- `self.….serialize(f)?` -/
def readChild (f : Forest) : Option Nat :=
  match (code fmt!"self.").strip f with
  | some (.leaf t r) => if r = code fmt!".serialize(f)?" then numeral (.leaf t .nil) else none
  | _ => none

/-- `framing_offsets[…] = off` -/
def readSetFrame (f : Forest) : Option Cmd :=
  match (code fmt!"framing_offsets").strip f with
  | some (.grp d i r) => if d = 91 ∧ r = code fmt!"= off" then (numeral i).map .setFrame else none
  | _ => none

/-- A statement of `serialize`. -/
def readCmd (f : Forest) : Option Cmd :=
  match readZeros f, readWritePadding f, readChild f, readSetFrame f, (code fmt!"off +=").strip f with
  | some x, _, _, _, _ => some x
  | _, some x, _, _, _ => some x
  | _, _, some k, _, _ => some (.child k)
  | _, _, _, some x, _ => some x
  | _, _, _, _, some g =>
    match readChild g with
    | some k => some (.childOff k)
    | none => (numeral g).map .addOff
  | _, _, _, _, none => none

/-- Statements up to those of `tail`. -/
def readCmds (tail : List Item) : List Item → Option (List Cmd)
  | [] => if tail = [] then some [] else none
  | it :: its =>
    if it :: its = tail then some []
    else match it.stop, readCmd it.hdr, readCmds tail its with
      | .semi, some x, some xs => some (x :: xs)
      | _, _, _ => none

/-- `let mut framing_offsets : [usize; …] = [0; …]` -/
def readFrames (it : Item) : Option Nat :=
  match (code fmt!"let mut framing_offsets :").strip it.hdr, it.stop with
  | some (.grp d x (.leaf e (.grp d' y .nil))), .semi =>
    if d = 91 ∧ e = .op 61 ∧ d' = 91 then
      match ((code fmt!"usize;").strip x).bind numeral, ((code fmt!"0;").strip y).bind numeral with
      | some n, some m => if n = m then some n else none
      | _, _ => none
    else none
  | _, _ => none

/-- `serialize` of a structure of variable size: how many framing offsets, and the statements that write the
    members.  The statements around them are fixed. -/
def readVarSer (body : Forest) : Option (Nat × List Cmd) :=
  match items body with
  | it0 :: it1 :: its =>
    if it0 = ⟨code fmt!"let mut off: usize = 0", .semi⟩ then
      match readFrames it1, readCmds [⟨code fmt!"off = write_offsets(off, &framing_offsets, f)?", .semi⟩,
          ⟨code fmt!"Ok(off)", .eof⟩] its with
      | some n, some cs => some (n, cs)
      | _, _ => none
    else none
  | _ => none

/-- `serialize` of a structure of fixed size called `name`. -/
def readFixedSer (name : Bytes) (body : Forest) : Option (List Cmd) :=
  readCmds [⟨code (fmt!"Ok(core::mem::size_of::<" ++ name ++ fmt!">())"), .eof⟩] (items body)

/-- A declared field. -/
inductive RField
  /-- `_padding_k : [u8; n]` -/
  | pad (k n : Nat)
  /-- `pub field_n : ty` -/
  | mem (n : Nat) (ty : Forest)
deriving DecidableEq, Repr

def readField (f : Forest) : Option RField :=
  match f with
  | .leaf (.word w) (.leaf t (.grp d i .nil)) =>
    if t = .op 58 ∧ d = 91 then
      match numbered fmt!"_padding_" w, ((code fmt!"u8;").strip i).bind numeral with
      | some k, some n => some (.pad k n)
      | _, _ => none
    else none
  | .leaf (.word p) (.leaf (.word w) (.leaf t ty)) =>
    if p = fmt!"pub" ∧ t = .op 58 then (numbered fmt!"field_" w).map (.mem · ty) else none
  | _ => none

/-- A field given in a structure expression. -/
inductive RInit
  /-- `_padding_k : [0u8; n]` -/
  | zeros (k n : Nat)
  /-- `field_n : field_m` -/
  | mem (n m : Nat)
deriving DecidableEq, Repr

def readInit (f : Forest) : Option RInit :=
  match f with
  | .leaf (.word w) (.leaf t (.grp d i .nil)) =>
    if t = .op 58 ∧ d = 91 then
      match numbered fmt!"_padding_" w, ((code fmt!"0u8;").strip i).bind numeral with
      | some k, some n => some (.zeros k n)
      | _, _ => none
    else none
  | .leaf (.word w) (.leaf t (.leaf (.word v) .nil)) =>
    if t = .op 58 then
      match numbered fmt!"field_" w, numbered fmt!"field_" v with
      | some n, some m => some (.mem n m)
      | _, _ => none
    else none
  | _ => none

/-- A parameter `field_n : ty`. -/
def readParam (f : Forest) : Option (Nat × Forest) :=
  match f with
  | .leaf (.word w) (.leaf t ty) => if t = .op 58 then (numbered fmt!"field_" w).map (·, ty) else none
  | _ => none

/-- Parameters and fields of `pub const fn new(…) -> name { name { … } }`. -/
def readNew (name : Bytes) (head body : Forest) : Option (List (Nat × Forest) × List RInit) :=
  match (code fmt!"pub const fn new").strip head, body with
  | some (.grp d ps r), .leaf (.word n) (.grp d' inits .nil) =>
    if d = 40 ∧ r = code (fmt!"-> " ++ name) ∧ n = name ∧ d' = 123 then
      match allSome readParam (atCommas ps), allSome readInit (atCommas inits) with
      | some a, some b => some (a, b)
      | _, _ => none
    else none
  | _, _ => none

/-- `&self.field_n` -/
def readRef (f : Forest) : Option Nat :=
  match (code fmt!"&self.").strip f with
  | some (.leaf (.word w) .nil) => numbered fmt!"field_" w
  | _ => none

/-- The references in a tuple. -/
def readRefs : Forest → Option (List Nat)
  | .grp d i .nil => if d = 40 then (tupleParts i).bind (allSome readRef) else none
  | _ => none

/-- `static s : name = name::new(0, …); &s`: how many zeros. -/
def readDefault (name : Bytes) (body : Forest) : Option Nat :=
  match items body with
  | [it, ret] =>
    match (code (fmt!"static s : " ++ name ++ fmt!" = " ++ name ++ fmt!"::new")).strip it.hdr with
    | some (.grp d zs .nil) =>
      if d = 40 ∧ it.stop = .semi ∧ ret = ⟨code fmt!"&s", .eof⟩ ∧ (atCommas zs).all (· == code fmt!"0") then
        some (atCommas zs).length
      else none
    | _ => none
  | _ => none

/-- `… && self.field_n == other.field_m`, any number of times. -/
def readEqs : Forest → Option (List (Nat × Nat))
  | .nil => some []
  | .leaf t1 (.leaf t2 (.leaf t3 (.leaf t4 (.leaf (.word a) (.leaf t5 (.leaf t6 (.leaf t7 (.leaf t8
      (.leaf (.word b) r))))))))) =>
    if t1 = .op 38 ∧ t2 = .op 38 ∧ t3 = .word fmt!"self" ∧ t4 = .op 46 ∧ t5 = .op 61 ∧ t6 = .op 61 ∧
        t7 = .word fmt!"other" ∧ t8 = .op 46 then
      match numbered fmt!"field_" a, numbered fmt!"field_" b, readEqs r with
      | some n, some m, some ps => some ((n, m) :: ps)
      | _, _, _ => none
    else none
  | _ => none

/-- `true && …` -/
def readEq (body : Forest) : Option (List (Nat × Nat)) := ((code fmt!"true").strip body).bind readEqs

/-! ### Heads of implementations that mention the members' types -/

/-- `impl<'a> From<&'a name> for (…)` -/
def fromHead (name : Bytes) (tup : Forest) : Forest :=
  (code fmt!"impl<'a> From<&'a").append (.leaf (.word name) ((code fmt!"> for").append (.grp 40 tup .nil)))

/-- `impl<…> ::gvariant::SerializeTo<name> for &(…)` -/
def serHead (name : Bytes) (ps ts : Forest) : Forest :=
  (code fmt!"impl<").append (ps.append ((code fmt!"> ::gvariant::SerializeTo<").append
    (.leaf (.word name) ((code fmt!"> for &").append (.grp 40 ts .nil)))))

end GV.Spec
