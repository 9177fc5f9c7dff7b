import Verif.Model.Deser
import Verif.Model.Offset
import Verif.Spec.Source
/-
Model of the writing side: `SerializeTo` impls, `write_offsets`, `write_padding` of gvariant/src/lib.rs
and the `serialize` functions generated by gvariant-macro.
-/
namespace GV

/-! ### Writers -/

/-- Result of serializing. -/
inductive Out (α : Type) where
  | ok (a : α)
  /-- the writer's own error -/
  | io (e : Nat)
  /-- `ErrorKind::InvalidInput` -/
  | badInput
  /-- a panic -/
  | panic (f : Fault)
deriving DecidableEq, Repr

/-- An `io::Write` with states `σ`, by what `write_all(buf)` does: the new state, and on failure the
    number of bytes accepted and the error.  The writer may decide anything. -/
structure Writer (σ : Type) where
  writeAll : σ → Bytes → σ × Option (Nat × Nat)

/-- A writer's state together with all bytes it has accepted. -/
structure Sink (σ : Type) where
  st : σ
  got : Bytes

/-- Code that writes; `?` is `bind`. -/
def WM (σ α : Type) := Sink σ → Sink σ × Out α

namespace WM
variable {σ α β : Type}

/-- `Ok(a)` without writing. -/
protected def pure (a : α) : WM σ α := fun s => (s, .ok a)

/-- Sequencing with `?`: an error or panic returns at once. -/
protected def bind (m : WM σ α) (f : α → WM σ β) : WM σ β := fun s =>
  match m s with
  | (s', .ok a) => f a s'
  | (s', .io e) => (s', .io e)
  | (s', .badInput) => (s', .badInput)
  | (s', .panic e) => (s', .panic e)

instance : Monad (WM σ) where
  pure := WM.pure
  bind := WM.bind

/-- Code that does not write but may panic. -/
def lift (r : Res α) : WM σ α := fun s =>
  match r with
  | .ok a => (s, .ok a)
  | .fail f => (s, .panic f)

/-- `Err(io::Error::new(ErrorKind::InvalidInput, …))`. -/
def invalid : WM σ α := fun s => (s, .badInput)

/-- A combination that does not type-check in Rust. -/
def illTyped : WM σ α := fun s => (s, .panic .explicit)

/-- `f.write_all(b)?`. -/
def write (w : Writer σ) (b : Bytes) : WM σ Unit := fun s =>
  match w.writeAll s.st b with
  | (st, none) => (⟨st, s.got ++ b⟩, .ok ())
  | (st, some (k, e)) => (⟨st, s.got ++ b.take k⟩, .io e)
end WM

open WM

variable {σ : Type}

/-! ### Numbers, padding, framing offsets -/

/-- `uN::to_le_bytes` (core): `w` bytes. -/
def toLe : Nat → Nat → Bytes
  | 0, _ => []
  | w + 1, n => UInt8.ofNat (n % 256) :: toLe w (n / 256)

/-- `uN::to_ne_bytes` (core). -/
def toNe (c : Cfg) (w n : Nat) : Bytes := if c.bigEndian then (toLe w n).reverse else toLe w n

/-- `&b"\0\0\0\0\0\0\0"[..n]` (gvariant/src/lib.rs:619, 1635). -/
def zeroSlice (n : Nat) : Res Bytes := if n ≤ 7 then .ok (List.replicate n 0) else .fail .bounds

/-- `write_padding` (lib.rs:614-621). -/
def writePadding (w : Writer σ) (c : Cfg) (al off : Nat) : WM σ Nat := do
  let a ← lift (alignOffset c al off)
  let len ← lift (usub c a off)
  let z ← lift (zeroSlice len)
  write w z
  pure len

/-- One of the loops of `write_offsets` (lib.rs:1651-1653, 1656-1658, 1661-1663, 1666-1668):
    `offset as uN` truncates to `k` bytes. -/
def offsetLoop (w : Writer σ) (k : Nat) : List Nat → WM σ Unit
  | [] => pure ()
  | o :: os => do
    write w (toLe k (o % 256 ^ k))
    offsetLoop w k os

/-- `write_offsets` (lib.rs:1644-1671). -/
def writeOffsets (w : Writer σ) (c : Cfg) (bw : Nat) (offs : List Nat) : WM σ Nat := do
  let x ← lift (uadd c bw offs.length)
  if x ≤ 0xff then
    offsetLoop w 1 offs
    pure x
  else do
    let m ← lift (umul c offs.length 2)
    let x ← lift (uadd c bw m)
    if x ≤ 0xffff then
      offsetLoop w 2 offs
      pure x
    else do
      let m ← lift (umul c offs.length 4)
      let x ← lift (uadd c bw m)
      if x ≤ 0xffffffff then
        offsetLoop w 4 offs
        pure x
      else do
        let m ← lift (umul c offs.length 8)
        let x ← lift (uadd c bw m)
        offsetLoop w 8 offs
        pure x

/-! ### Generated structures -/

/-- Execute the serialize commands of a structure (generate_impl.rs:174-208, 435, 444-452): `ms` are
    the serializers of the members; the state is `off` and `framing_offsets`. -/
def runCmds (w : Writer σ) (c : Cfg) (ms : List (WM σ Nat)) :
    List Cmd → Nat → List Nat → WM σ (Nat × List Nat)
  | [], off, fr => pure (off, fr)
  | .zeros n :: cs, off, fr => do
    write w (List.replicate n 0)
    runCmds w c ms cs off fr
  | .addOff n :: cs, off, fr => do
    let off ← lift (uadd c off n)
    runCmds w c ms cs off fr
  | .writePadding al :: cs, off, fr => do
    let n ← writePadding w c al off
    let off ← lift (uadd c off n)
    runCmds w c ms cs off fr
  | .child k :: cs, off, fr =>
    match ms[k]? with
    | some m => do
      let _ ← m
      runCmds w c ms cs off fr
    | none => illTyped
  | .childOff k :: cs, off, fr =>
    match ms[k]? with
    | some m => do
      let n ← m
      let off ← lift (uadd c off n)
      runCmds w c ms cs off fr
    | none => illTyped
  | .setFrame k :: cs, off, fr =>
    if k < fr.length then runCmds w c ms cs off (fr.set k off) else lift (.fail .bounds)

/-- The generated `serialize` of a structure: packed (generate_impl.rs:507-512) returns
    `size_of::<Structure>()`, non-fixed-size (generate_impl.rs:232-240) writes the framing offsets. -/
def serStruct (w : Writer σ) (c : Cfg) (gv : Ty) (ts : List Ty) (ms : List (WM σ Nat)) :
    WM σ Nat := do
  let d ← lift (generateTuple gv ts)
  match d.body with
  | .packed p => do
    let _ ← runCmds w c ms p.cmds 0 []
    let l ← lift (rustLayout gv)
    pure l.1
  | .nonFixed p => do
    let r ← runCmds w c ms p.cmds 0 (List.replicate p.nFrameOffsets 0)
    writeOffsets w c r.1 r.2

/-! ### `SerializeTo` -/

/-- `size_of` of the number types (lib.rs:700-707). -/
def numSize : Ty → Option Nat
  | .Y => some 1
  | .N | .Q => some 2
  | .I | .U => some 4
  | .X | .T | .D => some 8
  | _ => none

/-- The Rust type is `Str` (gvariant-macro/src/lib.rs:44-46). -/
def isStrTy : Ty → Bool
  | .S | .O | .G => true
  | _ => false

mutual
/-- `SerializeTo::serialize` of a source as GVariant type `t`: the result is the returned count. -/
def ser (w : Writer σ) (c : Cfg) : Ty → Src → WM σ Nat
  -- lib.rs:686-691
  | t, .num n => match numSize t with
    | some k => do
      write w (toNe c k n)
      pure k
    | none => illTyped
  -- lib.rs:2030-2035
  | t, .bool b => match t with
    | .B => do
      write w (if b then [1] else [0])
      pure 1
    | _ => illTyped
  -- lib.rs:2024-2028, through `to_bool` and the previous case
  | t, .boolRef x => match t with
    | .B => do
      write w (if x > 0 then [1] else [0])
      pure 1
    | _ => illTyped
  -- lib.rs:798-814
  | t, .str b =>
    if isStrTy t then
      if b.contains 0 then invalid
      else do
        write w b
        write w [0]
        lift (uadd c b.length 1)
    else illTyped
  -- lib.rs:790-797
  | t, .strRef d =>
    if isStrTy t then do
      write w (toStr d)
      write w [0]
      lift (uadd c (toStr d).length 1)
    else illTyped
  -- lib.rs:1141-1151
  | t, .variantRef addr d => match t with
    | .V => do
      let p ← lift (split c ⟨addr, d⟩)
      write w p.2.bytes
      write w [0]
      write w p.1
      let n ← lift (uadd c p.2.len p.1.length)
      lift (uadd c n 1)
    | _ => illTyped
  -- lib.rs:1275-1283
  | t, .wrap u x => match t with
    | .V => do
      let len ← ser w c u x
      write w [0]
      write w u.show
      let n ← lift (uadd c len 1)
      lift (uadd c n u.show.length)
    | _ => illTyped
  | t, .seq xs => match t with
    | .A e => match sizeOf e with
      -- lib.rs:1315-1326
      | some _ => serFixed w c e 0 xs
      -- lib.rs:1624-1640
      | none => do
        let r ← serElems w c e 0 [] xs
        writeOffsets w c r.1 r.2
    | _ => illTyped
  -- lib.rs:1825-1831, 1952-1958
  | t, .nothing => match t with
    | .M _ => pure 0
    | _ => illTyped
  | t, .just x => match t with
    | .M e => match sizeOf e with
      -- lib.rs:1824-1826
      | some _ => ser w c e x
      -- lib.rs:1951-1955
      | none => do
        let len ← ser w c e x
        write w [0]
        lift (uadd c len 1)
    | _ => illTyped
  -- lib.rs:1946-1960
  | t, .iter xs => match t with
    | .M e => match sizeOf e with
      | some _ => illTyped
      | none => match xs with
        | x :: _ => do
          let len ← ser w c e x
          write w [0]
          lift (uadd c len 1)
        | [] => pure 0
    | _ => illTyped
  | t, .tup xs => match t with
    | .tuple ts => serStruct w c (.tuple ts) ts (serMembers w c ts xs)
    | .dict k v => serStruct w c (.dict k v) [k, v] (serMembers w c [k, v] xs)
    | _ => illTyped
/-- The loop of `SerializeTo<[GvT]>` (lib.rs:1320-1325). -/
def serFixed (w : Writer σ) (c : Cfg) (e : Ty) : Nat → List Src → WM σ Nat
  | bw, [] => pure bw
  | bw, x :: xs => do
    let n ← ser w c e x
    let bw ← lift (uadd c bw n)
    serFixed w c e bw xs
/-- The loop of `SerializeTo<NonFixedWidthArray<GvT>>` (lib.rs:1629-1637): `bytes_written` and
    `offsets`. -/
def serElems (w : Writer σ) (c : Cfg) (e : Ty) : Nat → List Nat → List Src → WM σ (Nat × List Nat)
  | bw, offs, [] => pure (bw, offs)
  | bw, offs, x :: xs => do
    let n ← ser w c e x
    let bw ← lift (uadd c bw n)
    let a ← lift (alignOffset c (alignOf e) bw)
    let padding ← lift (usub c a bw)
    let z ← lift (zeroSlice padding)
    write w z
    let bw' ← lift (uadd c bw padding)
    serElems w c e bw' (offs ++ [bw]) xs
/-- The serializers of the members of a tuple. -/
def serMembers (w : Writer σ) (c : Cfg) : List Ty → List Src → List (WM σ Nat)
  | t :: ts, x :: xs => ser w c t x :: serMembers w c ts xs
  | _, _ => []
end

/-- `Marker::serialize` (lib.rs:423-430) into a writer in state `st`: the bytes it accepted, its final
    state and the result. -/
def serialize (w : Writer σ) (c : Cfg) (t : Ty) (x : Src) (st : σ) : Sink σ × Out Nat :=
  ser w c t x ⟨st, []⟩

/-- `io::Write for Vec<u8>`: never fails. -/
def vecWriter : Writer Unit := ⟨fun _ _ => ((), none)⟩

/-- `Marker::serialize_to_vec` (lib.rs:436-443): `expect` panics on any error. -/
def serializeToVec (c : Cfg) (t : Ty) (x : Src) : Res Bytes :=
  match serialize vecWriter c t x () with
  | (s, .ok _) => .ok s.got
  | (_, .io _) | (_, .badInput) => .fail .unwrap
  | (_, .panic f) => .fail f

end GV
