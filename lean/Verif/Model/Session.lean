import Verif.Model.Client
import Verif.Model.Packed
/-
A program that owns buffers and copies, changes and drops them, borrows from them and reads what it borrowed.
Rust's borrow rules are part of the model: what was borrowed from something is gone once that is changed,
moved or dropped, and what a call returns is borrowed from what its argument is borrowed from.
-/
namespace GV
open Spec (Op Obs)

/-! ### Borrow rules of Rust -/

/-- What is borrowed from cell `i` is gone. -/
def kill {β : Type} (i : Nat) : List (Option (Nat × β)) → List (Option (Nat × β)) :=
  List.map fun
    | some (k, x) => if k = i then none else some (k, x)
    | none => none

/-- Cell `i` is gone, and the cells that are themselves borrowed from it (`par`). -/
def shut {α : Type} (par : α → Option Nat) (i : Nat) (cells : List (Option α)) : List (Option α) :=
  (cells.set i none).map fun
    | some x => if par x = some i then none else some x
    | none => none

/-- What is borrowed from cells that are gone is gone. -/
def prune {α β : Type} (cells : List (Option α)) : List (Option (Nat × β)) → List (Option (Nat × β)) :=
  List.map fun
    | some (k, x) =>
      match cells[k]? with
      | some (some _) => some (k, x)
      | _ => none
    | none => none

/-- All that is held; `d` in place of what is gone. -/
def live {β : Type} (d : β) : List (Option (Nat × β)) → List β :=
  List.map fun
    | some (_, x) => x
    | none => d

/-- After a call: what is gone stays gone, what is new is borrowed from cell `o`. -/
def rehold {β : Type} (o : Nat) : List (Option (Nat × β)) → List β → List (Option (Nat × β))
  | some (k, _) :: xs, h :: hs => some (k, h) :: rehold o xs hs
  | none :: xs, _ :: hs => none :: rehold o xs hs
  | [], hs => hs.map fun h => some (o, h)
  | _, [] => []

/-! ### Programs -/

/-- Where bytes can live. -/
inductive Cell
  /-- an `AlignedBuf` (gvariant/src/buf.rs:22-24) -/
  | buffer (b : AlignedBuf)
  /-- what `to_owned` of a value of type `t` returned -/
  | owned (t : Ty) (o : OwnedVal)
  /-- a `&[u8]` that the program has from elsewhere -/
  | lent (s : Slice)
  /-- what `copy_to_align` (aligned_bytes.rs:240-246) of the `&[u8]` in cell `i` returned -/
  | cow (i : Nat) (w : CowSlice)

/-- What a cell is borrowed from. -/
def Cell.parent : Cell → Option Nat
  | .cow i _ => some i
  | _ => none

/-- The bytes in a cell as they are now: `Deref` of `AlignedBuf` (buf.rs:131-141), of what `to_owned`
    returned, and of a `Cow`. -/
def Cell.mem (c : Cfg) : Cell → Res Slice
  | .buffer b => b.deref c
  | .owned _ (.plain s) => .ok s
  | .owned _ (.gstring a g) => .ok ⟨a, g.deref⟩
  | .owned _ (.buf b) => b.deref c
  | .lent s => .ok s
  | .cow _ w => w.asRef c

/-- What a program has: its cells, some of them gone; its references and iterators, with the number of the
    cell they are borrowed from, some of them gone. -/
structure Session where
  cells : List (Option Cell)
  held : List (Option (Nat × Held))

/-- One thing that a program can do. -/
inductive Act
  /-- `AlignedBuf::from(v)` (buf.rs:118-123) -/
  | make (v : RVec)
  /-- bytes from elsewhere -/
  | lend (s : Slice)
  /-- `with_vec` with a callback (buf.rs:54-70) -/
  | alter (i : Nat) (f : RVec → RVec)
  /-- `buf[j] = x` through `DerefMut` (buf.rs:143-153) -/
  | poke (i j : Nat) (x : UInt8)
  /-- `*marker.try_cast_mut(part)? = x`, or with a path of members, where `part` is a part of a buffer that slicing steps
      `ops` select (lib.rs:357-362, aligned_bytes.rs:460-532); `x` is given by the bytes of its memory -/
  | store (i : Nat) (ops : List SliceOp) (t : Ty) (path : List Nat) (x : Bytes)
  /-- look at the bytes through `Deref` (buf.rs:131-141) -/
  | peek (i : Nat)
  /-- drop, or give away -/
  | free (i : Nat)
  /-- `Vec::from(buf)` (buf.rs:124-129), and look at the bytes -/
  | unwrap (i : Nat)
  /-- `Marker::cast` (lib.rs:351-353) of the contents of a cell -/
  | cast (i : Nat) (t : Ty)
  /-- `Marker::cast` of a part of a buffer that slicing steps `ops` select (aligned_bytes.rs:380-459) -/
  | part (i : Nat) (ops : List SliceOp) (t : Ty)
  /-- `copy_to_align` (aligned_bytes.rs:240-246) of bytes from elsewhere, then `Marker::cast` -/
  | settle (i : Nat) (t : Ty)
  /-- a call on what the program holds -/
  | read (op : Op)

/-- What a call is made on. -/
def opOn : Op → Nat
  | .look h | .len h | .index h _ | .first h | .last h | .iter h | .next h | .option h | .members h
  | .get h _ | .eq h _ | .order h _ | .print h | .write h | .copy h => h

/-- The other argument, if it is something held. -/
def opWith : Op → Nat
  | .eq _ k | .order _ k => k
  | op => opOn op

/-- One step of a program, and what it sees.  What does not compile does nothing. -/
def act (c : Cfg) (P : CoreFmt) (p : Places) (σ : Session) : Act → Res (Obs × Session)
  | .make v => do
    let b ← AlignedBuf.fromVec c p.vecs v
    pure (.none, { σ with cells := σ.cells ++ [some (.buffer b)] })
  | .lend s => .ok (.none, { σ with cells := σ.cells ++ [some (.lent s)] })
  | .alter i f =>
    match σ.cells[i]? with
    | some (some (.buffer b)) => do
      let b' ← b.withVec c p.vecs f
      pure (.none, ⟨σ.cells.set i (some (.buffer b')), kill i σ.held⟩)
    | _ => .ok (.wrong, σ)
  | .poke i j x =>
    match σ.cells[i]? with
    | some (some (.buffer b)) => do
      let b' ← b.setAt c j x
      pure (.none, ⟨σ.cells.set i (some (.buffer b')), kill i σ.held⟩)
    | _ => .ok (.wrong, σ)
  | .store i ops t path x =>
    match σ.cells[i]? with
    | some (some (.buffer b)) => do
      match ← poke c b ops t path x with
      | some b' => pure (.bool true, ⟨σ.cells.set i (some (.buffer b')), kill i σ.held⟩)
      | none => pure (.bool false, { σ with held := kill i σ.held })
    | _ => .ok (.wrong, σ)
  | .peek i =>
    match σ.cells[i]? with
    | some (some (.buffer b)) => do
      let s ← b.deref c
      pure (.bytes s.bytes, σ)
    | some (some (.lent s)) => .ok (.bytes s.bytes, σ)
    | _ => .ok (.wrong, σ)
  | .free i =>
    let cells := shut Cell.parent i σ.cells
    .ok (.none, ⟨cells, prune cells σ.held⟩)
  | .unwrap i =>
    match σ.cells[i]? with
    | some (some (.buffer b)) => do
      let v ← b.intoVec c
      let cells := shut Cell.parent i σ.cells
      pure (.bytes v.bytes, ⟨cells, prune cells σ.held⟩)
    | _ => .ok (.wrong, σ)
  | .cast i t =>
    match σ.cells[i]? with
    -- an `AlignedSlice<A8>` as one of the alignment of `t` (aligned_bytes.rs:312-323)
    | some (some (.buffer b)) => do
      let s ← b.deref c
      let s ← asAligned 8 (alignOf t) s
      let r ← fromAligned c t s
      pure (.got, { σ with held := σ.held ++ [some (i, .ref t r)] })
    -- `try_as_aligned` (aligned_bytes.rs:336-361)
    | some (some (.lent s)) =>
      match tryAsAligned 1 (alignOf t) s with
      | some s => do
        let r ← fromAligned c t s
        pure (.got, { σ with held := σ.held ++ [some (i, .ref t r)] })
      | none => .ok (.none, σ)
    | _ => .ok (.wrong, σ)
  | .part i ops t =>
    match σ.cells[i]? with
    | some (some (.buffer b)) => do
      let s ← b.deref c
      let (al, w) ← runSlices c 8 s ops
      let w ← asAligned al (alignOf t) w
      let r ← fromAligned c t w
      pure (.got, { σ with held := σ.held ++ [some (i, .ref t r)] })
    | _ => .ok (.wrong, σ)
  | .settle i t =>
    match σ.cells[i]? with
    | some (some (.lent s)) => do
      let w ← copyToAlign c p.vecs (alignOf t) s
      let s ← w.asRef c
      let r ← fromAligned c t s
      pure (.got, ⟨σ.cells ++ [some (.cow i w)], σ.held ++ [some (σ.cells.length, .ref t r)]⟩)
    | _ => .ok (.wrong, σ)
  | .read (.copy h) =>
    match σ.held[h]? with
    | some (some (_, .ref t s)) => do
      let o ← toOwned c p t s
      let r ← o.borrow c t
      pure (.got, ⟨σ.cells ++ [some (.owned t o)], σ.held ++ [some (σ.cells.length, .ref t r)]⟩)
    | _ => .ok (.wrong, σ)
  | .read op =>
    match σ.held[opOn op]?, σ.held[opWith op]? with
    | some (some (k, _)), some (some _) => do
      let (o, hs) ← callStep c P p (live (.items .Y []) σ.held) op
      pure (o, { σ with held := rehold k σ.held hs })
    | _, _ => .ok (.wrong, σ)

end GV
