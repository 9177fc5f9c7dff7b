import Verif.Model.Rust
import Verif.Model.Deser
import Verif.Model.Buf
/-
Building fixed-size structures in memory: `new`, `Default`, and assigning to fields.
-/
namespace GV

/-- Memory that is being initialized; `none` is a byte that has not been written. -/
abbrev Mem := List (Option UInt8)

/-- Store the bytes of a field at an offset. -/
def Mem.store (m : Mem) (off : Nat) (b : Bytes) : Mem := m.take off ++ b.map some ++ m.drop (off + b.length)

/-- What `set_fields` puts into a field (generate_impl.rs:431-434, 452, 460-463): `[0u8;n]` or the
    argument, given by the bytes of its memory. -/
def fieldValue (args : List Bytes) : Field → Res Bytes
  | .pad n => .ok (List.replicate n 0)
  | .mem k => Res.unwrap args[k]?

/-- A struct expression: each field is stored at its offset. -/
def initFields (args : List Bytes) : List Field → List Nat → Mem → Res Mem
  | f :: fs, o :: os, m => do
    let b ← fieldValue args f
    initFields args fs os (m.store o b)
  | _, _, m => .ok m

/-- `Structure…::new(field_0, …)` (generate_impl.rs:474-478): the memory of the result.  Bytes the
    compiler might leave between the fields stay `none`. -/
def structNew (gv : Ty) (children : List Ty) (args : List Bytes) : Res Mem := do
  let p ← writePackedStruct gv children
  let fs ← structFields gv children
  initFields args p.fields (reprCLoop 0 fs).1 (List.replicate (reprCSize fs) none)

/-- The bytes of memory that is fully initialized.  Using any other as a value that must be initialized
    is undefined behaviour. -/
def Mem.read (m : Mem) : Res Bytes :=
  match m with
  | [] => .ok []
  | some x :: m => do
    let b ← Mem.read m
    pure (x :: b)
  | none :: _ => .fail .ub

mutual
/-- `Default::default()` of the Rust type of a fixed-size type: zero for numbers, derived for generated
    structs (generate_impl.rs:402), where each field gets its default and `[u8; n]` gets zeros.  (`Bool`
    has no `Default`, see C08.) -/
def defaultMem : Ty → Res Bytes
  | .Y => .ok [0]
  | .N | .Q => .ok [0, 0]
  | .I | .U => .ok [0, 0, 0, 0]
  | .X | .T | .D => .ok [0, 0, 0, 0, 0, 0, 0, 0]
  | .tuple ts => do
    let args ← defaultMems ts
    let m ← structNew (.tuple ts) ts args
    m.read
  | .dict k v => do
    let a ← defaultMem k
    let b ← defaultMem v
    let m ← structNew (.dict k v) [k, v] [a, b]
    m.read
  | _ => .fail .explicit
/-- The same for each member. -/
def defaultMems : List Ty → Res (List Bytes)
  | [] => .ok []
  | t :: ts => do
    let b ← defaultMem t
    let bs ← defaultMems ts
    pure (b :: bs)
end

/-- The place `x.field_i.field_j…` within a value of a fixed-size type: offset and type.  The fields are
    public (generate_impl.rs:442).  Field accesses that rustc rejects fault with `explicit`. -/
def placeOf : Ty → List Nat → Res (Nat × Ty)
  | t, [] => .ok (0, t)
  | .tuple ts, k :: p => do
    let offs ← fieldOffsets (.tuple ts) ts
    let off ← Res.unwrap offs[k]?
    let u ← Res.unwrap ts[k]?
    let (o, v) ← placeOf u p
    pure (off + o, v)
  | .dict kt vt, k :: p => do
    let offs ← fieldOffsets (.dict kt vt) [kt, vt]
    let off ← Res.unwrap offs[k]?
    let u ← Res.unwrap [kt, vt][k]?
    let (o, v) ← placeOf u p
    pure (off + o, v)
  | _, _ :: _ => .fail .explicit

/-- `*marker.try_cast_mut(data)? = x` or, with a path, `marker.try_cast_mut(data)?.field_i.field_j… = x`
    (lib.rs:357-362): the data afterwards, or `none` for `Err(WrongSize)`.  `x` is given by the bytes of
    its memory. -/
def assign (c : Cfg) (t : Ty) (s : Slice) (path : List Nat) (x : Bytes) : Res (Option Bytes) := do
  match ← tryFromAlignedMut c t s with
  | none => pure none
  | some r => do
    let (off, _) ← placeOf t path
    pure (some (r.bytes.take off ++ x ++ r.bytes.drop (off + x.length)))

/-- The same on a part of an `AlignedBuf`: `deref_mut` (buf.rs:143-153), any number of slicing steps
    (`IndexMut`, aligned_bytes.rs:460-532), `try_cast_mut` and the assignment.  The store goes to an address; the buffer owns the
    bytes from the address of its vec on. -/
def poke (c : Cfg) (b : AlignedBuf) (ops : List SliceOp) (t : Ty) (path : List Nat) (x : Bytes) :
    Res (Option AlignedBuf) := do
  let s ← b.deref c
  let (_, w) ← runSlices c 8 s ops
  match ← tryFromAlignedMut c t w with
  | none => pure none
  | some r => do
    let (off, _) ← placeOf t path
    let i := r.addr + off - b.data.addr
    pure (some ⟨{ b.data with bytes := b.data.bytes.take i ++ x ++ b.data.bytes.drop (i + x.length) }⟩)

end GV
