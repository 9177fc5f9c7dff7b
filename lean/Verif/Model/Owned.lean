import Verif.Model.Deser
import Verif.Model.Buf
/-
Model of the owning ways of reading: `Owned` (gvariant/src/lib.rs:470-521), `Marker::deserialize`
(lib.rs:376-385), `Marker::from_bytes` (lib.rs:403-407) and the `ToOwned` impls they end with.
-/
namespace GV

/-- What `<M::Type as ToOwned>::Owned` can be. -/
inductive OwnedVal
  /-- a number, `Bool` or packed struct (a copy: `impl<T: Clone> ToOwned for T`, core) or a `Vec<T>`
      (`impl<T: Clone> ToOwned for [T]`, alloc), somewhere suitable for the type -/
  | plain (s : Slice)
  /-- a `GString`; its `String` is somewhere -/
  | gstring (addr : Nat) (g : GString)
  /-- an `Owned` -/
  | buf (b : AlignedBuf)

/-- Choices made by the allocator and the compiler: how vecs are placed, how much more a `String` gets,
    and where copies of values end up.  `Places.Valid` says they are proper. -/
structure Places where
  vecs : Alloc
  extra : Nat → Nat
  addr : Nat

/-- `Owned::from_bytes` and `Owned::from_vec` (lib.rs:489-501). -/
def ownedFromBytes (c : Cfg) (p : Places) (b : Bytes) : Res AlignedBuf :=
  AlignedBuf.fromVec c p.vecs (RVec.ofSlice p.vecs b)

/-- `to_owned` of the value a reference points to: copies (core, alloc), `Str` (lib.rs:868-873), and
    `Owned::from_bytes` for `Variant`, `NonFixedWidthArray`, `MaybeFixedSize`, `MaybeNonFixedSize` and
    non-fixed-size structures (lib.rs:1164-1169, 1441-1446, 1710-1720, 1864-1869;
    gvariant-macro/src/generate_impl.rs:96-101). -/
def toOwned (c : Cfg) (p : Places) (t : Ty) (r : Slice) : Res OwnedVal :=
  match sizeOf t with
  | some _ => .ok (.plain ⟨p.addr, r.bytes⟩)
  | none =>
    match t with
    | .S | .O | .G => .ok (.gstring p.addr (strToOwned p.extra r.bytes))
    | .A e =>
      match sizeOf e with
      | some _ => .ok (.plain ⟨p.addr, r.bytes⟩)
      | none => do
        let b ← ownedFromBytes c p r.bytes
        pure (.buf b)
    | _ => do
      let b ← ownedFromBytes c p r.bytes
      pure (.buf b)

/-- Borrow an owned value as a reference: `Deref` of `Owned` (lib.rs:509-515), of `GString`
    (lib.rs:1038-1044), of `Vec`, or taking a reference to the copy. -/
def OwnedVal.borrow (c : Cfg) (t : Ty) : OwnedVal → Res Slice
  | .plain s => .ok s
  | .gstring a g => do
    let o ← tryFromAligned c t ⟨a, g.deref⟩
    Res.unwrap o
  | .buf b => do
    let s ← b.deref c
    fromAligned c t s

/-- `Marker::from_bytes` (lib.rs:403-407), then reading everything. -/
def readFromBytes (c : Cfg) (p : Places) (t : Ty) (data : Slice) : Res Val := do
  let cow ← copyToAlign c p.vecs (alignOf t) data
  let s ← cow.asRef c
  let r ← fromAligned c t s
  let o ← toOwned c p t r
  let r ← o.borrow c t
  view c t r

/-- `Marker::deserialize` (lib.rs:376-385) of a reader that yields the vec `v`, then reading
    everything. -/
def readDeserialize (c : Cfg) (p : Places) (t : Ty) (v : RVec) : Res Val := do
  let b ← AlignedBuf.fromVec c p.vecs v
  let s ← b.deref c
  let r ← fromAligned c t s
  let o ← toOwned c p t r
  let r ← o.borrow c t
  view c t r

/-- Casting the contents of an `AlignedBuf`, then reading everything. -/
def readBuf (c : Cfg) (t : Ty) (b : AlignedBuf) : Res Val := do
  let s ← b.deref c
  let r ← fromAligned c t s
  view c t r

end GV
