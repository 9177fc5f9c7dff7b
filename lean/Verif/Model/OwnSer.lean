import Verif.Model.Ser
/-
The same `SerializeTo` impls of gvariant/src/lib.rs as in Model/Ser, but generic over what the parts
do, as the impls themselves are (lib.rs:446-462): any type of the user's may be an element, a member
or the content, by its own `impl SerializeTo`.  A part is the action its `serialize` performs.  The
generated structures are already generic (`serStruct`, Model/Ser).
-/
namespace GV
open WM

variable {σ : Type}

/-- `SerializeTo<[GvT]>` (lib.rs:1320-1325), the loop. -/
def fixedLoop (w : Writer σ) (c : Cfg) : Nat → List (WM σ Nat) → WM σ Nat
  | bw, [] => pure bw
  | bw, m :: ms => do
    let n ← m
    let bw ← lift (uadd c bw n)
    fixedLoop w c bw ms

/-- `SerializeTo<NonFixedWidthArray<GvT>>` (lib.rs:1629-1637), the loop. -/
def elemLoop (w : Writer σ) (c : Cfg) (e : Ty) :
    Nat → List Nat → List (WM σ Nat) → WM σ (Nat × List Nat)
  | bw, offs, [] => pure (bw, offs)
  | bw, offs, m :: ms => do
    let n ← m
    let bw ← lift (uadd c bw n)
    let a ← lift (alignOffset c (alignOf e) bw)
    let padding ← lift (usub c a bw)
    let z ← lift (zeroSlice padding)
    write w z
    let bw' ← lift (uadd c bw padding)
    elemLoop w c e bw' (offs ++ [bw]) ms

/-- An array with elements of type `e` (lib.rs:1315-1326, 1624-1640). -/
def arrOf (w : Writer σ) (c : Cfg) (e : Ty) (ms : List (WM σ Nat)) : WM σ Nat :=
  match sizeOf e with
  | some _ => fixedLoop w c 0 ms
  | none => do
    let r ← elemLoop w c e 0 [] ms
    writeOffsets w c r.1 r.2

/-- A maybe with content of type `e` (lib.rs:1819-1832, 1946-1960). -/
def maybeOf (w : Writer σ) (c : Cfg) (e : Ty) : Option (WM σ Nat) → WM σ Nat
  | none => pure 0
  | some m => match sizeOf e with
    | some _ => m
    | none => do
      let len ← m
      write w [0]
      lift (uadd c len 1)

/-- `VariantWrap` around a content of type `u` (lib.rs:1275-1283). -/
def wrapOf (w : Writer σ) (c : Cfg) (u : Ty) (m : WM σ Nat) : WM σ Nat := do
  let len ← m
  write w [0]
  write w u.show
  let n ← lift (uadd c len 1)
  lift (uadd c n u.show.length)

end GV
