import Verif.Model.Debug
import Verif.Spec.Pretty
/-
Model of printing with flags such as `{:#?}`.  A `Formatter` carries the flags; `write!` inside an
implementation of `Debug` starts again with the flags of its own placeholders.
-/
namespace GV

/-- `PadAdapter` (core, fmt/builders.rs), through which `{:#?}` prints what is inside brackets: four spaces at
    the beginning of every line that is not empty.  `start` says whether a line begins here. -/
def padAdapter : Bool → Bytes → Bytes
  | _, [] => []
  | true, x :: xs => [32, 32, 32, 32] ++ x :: padAdapter (x = 10) xs
  | false, x :: xs => x :: padAdapter (x = 10) xs

/-- The entries of a `DebugTuple` or `DebugList` (core) with `#`: each through a fresh `PadAdapter`, with `,` and
    a line break. -/
def altEntries : List Bytes → Bytes
  | [] => []
  | x :: xs => padAdapter true (x ++ [44, 10]) ++ altEntries xs

/-- `DebugTuple` (core): the name, then the entries in parentheses if there are any.  A single entry without a
    name is followed by a comma unless `#` is given. -/
def fmtTuple (alt : Bool) (name : Bytes) : List Bytes → Bytes
  | [] => name
  | x :: xs =>
    match alt with
    | true => name ++ [40, 10] ++ altEntries (x :: xs) ++ [41]
    | false => name ++ [40] ++ x ++ moreEntries xs ++ (if xs.isEmpty && name.isEmpty then [44] else []) ++ [41]

/-- `DebugList` (core), and so `Debug for [T]`. -/
def fmtList (alt : Bool) : List Bytes → Bytes
  | [] => [91, 93]
  | x :: xs =>
    match alt with
    | true => [91, 10] ++ altEntries (x :: xs) ++ [93]
    | false => [91] ++ x ++ moreEntries xs ++ [93]

mutual
/-- `Debug::fmt` of a reference to a value of GVariant type `t`, with flags.  `Bool` (lib.rs:1994-1998), numbers
    (core), `Str` (lib.rs:851-855), maybes (lib.rs:1721-1725, 1858-1862) and structures (generate_impl.rs:42-49)
    hand the formatter on; `Variant` (lib.rs:1152-1162) and `NonFixedWidthArray` (lib.rs:1431-1439) use `write!`
    with `{:?}`, whatever the flags. -/
def debugWith (F : FlagFmt) (P : CoreFmt) (c : Cfg) : Ty → Slice → Res Bytes
  | .B, s => .ok (F.bool (toBool s.bytes))
  | .Y, s => .ok (F.num .Y (fromNe c s.bytes))
  | .N, s => .ok (F.num .N (fromNe c s.bytes))
  | .Q, s => .ok (F.num .Q (fromNe c s.bytes))
  | .I, s => .ok (F.num .I (fromNe c s.bytes))
  | .U, s => .ok (F.num .U (fromNe c s.bytes))
  | .X, s => .ok (F.num .X (fromNe c s.bytes))
  | .T, s => .ok (F.num .T (fromNe c s.bytes))
  | .D, s => .ok (F.num .D (fromNe c s.bytes))
  | .S, s | .O, s | .G, s => .ok (F.str (toStr s.bytes))
  | .V, s => debug P c .V s
  | .A e, s =>
    match sizeOf e with
    | some _ => do
      let (n, _) ← rustLayout e
      let xs ← Res.traverse (debugWith F P c e) (sliceElems n s)
      pure (fmtList F.alt xs)
    | none => debug P c (.A e) s
  | .M e, s => do
    match ← toOption c e s with
    -- derived `Debug for Option` (core)
    | none => pure [78, 111, 110, 101]
    | some r => do
      let x ← debugWith F P c e r
      pure (fmtTuple F.alt [83, 111, 109, 101] [x])
  | .tuple ts, s => do
    let rs ← tupRefs c (.tuple ts) ts s
    let xs ← debugWithAll F P c ts rs
    match xs with
    -- `Debug for ()` (core) is `f.pad("()")`
    | [] => pure F.unit
    | xs => pure (fmtTuple F.alt [] xs)
  | .dict k v, s => do
    match ← tupRefs c (.dict k v) [k, v] s with
    | [rk, rv] => do
      let x ← debugWith F P c k rk
      let y ← debugWith F P c v rv
      pure (fmtTuple F.alt [] [x, y])
    | _ => .fail .explicit
/-- The same for each member of a structure. -/
def debugWithAll (F : FlagFmt) (P : CoreFmt) (c : Cfg) : List Ty → List Slice → Res (List Bytes)
  | t :: ts, r :: rs => do
    let x ← debugWith F P c t r
    let xs ← debugWithAll F P c ts rs
    pure (x :: xs)
  | [], [] => .ok []
  | _, _ => .fail .explicit
end

/-- Cast bytes to type `t` and print the result with flags. -/
def debugFlagsAs (F : FlagFmt) (P : CoreFmt) (c : Cfg) (t : Ty) (s : Slice) : Res Bytes := do
  let r ← fromAligned c t s
  debugWith F P c t r

/-- The same for an `Owned` (lib.rs:475-485), which hands the formatter on. -/
def debugFlagsOwned (F : FlagFmt) (P : CoreFmt) (c : Cfg) (t : Ty) (b : AlignedBuf) : Res Bytes := do
  let s ← b.deref c
  debugFlagsAs F P c t s

end GV
