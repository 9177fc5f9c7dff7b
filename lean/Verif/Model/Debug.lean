import Verif.Model.Owned
import Verif.Spec.Print
/-
Model of printing: the `Debug` and `Display` implementations of gvariant/src/lib.rs and of the generated
structures.  Only `{:?}` and `{}` without flags; the formatter is one that never fails, such as `format!`'s.
-/
namespace GV

/-- `Debug for DisplayUtf8Lossy` (lib.rs:893-906), with and without the feature `alloc`. -/
def lossyDebug (P : CoreFmt) (b : Bytes) : Bytes :=
  match P.alloc with
  | true => P.str (P.lossy b)
  | false => match utf8Valid b with
    | true => P.str b
    | false =>
      [60, 69, 114, 114, 111, 114, 58, 32, 73, 110, 118, 97, 108, 105, 100, 32, 85, 116, 102, 45, 56, 62]

/-- The entries of `debug_list` and `debug_tuple` (core) after the first one: each preceded by `, `. -/
def moreEntries : List Bytes → Bytes
  | [] => []
  | x :: xs => [44, 32] ++ x ++ moreEntries xs

/-- `Debug for [T]` (core) from the printed elements. -/
def debugList : List Bytes → Bytes
  | [] => [91, 93]
  | x :: xs => [91] ++ x ++ moreEntries xs ++ [93]

/-- `Debug` for tuples (core) from the printed members: `()`, `(a,)`, `(a, b)`. -/
def debugTuple : List Bytes → Bytes
  | [] => [40, 41]
  | x :: xs => [40] ++ x ++ moreEntries xs ++ (if xs.isEmpty then [44] else []) ++ [41]

/-- The loop of `Debug for NonFixedWidthArray` (lib.rs:1434-1436), which prints each element before it
    asks for the next.  The fuel bounds the number of rounds. -/
def debugLoop (c : Cfg) (e : Ty) (f : Slice → Res Bytes) : Nat → ArrIter → Res Bytes
  | 0, _ => .fail .explicit
  | fuel + 1, it => do
    match ← iterNext c e it with
    | (none, _) => pure []
    | (some r, it') => do
      let x ← f r
      let xs ← debugLoop c e f fuel it'
      pure (x ++ [44, 32] ++ xs)

mutual
/-- `{:?}` of a reference to a value of GVariant type `t`: `Bool` (lib.rs:1994-1998), numbers (core), `Str`
    (lib.rs:851-855), `Variant` (lib.rs:1152-1162), `[T]` (core), `NonFixedWidthArray` (lib.rs:1431-1439),
    maybes (lib.rs:1721-1725, 1858-1862), structures (generate_impl.rs:42-49). -/
def debug (P : CoreFmt) (c : Cfg) : Ty → Slice → Res Bytes
  | .B, s => .ok (if toBool s.bytes then [116, 114, 117, 101] else [102, 97, 108, 115, 101])
  | .Y, s => .ok (P.num .Y (fromNe c s.bytes))
  | .N, s => .ok (P.num .N (fromNe c s.bytes))
  | .Q, s => .ok (P.num .Q (fromNe c s.bytes))
  | .I, s => .ok (P.num .I (fromNe c s.bytes))
  | .U, s => .ok (P.num .U (fromNe c s.bytes))
  | .X, s => .ok (P.num .X (fromNe c s.bytes))
  | .T, s => .ok (P.num .T (fromNe c s.bytes))
  | .D, s => .ok (P.num .D (fromNe c s.bytes))
  | .S, s | .O, s | .G, s => .ok (P.str (toStr s.bytes))
  | .V, s => do
    let (ty, data) ← split c s
    pure ([86, 97, 114, 105, 97, 110, 116, 32, 123, 32, 116, 121, 112, 101, 58, 32] ++ lossyDebug P ty ++
      [44, 32, 100, 97, 116, 97, 58, 32] ++ debugList (data.bytes.map fun x => P.num .Y x.toNat) ++ [32, 125])
  | .A e, s =>
    match sizeOf e with
    | some _ => do
      let (n, _) ← rustLayout e
      let xs ← Res.traverse (debug P c e) (sliceElems n s)
      pure (debugList xs)
    | none => do
      let it ← intoIter c e s
      let x ← debugLoop c e (debug P c e) (it.offsets.length + 1) it
      pure ([91] ++ x ++ [93])
  | .M e, s => do
    match ← toOption c e s with
    | none => pure [78, 111, 110, 101]
    | some r => do
      let x ← debug P c e r
      pure ([83, 111, 109, 101, 40] ++ x ++ [41])
  | .tuple ts, s => do
    let rs ← tupRefs c (.tuple ts) ts s
    let xs ← debugAll P c ts rs
    pure (debugTuple xs)
  | .dict k v, s => do
    match ← tupRefs c (.dict k v) [k, v] s with
    | [rk, rv] => do
      let x ← debug P c k rk
      let y ← debug P c v rv
      pure (debugTuple [x, y])
    | _ => .fail .explicit
/-- `{:?}` of each member of a structure. -/
def debugAll (P : CoreFmt) (c : Cfg) : List Ty → List Slice → Res (List Bytes)
  | t :: ts, r :: rs => do
    let x ← debug P c t r
    let xs ← debugAll P c ts rs
    pure (x :: xs)
  | [], [] => .ok []
  | _, _ => .fail .explicit
end

/-- Cast bytes to type `t` and print the result with `{:?}`. -/
def debugAs (P : CoreFmt) (c : Cfg) (t : Ty) (s : Slice) : Res Bytes := do
  let r ← fromAligned c t s
  debug P c t r

/-- `Display for Str` (lib.rs:846-850). -/
def displayStr (s : Slice) : Bytes := toStr s.bytes

/-- `Display for GString` (lib.rs:1021-1026). -/
def GString.display (c : Cfg) (g : GString) : Res Bytes := g.asStr c

/-- `Debug for GString` (lib.rs:1027-1032). -/
def GString.debug (P : CoreFmt) (c : Cfg) (g : GString) : Res Bytes := do
  let b ← g.asStr c
  pure (P.str b)

/-- `Debug for Owned` (lib.rs:475-479). -/
def debugOwned (P : CoreFmt) (c : Cfg) (t : Ty) (b : AlignedBuf) : Res Bytes := do
  let s ← b.deref c
  let r ← fromAligned c t s
  debug P c t r

/-- `Display for Owned` (lib.rs:481-485).  All that is known of the content is `T: Cast`, which includes
    `Debug` but not `Display` (lib.rs:631-633), so `self.deref().fmt(f)` is `Debug::fmt`. -/
def displayOwned (P : CoreFmt) (c : Cfg) (t : Ty) (b : AlignedBuf) : Res Bytes := do
  let s ← b.deref c
  let r ← fromAligned c t s
  debug P c t r

end GV
