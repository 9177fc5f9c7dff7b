import Verif.Model.Debug
import Verif.Model.Eq
import Verif.Model.Reser
import Verif.Spec.Client
/-
A program that reads values through the interface of the crate, call by call: which function each call
runs on the references and iterators the program holds.
-/
namespace GV
open Spec (Op Obs Client)

/-- What a program holds: a reference to a value of type `t`, an iterator over a `NonFixedWidthArray`, or an
    iterator over a Rust slice, which is what it has yet to yield (core). -/
inductive Held
  | ref (t : Ty) (s : Slice)
  | iter (e : Ty) (it : ArrIter)
  | items (e : Ty) (rs : List Slice)

/-- `to_bool` (gvariant/src/lib.rs:1975-1977), the number behind a reference (core), `to_str`
    (lib.rs:758-766), `split` (lib.rs:1208-1219). -/
def lookAt (c : Cfg) : Ty → Slice → Res Obs
  | .B, s => .ok (.bool (toBool s.bytes))
  | .Y, s | .N, s | .Q, s | .I, s | .U, s | .X, s | .T, s | .D, s => .ok (.num (fromNe c s.bytes))
  | .S, s | .O, s | .G, s => .ok (.bytes (toStr s.bytes))
  | .V, s => do
    let (ty, data) ← split c s
    pure (.variant ty data.bytes)
  | _, _ => .ok .wrong

/-- `len` of a `NonFixedWidthArray` (lib.rs:1469-1479) or of a Rust slice (core). -/
def lenAt (c : Cfg) (e : Ty) (s : Slice) : Res Nat :=
  match sizeOf e with
  | none => arrLen c s
  | some _ => do
    let (n, _) ← rustLayout e
    pure (sliceElems n s).length

/-- `a[i]` of a `NonFixedWidthArray` (lib.rs:1600-1622) or of a Rust slice (core). -/
def indexAt (c : Cfg) (e : Ty) (s : Slice) (i : Nat) : Res Slice :=
  match sizeOf e with
  | none => arrIndex c e s i
  | some _ => do
    let (n, _) ← rustLayout e
    match (sliceElems n s)[i]? with
    | some r => pure r
    | none => .fail .bounds

/-- `first` of a `NonFixedWidthArray` (lib.rs:1489-1495) or of a Rust slice (core). -/
def firstAt (c : Cfg) (e : Ty) (s : Slice) : Res (Option Slice) :=
  match sizeOf e with
  | none => arrFirst c e s
  | some _ => do
    let (n, _) ← rustLayout e
    pure (sliceElems n s).head?

/-- `last` of a `NonFixedWidthArray` (lib.rs:1497-1503) or of a Rust slice (core). -/
def lastAt (c : Cfg) (e : Ty) (s : Slice) : Res (Option Slice) :=
  match sizeOf e with
  | none => arrLast c e s
  | some _ => do
    let (n, _) ← rustLayout e
    pure (sliceElems n s).getLast?

/-- `iter` of a `NonFixedWidthArray` (lib.rs:1485-1487, 1588-1598) or of a Rust slice (core). -/
def iterAt (c : Cfg) (e : Ty) (s : Slice) : Res Held :=
  match sizeOf e with
  | none => do
    let it ← intoIter c e s
    pure (.iter e it)
  | some _ => do
    let (n, _) ← rustLayout e
    pure (.items e (sliceElems n s))

/-- A call that returns an `Option` of a reference. -/
def gotOption (hs : List Held) (t : Ty) : Option Slice → Obs × List Held
  | some r => (.got, hs ++ [.ref t r])
  | none => (.none, hs)

/-- One call.  `P` is how the standard library prints; `p` is where copies end up. -/
def callStep (c : Cfg) (P : CoreFmt) (p : Places) (hs : List Held) : Op → Res (Obs × List Held)
  | .look h =>
    match hs[h]? with
    | some (.ref t s) => do
      let o ← lookAt c t s
      pure (o, hs)
    | _ => .ok (.wrong, hs)
  | .len h =>
    match hs[h]? with
    | some (.ref (.A e) s) => do
      let n ← lenAt c e s
      pure (.count n, hs)
    | some (.iter _ it) => do
      let n ← sizeHint c it
      pure (.count n, hs)
    | some (.items _ rs) => .ok (.count rs.length, hs)
    | _ => .ok (.wrong, hs)
  | .index h i =>
    match hs[h]? with
    | some (.ref (.A e) s) => do
      let r ← indexAt c e s i
      pure (.got, hs ++ [.ref e r])
    | _ => .ok (.wrong, hs)
  | .first h =>
    match hs[h]? with
    | some (.ref (.A e) s) => do
      let o ← firstAt c e s
      pure (gotOption hs e o)
    | _ => .ok (.wrong, hs)
  | .last h =>
    match hs[h]? with
    | some (.ref (.A e) s) => do
      let o ← lastAt c e s
      pure (gotOption hs e o)
    | _ => .ok (.wrong, hs)
  | .iter h =>
    match hs[h]? with
    | some (.ref (.A e) s) => do
      let x ← iterAt c e s
      pure (.got, hs ++ [x])
    | _ => .ok (.wrong, hs)
  | .next h =>
    match hs[h]? with
    | some (.iter e it) => do
      let (o, it') ← iterNext c e it
      pure (gotOption (hs.set h (.iter e it')) e o)
    | some (.items e (r :: rs)) => .ok (.got, hs.set h (.items e rs) ++ [.ref e r])
    | some (.items _ []) => .ok (.none, hs)
    | _ => .ok (.wrong, hs)
  | .option h =>
    match hs[h]? with
    | some (.ref (.M e) s) => do
      let o ← toOption c e s
      pure (gotOption hs e o)
    | _ => .ok (.wrong, hs)
  | .members h =>
    match hs[h]? with
    | some (.ref (.tuple ts) s) => do
      let rs ← tupRefs c (.tuple ts) ts s
      pure (.got, hs ++ ts.zipWith .ref rs)
    | some (.ref (.dict k v) s) => do
      let rs ← tupRefs c (.dict k v) [k, v] s
      pure (.got, hs ++ [k, v].zipWith .ref rs)
    | _ => .ok (.wrong, hs)
  | .get h u =>
    match hs[h]? with
    | some (.ref .V s) => do
      let o ← variantGet c u s
      pure (gotOption hs u o)
    | _ => .ok (.wrong, hs)
  | .eq h k =>
    match hs[h]?, hs[k]? with
    | some (.ref t a), some (.ref t' b) =>
      if t = t' then do
        let x ← veq c t a b
        pure (.bool x, hs)
      else .ok (.wrong, hs)
    | _, _ => .ok (.wrong, hs)
  | .order h k =>
    match hs[h]?, hs[k]? with
    | some (.ref (.M e) a), some (.ref (.M e') b) =>
      if e = e' ∧ (Spec.numWidth e).isSome then do
        let x ← maybeCmp c e a b
        pure (.order x, hs)
      else .ok (.wrong, hs)
    | _, _ => .ok (.wrong, hs)
  | .print h =>
    match hs[h]? with
    | some (.ref t s) => do
      let x ← debug P c t s
      pure (.bytes x, hs)
    | _ => .ok (.wrong, hs)
  | .write h =>
    match hs[h]? with
    | some (.ref t s) => do
      let x ← source c t s
      let b ← serializeToVec c t x
      pure (.bytes b, hs)
    | _ => .ok (.wrong, hs)
  | .copy h =>
    match hs[h]? with
    | some (.ref t s) => do
      let o ← toOwned c p t s
      let r ← o.borrow c t
      pure (.got, hs ++ [.ref t r])
    | _ => .ok (.wrong, hs)

/-- What a program sees in at most `n` calls; a panic ends it.  Where copies end up may differ each time. -/
def runClient (c : Cfg) (P : CoreFmt) (places : Nat → Places) (client : Client) :
    Nat → List Held → List Obs → List Obs
  | 0, _, tr => tr
  | n + 1, hs, tr =>
    match client tr with
    | none => tr
    | some op =>
      match callStep c P (places n) hs op with
      | .ok (o, hs') => runClient c P places client n hs' (tr ++ [o])
      | .fail _ => tr ++ [.panic]

/-- Cast each of some byte strings to a type; references to the results are what the program holds first. -/
def openAll (c : Cfg) : List (Ty × Slice) → Res (List Held)
  | [] => .ok []
  | (t, s) :: ds => do
    let r ← fromAligned c t s
    let hs ← openAll c ds
    pure (.ref t r :: hs)

end GV
