import Verif.Model.Deser
import Verif.Spec.Path
/-
A program that goes straight to one part of a value by a path known when it is run or compiled.
-/
namespace GV
open Spec (Step)

/-- Going from a reference to a value of type `t` to a part of it: `a[i]` (lib.rs:1602-1621 for arrays of
    variable-width elements, core for Rust slices), `to_option` (lib.rs:1731-1748, 1875-1891), `to_tuple`
    and one member of it (generate_impl.rs:220-226, 479-483), `get` (lib.rs:1180-1190).  `none`: there is a
    `None` on the way (or, where types do not fit the path, the program would not compile). -/
def walk (c : Cfg) : Ty → Slice → List Step → Res (Option (Ty × Slice))
  | t, s, [] => .ok (some (t, s))
  | .A e, s, .elem i :: p =>
    match sizeOf e with
    | none => do
      let r ← arrIndex c e s i
      walk c e r p
    | some _ => do
      let (n, _) ← rustLayout e
      match (sliceElems n s)[i]? with
      | some r => walk c e r p
      | none => .fail .bounds
  | .M e, s, .content :: p => do
    match ← toOption c e s with
    | some r => walk c e r p
    | none => pure none
  | .tuple ts, s, .member i :: p => do
    let rs ← tupRefs c (.tuple ts) ts s
    match ts[i]?, rs[i]? with
    | some t, some r => walk c t r p
    | _, _ => pure none
  | .dict k v, s, .member i :: p => do
    let rs ← tupRefs c (.dict k v) [k, v] s
    match [k, v][i]?, rs[i]? with
    | some t, some r => walk c t r p
    | _, _ => pure none
  | .V, s, .inside u :: p => do
    match ← variantGet c u s with
    | some r => walk c u r p
    | none => pure none
  | _, _, _ :: _ => .ok none

/-- Casting bytes to type `t`, then going to a part. -/
def walkFrom (c : Cfg) (t : Ty) (s : Slice) (p : List Step) : Res (Option (Ty × Slice)) := do
  let r ← fromAligned c t s
  walk c t r p

end GV
