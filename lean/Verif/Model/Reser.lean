import Verif.Model.Ser
/-
Serializing what was read: which source each read value is for the serializer.
-/
namespace GV

mutual
/-- The source that serializing a reference to a value of type `t` amounts to: numbers by value
    (gvariant/src/lib.rs:677-689), `&Bool` (lib.rs:2023-2028), `&Str`, `&Variant` themselves, arrays by iterating
    (lib.rs:1315-1326, 1624-1640), maybes by `to_option` (lib.rs:1811-1818, 1914-1920, 1945-1960).
    (`&MaybeFixedSize` has an impl for numbers only; for other contents the user passes `&to_option()`.)
    Structures have no impl of their own: the user passes `&to_tuple()` (generate_impl.rs:232, 507), and
    a vec of such tuples for an array of structures. -/
def source (c : Cfg) : Ty → Slice → Res Src
  | .B, s => .ok (.boolRef (s.bytes.headD 0))
  | .Y, s | .N, s | .Q, s | .I, s | .U, s | .X, s | .T, s | .D, s => .ok (.num (fromNe c s.bytes))
  | .S, s | .O, s | .G, s => .ok (.strRef s.bytes)
  | .V, s => .ok (.variantRef s.addr s.bytes)
  | .A e, s => do
    let rs ← arrRefs c e s
    let xs ← Res.traverse (source c e) rs
    pure (.seq xs)
  | .M e, s => do
    match ← toOption c e s with
    | none => pure .nothing
    | some r => do
      let x ← source c e r
      pure (.just x)
  | .tuple ts, s => do
    let rs ← tupRefs c (.tuple ts) ts s
    let xs ← sourceAll c ts rs
    pure (.tup xs)
  | .dict k v, s => do
    let rs ← tupRefs c (.dict k v) [k, v] s
    match rs with
    | [rk, rv] => do
      let x ← source c k rk
      let y ← source c v rv
      pure (.tup [x, y])
    | _ => .fail .explicit
/-- The same for each member of a structure. -/
def sourceAll (c : Cfg) : List Ty → List Slice → Res (List Src)
  | t :: ts, r :: rs => do
    let x ← source c t r
    let xs ← sourceAll c ts rs
    pure (x :: xs)
  | [], [] => .ok []
  | _, _ => .fail .explicit
end

/-- Cast bytes to type `t` and serialize the result. -/
def reserialize (c : Cfg) (t : Ty) (s : Slice) : Res Bytes := do
  let r ← fromAligned c t s
  let x ← source c t r
  serializeToVec c t x

end GV
