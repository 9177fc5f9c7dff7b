import Verif.Model.Deser
/-
A program that goes from variants to the variants in them.
-/
namespace GV

/-- The number of variants that this program comes upon (it is the program that one would write):

    fn count(v: &Variant) -> usize {
        1 + match v.get(gv!("av")) { Some(a) => a.iter().map(count).sum(), None => 0 }
    }

    with `get` (lib.rs:1180-1191), `iter` (lib.rs:1485-1487) and `next` (lib.rs:1573-1598).
    `fuel` is how deep the program may call itself; where it is used up the result is a failure (`c92_ends`
    shows that this does not happen).  Simplifications: the references of one array are collected before the
    program goes into the first, and the sum is a natural number (a `usize` could overflow). -/
def descend (c : Cfg) : Nat → Slice → Res Nat
  | 0, _ => .fail .explicit
  | fuel + 1, s => do
    match ← variantGet c (.A .V) s with
    | none => pure 1
    | some a =>
      let rs ← arrRefs c .V a
      let ns ← Res.traverse (descend c fuel) rs
      pure (1 + ns.sum)

end GV
