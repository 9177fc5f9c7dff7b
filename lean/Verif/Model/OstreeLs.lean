import Verif.Model.Debug
/-
Model of the example program examples/ostree-ls/src/main.rs, also shown in README.md:29-59: what it writes
to standard output.  (Output before a panic is not represented, nor are I/O errors.)
-/
namespace GV

/-- `(say)` -/
def lsFileTy : Ty := .tuple [.S, .A .Y]
/-- `(sayay)` -/
def lsDirTy : Ty := .tuple [.S, .A .Y, .A .Y]
/-- `(a(say)a(sayay))` -/
def lsTy : Ty := .tuple [.A lsFileTy, .A lsDirTy]

/-- The digits `hex::encode` (crate hex) uses. -/
def hexChars : Bytes := [48, 49, 50, 51, 52, 53, 54, 55, 56, 57, 97, 98, 99, 100, 101, 102]

/-- `hex::encode` (crate hex): high digit, then low digit of each byte. -/
def hexEncode : Bytes → Res Bytes
  | [] => .ok []
  | b :: bs => do
    let hi ← Res.unwrap hexChars[(b >>> 4).toNat]?
    let lo ← Res.unwrap hexChars[(b &&& 0x0f).toNat]?
    let r ← hexEncode bs
    pure (hi :: lo :: r)

/-- The body of the first loop (main.rs:12-20). -/
def lsDir (c : Cfg) (r : Slice) : Res Bytes := do
  match ← tupRefs c lsDirTy [.S, .A .Y, .A .Y] r with
  | [name, tree, meta_] => do
    let t ← hexEncode tree.bytes
    let m ← hexEncode meta_.bytes
    pure (t ++ [32] ++ m ++ [32] ++ displayStr name ++ [47, 10])
  | _ => .fail .explicit

/-- The body of the second loop (main.rs:22-25). -/
def lsFile (c : Cfg) (r : Slice) : Res Bytes := do
  match ← tupRefs c lsFileTy [.S, .A .Y] r with
  | [name, sum] => do
    let x ← hexEncode sum.bytes
    pure (x ++ [32] ++ displayStr name ++ [10])
  | _ => .fail .explicit

/-- `for r in array { … }` (main.rs:12, 22): what the body prints in each round.  The fuel bounds the number of
    rounds. -/
def lsLoop (c : Cfg) (e : Ty) (body : Slice → Res Bytes) : Nat → ArrIter → Res Bytes
  | 0, _ => .fail .explicit
  | fuel + 1, it => do
    match ← iterNext c e it with
    | (none, _) => pure []
    | (some r, it') => do
      let x ← body r
      let xs ← lsLoop c e body fuel it'
      pure (x ++ xs)

/-- `ostree_ls` (main.rs:4-27) of a file with the bytes of `v`. -/
def ostreeLs (c : Cfg) (p : Places) (v : RVec) : Res Bytes := do
  let b ← AlignedBuf.fromVec c p.vecs v
  let s ← b.deref c
  let r ← fromAligned c lsTy s
  let o ← toOwned c p lsTy r
  let r ← o.borrow c lsTy
  match ← tupRefs c lsTy [.A lsFileTy, .A lsDirTy] r with
  | [files, dirs] => do
    let it ← intoIter c lsDirTy dirs
    let x ← lsLoop c lsDirTy (lsDir c) (it.offsets.length + 1) it
    let it ← intoIter c lsFileTy files
    let y ← lsLoop c lsFileTy (lsFile c) (it.offsets.length + 1) it
    pure (x ++ y)
  | _ => .fail .explicit

end GV
