import Verif.Model.Buf
/-
Specification vocabulary for offsets, slices and buffers.
-/
namespace GV.Spec

/-- `r` is the least multiple of `al` that is not below `i`. -/
def IsLeastMultiple (al i r : Nat) : Prop :=
  al ∣ r ∧ i ≤ r ∧ ∀ m, al ∣ m → i ≤ m → r ≤ m

/-- The half-open window `[lo, hi)` that a Rust range expression (or one side of a split, or a
    change of tag) denotes on a slice of length `len`. -/
def Selects (c : Cfg) (len : Nat) : SliceOp → Nat → Nat → Prop
  | .to b, lo, hi => lo = 0 ∧ hi = b
  | .toIncl b, lo, hi => lo = 0 ∧ hi = b + 1
  | .range a b, lo, hi => lo = a ∧ hi = b
  | .rangeIncl a b, lo, hi => lo = a ∧ hi = b + 1
  | .from_ a, lo, hi => lo = a ∧ hi = len
  | .full, lo, hi => lo = 0 ∧ hi = len
  | .aRange a b, lo, hi => a.eval c = .ok (some lo) ∧ b.eval c = .ok (some hi)
  | .aRangeIncl a b, lo, hi => a.eval c = .ok (some lo) ∧ ∃ e, b.eval c = .ok (some e) ∧ hi = e + 1
  | .aFrom a, lo, hi => a.eval c = .ok (some lo) ∧ hi = len
  | .splitFst mid, lo, hi => lo = 0 ∧ hi = mid
  | .splitSnd mid, lo, hi => lo = mid ∧ hi = len
  | .narrow _, lo, hi => lo = 0 ∧ hi = len

/-- The bytes at positions `lo`, …, `hi - 1`. -/
def sub (b : Bytes) (lo hi : Nat) : Bytes := (b.take hi).drop lo

/-- One thing done to a byte vector. -/
inductive VecOp
  /-- `with_vec(f)`: `f` turns the contents into `g contents`; whether it then returns or unwinds makes
      no difference to the contents -/
  | callback (g : Bytes → Bytes)
  /-- `v[i] = x` -/
  | set (i : Nat) (x : UInt8)
  /-- convert to `Vec<u8>` and back -/
  | convert

/-- What a plain `Vec<u8>` with these contents holds afterwards; `none` if the operation panics. -/
def VecOp.onBytes (b : Bytes) : VecOp → Option Bytes
  | .callback g => some (g b)
  | .set i x => if i < b.length then some (b.set i x) else none
  | .convert => some b

/-- A history on a plain `Vec<u8>`. -/
def runBytes : Bytes → List VecOp → Option Bytes
  | b, [] => some b
  | b, op :: ops => (op.onBytes b).bind (runBytes · ops)

end GV.Spec

namespace GV

/-- Everything the environment decides during one operation: what the allocator answers, and where
    and how large the vec is that a `with_vec` callback leaves behind. -/
structure Env where
  alloc : Alloc
  place : Bytes → Nat × Nat

/-- One history step on the modelled `AlignedBuf` (gvariant/src/buf.rs:54-70, 118-129, 143-153). -/
def bufStep (c : Cfg) (e : Env) (b : AlignedBuf) : Spec.VecOp → Res AlignedBuf
  | .callback g => b.withVec c e.alloc fun v =>
      ⟨(e.place (g v.bytes)).1, (e.place (g v.bytes)).2, g v.bytes⟩
  | .set i x => b.setAt c i x
  | .convert => do
    let v ← b.intoVec c
    AlignedBuf.fromVec c e.alloc v

/-- A history on the modelled `AlignedBuf`. -/
def bufRun (c : Cfg) : AlignedBuf → List (Env × Spec.VecOp) → Res AlignedBuf
  | b, [] => .ok b
  | b, (e, op) :: ops => do
    let b' ← bufStep c e b op
    bufRun c b' ops

end GV
