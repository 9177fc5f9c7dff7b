/-
Base vocabulary of the model: bytes, faults, 64-bit `usize` arithmetic, build configuration.
-/
namespace GV

/-- A Rust byte slice's contents (`[u8]`). -/
abbrev Bytes := List UInt8

/-- Ways in which running the code can go wrong.  All but `ub` are Rust panics. -/
inductive Fault
  /-- arithmetic overflow panic (only with `overflow-checks`) -/
  | overflow
  /-- slice index out of bounds panic -/
  | bounds
  /-- `unwrap()`/`expect()` on an error -/
  | unwrap
  /-- failed `debug_assert!` -/
  | debugAssert
  /-- explicit `panic!()` -/
  | explicit
  /-- `todo!()` -/
  | todo
  /-- undefined behaviour: creation of a misaligned reference through `unsafe` code -/
  | ub
deriving DecidableEq, Repr

/-- Result of running Rust code: a value or a fault. -/
inductive Res (α : Type) where
  | ok (a : α)
  | fail (f : Fault)
deriving DecidableEq, Repr

namespace Res
/-- Sequencing: a fault aborts. -/
def bind {α β : Type} (x : Res α) (f : α → Res β) : Res β :=
  match x with
  | ok a => f a
  | fail e => fail e

instance : Monad Res where
  pure := Res.ok
  bind := Res.bind

@[simp] theorem pure_eq {α : Type} (a : α) : (pure a : Res α) = .ok a := rfl
@[simp] theorem bind_ok {α β : Type} (a : α) (f : α → Res β) : (Res.ok a >>= f) = f a := rfl
@[simp] theorem bind_fail {α β : Type} (e : Fault) (f : α → Res β) :
    ((Res.fail e : Res α) >>= f) = .fail e := rfl
@[simp] theorem map_ok {α β : Type} (a : α) (f : α → β) : (f <$> Res.ok a) = .ok (f a) := rfl
@[simp] theorem map_fail {α β : Type} (e : Fault) (f : α → β) :
    (f <$> (Res.fail e : Res α)) = .fail e := rfl

theorem bind_eq_ok {α β : Type} {x : Res α} {f : α → Res β} {b : β} :
    (x >>= f) = .ok b ↔ ∃ a, x = .ok a ∧ f a = .ok b := by
  cases x <;> simp

theorem bind_eq_fail {α β : Type} {x : Res α} {f : α → Res β} {e : Fault} :
    (x >>= f) = .fail e ↔ x = .fail e ∨ ∃ a, x = .ok a ∧ f a = .fail e := by
  cases x <;> simp

/-- `x` does not fault. -/
def isOk {α : Type} : Res α → Bool
  | ok _ => true
  | fail _ => false

/-- `Option::unwrap` / `Result::unwrap`. -/
def unwrap {α : Type} : Option α → Res α
  | some a => ok a
  | none => fail .unwrap

@[simp] theorem unwrap_some {α : Type} (a : α) : unwrap (some a) = .ok a := rfl
@[simp] theorem unwrap_none {α : Type} : unwrap (none : Option α) = .fail .unwrap := rfl

/-- Run a fallible function over a list, in order. -/
def traverse {α β : Type} (f : α → Res β) : List α → Res (List β)
  | [] => .ok []
  | a :: as => do
    let b ← f a
    let bs ← traverse f as
    pure (b :: bs)
end Res

/-- Build configuration and link-time facts.  Theorems quantify over all of them. -/
structure Cfg where
  /-- `overflow-checks` (on in debug builds): arithmetic overflow panics instead of wrapping -/
  overflowChecks : Bool
  /-- `debug_assertions` (on in debug builds) -/
  debugAssertions : Bool
  /-- target endianness, for `to_ne_bytes` and in-place reads -/
  bigEndian : Bool
  /-- address of the eight-space literal in `empty_aligned`
      (gvariant/src/aligned_bytes.rs:605-607) -/
  spacesAddr : Nat
  /-- the compiler places a static default value of alignment `al` at address `staticIdx * al` -/
  staticIdx : Nat

/-- Number of values of a `usize`.  Only 64-bit targets compile: `offset_size`
    (gvariant/src/lib.rs:1378) has a 64-bit pattern literal of type `usize`. -/
abbrev usizeMod : Nat := 18446744073709551616

/-- `a + b` on `usize`: panics or wraps on overflow according to the build mode. -/
def uadd (c : Cfg) (a b : Nat) : Res Nat :=
  if a + b < usizeMod then .ok (a + b)
  else if c.overflowChecks then .fail .overflow
  else .ok ((a + b) % usizeMod)

/-- `a * b` on `usize`. -/
def umul (c : Cfg) (a b : Nat) : Res Nat :=
  if a * b < usizeMod then .ok (a * b)
  else if c.overflowChecks then .fail .overflow
  else .ok ((a * b) % usizeMod)

/-- `a - b` on `usize`. -/
def usub (c : Cfg) (a b : Nat) : Res Nat :=
  if b ≤ a then .ok (a - b)
  else if c.overflowChecks then .fail .overflow
  else .ok ((a + usizeMod - b) % usizeMod)

/-- `usize::checked_sub`. -/
def checkedSub (a b : Nat) : Option Nat := if b ≤ a then some (a - b) else none

/-- `x & !y` on unsigned integers, written as `x ^ (x & y)` so that it is width-independent and
    reduces in the kernel; `andNot_testBit` states that it is `x & !y` bit by bit. -/
def andNot (x y : Nat) : Nat := x ^^^ (x &&& y)

theorem andNot_testBit (x y i : Nat) :
    (andNot x y).testBit i = (x.testBit i && !y.testBit i) := by
  simp only [andNot, Nat.testBit_xor, Nat.testBit_and]
  cases x.testBit i <;> cases y.testBit i <;> rfl

/-- `0usize.wrapping_sub(n)`, i.e. `n.wrapping_neg()`. -/
def uneg (n : Nat) : Nat := (usizeMod - n % usizeMod) % usizeMod

theorem uadd_ok {c : Cfg} {a b : Nat} (h : a + b < usizeMod) : uadd c a b = .ok (a + b) := by
  simp [uadd, h]
theorem umul_ok {c : Cfg} {a b : Nat} (h : a * b < usizeMod) : umul c a b = .ok (a * b) := by
  simp [umul, h]
theorem usub_ok {c : Cfg} {a b : Nat} (h : b ≤ a) : usub c a b = .ok (a - b) := by
  simp [usub, h]

end GV
