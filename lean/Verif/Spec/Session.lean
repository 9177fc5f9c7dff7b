import Verif.Model.Session
import Verif.Proofs.Reach
import Verif.Spec.Client
import Verif.Spec.Update
/-
Specification vocabulary for programs that own buffers and borrow from them.
-/
namespace GV.Spec

/-- The allocator answers with memory that can exist, and copies are put where Rust puts them. -/
def ProperPlace (p : Places) : Prop := p.vecs.Valid ∧ 8 ∣ p.addr

/-- The alignment in the type of what slicing steps give. -/
def lastTag : Nat → List SliceOp → Nat
  | al, [] => al
  | al, op :: ops => lastTag (op.tag al) ops

/-- Slicing a buffer by these steps, and casting the part to a `t`, compiles. -/
def ProperSlices (ops : List SliceOp) (t : Ty) : Prop := typedSlices 8 ops ∧ align t ∣ lastTag 8 ops

/-- The vecs of the program can exist, its bytes are of at most 2^62, its types are such as `gv!` takes, its
    slicing compiles, and what it assigns is of the type of what it assigns to. -/
def ProperAct : Act → Prop
  | .make v => v.Valid
  | .lend s => s.len ≤ 2 ^ 62
  | .alter _ f => ∀ v, v.Valid → (f v).Valid
  | .cast _ t | .settle _ t | .read (.get _ t) => Expands t ∧ Small t
  | .part _ ops t => (Expands t ∧ Small t) ∧ ProperSlices ops t
  | .store _ ops t path x => (Expands t ∧ Small t) ∧ ProperSlices ops t ∧ (size t).isSome ∧
      ∃ u, typeAt t path = some u ∧ size u = some x.length
  | _ => True

/-- What a program has to take care of, though the compiler does not: an empty buffer, and bytes from elsewhere
    that are not aligned, are not to be cast to a type that is to be aligned (unless it is of a fixed size, if
    there are no bytes); and an empty value that is copied to a buffer must not be of such a type. -/
def Careful (c : Cfg) (σ : Session) : Act → Prop
  | .cast i t =>
    (∀ b m, σ.cells[i]? = some (some (.buffer b)) → b.deref c = .ok m →
      m.bytes ≠ [] ∨ align t = 1 ∨ (size t).isSome) ∧
    ∀ s, σ.cells[i]? = some (some (.lent s)) → align t ∣ s.addr ∨ s.bytes = [] ∧ (size t).isSome
  | .part i _ t =>
    ∀ b m, σ.cells[i]? = some (some (.buffer b)) → b.deref c = .ok m → m.bytes ≠ [] ∨ align t = 1 ∨ (size t).isSome
  | .settle i t =>
    ∀ s, σ.cells[i]? = some (some (.lent s)) → s.bytes ≠ [] ∨ align t ∣ s.addr ∨ (size t).isSome
  | .read (.copy h) =>
    ∀ k t r, σ.held[h]? = some (some (k, .ref t r)) → plainCopy t = true ∨ r.bytes ≠ [] ∨ align t = 1
  | _ => True

/-- The states that programs can reach by steps that are `ok`. -/
inductive Reaches (c : Cfg) (P : CoreFmt) (ok : Session → Act → Prop) : Session → Prop
  | start : Reaches c P ok ⟨[], []⟩
  | step {σ σ' : Session} (p : Places) (a : Act) (o : Obs) : Reaches c P ok σ → ProperPlace p → ProperAct a → ok σ a →
      act c P p σ a = .ok (o, σ') → Reaches c P ok σ'

/-! ### Programs that see bytes and values only -/

/-- What a program owns, without memory: the bytes of a buffer, bytes from elsewhere, an owned copy, and what
    `copy_to_align` of some bytes from elsewhere returned. -/
inductive Box
  | bytes (b : Bytes)
  | lent (b : Bytes)
  | copy
  | cow (i : Nat)

def Box.parent : Box → Option Nat
  | .cow i => some i
  | _ => none

/-- What a program has, without memory. -/
structure World where
  boxes : List (Option Box)
  seen : List (Option (Nat × Seen))

/-- What a program can do, without memory: as `Act`, but buffers are just bytes. -/
inductive Deed
  | make (b : Bytes)
  | lend (b : Bytes)
  | alter (i : Nat) (g : Bytes → Bytes)
  | poke (i j : Nat) (x : UInt8)
  /-- assign to a member, or the whole, of the value of type `t` that the `n` bytes at `lo` are -/
  | store (i lo n : Nat) (t : Ty) (path : List Nat) (x : Bytes)
  | peek (i : Nat)
  | free (i : Nat)
  | unwrap (i : Nat)
  | cast (i : Nat) (t : Ty)
  /-- cast the `n` bytes at `lo` -/
  | part (i lo n : Nat) (t : Ty)
  | settle (i : Nat) (t : Ty)
  | read (op : Op)

/-- The types that a step names are such as `gv!` takes, offsets are `usize`s, and what is assigned is of the type of
    what it is assigned to. -/
def ProperDeed : Deed → Prop
  | .cast _ t | .settle _ t | .read (.get _ t) => Expands t ∧ Small t
  | .part _ lo _ t => (Expands t ∧ Small t) ∧ lo < usizeMod
  | .store _ lo _ t path x => (Expands t ∧ Small t) ∧ lo < usizeMod ∧ (size t).isSome ∧
      ∃ u, typeAt t path = some u ∧ size u = some x.length
  | _ => True

/-- How a step ends. -/
inductive Ended
  | went (o : Obs) (ω : World)
  | panicked
  | unknown

/-- Bytes can be cast wherever they are put. -/
def Castable (b : Bytes) (t : Ty) : Prop := b ≠ [] ∨ align t = 1 ∨ (size t).isSome

instance (b : Bytes) (t : Ty) : Decidable (Castable b t) := inferInstanceAs (Decidable (_ ∨ _ ∨ _))

/-- One step, in terms of bytes and values.  Unknown are: buffers of more than 2^62 bytes, casts that are not
    `Castable`, casts of bytes from elsewhere whose address matters, bytes that cannot be read as a whole, and
    what `call` does not know. -/
noncomputable def deed (rd : Ty → Bytes → Option Val) (E : Enc) (P : CoreFmt) (ω : World) : Deed → Ended
  | .make b => if b.length ≤ 2 ^ 62 then .went .none { ω with boxes := ω.boxes ++ [some (.bytes b)] } else .unknown
  | .lend b => if b.length ≤ 2 ^ 62 then .went .none { ω with boxes := ω.boxes ++ [some (.lent b)] } else .unknown
  | .alter i g =>
    match ω.boxes[i]? with
    | some (some (.bytes b)) =>
      if (g b).length ≤ 2 ^ 62 then .went .none ⟨ω.boxes.set i (some (.bytes (g b))), kill i ω.seen⟩ else .unknown
    | _ => .went .wrong ω
  | .poke i j x =>
    match ω.boxes[i]? with
    | some (some (.bytes b)) =>
      if j < b.length then .went .none ⟨ω.boxes.set i (some (.bytes (b.set j x))), kill i ω.seen⟩ else .panicked
    | _ => .went .wrong ω
  | .store i lo n t path x =>
    match ω.boxes[i]? with
    | some (some (.bytes b)) =>
      if align t ∣ lo ∧ lo + n ≤ b.length then
        if size t ≠ some n then .went (.bool false) { ω with seen := kill i ω.seen }
        else .went (.bool true) ⟨ω.boxes.set i (some (.bytes (overlay b (lo + startAt t path) x))), kill i ω.seen⟩
      else .panicked
    | _ => .went .wrong ω
  | .peek i =>
    match ω.boxes[i]? with
    | some (some (.bytes b)) | some (some (.lent b)) => .went (.bytes b) ω
    | _ => .went .wrong ω
  | .free i =>
    let boxes := shut Box.parent i ω.boxes
    .went .none ⟨boxes, prune boxes ω.seen⟩
  | .unwrap i =>
    match ω.boxes[i]? with
    | some (some (.bytes b)) =>
      let boxes := shut Box.parent i ω.boxes
      .went (.bytes b) ⟨boxes, prune boxes ω.seen⟩
    | _ => .went .wrong ω
  | .cast i t =>
    match ω.boxes[i]? with
    | some (some (.bytes b)) =>
      if Castable b t then
        match rd t b with
        | some v => .went .got { ω with seen := ω.seen ++ [some (i, .val t v)] }
        | none => .unknown
      else .unknown
    | some (some (.lent b)) =>
      if align t = 1 ∨ b = [] ∧ (size t).isSome then
        match rd t b with
        | some v => .went .got { ω with seen := ω.seen ++ [some (i, .val t v)] }
        | none => .unknown
      else .unknown
    | _ => .went .wrong ω
  | .part i lo n t =>
    match ω.boxes[i]? with
    | some (some (.bytes b)) =>
      if align t ∣ lo ∧ lo + n ≤ b.length then
        if Castable b t then
          match rd t (sub b lo (lo + n)) with
          | some v => .went .got { ω with seen := ω.seen ++ [some (i, .val t v)] }
          | none => .unknown
        else .unknown
      else .panicked
    | _ => .went .wrong ω
  | .settle i t =>
    match ω.boxes[i]? with
    | some (some (.lent b)) =>
      if Castable b t then
        match rd t b with
        | some v => .went .got ⟨ω.boxes ++ [some (.cow i)], ω.seen ++ [some (ω.boxes.length, .val t v)]⟩
        | none => .unknown
      else .unknown
    | _ => .went .wrong ω
  | .read op =>
    match ω.seen[opOn op]?, ω.seen[opWith op]? with
    | some (some (k, _)), some (some _) =>
      match call rd E P (live (.rest .Y []) ω.seen) op, op with
      | .went .wrong _, .copy _ => .went .wrong ω
      | .went o ss, .copy _ => .went o ⟨ω.boxes ++ [some .copy], rehold ω.boxes.length ω.seen ss⟩
      | .went o ss, _ => .went o { ω with seen := rehold k ω.seen ss }
      | .panicked, _ => .panicked
      | .unknown, _ => .unknown
    | _, _ => .went .wrong ω

/-- A program: given all it has seen so far it decides what to do next, or ends. -/
abbrev Program := List Obs → Option Deed

/-- What a program sees in at most `n` steps; `none` if bytes and values do not determine it. -/
noncomputable def saga (rd : Ty → Bytes → Option Val) (E : Enc) (P : CoreFmt) (prog : Program) :
    Nat → World → List Obs → Option (List Obs)
  | 0, _, tr => some tr
  | n + 1, ω, tr =>
    match prog tr with
    | none => some tr
    | some d =>
      match deed rd E P ω d with
      | .went o ω' => saga rd E P prog n ω' (tr ++ [o])
      | .panicked => some (tr ++ [.panic])
      | .unknown => none

end GV.Spec

namespace GV
open Spec (Deed Program Obs)

/-- What the world decides while a program runs: where copies and vecs are put, with how much room, and where
    bytes from elsewhere are. -/
structure Fate where
  places : Places
  vec : Bytes → Nat × Nat
  lent : Nat

/-- `&buf[lo..][..n]` with offsets that are aligned for a `t`. -/
def takePart (lo n : Nat) (t : Ty) : List SliceOp :=
  [.narrow (alignOf t), .aFrom (.tryNew (alignOf t) lo), .to n]

/-- A step of a program as it happens in memory. -/
def Fate.toAct (φ : Fate) : Deed → Act
  | .make b => .make ⟨(φ.vec b).1, (φ.vec b).2, b⟩
  | .lend b => .lend ⟨φ.lent, b⟩
  | .alter i g => .alter i fun v => ⟨(φ.vec (g v.bytes)).1, (φ.vec (g v.bytes)).2, g v.bytes⟩
  | .poke i j x => .poke i j x
  | .store i lo n t path x => .store i (takePart lo n t) t path x
  | .peek i => .peek i
  | .free i => .free i
  | .unwrap i => .unwrap i
  | .cast i t => .cast i t
  | .part i lo n t => .part i (takePart lo n t) t
  | .settle i t => .settle i t
  | .read op => .read op

/-- What a program sees in at most `n` steps as it happens in memory. -/
def runProgram (c : Cfg) (P : CoreFmt) (fate : Nat → Fate) (prog : Program) : Nat → Session → List Obs → List Obs
  | 0, _, tr => tr
  | n + 1, σ, tr =>
    match prog tr with
    | none => tr
    | some d =>
      match act c P (fate n).places σ ((fate n).toAct d) with
      | .ok (o, σ') => runProgram c P fate prog n σ' (tr ++ [o])
      | .fail _ => tr ++ [.panic]

end GV
