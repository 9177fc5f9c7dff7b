import Verif.Proofs.Rust
/-
C53: the Rust type `gv!` names for a type string.
-/
namespace GV.Props
open GV Spec

/-! ### C53 -/

/-- The table in the documentation of `gv!` (gvariant/src/lib.rs:543-563), rows in order, with
    "`Sized`" read as "of fixed size in GVariant". -/
inductive Documented : Ty → RTy → Prop
  | b : Documented .B .bool
  | y : Documented .Y .u8
  | n : Documented .N .i16
  | q : Documented .Q .u16
  | i : Documented .I .i32
  | u : Documented .U .u32
  | x : Documented .X .i64
  | t : Documented .T .u64
  | d : Documented .D .f64
  | s : Documented .S .str
  | o : Documented .O .str
  | g : Documented .G .str
  | v : Documented .V .variant
  | ms {e r} : Spec.size e = none → Documented e r → Documented (.M e) (.maybeNonFixedSize r)
  | mi {e r} : (∃ n, Spec.size e = some n) → Documented e r → Documented (.M e) (.maybeFixedSize r)
  | as {e r} : Spec.size e = none → Documented e r → Documented (.A e) (.nonFixedWidthArray r)
  | ai {e r} : (∃ n, Spec.size e = some n) → Documented e r → Documented (.A e) (.slice r)
  | sv {ts} (name : Bytes) : Documented (.tuple ts) (.struct name)
  | si {k v} (name : Bytes) : Documented (.dict k v) (.struct name)

/-- C53: the type named for a type string is the one in the table of the documentation. -/
theorem c53_documented (t : Ty) : Documented t (markerType t) := by
  induction t using Ty.ind with
  | a e ih =>
    simp only [markerType, sizeOf_eq]
    cases h : Spec.size e with
    | none => exact .as h ih
    | some n => exact .ai ⟨n, h⟩ ih
  | m e ih =>
    simp only [markerType, sizeOf_eq]
    cases h : Spec.size e with
    | none => exact .ms h ih
    | some n => exact .mi ⟨n, h⟩ ih
  | tuple ts _ => exact .sv _
  | dict k v _ _ => exact .si _
  | _ => constructor

/-- the table leaves nothing but the name of a generated struct open -/
example (r : RTy) (h : Documented (.M (.A .N)) r) : r = .maybeNonFixedSize (.slice .i16) := by
  cases h with
  | ms _ h => cases h with
    | as h _ => cases h
    | ai _ h => cases h; rfl
  | mi h _ => obtain ⟨n, h⟩ := h; cases h
example : markerType (.A (.M (.tuple [.S, .I]))) =
    .nonFixedWidthArray (.maybeNonFixedSize (.struct (structName (.tuple [.S, .I])))) := by
  decide +kernel

/-- C53: the type named for any part of the type string is well-formed in the expansion: the structs
    it mentions are defined and the elements of slices and fixed-size maybes are `Sized`. -/
theorem c53_well_formed (t : Ty) (defs : List StructDef) (h : generateTypes t = .ok defs) (c : Ty)
    (hc : Component c t) : (markerType c).wellFormed defs = true := marker_wf h c hc

/-- C53: its `AlignOf` is the alignment the GVariant specification gives. -/
theorem c53_align (t : Ty) (defs : List StructDef) (h : generateTypes t = .ok defs) (c : Ty)
    (hc : Component c t) : (markerType c).alignOf defs = some (Spec.align c) := marker_align h c hc

/-- C53: it is `Sized` exactly when the type has a fixed size. -/
theorem c53_sized (t : Ty) (defs : List StructDef) (h : generateTypes t = .ok defs) (c : Ty)
    (hc : Component c t) : (markerType c).sized defs = true ↔ ∃ n, Spec.size c = some n := by
  rw [marker_sized h c hc]; exact Option.isSome_iff_exists

/-- C53: if so, its size in memory is that size, and it needs the alignment `AlignOf` promises. -/
theorem c53_layout (t : Ty) (defs : List StructDef) (h : generateTypes t = .ok defs) (c : Ty)
    (hc : Component c t) (n : Nat) (hn : Spec.size c = some n) :
    (markerType c).layout defs = .ok (n, Spec.align c) := marker_layout h hc hn

/-- C53: the fields of the struct generated for a fixed-size structure fill it, so that the compiler
    inserts no padding of its own (a condition of `AllBitPatternsValid`, casting.rs:32-38). -/
theorem c53_no_padding (t : Ty) (defs : List StructDef) (h : generateTypes t = .ok defs) (c : Ty)
    (hc : Component c t) (hs : isStruct c = true) (n : Nat) (hn : Spec.size c = some n) :
    ∃ fs, structFields c (members c) = .ok fs ∧ (fs.map (·.1)).sum = n ∧ reprCSize fs = n := by
  have hx := comp_expands hc ⟨defs, h⟩
  cases c <;> simp [isStruct] at hs
  case tuple ts =>
    obtain ⟨hc, d, hd⟩ := expands_tuple.1 hx
    exact structFields_sum rfl hn hc hd
  case dict k v =>
    obtain ⟨⟨hk, hv⟩, d, hd⟩ := expands_dict.1 hx
    refine structFields_sum (size_dict_eq k v) hn ?_ hd
    intro t ht
    simp only [members, List.mem_cons, List.not_mem_nil, or_false] at ht
    rcases ht with rfl | rfl <;> assumption

/-- Read the types of object paths and signatures as strings, outside structures. -/
def asStrings : Ty → Ty
  | .O | .G => .S
  | .A e => .A (asStrings e)
  | .M e => .M (asStrings e)
  | t => t

theorem asStrings_size (t : Ty) : Spec.size (asStrings t) = Spec.size t := by
  cases t <;> rfl

theorem markerType_asStrings (t : Ty) : markerType (asStrings t) = markerType t := by
  induction t using Ty.ind with
  | a e ih => simp only [asStrings, markerType, sizeOf_eq, asStrings_size, ih]
  | m e ih => simp only [asStrings, markerType, sizeOf_eq, asStrings_size, ih]
  | _ => rfl

/-- C53: two type strings get the same Rust type exactly when they differ only in `s`, `o`, `g`
    outside structures. -/
theorem c53_same_type_iff (t u : Ty) : markerType t = markerType u ↔ asStrings t = asStrings u := by
  constructor
  · intro h
    induction t using Ty.ind generalizing u with
    | a e ih =>
      simp only [markerType] at h
      cases hz : sizeOf e <;> simp only [hz] at h <;>
      · cases u <;> simp only [markerType] at h <;> try exact absurd h (by simp)
        all_goals
          rename_i f
          cases hf : sizeOf f <;> simp [hf] at h
          all_goals simp only [asStrings, ih f h]
    | m e ih =>
      simp only [markerType] at h
      cases hz : sizeOf e <;> simp only [hz] at h <;>
      · cases u <;> simp only [markerType] at h <;> try exact absurd h (by simp)
        all_goals
          rename_i f
          cases hf : sizeOf f <;> simp [hf] at h
          all_goals simp only [asStrings, ih f h]
    | tuple ts _ =>
      cases u with
      | tuple us => have := structName_inj (RTy.struct.inj h); simp only [asStrings, this]
      | dict k v => have := structName_inj (RTy.struct.inj h); cases this
      | A f => simp only [markerType] at h; cases hf : sizeOf f <;> simp [hf] at h
      | M f => simp only [markerType] at h; cases hf : sizeOf f <;> simp [hf] at h
      | _ => simp [markerType] at h
    | dict k v _ _ =>
      cases u with
      | dict us => have := structName_inj (RTy.struct.inj h); simp only [asStrings, this]
      | tuple us => have := structName_inj (RTy.struct.inj h); cases this
      | A f => simp only [markerType] at h; cases hf : sizeOf f <;> simp [hf] at h
      | M f => simp only [markerType] at h; cases hf : sizeOf f <;> simp [hf] at h
      | _ => simp [markerType] at h
    | _ =>
      cases u with
      | A f => simp only [markerType] at h; cases hf : sizeOf f <;> simp [hf] at h
      | M f => simp only [markerType] at h; cases hf : sizeOf f <;> simp [hf] at h
      | _ => first | rfl | simp [markerType] at h
  · intro h
    rw [← markerType_asStrings t, h, markerType_asStrings]

/-- The bounds are real: rustc refuses `[T]` and `MaybeFixedSize<T>` of an unsized `T`, so for elements without
    a fixed size no other choice of the array and maybe type is possible. -/
theorem c53_unsized (defs : List StructDef) (e : RTy) (h : e.sized defs = false) :
    (RTy.slice e).wellFormed defs = false ∧ (RTy.maybeFixedSize e).wellFormed defs = false := by
  simp [RTy.wellFormed, h]

example : (RTy.nonFixedWidthArray .str).wellFormed [] = true ∧ (RTy.slice .str).wellFormed [] = false ∧
    (RTy.slice (.struct [65])).wellFormed [] = false ∧ (RTy.slice (.slice .u8)).wellFormed [] = false := by
  decide +kernel

/-- a type with all the cases: `(sa(iy)m(ts))` -/
def sampleTy : Ty := .tuple [.S, .A (.tuple [.I, .Y]), .M (.tuple [.T, .S])]
example : ∃ defs, generateTypes sampleTy = .ok defs ∧ defs.length = 3 ∧
    (markerType sampleTy).wellFormed defs = true ∧ (markerType sampleTy).alignOf defs = some 8 ∧
    (markerType (.tuple [.I, .Y])).layout defs = .ok (8, 4) :=
  ⟨_, rfl, by decide +kernel, by decide +kernel, by decide +kernel, by decide +kernel⟩
example : structFields (.tuple [.I, .Y]) [.I, .Y] = .ok [(4, 4), (1, 1), (3, 1)] := by decide +kernel
example : markerType (.A .O) = markerType (.A .S) ∧
    markerType (.tuple [.O]) ≠ markerType (.tuple [.S]) := by decide +kernel

end GV.Props
