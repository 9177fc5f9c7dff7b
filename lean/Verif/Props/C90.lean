import Verif.Proofs.Signatures
import Verif.Props.C89
/-
C90: implementations in the source text `gv!` hands to the compiler are complete and do not overlap.

What traits ask of their implementations is in `Spec/Coherence.lean`.
-/
namespace GV.Props
open GV Spec

section
variable (t : Ty) (text : Bytes) (F : Forest) (h : emitted t = .ok text) (hF : parseText text = some F)
include h hF

/-- C90: every implementation either only adds functions, each once, or is one of a known trait and has all that the
    trait asks for, nothing the trait does not have, and nothing twice. -/
theorem c90_complete (p : Forest × List Item) (hp : p ∈ impls F) : GoodImpl p := by
  obtain ⟨defs, hg, rfl⟩ := text_defs t text F h hF
  exact defs_good (generateTypes_defOk t defs hg) p hp

/-- C90: no trait is implemented twice for a structure, unless a structure occurs twice in the type. -/
theorem c90_once : (writtenFor F).Nodup ↔ (structOccs t).Nodup := by
  obtain ⟨defs, hg, rfl⟩ := text_defs t text F h hF
  rw [writtenFor_defs (generateTypes_defOk t defs hg), ← generateTypes_tys t defs hg]
  exact ⟨nodup_written, written_nodup⟩

/-- C90: what is derived is not also implemented. -/
theorem c90_derived (as : List Forest) (n : Bytes) (B : Forest) (hs : (as, n, B) ∈ structs F) (tr : Trt) (hd : DerivesTrait as tr)
    (w : Bytes) (hw : traitNamed w = some tr) : (w, n) ∉ writtenFor F := by
  obtain ⟨defs, hg, rfl⟩ := text_defs t text F h hF
  have hall := generateTypes_defOk t defs hg
  rw [writtenFor_defs hall]
  intro hm
  obtain ⟨d', hd', hm⟩ := List.mem_flatMap.1 hm
  obtain ⟨w', hw', he⟩ := List.mem_map.1 hm
  obtain ⟨rfl, h2⟩ := Prod.mk.inj he
  rw [structs_defs] at hs
  obtain ⟨d, hdm, hs⟩ := List.mem_flatMap.1 hs
  have h1 := List.mem_map_of_mem (f := (·.2.1)) hs
  rw [structs_name d (hall d hdm), List.mem_singleton] at h1
  have hty : d'.ty = d.ty := structName_inj (h2.trans h1)
  cases hz : Spec.size d.ty with
  | some k =>
    obtain ⟨B, fs, hst, _⟩ := pk_fields (hall d hdm) hz
    rw [hst, List.mem_singleton] at hs
    cases hs
    have h3 := derives_pk.1 hd
    rw [defNames, hty, hz] at hw'
    revert hw hw'
    simp only [Option.isSome_some, if_true, pkNames, List.mem_cons, List.not_mem_nil, or_false] at h3 ⊢
    intro hw hw'
    rcases hw' with rfl | rfl | rfl | rfl | rfl | rfl <;> rcases h3 with rfl | rfl | rfl <;> exact absurd hw (by decide)
  | none =>
    obtain ⟨p, _, _, hF⟩ := nf_defF (hall d hdm) hz
    rw [hF, nf_structs, List.mem_singleton] at hs
    cases hs
    obtain ⟨i, w, h3, _⟩ := hd
    have h4 : code fmt!"repr(transparent)" = .leaf (.word fmt!"repr") (.grp 40 (code fmt!"transparent") .nil) := by decide +kernel
    rw [List.mem_singleton, h4] at h3
    simp only [Forest.leaf.injEq, Tok.word.injEq] at h3
    exact absurd h3.1 (by decide)

/-- C90: `ToOwned` is implemented exactly for those structures that the standard library does not implement it for:
    the latter are `Clone`. -/
theorem c90_blanket (c : Ty) (hc : Component c t) (hs : isStruct c = true) :
    (fmt!"ToOwned", structName c) ∈ writtenFor F ↔ ¬ Impls F .clone (markerType c) := by
  rw [c89_structs t text F h hF c hc hs]
  obtain ⟨defs, hg, rfl⟩ := text_defs t text F h hF
  rw [writtenFor_defs (generateTypes_defOk t defs hg), List.mem_flatMap]
  constructor
  · rintro ⟨d, hd, hm⟩
    obtain ⟨w, hw, he⟩ := List.mem_map.1 hm
    obtain ⟨rfl, h2⟩ := Prod.mk.inj he
    rw [← structName_inj h2]
    unfold defNames at hw
    split at hw
    · exact absurd hw (by decide)
    · next hz => simp [hz]
  · intro hn
    obtain ⟨d, hd, rfl, hok⟩ := def_of_comp hg hc hs
    refine ⟨d, hd, List.mem_map_of_mem ?_⟩
    have hz : ¬ (Spec.size d.ty).isSome := fun hz => hn (.inr ⟨hz, by simp⟩)
    rw [defNames, if_neg hz]
    decide

/-- C90: the functions of `Cast`, `ToOwned`, `PartialEq`, `Debug` and `SerializeTo` have the signatures these declare. -/
theorem c90_signatures (s : Bytes × Forest) (hs : s ∈ signatures) (q : Forest × Forest × Forest) (hq : q ∈ fns s.1 F) :
    noPaths q.2.1 = noPaths s.2 := by
  obtain ⟨defs, hg, rfl⟩ := text_defs t text F h hF
  rw [fns_defs] at hq
  obtain ⟨d, hd, hq⟩ := List.mem_flatMap.1 hq
  exact def_signatures (generateTypes_defOk t defs hg d hd) s hs q hq

/-- C90: `to_tuple` gives what the implementation has as `RefTuple`, and `from` takes what the implementation is `From`. -/
theorem c90_parameters : (∀ q ∈ fns fmt!"to_tuple" F, ∃ r, (q.1, r) ∈ typeDefs fmt!"RefTuple" F ∧
      q.2.1 = (code fmt!"fn to_tuple(&'a self) ->").append r) ∧
    ∀ q ∈ fns fmt!"from" F, ∃ n tup, q.1 = fromHead n tup ∧ q.2.1 = code (fmt!"fn from(value : &'a " ++ (n ++ fmt!") -> Self")) := by
  obtain ⟨defs, hg, rfl⟩ := text_defs t text F h hF
  rw [fns_defs, fns_defs, typeDefs_defs]
  constructor
  · intro q hq
    obtain ⟨d, hd, hq⟩ := List.mem_flatMap.1 hq
    obtain ⟨r, h1, h2⟩ := def_toTuple (generateTypes_defOk t defs hg d hd) q hq
    exact ⟨r, List.mem_flatMap.2 ⟨d, hd, h1⟩, h2⟩
  · intro q hq
    obtain ⟨d, hd, hq⟩ := List.mem_flatMap.1 hq
    exact def_from (generateTypes_defOk t defs hg d hd) q hq

end

/-! In `a(sa{sv}(yy))` no structure occurs twice, in `((y)(y))` one does. -/

example : ∃ text F, emitted sample89 = .ok text ∧ parseText text = some F ∧ (writtenFor F).Nodup ∧ (writtenFor F).length = 20 := by
  obtain ⟨defs, F, hg, he, hF, _⟩ := (c89_compiles sample89).1 ⟨_, rfl, by decide, by decide⟩
  have hall := generateTypes_defOk _ _ hg
  refine ⟨_, F, he, hF, (c90_once _ _ _ he hF).2 (by decide), ?_⟩
  rw [(parsesC_defs _).parses.parseText] at hF
  rw [← Option.some.inj hF, writtenFor_defs hall]
  have h1 := congrArg (fun l => (l.map fun c => if (Spec.size c).isSome then 6 else 7).sum) (generateTypes_tys _ _ hg)
  have h2 : ∀ d : StructDef, ((defNames d).map (·, structName d.ty)).length = if (Spec.size d.ty).isSome then 6 else 7 := by
    intro d; unfold defNames; split <;> rfl
  simp only [List.length_flatMap, h2]
  rw [List.map_map] at h1
  exact h1.trans (by decide)

example : ∃ text F, emitted (.tuple [.tuple [.Y], .tuple [.Y]]) = .ok text ∧ parseText text = some F ∧ ¬ (writtenFor F).Nodup := by
  obtain ⟨defs, hg⟩ : ∃ defs, generateTypes (.tuple [.tuple [.Y], .tuple [.Y]]) = .ok defs :=
    ⟨[defOf (.tuple [.Y]), defOf (.tuple [.Y]), defOf (.tuple [.tuple [.Y], .tuple [.Y]])], by decide +kernel⟩
  have he : emitted (.tuple [.tuple [.Y], .tuple [.Y]]) = .ok (defs.flatMap StructDef.text) := by unfold emitted; rw [hg]; rfl
  have hF := (parsesC_defs defs).parses.parseText
  exact ⟨_, _, he, hF, fun hn => absurd ((c90_once _ _ _ he hF).1 hn) (by decide)⟩

/-- Paths make no difference to signatures, `mut` does. -/
example : noPaths (code fmt!"fn f(s: &mut ::a::b::C) -> std::fmt::Result") = code fmt!"fn f(s: &mut C) -> Result" ∧
    noPaths (code fmt!"fn f(s: &mut C)") ≠ noPaths (code fmt!"fn f(s: &C)") := by decide +kernel

/-- What is asked of an implementation: `ne` may be there, `lt` may not, `eq` must. -/
example : requiredItems fmt!"PartialEq" = some [(true, fmt!"eq")] ∧ optionalItems fmt!"PartialEq" = [(true, fmt!"ne")] ∧
    requiredItems fmt!"Display" = none ∧
    (items (code fmt!"fn eq(&self, o: &Self) -> bool {{ true }} type X = u8;")).map itemKind =
      [some (true, fmt!"eq"), some (false, fmt!"X")] := by decide +kernel

end GV.Props
