import Verif.Proofs.EmitNeeds
import Verif.Props.C81
/-
C85: names in the source text `gv!` hands to the compiler.

Which names a text uses, which it binds and what they may stand for is in `Spec/RustNames.lean`.
-/
namespace GV.Props
open GV Spec

/-- Where the text of a definition `G` is read: in a program with or without `std` that has the crate under some name,
    beside the structures the whole text `F` defines. -/
def place (std : Bool) (crate : Bytes) (F G : Forest) : Scope :=
  ⟨std, crate, (structs F).map (·.2.1), bound [fmt!"fn", fmt!"type"] G, [], []⟩

/-- Every name in the text for `t` stands for something. -/
def NamesResolve (std : Bool) (crate : Bytes) (t : Ty) : Prop :=
  ∀ text F defs, emitted t = .ok text → parseText text = some F → generateTypes t = .ok defs →
    ∀ d ∈ defs, ∀ it ∈ items (code d.text), (place std crate F (code d.text)).item it

/-- C85 in full: whether or not the program has `std`, and whatever it calls the crate. -/
def C85_full : Prop := ∀ (std : Bool) (crate : Bytes) (t : Ty), NamesResolve std crate t

theorem code_def (d : StructDef) : code d.text = defF d := by
  rw [code, def_parse]
  rfl

/-- C85, proved part: in a program that has `std` and the crate under its own name every name in the text stands for
    something, for every type. -/
theorem c85_names_partial (t : Ty) : NamesResolve true fmt!"gvariant" t := by
  intro text F defs he hF hg d hd
  rw [code_def]
  have hok := generateTypes_defOk t defs hg d hd
  have hs : ∀ u ∈ structOccs t, structName u ∈ (structs F).map (·.2.1) := fun u hu => by
    rw [c81_structs t text F he hF]
    exact List.mem_map_of_mem hu
  have hty : d.ty ∈ structOccs t := by
    rw [← generateTypes_tys t defs hg]
    exact List.mem_map_of_mem hd
  refine def_items (def_sound hok) rfl rfl (fun w hw => hw) ?_ (hs _ hty)
  intro c hc u hu
  refine hs u ((mem_structOccs t u).2 ?_)
  obtain ⟨h1, h2⟩ := (mem_structOccs c u).1 hu
  rw [hok.2.2.1] at hc
  exact ⟨component_trans h1 (component_trans (member_component hc) ((mem_structOccs t _).1 hty).1), h2⟩

/-- C85: exactly when the text resolves: it is empty, or the program has `std` and calls the crate `gvariant`. -/
theorem c85_needs (std : Bool) (crate : Bytes) (t : Ty) {text : Bytes} (h : emitted t = .ok text) :
    NamesResolve std crate t ↔ structOccs t = [] ∨ (std = true ∧ crate = fmt!"gvariant") := by
  obtain ⟨defs, hg, rfl⟩ := emitted_ok h
  have hl := generateTypes_tys t defs hg
  constructor
  · intro hr
    cases defs with
    | nil => exact Or.inl hl.symm
    | cons d ds =>
      have hi := hr _ _ _ h (parsesC_defs _).parses.parseText hg d (by simp)
      rw [code_def] at hi
      exact Or.inr (def_needs d hi)
  · rintro (h0 | ⟨rfl, rfl⟩)
    · intro text F ds he hF hg' d hd
      rw [hg] at hg'
      cases hg'
      rw [h0] at hl
      rw [List.map_eq_nil_iff.1 hl] at hd
      cases hd
    · exact c85_names_partial t

/-- C85 does not hold in full: for `(y)` in a program without `std`. -/
theorem c85_full_false : ¬ C85_full := by
  intro h
  have he : ∃ text, emitted (.tuple [.Y]) = .ok text := ⟨_, rfl⟩
  obtain ⟨text, he⟩ := he
  have := (c85_needs false fmt!"gvariant" (.tuple [.Y]) he).1 (h _ _ _)
  simp [structOccs, structOccsAll] at this

/-- Nor for a program that has `std` and calls the crate something else. -/
theorem c85_renamed_false (crate : Bytes) (hc : crate ≠ fmt!"gvariant") : ¬ NamesResolve true crate (.tuple [.Y]) := by
  intro h
  have he : ∃ text, emitted (.tuple [.Y]) = .ok text := ⟨_, rfl⟩
  obtain ⟨text, he⟩ := he
  rcases (c85_needs true crate (.tuple [.Y]) he).1 h with h | h
  · simp [structOccs, structOccsAll] at h
  · exact hc h.2

/-- C85: every name in the text that stands for the type itself stands for something. -/
theorem c85_marker (t : Ty) (text : Bytes) (F : Forest) (h : emitted t = .ok text) (hF : parseText text = some F) :
    ∃ M, parseText (markerText t) = some M ∧ (place true fmt!"gvariant" F .nil).all false M := by
  refine ⟨_, c81_marker t, (fine_marker ⟨rfl, rfl, by simp, by simp, by simp⟩ t ?_ false).uses⟩
  intro u hu
  simp only [place]
  rw [c81_structs t text F h hF]
  exact List.mem_map_of_mem hu

/-! The names counted are those one expects. -/

set_option maxRecDepth 100000 in
example : uses true (.at .none 0) (code fmt!"let x : ::a::B<'c> = Self::f(y.z, 3); g {{ h: i }}") =
    [.path .top [fmt!"a"], .path .top [fmt!"a", fmt!"B"], .life fmt!"c", .path .here [fmt!"Self"],
     .path .here [fmt!"Self", fmt!"f"], .path .here [fmt!"y"], .path .here [fmt!"g"], .path .here [fmt!"i"]] := by
  decide +kernel

/-- All names used in a text. -/
def allUses (f : Forest) : List Use := (items f).flatMap fun it => uses false (.at .none 0) it.hdr ++
  match it.stop with
  | .body b => uses true (.at .none 0) b
  | _ => []

set_option maxRecDepth 100000 in
example : ∃ text, emitted sample81 = .ok text ∧ (allUses (code text)).length = 573 :=
  ⟨match emitted sample81 with | .ok x => x | .fail _ => [], by decide +kernel, by decide +kernel⟩

end GV.Props
