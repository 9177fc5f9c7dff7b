import Verif.Proofs.EmitFinal
/-
C81: the source text `gv!` hands to the compiler.

The text is read with the small reader of Rust in `Spec/RustText.lean` and `Spec/RustRead.lean`, which knows
words, punctuation, literals, comments, brackets, items and statements, and nothing of the macro.
-/
namespace GV.Props
open GV Spec

theorem emitted_ok {t : Ty} {text : Bytes} (h : emitted t = .ok text) :
    ∃ defs, generateTypes t = .ok defs ∧ text = defs.flatMap StructDef.text := by
  unfold emitted at h
  obtain ⟨defs, h1, h2⟩ := Res.bind_eq_ok.1 h
  exact ⟨defs, h1, by cases h2; rfl⟩

theorem def_parse (d : StructDef) : parseText d.text = some (defF d) := (parsesC_def d).parses.parseText

/-- C81: the text is made of tokens with matching brackets, and its items are those of the texts of the
    definitions, in order: each definition ends where it should. -/
theorem c81_parses (t : Ty) (text : Bytes) (h : emitted t = .ok text) :
    ∃ defs F, generateTypes t = .ok defs ∧ parseText text = some F ∧
      (∀ d ∈ defs, ∃ G, parseText d.text = some G) ∧
      items F = defs.flatMap fun d => items (code d.text) := by
  obtain ⟨defs, h1, rfl⟩ := emitted_ok h
  refine ⟨defs, defsF defs, h1, (parsesC_defs defs).parses.parseText, fun d _ => ⟨_, def_parse d⟩, ?_⟩
  rw [items_defs]
  refine flatMap_congr_mem fun d _ => ?_
  rw [code, def_parse]
  rfl

theorem def_structs {d : StructDef} (h : DefOk d) :
    ∃ as B, structs (defF d) = [(as, d.name, B)] := by
  obtain ⟨ty, name, children, body⟩ := d
  obtain ⟨_, hn, _, _⟩ := h
  simp only at hn
  subst hn
  cases body with
  | packed pk => exact ⟨_, _, pk_structs ty children pk⟩
  | nonFixed p => exact ⟨_, _, nf_structs ty children p⟩

/-- C81: the structures the text defines are, in order, those of the structure types in the type, each time they
    occur, under the name given to that type. -/
theorem c81_structs (t : Ty) (text : Bytes) (F : Forest) (h : emitted t = .ok text) (hF : parseText text = some F) :
    (structs F).map (·.2.1) = (structOccs t).map structName := by
  obtain ⟨defs, h1, rfl⟩ := emitted_ok h
  rw [(parsesC_defs defs).parses.parseText] at hF
  cases hF
  rw [structs_defs, ← generateTypes_tys t defs h1, List.map_flatMap, List.map_map]
  have hd := generateTypes_defOk t defs h1
  clear h1 h
  induction defs with
  | nil => rfl
  | cons d ds ih =>
    obtain ⟨as, B, hs⟩ := def_structs (hd d (by simp))
    rw [List.flatMap_cons, hs, ih fun e he => hd e (by simp [he]), List.map_cons]
    simp [(hd d (by simp)).2.1]

/-- C81: the text consists of structure definitions and implementations only. -/
theorem c81_items (t : Ty) (text : Bytes) (F : Forest) (h : emitted t = .ok text) (hF : parseText text = some F) :
    ∀ it ∈ items F, ∃ b, it.stop = .body b ∧ ((structHead it.hdr).isSome = true ∨ isImpl it.hdr = true) := by
  obtain ⟨defs, h1, rfl⟩ := emitted_ok h
  rw [(parsesC_defs defs).parses.parseText] at hF
  cases hF
  intro it hit
  rw [items_defs] at hit
  obtain ⟨d, _, hd⟩ := List.mem_flatMap.1 hit
  have hk := def_known d it hd
  unfold known at hk
  cases hs : it.stop with
  | body b =>
    rw [hs] at hk
    simp only [Bool.or_eq_true] at hk
    exact ⟨b, rfl, hk⟩
  | semi => rw [hs] at hk; cases hk
  | eof => rw [hs] at hk; cases hk

/-- C81: the text standing for the type itself is that of its marker type. -/
theorem c81_marker (t : Ty) : parseText (markerText t) = some (markerType t).trees := (parses_marker t).parseText

/-- `a(sa{yv}(yu))` -/
def sample81 : Ty := .A (.tuple [.S, .A (.dict .Y .V), .tuple [.Y, .U]])

set_option maxRecDepth 100000 in
example : ∃ text F, emitted sample81 = .ok text ∧ parseText text = some F ∧
    (structs F).map (·.2.1) = [fmt!"StructureFyv3", fmt!"StructureCyu7", fmt!"StructureCsaFyv3Cyu77"] ∧
    (items F).length = 32 :=
  ⟨match emitted sample81 with | .ok x => x | .fail _ => [], match emitted sample81 with | .ok x => code x | .fail _ => .nil,
    by decide +kernel, by decide +kernel, by decide +kernel, by decide +kernel⟩

example : markerText (.M (.A .S)) = fmt!"MaybeNonFixedSize::<NonFixedWidthArray::<Str>>" := by decide +kernel

end GV.Props
