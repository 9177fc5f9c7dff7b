import Verif.Proofs.TraitOnly
import Verif.Props.C85
/-
C89: what the source text `gv!` hands to the compiler asks of types.

Which traits types implement and what a text asks of them is in `Spec/Traits.lean`.
-/
namespace GV.Props
open GV Spec

section
variable (t : Ty) (text : Bytes) (F : Forest) (h : emitted t = .ok text) (hF : parseText text = some F)
include h hF

theorem text_defs : ∃ defs, generateTypes t = .ok defs ∧ F = defsF defs := by
  obtain ⟨defs, hg, rfl⟩ := emitted_ok h
  rw [(parsesC_defs _).parses.parseText] at hF
  exact ⟨defs, hg, (Option.some.inj hF).symm⟩

/-- C89: the marker type of the type and of every type inside it may be written, can be cast to, read, compared,
    printed and copied to owned values, and has the alignment of the type. -/
theorem c89_able (c : Ty) (hc : Component c t) : Named F (markerType c) ∧
    (∀ tr ∈ [Trt.cast, .valid, .alignOf, .partialEq, .debug, .toOwned], Impls F tr (markerType c)) ∧
    AlignIs F (markerType c) (Spec.align c) := by
  obtain ⟨defs, hg, rfl⟩ := text_defs t text F h hF
  have := able_marker hg c hc
  exact ⟨this.named, this.has, this.align⟩

/-- C89: exactly the marker types of types of fixed size are `Sized`, and they are what is `Copy`. -/
theorem c89_sized (c : Ty) (hc : Component c t) : (Impls F .sized (markerType c) ↔ (Spec.size c).isSome) ∧
    (Impls F .copy (markerType c) ↔ (Spec.size c).isSome) := by
  obtain ⟨defs, hg, rfl⟩ := text_defs t text F h hF
  have ha := able_marker hg c hc
  have key : ∀ tr ∈ [Trt.sized, .copy], Impls (defsF defs) tr (markerType c) → (Spec.size c).isSome := by
    intro tr htr hi
    have hst : isStruct c = true → (Spec.size c).isSome := by
      intro hs
      obtain ⟨d, hd, h1, h2⟩ := struct_only (generateTypes_defOk t defs hg) hi _ (markerType_struct hs)
      rw [← structName_inj h1]
      cases hz : Spec.size d.ty with
      | some n => rfl
      | none =>
        rw [onlyTraits, hz] at h2
        simp only [List.mem_cons, List.not_mem_nil, or_false] at htr
        rcases htr with rfl | rfl <;> exact absurd h2 (by decide)
    cases c with
    | tuple ts => exact hst rfl
    | dict k v => exact hst rfl
    | A e =>
      simp only [List.mem_cons, List.not_mem_nil, or_false] at htr
      simp only [markerType] at hi
      split at hi <;> rcases htr with rfl | rfl <;> cases hi <;> simp_all [isNumberTy, isInteger]
    | M e =>
      simp only [List.mem_cons, List.not_mem_nil, or_false] at htr
      simp only [markerType] at hi
      split at hi <;> rcases htr with rfl | rfl <;> cases hi <;> simp_all [isNumberTy, isInteger]
    | S | O | G | V =>
      simp only [List.mem_cons, List.not_mem_nil, or_false] at htr
      simp only [markerType] at hi
      rcases htr with rfl | rfl <;> cases hi <;> simp_all [isNumberTy, isInteger]
    | _ => rfl
  exact ⟨⟨key _ (by simp), fun hz => ha.sized hz _ (by simp)⟩, ⟨key _ (by simp), fun hz => ha.sized hz _ (by simp)⟩⟩

/-- C89: what is implemented for structures. -/
theorem c89_structs (c : Ty) (hc : Component c t) (hs : isStruct c = true) (tr : Trt) : Impls F tr (markerType c) ↔
    tr ∈ [Trt.partialEq, .debug, .toOwned, .alignOf, .valid, .cast, .structure] ∨
    (Spec.size c).isSome ∧ tr ∈ [Trt.sized, .copy, .clone, .default] := by
  obtain ⟨defs, hg, rfl⟩ := text_defs t text F h hF
  have ha := able_marker hg c hc
  obtain ⟨d, hd, rfl, hok⟩ := def_of_comp hg hc hs
  have hm := markerType_struct hs
  constructor
  · intro hi
    obtain ⟨d', hd', h1, h2⟩ := struct_only (generateTypes_defOk t defs hg) hi _ hm
    rw [structName_inj h1] at h2
    unfold onlyTraits at h2
    split at h2
    · next hz =>
      simp only [pkTraits, List.mem_cons, List.not_mem_nil, or_false] at h2 ⊢
      tauto
    · simp only [nfTraits, List.mem_cons, List.not_mem_nil, or_false] at h2 ⊢
      tauto
  · intro h1
    by_cases hto : tr ∈ [Trt.cast, .valid, .alignOf, .partialEq, .debug, .toOwned]
    · exact ha.has _ hto
    rw [hm]
    cases hz : Spec.size d.ty with
    | none =>
      rw [hz] at h1
      refine nf_has (holds_defs hd) hok hz tr ?_
      simp only [List.mem_cons, List.not_mem_nil, or_false] at h1 hto ⊢
      rcases h1 with h1 | ⟨h1, _⟩
      · tauto
      · cases h1
    | some n =>
      by_cases hsz : tr = .sized
      · subst hsz; rw [← hm]; exact ha.sized (by rw [hz]; rfl) _ (by simp)
      · refine pk_has (holds_defs hd) hok hz tr ?_
        simp only [List.mem_cons, List.not_mem_nil, or_false] at h1 hto ⊢
        tauto

/-- C89: marker types are `Eq` exactly if there is no double, variant or structure inside. -/
theorem c89_eq (c : Ty) (hc : Component c t) : Impls F .eq (markerType c) ↔
    ∀ u, Component u c → u ≠ .D ∧ u ≠ .V ∧ isStruct u = false := by
  obtain ⟨defs, hg, rfl⟩ := text_defs t text F h hF
  induction c using Ty.ind with
  | a e ih =>
    have hce := comp_array hc
    have ha := able_marker hg e hce
    have hsub : (∀ u, Component u (.A e) → u ≠ .D ∧ u ≠ .V ∧ isStruct u = false) ↔
        ∀ u, Component u e → u ≠ .D ∧ u ≠ .V ∧ isStruct u = false := by
      constructor
      · exact fun hu u hc => hu u (.array hc)
      · intro hu u hc
        cases hc with
        | refl => exact ⟨by simp, by simp, rfl⟩
        | array hc => exact hu u hc
    rw [hsub, ← ih hce]
    simp only [markerType]
    split
    · constructor
      · intro hi; cases hi with
        | number h => cases h
        | integer h => cases h
        | number' h => cases h
        | array h => simp at h
        | array' _ _ h => exact h
      · exact fun hi => .array' (by simp) (ha.has _ (by simp)) hi
    · next n hz =>
      rw [sizeOf_eq] at hz
      constructor
      · intro hi; cases hi with
        | number h => cases h
        | integer h => cases h
        | number' h => cases h
        | slice _ _ h => exact h
        | slice' h => simp at h
      · exact fun hi => .slice (by simp) (ha.sized (by rw [hz]; rfl) _ (by simp)) hi
  | m e ih =>
    have hce := comp_maybe hc
    have ha := able_marker hg e hce
    have hsub : (∀ u, Component u (.M e) → u ≠ .D ∧ u ≠ .V ∧ isStruct u = false) ↔
        ∀ u, Component u e → u ≠ .D ∧ u ≠ .V ∧ isStruct u = false := by
      constructor
      · exact fun hu u hc => hu u (.maybe hc)
      · intro hu u hc
        cases hc with
        | refl => exact ⟨by simp, by simp, rfl⟩
        | maybe hc => exact hu u hc
    rw [hsub, ← ih hce]
    simp only [markerType]
    split
    · constructor
      · intro hi; cases hi with
        | number h => cases h
        | integer h => cases h
        | number' h => cases h
        | maybeVar h => simp at h
        | maybeVar' _ _ h => exact h
      · exact fun hi => .maybeVar' (by simp) (ha.has _ (by simp)) hi
    · next n hz =>
      rw [sizeOf_eq] at hz
      constructor
      · intro hi; cases hi with
        | number h => cases h
        | integer h => cases h
        | number' h => cases h
        | maybe h => simp at h
        | maybe' _ _ _ h => exact h
      · exact fun hi => .maybe' (by simp) (ha.sized (by rw [hz]; rfl) _ (by simp)) (ha.has _ (by simp)) hi
  | tuple ts _ =>
    constructor
    · intro hi
      rcases (c89_structs t text _ h hF _ hc rfl _).1 hi with h1 | h1 <;> simp at h1
    · intro hu
      have := (hu _ (.refl _)).2.2
      cases this
  | dict k v _ _ =>
    constructor
    · intro hi
      rcases (c89_structs t text _ h hF _ hc rfl _).1 hi with h1 | h1 <;> simp at h1
    · intro hu
      have := (hu _ (.refl _)).2.2
      cases this
  | d =>
    constructor
    · intro hi
      simp only [markerType] at hi
      cases hi <;> simp_all [isInteger]
    · intro hu; exact absurd rfl (hu _ (.refl _)).1
  | v =>
    constructor
    · intro hi
      simp only [markerType] at hi
      cases hi <;> simp_all [isInteger]
    · intro hu; exact absurd rfl (hu _ (.refl _)).2.1
  | b => exact ⟨fun _ u hu => by cases hu; exact ⟨by simp, by simp, rfl⟩, fun _ => .bool (by simp)⟩
  | s | o | g => exact ⟨fun _ u hu => by cases hu; exact ⟨by simp, by simp, rfl⟩, fun _ => .str (by simp)⟩
  | y | n | q | i | u | x | t =>
    exact ⟨fun _ u hu => by cases hu; exact ⟨by simp, by simp, rfl⟩, fun _ => .integer rfl (by simp)⟩

/-- C89: what the text of a definition asks of types is the case exactly if there are at most twelve members and,
    in a structure of fixed size, all are integers. -/
theorem c89_bounds (c : Ty) (hc : Component c t) (hs : isStruct c = true) : ∃ G, (∃ defs, generateTypes t = .ok defs ∧
      ∃ d ∈ defs, d.ty = c ∧ parseText d.text = some G) ∧
    (Bounds F G ↔ (members c).length ≤ 12 ∧ ((Spec.size c).isSome → ∀ m ∈ members c, isInt m = true)) := by
  obtain ⟨defs, hg, rfl⟩ := text_defs t text F h hF
  obtain ⟨d, hd, rfl, hok⟩ := def_of_comp hg hc hs
  refine ⟨defF d, ⟨defs, hg, d, hd, rfl, def_parse d⟩, ?_⟩
  rw [← hok.2.2.1]
  refine bounds_iff hok (able_marker hg _ hc) fun m hm => able_marker hg m ?_
  rw [hok.2.2.1] at hm
  exact component_trans (member_component hm) hc

end

/-- C89: what C51 is about, read off the text.  `gv!` gives a text, no structure in it is defined twice, and what the
    texts of the definitions ask of types is the case. -/
theorem c89_compiles (t : Ty) : compiles t ↔ ∃ defs F, generateTypes t = .ok defs ∧ emitted t = .ok (defs.flatMap StructDef.text) ∧
    parseText (defs.flatMap StructDef.text) = some F ∧ ((structs F).map (·.2.1)).Nodup ∧
    ∀ d ∈ defs, ∃ G, parseText d.text = some G ∧ Bounds F G := by
  rw [c51_compiles_iff_partial]
  constructor
  · rintro ⟨hnd, hall⟩
    obtain ⟨defs, hg⟩ := (expands_iff t).2 fun c hc hs hz => ((hall c hc hs).2 hz).2
    have he : emitted t = .ok (defs.flatMap StructDef.text) := by unfold emitted; rw [hg]; rfl
    have hF := (parsesC_defs defs).parses.parseText
    refine ⟨defs, _, hg, he, hF, ?_, fun d hd => ?_⟩
    · rw [c81_structs t _ _ he hF]
      exact List.pairwise_map.2 (hnd.imp fun hn hst => hn (structName_inj hst))
    · have hok := generateTypes_defOk t defs hg d hd
      have hty : d.ty ∈ structOccs t := by rw [← generateTypes_tys t defs hg]; exact List.mem_map_of_mem hd
      have hc := ((mem_structOccs t _).1 hty).1
      refine ⟨defF d, def_parse d, (bounds_iff hok (able_marker hg _ hc) fun m hm => able_marker hg m ?_).2 ?_⟩
      · rw [hok.2.2.1] at hm
        exact component_trans (member_component hm) hc
      · rw [hok.2.2.1]
        exact ⟨(hall _ hc hok.1).1, fun hz => ((hall _ hc hok.1).2 hz).1⟩
  · rintro ⟨defs, F, hg, he, hF, hnd, hb⟩
    rw [c81_structs t _ _ he hF] at hnd
    refine ⟨(List.pairwise_map.1 hnd).imp fun hn he => hn (congrArg structName he), fun c hc hs => ?_⟩
    obtain ⟨d, hd, rfl, hok⟩ := def_of_comp hg hc hs
    obtain ⟨G, hG, hbG⟩ := hb d hd
    rw [def_parse] at hG
    cases hG
    rw [← hok.2.2.1]
    refine ⟨bounds_length hok hbG, fun hz => ?_⟩
    obtain ⟨n, hn⟩ := Option.isSome_iff_exists.1 hz
    exact ⟨bounds_integers hok hn hbG, hok.2.2.1 ▸ (expands_iff t).1 ⟨defs, hg⟩ _ hc hs hz⟩

/-! `a(sa{sv}(yy))` meets what is asked; in `(bi)` and `(ddd)` the literal `0` is asked to be something it is not. -/

/-- `a(sa{sv}(yy))` -/
def sample89 : Ty := .A (.tuple [.S, .A (.dict .S .V), .tuple [.Y, .Y]])

example : ∃ defs F, generateTypes sample89 = .ok defs ∧ emitted sample89 = .ok (defs.flatMap StructDef.text) ∧
    parseText (defs.flatMap StructDef.text) = some F ∧ ((structs F).map (·.2.1)).Nodup ∧
    ∀ d ∈ defs, ∃ G, parseText d.text = some G ∧ Bounds F G :=
  (c89_compiles sample89).1 ⟨_, rfl, by decide, by decide⟩

example : ∃ text F G, emitted (.tuple [.B, .I]) = .ok text ∧ parseText text = some F ∧ parseText (defOf (.tuple [.B, .I])).text = some G ∧
    ¬ Bounds F G := by
  have hg : generateTypes (.tuple [.B, .I]) = .ok [defOf (.tuple [.B, .I])] := by decide +kernel
  have he : emitted (.tuple [.B, .I]) = .ok ([defOf (.tuple [.B, .I])].flatMap StructDef.text) := by unfold emitted; rw [hg]; rfl
  have hF := (parsesC_defs [defOf (.tuple [.B, .I])]).parses.parseText
  refine ⟨_, _, defF (defOf (.tuple [.B, .I])), he, hF, def_parse _, fun hb => ?_⟩
  obtain ⟨G, ⟨defs, hg', d, hd, _, hd'⟩, hiff⟩ := c89_bounds _ _ _ he hF _ (.refl _) rfl
  rw [hg] at hg'
  rw [← Res.ok.inj hg', List.mem_singleton] at hd
  rw [hd, def_parse] at hd'
  rw [← Option.some.inj hd'] at hiff
  exact absurd ((hiff.1 hb).2 (by decide) .B (by decide)) (by decide)

/-- What is implemented depends on the text: `Copy` is read off `derive`, `Cast` off the head of an implementation. -/
example : DerivesTrait [code fmt!"derive(Default,Copy,Clone)", code fmt!"repr(C)"] .copy ∧
    ¬ DerivesTrait [code fmt!"derive(Default,Copy,Clone)", code fmt!"repr(C)"] .eq ∧
    implFor (code fmt!"unsafe impl ::gvariant::casting::AlignOf for Structure_2822292") =
      some (fmt!"AlignOf", fmt!"Structure_2822292") ∧
    implFor (code fmt!"impl Structure_2822292") = none ∧
    implFor (code fmt!"impl<'a> ::gvariant::Structure<'a> for X") = some (fmt!"Structure", fmt!"X") := by
  refine ⟨derives_pk.2 (by decide), fun h => absurd (derives_pk.1 h) (by decide), ?_, ?_, ?_⟩ <;> decide +kernel

end GV.Props
