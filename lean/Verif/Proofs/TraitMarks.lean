import Verif.Proofs.Traits
import Verif.Proofs.Rust
import Verif.Props.C05_C09
/-
The marker types of a type and of its parts implement what the crate wants of them.
-/
namespace GV.Props
open GV Spec

/-- What holds of the marker types of all components. -/
structure Able (F : Forest) (c : Ty) : Prop where
  named : Named F (markerType c)
  has : ∀ tr ∈ [Trt.cast, .valid, .alignOf, .partialEq, .debug, .toOwned], Impls F tr (markerType c)
  sized : (Spec.size c).isSome → ∀ tr ∈ [Trt.sized, .copy, .clone], Impls F tr (markerType c)
  align : AlignIs F (markerType c) (Spec.align c)

theorem able_number {F : Forest} {c : Ty} (h : isNumberTy (markerType c) = true)
    (ha : AlignIs F (markerType c) (Spec.align c)) (hn : Named F (markerType c)) : Able F c where
  named := hn
  has tr htr := by
    simp only [List.mem_cons, List.not_mem_nil, or_false] at htr
    rcases htr with rfl | rfl | rfl | rfl | rfl | rfl
    · exact .number' h (by simp)
    · exact .number' h (by simp)
    · exact .number' h (by simp)
    · exact .number h (by simp)
    · exact .number h (by simp)
    · exact .toOwned (.number h (by simp)) (.number h (by simp))
  sized _ tr htr := by
    simp only [List.mem_cons, List.not_mem_nil, or_false] at htr
    rcases htr with rfl | rfl | rfl <;> exact .number h (by simp)
  align := ha

theorem structs_name (d : StructDef) (hok : DefOk d) : (structs (defF d)).map (·.2.1) = [structName d.ty] := by
  cases hs : Spec.size d.ty with
  | none =>
    obtain ⟨p, _, _, hF⟩ := nf_defF hok hs
    rw [hF, nf_structs]; rfl
  | some n =>
    obtain ⟨p, _, _, hF⟩ := pk_defF hok hs
    rw [hF, pk_structs]; rfl

theorem able_struct {F : Forest} {d : StructDef} (h : Holds F d) (hok : DefOk d)
    (ih : ∀ m ∈ members d.ty, Able F m) : Able F d.ty := by
  have hm := markerType_struct hok.1
  have hn : Named F (markerType d.ty) := by
    rw [hm]
    have h1 : structName d.ty ∈ (structs (defF d)).map (·.2.1) := by rw [structs_name d hok]; exact List.mem_cons_self
    obtain ⟨s, hs, he⟩ := List.mem_map.1 h1
    exact List.mem_map.2 ⟨s, h.1 s hs, he⟩
  have hal : AlignIs F (markerType d.ty) (Spec.align d.ty) := by rw [hm]; exact def_alignIs h hok
  cases hs : Spec.size d.ty with
  | none =>
    refine ⟨hn, fun tr htr => ?_, fun hz => (by rw [hs] at hz; cases hz), hal⟩
    rw [hm]
    refine nf_has h hok hs tr ?_
    simp only [List.mem_cons, List.not_mem_nil, or_false] at htr ⊢
    tauto
  | some n =>
    have hz : (Spec.size d.ty).isSome := by rw [hs]; rfl
    have hsz : Impls F .sized (markerType d.ty) := by
      obtain ⟨B, fs, h1, h2, h3, _⟩ := pk_fields hok hs
      rw [hm]
      refine .fields (d.children.map markerType) (h.1 _ (by rw [h1]; exact List.mem_cons_self)) h2 h3 ?_
      intro r hr
      obtain ⟨m, hm', rfl⟩ := List.mem_map.1 hr
      rw [hok.2.2.1] at hm'
      exact (ih m hm').sized (size_struct_members hok.1 hz m hm') _ (by simp)
    have hcl : Impls F .clone (markerType d.ty) := by rw [hm]; exact pk_has h hok hs _ (by simp)
    refine ⟨hn, fun tr htr => ?_, fun _ tr htr => ?_, hal⟩
    · by_cases hto : tr = .toOwned
      · subst hto; exact .toOwned hsz hcl
      · rw [hm]
        refine pk_has h hok hs tr ?_
        simp only [List.mem_cons, List.not_mem_nil, or_false] at htr ⊢
        tauto
    · simp only [List.mem_cons, List.not_mem_nil, or_false] at htr
      rcases htr with rfl | rfl | rfl
      · exact hsz
      · rw [hm]; exact pk_has h hok hs _ (by simp)
      · exact hcl

theorem def_of_comp {t : Ty} {defs : List StructDef} (h : generateTypes t = .ok defs) {c : Ty} (hc : Component c t)
    (hs : isStruct c = true) : ∃ d ∈ defs, d.ty = c ∧ DefOk d := by
  have hm : c ∈ defs.map (·.ty) := by
    rw [generateTypes_tys t defs h]; exact (mem_structOccs t c).2 ⟨hc, hs⟩
  obtain ⟨d, hd, rfl⟩ := List.mem_map.1 hm
  exact ⟨d, hd, rfl, generateTypes_defOk t defs h d hd⟩

theorem able_marker {t : Ty} {defs : List StructDef} (h : generateTypes t = .ok defs) (c : Ty) :
    Component c t → Able (defsF defs) c := by
  induction c using Ty.ind with
  | a e ih =>
    intro hc
    have he := ih (comp_array hc)
    cases hz : GV.sizeOf e with
    | none =>
      have hm : markerType (.A e) = .nonFixedWidthArray (markerType e) := by simp only [markerType, hz]
      refine ⟨?_, fun tr htr => ?_, fun hz => (by cases hz), ?_⟩
      · rw [hm]; exact ⟨he.named, he.has _ (by simp)⟩
      · rw [hm]
        have hca := he.has .cast (by simp)
        simp only [List.mem_cons, List.not_mem_nil, or_false] at htr
        rcases htr with rfl | rfl | rfl | rfl | rfl | rfl
        · exact .array (by simp) hca
        · exact .array (by simp) hca
        · exact .array (by simp) hca
        · exact .array' (by simp) hca (he.has _ (by simp))
        · exact .array' (by simp) hca (he.has _ (by simp))
        · exact .array (by simp) hca
      · rw [hm]; exact .array he.align
    | some n =>
      have hm : markerType (.A e) = .slice (markerType e) := by simp only [markerType, hz]
      rw [sizeOf_eq] at hz
      have hs := he.sized (by rw [hz]; rfl)
      have hs1 := hs .sized (by simp)
      refine ⟨?_, fun tr htr => ?_, fun hz => (by cases hz), ?_⟩
      · rw [hm]; exact ⟨he.named, hs1⟩
      · rw [hm]
        simp only [List.mem_cons, List.not_mem_nil, or_false] at htr
        rcases htr with rfl | rfl | rfl | rfl | rfl | rfl
        · exact .sliceCast hs1 (he.has _ (by simp)) (hs _ (by simp))
        · exact .slice' (by simp) hs1 (he.has _ (by simp))
        · exact .slice' (by simp) hs1 (he.has _ (by simp))
        · exact .slice (by simp) hs1 (he.has _ (by simp))
        · exact .slice (by simp) hs1 (he.has _ (by simp))
        · exact .sliceOwned hs1 (hs _ (by simp))
      · rw [hm]; exact .slice he.align
  | m e ih =>
    intro hc
    have he := ih (comp_maybe hc)
    have hca := he.has .cast (by simp)
    cases hz : GV.sizeOf e with
    | none =>
      have hm : markerType (.M e) = .maybeNonFixedSize (markerType e) := by simp only [markerType, hz]
      refine ⟨?_, fun tr htr => ?_, fun hz => (by cases hz), ?_⟩
      · rw [hm]; exact ⟨he.named, he.has _ (by simp)⟩
      · rw [hm]
        simp only [List.mem_cons, List.not_mem_nil, or_false] at htr
        rcases htr with rfl | rfl | rfl | rfl | rfl | rfl
        · exact .maybeVar (by simp) hca
        · exact .maybeVar (by simp) hca
        · exact .maybeVar (by simp) hca
        · exact .maybeVar' (by simp) hca (he.has _ (by simp))
        · exact .maybeVar' (by simp) hca (he.has _ (by simp))
        · exact .maybeVar (by simp) hca
      · rw [hm]; exact .maybeVar he.align
    | some n =>
      have hm : markerType (.M e) = .maybeFixedSize (markerType e) := by simp only [markerType, hz]
      rw [sizeOf_eq] at hz
      have hs1 := he.sized (by rw [hz]; rfl) .sized (by simp)
      refine ⟨?_, fun tr htr => ?_, fun hz => (by cases hz), ?_⟩
      · rw [hm]; exact ⟨he.named, hs1, hca⟩
      · rw [hm]
        simp only [List.mem_cons, List.not_mem_nil, or_false] at htr
        rcases htr with rfl | rfl | rfl | rfl | rfl | rfl
        · exact .maybe (by simp) hs1 hca
        · exact .maybe (by simp) hs1 hca
        · exact .maybe (by simp) hs1 hca
        · exact .maybe' (by simp) hs1 hca (he.has _ (by simp))
        · exact .maybe' (by simp) hs1 hca (he.has _ (by simp))
        · exact .maybe (by simp) hs1 hca
      · rw [hm]; exact .maybe he.align
  | tuple ts ih =>
    intro hc
    obtain ⟨d, hd, hty, hok⟩ := def_of_comp h hc rfl
    have := able_struct (holds_defs hd) hok (by
      rw [hty]
      exact fun m hm => ih m hm (component_trans (member_component hm) hc))
    rwa [hty] at this
  | dict k v ihk ihv =>
    intro hc
    obtain ⟨d, hd, hty, hok⟩ := def_of_comp h hc rfl
    have := able_struct (holds_defs hd) hok (by
      rw [hty]
      intro m hm
      have hmc := component_trans (member_component hm) hc
      simp only [members, List.mem_cons, List.not_mem_nil, or_false] at hm
      rcases hm with rfl | rfl
      · exact ihk hmc
      · exact ihv hmc)
    rwa [hty] at this
  | b =>
    intro _
    refine ⟨trivial, fun tr htr => ?_, fun _ tr htr => ?_, .one (by simp [markerType])⟩
    · by_cases hto : tr = .toOwned
      · subst hto; exact .toOwned (.bool (by simp)) (.bool (by simp))
      · refine .bool ?_
        simp only [List.mem_cons, List.not_mem_nil, or_false] at htr ⊢
        tauto
    · refine .bool ?_
      simp only [List.mem_cons, List.not_mem_nil, or_false] at htr ⊢
      tauto
  | s | o | g =>
    intro _
    refine ⟨trivial, fun tr htr => .str ?_, fun hz => (by cases hz), .one (by simp [markerType])⟩
    simp only [List.mem_cons, List.not_mem_nil, or_false] at htr ⊢
    tauto
  | v =>
    intro _
    refine ⟨trivial, fun tr htr => .variant ?_, fun hz => (by cases hz), .eight (by simp [markerType])⟩
    simp only [List.mem_cons, List.not_mem_nil, or_false] at htr ⊢
    tauto
  | y => intro _; exact able_number rfl (.one (by simp [markerType])) trivial
  | n | q => intro _; exact able_number rfl (.two (by simp [markerType])) trivial
  | i | u => intro _; exact able_number rfl (.four (by simp [markerType])) trivial
  | x | t | d => intro _; exact able_number rfl (.eight (by simp [markerType])) trivial

end GV.Props
