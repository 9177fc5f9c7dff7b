import Verif.Proofs.TraitBounds
/-
What the marker types of structures do not implement.
-/
namespace GV.Props
open GV Spec

/-- What is implemented for structures of fixed size. -/
def pkTraits : List Trt := [.sized, .copy, .clone, .default, .partialEq, .debug, .toOwned, .alignOf, .valid, .cast, .structure]

/-- What is implemented for structures of variable size. -/
def nfTraits : List Trt := [.partialEq, .debug, .toOwned, .alignOf, .valid, .cast, .structure]

theorem written_one {x : Forest} {name w0 : Bytes} {l : List Trt} (hx : implFor x = some (w0, name))
    (hw : ((traitNamed w0).elim true fun s => l.contains s) = true) :
    ∀ w n tr, implFor x = some (w, n) → traitNamed w = some tr → n = name ∧ tr ∈ l := by
  intro w n tr h1 h2
  rw [hx] at h1
  cases h1
  rw [h2] at hw
  exact ⟨rfl, by simpa using hw⟩

theorem written_none {x : Forest} {name : Bytes} {l : List Trt} (hx : implFor x = none) :
    ∀ w n tr, implFor x = some (w, n) → traitNamed w = some tr → n = name ∧ tr ∈ l := by
  intro w n tr h1
  rw [hx] at h1
  cases h1

section
variable {d : StructDef}

theorem nf_written (hok : DefOk d) (hs : Spec.size d.ty = none) : ∀ p ∈ impls (defF d), ∀ w n tr, implFor p.1 = some (w, n) →
    traitNamed w = some tr → n = structName d.ty ∧ tr ∈ nfTraits := by
  obtain ⟨p, _, hp, hF⟩ := nf_defF hok hs
  intro q hq
  have h1 := List.mem_map_of_mem (f := (·.1)) hq
  rw [hF, nf_impls] at h1
  simp only [List.mem_cons, List.not_mem_nil, or_false] at h1
  rcases h1 with h1 | h1 | h1 | h1 | h1 | h1 | h1 | h1 | h1 | h1 <;> rw [h1]
  · exact written_none (implFor_inherent _)
  · exact written_one (implFor_code (x := fmt!"impl ToOwned for ") (w := fmt!"ToOwned") d.ty (by decide +kernel)) (by decide +kernel)
  · exact written_one (implFor_code (x := fmt!"impl ::gvariant::Cast for ") (w := fmt!"Cast") d.ty (by decide +kernel)) (by decide +kernel)
  · exact written_one (implFor_code (x := fmt!"unsafe impl ::gvariant::casting::AllBitPatternsValid for ")
      (w := fmt!"AllBitPatternsValid") d.ty (by decide +kernel)) (by decide +kernel)
  · exact written_one (implFor_code (x := fmt!"unsafe impl ::gvariant::casting::AlignOf for ") (w := fmt!"AlignOf") d.ty
      (by decide +kernel)) (by decide +kernel)
  · exact written_one (implFor_code (x := fmt!"impl<'a> Structure<'a> for ") (w := fmt!"Structure") d.ty (by decide +kernel))
      (by decide +kernel)
  · exact written_none (implFor_from _ _)
  · exact written_one (implFor_code (x := fmt!"impl PartialEq for ") (w := fmt!"PartialEq") d.ty (by decide +kernel)) (by decide +kernel)
  · exact written_none (implFor_ser _ _ _)
  · exact written_one (implFor_code (x := fmt!"impl std::fmt::Debug for ") (w := fmt!"Debug") d.ty (by decide +kernel))
      (by decide +kernel)

theorem pk_written {n : Nat} (hok : DefOk d) (hs : Spec.size d.ty = some n) : ∀ p ∈ impls (defF d), ∀ w n tr, implFor p.1 = some (w, n) →
    traitNamed w = some tr → n = structName d.ty ∧ tr ∈ pkTraits := by
  obtain ⟨p, _, hp, hF⟩ := pk_defF hok hs
  intro q hq
  have h1 := List.mem_map_of_mem (f := (·.1)) hq
  rw [hF, pk_impls] at h1
  simp only [List.mem_cons, List.not_mem_nil, or_false] at h1
  rcases h1 with h1 | h1 | h1 | h1 | h1 | h1 | h1 | h1 | h1 <;> rw [h1]
  · exact written_one (implFor_code (x := fmt!"unsafe impl ::gvariant::casting::AllBitPatternsValid for ")
      (w := fmt!"AllBitPatternsValid") d.ty (by decide +kernel)) (by decide +kernel)
  · exact written_one (implFor_code (x := fmt!"unsafe impl ::gvariant::casting::AlignOf for ") (w := fmt!"AlignOf") d.ty
      (by decide +kernel)) (by decide +kernel)
  · exact written_none (implFor_inherent _)
  · exact written_one (implFor_code (x := fmt!"impl<'a> ::gvariant::Structure<'a> for ") (w := fmt!"Structure") d.ty (by decide +kernel))
      (by decide +kernel)
  · exact written_one (implFor_code (x := fmt!"impl ::gvariant::Cast for ") (w := fmt!"Cast") d.ty (by decide +kernel)) (by decide +kernel)
  · exact written_one (implFor_code (x := fmt!"impl PartialEq for ") (w := fmt!"PartialEq") d.ty (by decide +kernel)) (by decide +kernel)
  · exact written_none (implFor_from _ _)
  · exact written_none (implFor_ser _ _ _)
  · exact written_one (implFor_code (x := fmt!"impl std::fmt::Debug for ") (w := fmt!"Debug") d.ty (by decide +kernel))
      (by decide +kernel)

end

/-- What is implemented for a structure type `c` among the definitions. -/
def onlyTraits (c : Ty) : List Trt := if (Spec.size c).isSome then pkTraits else nfTraits

theorem struct_only {defs : List StructDef} (hall : ∀ d ∈ defs, DefOk d) {tr : Trt} {r : RTy}
    (h : Impls (defsF defs) tr r) : ∀ n, r = .struct n → ∃ d ∈ defs, structName d.ty = n ∧ tr ∈ onlyTraits d.ty := by
  have hsd : ∀ {as n B}, (as, n, B) ∈ structs (defsF defs) → ∃ d ∈ defs, structName d.ty = n ∧ (as, n, B) ∈ structs (defF d) := by
    intro as n B hm
    rw [structs_defs] at hm
    obtain ⟨d, hd, hm⟩ := List.mem_flatMap.1 hm
    have h1 := List.mem_map_of_mem (f := (·.2.1)) hm
    rw [structs_name d (hall d hd), List.mem_singleton] at h1
    exact ⟨d, hd, h1.symm, hm⟩
  induction h with
  | number h _ => rintro n rfl; cases h
  | integer h _ => rintro n rfl; cases h
  | number' h _ => rintro n rfl; cases h
  | toOwned _ _ ih _ =>
    intro n hn
    obtain ⟨d, hd, h1, h2⟩ := ih n hn
    refine ⟨d, hd, h1, ?_⟩
    unfold onlyTraits
    split
    · decide
    · decide
  | fields rs hm hf _ _ _ =>
    rintro n h; cases h
    obtain ⟨d, hd, h1, h2⟩ := hsd hm
    refine ⟨d, hd, h1, ?_⟩
    cases hs : Spec.size d.ty with
    | some k => simp [onlyTraits, hs, pkTraits]
    | none =>
      obtain ⟨p, _, _, hF⟩ := nf_defF (hall d hd) hs
      rw [hF, nf_structs, List.mem_singleton] at h2
      cases h2
      have h3 := dataAlign_declared hf
      rw [alignOf_eq, dataAlign_eq] at h3
      cases h3
  | derived hm hdv =>
    rintro n h; cases h
    obtain ⟨d, hd, h1, h2⟩ := hsd hm
    refine ⟨d, hd, h1, ?_⟩
    cases hs : Spec.size d.ty with
    | some k =>
      obtain ⟨B, fs, hst, _⟩ := pk_fields (hall d hd) hs
      rw [hst, List.mem_singleton] at h2
      cases h2
      have := derives_pk.1 hdv
      simp only [onlyTraits, hs, Option.isSome_some, if_true, pkTraits]
      simp only [List.mem_cons, List.not_mem_nil, or_false] at this ⊢
      tauto
    | none =>
      obtain ⟨p, _, _, hF⟩ := nf_defF (hall d hd) hs
      rw [hF, nf_structs, List.mem_singleton] at h2
      cases h2
      obtain ⟨i, w, h3, _⟩ := hdv
      have h4 : code fmt!"repr(transparent)" = .leaf (.word fmt!"repr") (.grp 40 (code fmt!"transparent") .nil) := by decide +kernel
      rw [List.mem_singleton, h4] at h3
      simp only [Forest.leaf.injEq, Tok.word.injEq] at h3
      exact absurd h3.1 (by decide)
  | written hp hi ht =>
    rintro n h; cases h
    rw [impls_defs] at hp
    obtain ⟨d, hd, hp⟩ := List.mem_flatMap.1 hp
    cases hs : Spec.size d.ty with
    | some k =>
      obtain ⟨h1, h2⟩ := pk_written (hall d hd) hs _ hp _ _ _ hi ht
      exact ⟨d, hd, h1.symm, by simpa [onlyTraits, hs] using h2⟩
    | none =>
      obtain ⟨h1, h2⟩ := nf_written (hall d hd) hs _ hp _ _ _ hi ht
      exact ⟨d, hd, h1.symm, by simpa [onlyTraits, hs] using h2⟩
  | _ => intro n hn; cases hn

end GV.Props
