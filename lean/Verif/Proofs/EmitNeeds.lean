import Verif.Proofs.EmitScope
/-
What the text of every definition needs to be there.
-/
namespace GV.Props
open GV Spec

/-- The header of the implementation of `Debug`. -/
theorem uses_debug (r : Forest) (σ φ) (hlow : ∀ c < 128, σ c = [c]) : ∀ S : Scope,
    S.all false (subF σ φ ((code fmt!"impl std::fmt::Debug for").append r)) → S.std = true := by
  intro S h
  have h0 : code fmt!"impl std::fmt::Debug for" = .leaf (.word fmt!"impl") (.leaf (.word fmt!"std") (.leaf (.op 58)
      (.leaf (.op 58) (.leaf (.word fmt!"fmt") (.leaf (.op 58) (.leaf (.op 58) (.leaf (.word fmt!"Debug")
        (.leaf (.word fmt!"for") .nil)))))))) := by decide +kernel
  have h1 : Use.path .here [fmt!"std", fmt!"fmt", fmt!"Debug"] ∈
      uses false (.at .none 0) (subF σ φ ((code fmt!"impl std::fmt::Debug for").append r)) := by
    rw [h0]
    simp only [Forest.append]
    rw [subF_plain hlow (by decide), subF_plain hlow (by decide)]
    simp only [subF.eq_3]
    rw [subF_plain hlow (by decide)]
    simp only [subF.eq_3]
    rw [subF_plain hlow (by decide), subF_plain hlow (by decide)]
    exact List.mem_cons_of_mem _ (List.mem_cons_of_mem _ List.mem_cons_self)
  have h2 := h _ h1
  have h3 : crateRoot.contains [fmt!"fmt", fmt!"Debug"] = false := by decide
  have h4 : crateRoot.contains [fmt!"std", fmt!"fmt", fmt!"Debug"] = false := by decide
  have h5 : corePaths.contains [fmt!"std", fmt!"fmt", fmt!"Debug"] = false := by decide
  simp only [Scope.resolves, Scope.here, Scope.extern, h3, h4, h5, List.isEmpty_cons, Bool.or_false, Bool.and_false,
    Bool.false_or, Bool.and_eq_true] at h2
  exact h2.1

theorem uses_crate (r : Forest) (σ φ) (hlow : ∀ c < 128, σ c = [c]) : ∀ S : Scope,
    S.all false (subF σ φ ((code fmt!"impl ::gvariant::Cast for").append r)) → S.crate = fmt!"gvariant" := by
  intro S h
  have h0 : code fmt!"impl ::gvariant::Cast for" = .leaf (.word fmt!"impl") (.leaf (.op 58)
      (.leaf (.op 58) (.leaf (.word fmt!"gvariant") (.leaf (.op 58) (.leaf (.op 58) (.leaf (.word fmt!"Cast")
        (.leaf (.word fmt!"for") .nil))))))) := by decide +kernel
  have h1 : Use.path .top [fmt!"gvariant"] ∈
      uses false (.at .none 0) (subF σ φ ((code fmt!"impl ::gvariant::Cast for").append r)) := by
    rw [h0]
    simp only [Forest.append]
    rw [subF_plain hlow (by decide)]
    simp only [subF.eq_3]
    rw [subF_plain hlow (by decide)]
    exact List.mem_cons_self
  have h2 := h _ h1
  have h4 : stdPaths.contains [fmt!"gvariant"] = false := by decide
  have h5 : corePaths.contains [fmt!"gvariant"] = false := by decide
  simp only [Scope.resolves, Scope.extern, h4, h5, List.isEmpty_nil, Bool.or_false, Bool.and_false,
    Bool.true_or, Bool.and_true, beq_iff_eq] at h2
  exact h2.symm

/-- Some item has such a header. -/
def hasHeader (x : Bytes) (f : Forest) : Bool :=
  (items f).any fun it => match (code x).strip it.hdr with
    | some r => decide (it.hdr = (code x).append r)
    | none => false

theorem hasHeader_mem {x f} (h : hasHeader x f = true) : ∃ it ∈ items f, ∃ r, it.hdr = (code x).append r := by
  unfold hasHeader at h
  obtain ⟨it, hit, h⟩ := List.any_eq_true.1 h
  split at h
  · next r _ => exact ⟨it, hit, r, by simpa using h⟩
  · cases h

set_option maxRecDepth 100000 in
theorem tpl_headers : (hasHeader fmt!"impl std::fmt::Debug for" nfTrees && hasHeader fmt!"impl std::fmt::Debug for" packedTrees &&
    hasHeader fmt!"impl ::gvariant::Cast for" nfTrees && hasHeader fmt!"impl ::gvariant::Cast for" packedTrees) = true := by
  decide +kernel

/-- A definition needs `std` and the crate under its own name. -/
theorem def_needs (d : StructDef) {S : Scope} (h : ∀ it ∈ items (defF d), S.item it) :
    S.std = true ∧ S.crate = fmt!"gvariant" := by
  have hr := def_ready d
  simp only [ready, Bool.and_eq_true] at hr
  have hh := tpl_headers
  simp only [Bool.and_eq_true] at hh
  have h1 : hasHeader fmt!"impl std::fmt::Debug for" (defTpl d) = true := by
    unfold defTpl
    split
    · exact hh.1.1.2
    · exact hh.1.1.1
  have h2 : hasHeader fmt!"impl ::gvariant::Cast for" (defTpl d) = true := by
    unfold defTpl
    split
    · exact hh.2
    · exact hh.1.2
  have hall : ∀ {x it r}, it ∈ items (defTpl d) → it.hdr = (code x).append r → ∃ L V,
      ({ S with locals := L, lives := V } : Scope).all false (subF (argT (defArgs d)) (argF (defArgs d)) ((code x).append r)) := by
    intro x it r hit he
    have := h (subItem (argT (defArgs d)) (argF (defArgs d)) it) (by
      rw [defF, items_sub (defArgs_clean d) hr.1]
      exact List.mem_map_of_mem hit)
    have := this.1
    simp only [subItem, he] at this
    exact ⟨_, _, this⟩
  obtain ⟨it, hit, r, he⟩ := hasHeader_mem h1
  obtain ⟨L, V, ha⟩ := hall hit he
  obtain ⟨it2, hit2, r2, he2⟩ := hasHeader_mem h2
  obtain ⟨L2, V2, ha2⟩ := hall hit2 he2
  have k1 := uses_debug r _ _ (defArgs_low d) _ ha
  have k2 := uses_crate r2 _ _ (defArgs_low d) _ ha2
  exact ⟨k1, k2⟩

end GV.Props
