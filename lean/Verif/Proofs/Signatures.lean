import Verif.Proofs.Coherence
/-
The functions in the emitted implementations have the signatures of the traits.
-/
namespace GV.Props
open GV Spec

theorem fns_defs (name : Bytes) (ds : List StructDef) : fns name (defsF ds) = ds.flatMap fun d => fns name (defF d) := by
  unfold fns
  rw [impls_defs, List.flatMap_assoc]

theorem typeDefs_defs (name : Bytes) (ds : List StructDef) : typeDefs name (defsF ds) = ds.flatMap fun d => typeDefs name (defF d) := by
  unfold typeDefs
  rw [impls_defs, List.flatMap_assoc]

theorem pk_to_owned (ty : Ty) (children : List Ty) (pk : Packed) : fns fmt!"to_owned" (pkF ty children pk) = [] :=
  pk_fn ty children pk (name := fmt!"to_owned") [] (by decide +kernel)

section
variable {d : StructDef}

theorem sig_one {l : List (Forest × Forest × Forest)} {h i b decl : Forest} (hl : l = [(i, h, b)]) (hd : noPaths h = noPaths decl) :
    ∀ q ∈ l, noPaths q.2.1 = noPaths decl := by
  subst hl
  intro q hq
  rw [List.mem_singleton] at hq
  rw [hq]; exact hd

theorem def_signatures (hok : DefOk d) : ∀ s ∈ signatures, ∀ q ∈ fns s.1 (defF d), noPaths q.2.1 = noPaths s.2 := by
  cases hs : Spec.size d.ty with
  | none =>
    obtain ⟨p, _, _, hF⟩ := nf_defF hok hs
    rw [hF]
    intro s hs
    simp only [signatures, List.mem_cons, List.not_mem_nil, or_false] at hs
    rcases hs with rfl | rfl | rfl | rfl | rfl | rfl | rfl
    · exact sig_one (nf_default_ref _ _ _) (by decide +kernel)
    · exact sig_one (nf_try_from _ _ _) (by decide +kernel)
    · exact sig_one (nf_try_from_mut _ _ _) (by decide +kernel)
    · exact sig_one (nf_to_owned _ _ _) (by decide +kernel)
    · exact sig_one (nf_eq _ _ _) (by decide +kernel)
    · exact sig_one (nf_fmt _ _ _) (by decide +kernel)
    · exact sig_one (nf_serialize _ _ _) (by decide +kernel)
  | some n =>
    obtain ⟨p, _, _, hF⟩ := pk_defF hok hs
    rw [hF]
    intro s hs
    simp only [signatures, List.mem_cons, List.not_mem_nil, or_false] at hs
    rcases hs with rfl | rfl | rfl | rfl | rfl | rfl | rfl
    · exact sig_one (pk_default_ref _ _ _) (by decide +kernel)
    · exact sig_one (pk_try_from _ _ _) (by decide +kernel)
    · exact sig_one (pk_try_from_mut _ _ _) (by decide +kernel)
    · intro q hq; rw [pk_to_owned] at hq; cases hq
    · exact sig_one (pk_eq _ _ _) (by decide +kernel)
    · exact sig_one (pk_fmt _ _ _) (by decide +kernel)
    · exact sig_one (pk_serialize _ _ _) (by decide +kernel)

theorem def_toTuple (hok : DefOk d) : ∀ q ∈ fns fmt!"to_tuple" (defF d), ∃ r, (q.1, r) ∈ typeDefs fmt!"RefTuple" (defF d) ∧
    q.2.1 = (code fmt!"fn to_tuple(&'a self) ->").append r := by
  intro q hq
  cases hs : Spec.size d.ty with
  | none =>
    obtain ⟨p, _, _, hF⟩ := nf_defF hok hs
    rw [hF, nf_to_tuple, List.mem_singleton] at hq
    rw [hF, nf_refTuple, hq]
    exact ⟨_, List.mem_singleton.2 rfl, rfl⟩
  | some n =>
    obtain ⟨p, _, _, hF⟩ := pk_defF hok hs
    rw [hF, pk_to_tuple, List.mem_singleton] at hq
    rw [hF, pk_refTuple, hq]
    exact ⟨_, List.mem_singleton.2 rfl, rfl⟩

theorem def_from (hok : DefOk d) : ∀ q ∈ fns fmt!"from" (defF d), ∃ n tup, q.1 = fromHead n tup ∧
    q.2.1 = code (fmt!"fn from(value : &'a " ++ (n ++ fmt!") -> Self")) := by
  intro q hq
  cases hs : Spec.size d.ty with
  | none =>
    obtain ⟨p, _, _, hF⟩ := nf_defF hok hs
    rw [hF, nf_from, List.mem_singleton] at hq
    exact ⟨_, _, by rw [hq], by rw [hq]⟩
  | some n =>
    obtain ⟨p, _, _, hF⟩ := pk_defF hok hs
    rw [hF, pk_from, List.mem_singleton] at hq
    exact ⟨_, _, by rw [hq], by rw [hq]⟩

end

end GV.Props
