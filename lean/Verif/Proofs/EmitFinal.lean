import Verif.Proofs.EmitSpecial
import Verif.Model.Ser
/-
Reading what was written in a structure of fixed size, and definitions in a row.
-/
namespace GV.Props
open GV Spec

theorem parses_name (ty : Ty) : Parses (structName ty) (.leaf (.word (structName ty)) .nil) :=
  parses_word (structName_word ty).1 (structName_word ty).2

theorem code_arrow (ty : Ty) : code (fmt!"-> " ++ structName ty) = (code fmt!"->").append (.leaf (.word (structName ty)) .nil) := by
  have h := parses_append (constC (x := fmt!"-> ") (by decide +kernel)) (parses_name ty)
  have he : code fmt!"-> " = code fmt!"->" := by decide +kernel
  rw [he] at h
  exact code_of h

theorem readNew_eq (ty : Ty) (children : List Ty) (fs : List Field) :
    readNew (structName ty) (newHead (structName ty) (paramsF children))
      (.leaf (.word (structName ty)) (.grp 123 (eachF (initsF 0 fs)) .nil)) =
      some (children.mapIdx (fun n c => (n, (markerType c).trees)), initsR 0 fs) := by
  unfold readNew newHead
  rw [strip_append, code_arrow]
  simp only [and_self, if_true, readParam_all, atCommas_eachF (initsF_lone 0 fs), readInit_all]

theorem code_static (ty : Ty) : code (fmt!"static s : " ++ structName ty ++ fmt!" = " ++ structName ty ++ fmt!"::new") =
    (code fmt!"static s :").append (.leaf (.word (structName ty)) (.leaf (.op 61) (.leaf (.word (structName ty))
      (code fmt!"::new")))) := by
  have h : Parses (fill (args [(ph! "x", structName ty)]) fmt!"static s : {x} = {x}::new")
      ((code fmt!"static s :").append (.leaf (.word (structName ty)) (.leaf (.op 61) (.leaf (.word (structName ty))
      (code fmt!"::new"))))) := by
    refine piece [(ph! "x", structName ty, .nil)] ?_ rfl rfl
    simpa using argOk_glue _ rfl (structName_word ty).1 (structName_word ty).2
  have he : fill (args [(ph! "x", structName ty)]) fmt!"static s : {x} = {x}::new" =
      fmt!"static s : " ++ structName ty ++ fmt!" = " ++ structName ty ++ fmt!"::new" := by
    simp [fill, args, List.lookup]
  rw [← he]
  exact code_of h

theorem readDefault_eq (ty : Ty) (children : List Ty) :
    readDefault (structName ty) (pkDefaultF (structName ty) (defaultsF children)) = some children.length := by
  have hi : items (pkDefaultF (structName ty) (defaultsF children)) =
      [⟨(code (fmt!"static s : " ++ structName ty ++ fmt!" = " ++ structName ty ++ fmt!"::new")).append
        (.grp 40 (defaultsF children) .nil), .semi⟩, ⟨code fmt!"&s", .eof⟩] := by
    have h1 : pkDefaultF (structName ty) (defaultsF children) =
        ((code (fmt!"static s : " ++ structName ty ++ fmt!" = " ++ structName ty ++ fmt!"::new")).append
          (.grp 40 (defaultsF children) .nil)).append (.leaf (.op 59) (code fmt!"&s")) := by
      rw [code_static]
      simp only [pkDefaultF, forest_append_assoc, Forest.append]
    have h2 : items (code fmt!"&s") = [⟨code fmt!"&s", .eof⟩] := by decide +kernel
    rw [h1, items_semi, h2]
    rw [code_static]
    exact flat_append (flat_append (by decide +kernel) rfl) rfl
  unfold readDefault
  rw [hi]
  simp only [strip_append, true_and]
  rw [atCommas_defaults]
  simp

theorem code_sizeOk (ty : Ty) : code (fmt!"Ok(core::mem::size_of::<" ++ structName ty ++ fmt!">())") =
    sizeOkF (structName ty) := by
  have h : Parses (fill (args [(ph! "x", structName ty)]) fmt!"Ok(core::mem::size_of::<{x}>())")
      (sizeOkF (structName ty)) := by
    refine piece [(ph! "x", structName ty, .nil)] ?_ rfl rfl
    simpa using argOk_glue _ rfl (structName_word ty).1 (structName_word ty).2
  have he : fill (args [(ph! "x", structName ty)]) fmt!"Ok(core::mem::size_of::<{x}>())" =
      fmt!"Ok(core::mem::size_of::<" ++ structName ty ++ fmt!">())" := by
    simp [fill, args, List.lookup]
  rw [← he]
  exact code_of h

theorem readFixedSer_eq (ty : Ty) (cs : List Cmd) : readFixedSer (structName ty) (pkSerF (structName ty) cs) = some cs := by
  unfold readFixedSer pkSerF
  rw [items_cmds, code_sizeOk]
  have h1 : items (sizeOkF (structName ty)) = [⟨sizeOkF (structName ty), .eof⟩] := rfl
  rw [h1]
  refine readCmds_eq cs fun it hit => ?_
  rw [List.mem_singleton] at hit
  rw [hit]
  rfl

/-! ### Definitions in a row -/

theorem items_closed (h i g : Forest) :
    items ((h.append (.grp 123 i .nil)).append g) = items (h.append (.grp 123 i .nil)) ++ items g ∧
      items (h.append (.grp 123 i .nil)) ≠ [] := by
  have hpre : ∀ (x : Forest) (l m : List Item), l ≠ [] → preItem x (l ++ m) = preItem x l ++ m ∧ preItem x l ≠ [] := by
    intro x l m hl
    cases l with
    | nil => exact absurd rfl hl
    | cons it l => exact ⟨rfl, by simp [preItem]⟩
  induction h with
  | nil => exact ⟨rfl, by simp [Forest.append, items]⟩
  | leaf t r ih =>
    simp only [Forest.append, items]
    by_cases ht : t = .op 59
    · simp only [if_pos ht, ih.1, List.cons_append, true_and]
      simp
    · simp only [if_neg ht, ih.1]
      exact hpre _ _ _ ih.2
  | grp d j r _ ih =>
    simp only [Forest.append, items]
    by_cases hd : d = 123
    · simp only [if_pos hd, ih.1, List.cons_append, true_and]
      simp
    · simp only [if_neg hd, ih.1]
      exact hpre _ _ _ ih.2

/-- All but the last tree. -/
def initF : Forest → Forest
  | .nil => .nil
  | .leaf _ .nil => .nil
  | .grp _ _ .nil => .nil
  | .leaf t r => .leaf t (initF r)
  | .grp d i r => .grp d i (initF r)

/-- Inside of the last tree. -/
def lastF : Forest → Forest
  | .nil => .nil
  | .grp _ i .nil => i
  | .leaf _ r => lastF r
  | .grp _ _ r => lastF r

set_option maxRecDepth 100000 in
theorem nf_closed : ∃ h i : Forest, nfTrees = h.append (.grp 123 i .nil) :=
  ⟨initF nfTrees, lastF nfTrees, by decide +kernel⟩

set_option maxRecDepth 100000 in
theorem pk_closed : ∃ h i : Forest, packedTrees = h.append (.grp 123 i .nil) :=
  ⟨initF packedTrees, lastF packedTrees, by decide +kernel⟩

theorem defF_closed (d : StructDef) : ∃ h i : Forest, defF d = h.append (.grp 123 i .nil) := by
  unfold defF defTpl
  split
  · obtain ⟨h, i, he⟩ := pk_closed
    rw [he, subF_append]; exact ⟨_, _, rfl⟩
  · obtain ⟨h, i, he⟩ := nf_closed
    rw [he, subF_append]; exact ⟨_, _, rfl⟩

/-- The trees of several definitions. -/
def defsF (ds : List StructDef) : Forest := concatF (ds.map defF)

theorem parsesC_defs (ds : List StructDef) : ParsesC (ds.flatMap StructDef.text) (defsF ds) := by
  rw [List.flatMap_def]
  exact parsesC_flatten ds _ _ fun d _ => parsesC_def d

theorem items_defs (ds : List StructDef) : items (defsF ds) = ds.flatMap fun d => items (defF d) := by
  induction ds with
  | nil => rfl
  | cons d ds ih =>
    obtain ⟨h, i, hd⟩ := defF_closed d
    have h1 : defsF (d :: ds) = (defF d).append (defsF ds) := rfl
    rw [h1, List.flatMap_cons, ← ih, hd, (items_closed h i _).1]

theorem structs_defs (ds : List StructDef) : structs (defsF ds) = ds.flatMap fun d => structs (defF d) := by
  unfold structs
  rw [items_defs, List.filterMap_flatMap]

theorem impls_defs (ds : List StructDef) : impls (defsF ds) = ds.flatMap fun d => impls (defF d) := by
  unfold impls
  rw [items_defs, List.filterMap_flatMap]

/-! ### Every item is a structure or an implementation -/

/-- A structure definition or an implementation. -/
def known (it : Item) : Bool :=
  match it.stop with
  | .body _ => (structHead it.hdr).isSome || isImpl it.hdr
  | _ => false

set_option maxRecDepth 100000 in
theorem nf_known : (items nfTrees).all known = true := by decide +kernel

set_option maxRecDepth 100000 in
theorem pk_known : (items packedTrees).all known = true := by decide +kernel

theorem def_known (d : StructDef) : ∀ it ∈ items (defF d), known it = true := by
  have hr := def_ready d
  simp only [ready, Bool.and_eq_true, List.all_eq_true] at hr
  intro it hit
  unfold defF at hit
  rw [items_sub (defArgs_clean d) hr.1] at hit
  obtain ⟨it0, h0, rfl⟩ := List.mem_map.1 hit
  have hk : known it0 = true := by
    unfold defTpl at h0
    split at h0
    · exact List.all_eq_true.1 pk_known it0 h0
    · exact List.all_eq_true.1 nf_known it0 h0
  have h1 := hr.2 it0 h0
  have hs := structHead_sub (φ := argF (defArgs d)) (defArgs_low d) h1.1.1
  have hi := isImpl_sub (φ := argF (defArgs d)) (defArgs_low d) h1.1.2
  unfold known at hk ⊢
  simp only [subItem, hs, hi, Option.isSome_map]
  cases hst : it0.stop with
  | semi => rw [hst] at hk; exact hk
  | eof => rw [hst] at hk; exact hk
  | body b => rw [hst] at hk; exact hk

end GV.Props
