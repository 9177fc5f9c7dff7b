import Verif.Spec.Coherence
import Verif.Proofs.TraitOnly
/-
What the implementations in the emitted text consist of.
-/
namespace GV.Props
open GV Spec

theorem typeName_sub {σ φ} (hp : ∀ c < 128, σ c = [c]) {f} (h : typeOk f = true) :
    typeName (subF σ φ f) = typeName f := by
  cases f with
  | nil => rfl
  | grp d i r => rfl
  | leaf t r =>
    cases t with
    | op c => rfl
    | lit b => rfl
    | word w =>
      simp only [typeOk, Bool.and_eq_true, Bool.or_eq_true, decide_eq_true_eq] at h
      rw [subF_plain hp h.1]
      by_cases hw : w = fmt!"type"
      · rcases h.2 with h2 | h2
        · exact absurd hw h2
        · split at h2
          · rename_i n e r2
            rw [subF_plain hp h2]
            simp only [subF, typeName]
          · cases h2
      · have key : ∀ x, typeName (.leaf (.word w) x) = none := by
          intro x
          unfold typeName
          split
          · rename_i heq
            cases heq
            rw [if_neg (fun h => hw h.1)]
          · rfl
        rw [key, key]

theorem kinds_sub {σ φ clean} (hp : ∀ c < 128, σ c = [c]) (hc : ∀ h, clean h = true → flat (φ h) = true)
    {f} (h : ready clean f = true) : (impls (subF σ φ f)).map (fun p => p.2.map itemKind) =
      (impls f).map fun p => p.2.map itemKind := by
  rw [impls_sub hp hc h, List.map_map]
  refine List.map_congr_left fun p hpm => ?_
  simp only [Function.comp, subImpl, List.map_map]
  refine List.map_congr_left fun it hit => ?_
  obtain ⟨h1, h2⟩ := impls_ready h hpm hit
  simp only [Function.comp, subItem, itemKind]
  cases it.stop with
  | eof => rfl
  | body b => simp only [fnName_sub hp h1]
  | semi => simp only [typeName_sub hp h2]

theorem map_pair {α β γ} (l : List α) (f : α → β) (g : α → γ) : l.map (fun a => (f a, g a)) = (l.map f).zip (l.map g) := by
  induction l with
  | nil => rfl
  | cons a l ih => simp [ih]

/-- Functions. -/
def fnK (n : Bytes) : Option (Bool × Bytes) := some (true, n)

/-- Types. -/
def tyK (n : Bytes) : Option (Bool × Bytes) := some (false, n)

/-- What is in the implementations for structures of variable size. -/
def nfKinds : List (List (Option (Bool × Bytes))) :=
  [[fnK fmt!"from_aligned_slice_mut"], [tyK fmt!"Owned", fnK fmt!"to_owned"],
   [fnK fmt!"default_ref", fnK fmt!"try_from_aligned_slice", fnK fmt!"try_from_aligned_slice_mut"], [],
   [tyK fmt!"AlignOf"], [tyK fmt!"RefTuple", fnK fmt!"to_tuple"], [fnK fmt!"from"], [fnK fmt!"eq"],
   [fnK fmt!"serialize"], [fnK fmt!"fmt"]]

/-- What is in the implementations for structures of fixed size. -/
def pkKinds : List (List (Option (Bool × Bytes))) :=
  [[], [tyK fmt!"AlignOf"], [fnK fmt!"new"], [tyK fmt!"RefTuple", fnK fmt!"to_tuple"],
   [fnK fmt!"default_ref", fnK fmt!"try_from_aligned_slice", fnK fmt!"try_from_aligned_slice_mut"],
   [fnK fmt!"eq"], [fnK fmt!"from"], [fnK fmt!"serialize"], [fnK fmt!"fmt"]]

set_option maxRecDepth 100000 in
theorem nf_tplKinds : (impls nfTrees).map (fun p => p.2.map itemKind) = nfKinds := by decide +kernel

set_option maxRecDepth 100000 in
theorem pk_tplKinds : (impls packedTrees).map (fun p => p.2.map itemKind) = pkKinds := by decide +kernel

theorem good_trait {p : Forest × List Item} {x ks} (w : Bytes) (ns rs : List (Bool × Bytes)) (h : (p.1, p.2.map itemKind) = (x, ks))
    (hw : ImplOf x w) (hk : ks = ns.map some ∧ requiredItems w = some rs ∧ ns.Nodup ∧ (∀ a ∈ rs, a ∈ ns) ∧
      ∀ a ∈ ns, a ∈ rs ++ optionalItems w) : GoodImpl p := by
  obtain ⟨h1, h2⟩ := Prod.mk.inj h
  exact .inr ⟨w, h1 ▸ hw, ns, rs, h2.trans hk.1, hk.2.1, hk.2.2.1, fun a => hk.2.2.2.1 a, fun a => hk.2.2.2.2 a⟩

theorem good_own {p : Forest × List Item} {n : Bytes} {ks} (ns : List Bytes) (h : (p.1, p.2.map itemKind) = (code (fmt!"impl " ++ n), ks))
    (hk : ks = ns.map (fun n => some (true, n)) ∧ ns.Nodup) : GoodImpl p := by
  obtain ⟨h1, h2⟩ := Prod.mk.inj h
  exact .inl ⟨n, h1, ns, h2.trans hk.1, hk.2⟩

/-- What is written for a structure of variable size. -/
def nfNames : List Bytes :=
  [fmt!"ToOwned", fmt!"Cast", fmt!"AllBitPatternsValid", fmt!"AlignOf", fmt!"Structure", fmt!"PartialEq", fmt!"Debug"]

/-- What is written for a structure of fixed size. -/
def pkNames : List Bytes :=
  [fmt!"AllBitPatternsValid", fmt!"AlignOf", fmt!"Structure", fmt!"Cast", fmt!"PartialEq", fmt!"Debug"]

section
variable {d : StructDef}

theorem nf_good (hok : DefOk d) (hs : Spec.size d.ty = none) : ∀ p ∈ impls (defF d), GoodImpl p := by
  obtain ⟨p, _, hp, hF⟩ := nf_defF hok hs
  intro q hq
  have h1 := List.mem_map_of_mem (f := fun p => (p.1, p.2.map itemKind)) hq
  have hk : (impls (defF d)).map (fun p => p.2.map itemKind) = nfKinds := by
    rw [hF, nfF, kinds_sub (nf_low d.ty d.children p) (nf_clean d.ty d.children p) nf_ready, nf_tplKinds]
  rw [map_pair _ (fun p => p.1) (fun p : Forest × List Item => p.2.map itemKind), hk, hF, nf_impls] at h1
  simp only [nfKinds, List.zip_cons_cons, List.zip_nil_left, List.mem_cons, List.not_mem_nil, or_false] at h1
  rcases h1 with h1 | h1 | h1 | h1 | h1 | h1 | h1 | h1 | h1 | h1
  · exact good_own [fmt!"from_aligned_slice_mut"] h1 (by decide)
  · exact good_trait fmt!"ToOwned" [(false, fmt!"Owned"), (true, fmt!"to_owned")] _ h1
      (.plain (implFor_code (x := fmt!"impl ToOwned for ") (w := fmt!"ToOwned") d.ty (by decide +kernel))) ⟨rfl, rfl, by decide⟩
  · exact good_trait fmt!"Cast" [(true, fmt!"default_ref"), (true, fmt!"try_from_aligned_slice"), (true, fmt!"try_from_aligned_slice_mut")] _ h1
      (.plain (implFor_code (x := fmt!"impl ::gvariant::Cast for ") (w := fmt!"Cast") d.ty (by decide +kernel))) ⟨rfl, rfl, by decide⟩
  · exact good_trait fmt!"AllBitPatternsValid" [] _ h1 (.plain (implFor_code (x := fmt!"unsafe impl ::gvariant::casting::AllBitPatternsValid for ")
      (w := fmt!"AllBitPatternsValid") d.ty (by decide +kernel))) ⟨rfl, rfl, by decide⟩
  · exact good_trait fmt!"AlignOf" [(false, fmt!"AlignOf")] _ h1 (.plain (implFor_code (x := fmt!"unsafe impl ::gvariant::casting::AlignOf for ")
      (w := fmt!"AlignOf") d.ty (by decide +kernel))) ⟨rfl, rfl, by decide⟩
  · exact good_trait fmt!"Structure" [(false, fmt!"RefTuple"), (true, fmt!"to_tuple")] _ h1
      (.plain (implFor_code (x := fmt!"impl<'a> Structure<'a> for ") (w := fmt!"Structure") d.ty (by decide +kernel))) ⟨rfl, rfl, by decide⟩
  · exact good_trait fmt!"From" [(true, fmt!"from")] _ h1 (.from _ _) ⟨rfl, rfl, by decide⟩
  · exact good_trait fmt!"PartialEq" [(true, fmt!"eq")] _ h1
      (.plain (implFor_code (x := fmt!"impl PartialEq for ") (w := fmt!"PartialEq") d.ty (by decide +kernel))) ⟨rfl, rfl, by decide⟩
  · exact good_trait fmt!"SerializeTo" [(true, fmt!"serialize")] _ h1 (.ser _ _ _) ⟨rfl, rfl, by decide⟩
  · exact good_trait fmt!"Debug" [(true, fmt!"fmt")] _ h1
      (.plain (implFor_code (x := fmt!"impl std::fmt::Debug for ") (w := fmt!"Debug") d.ty (by decide +kernel))) ⟨rfl, rfl, by decide⟩

theorem pk_good {n : Nat} (hok : DefOk d) (hs : Spec.size d.ty = some n) : ∀ p ∈ impls (defF d), GoodImpl p := by
  obtain ⟨p, _, hp, hF⟩ := pk_defF hok hs
  intro q hq
  have h1 := List.mem_map_of_mem (f := fun p => (p.1, p.2.map itemKind)) hq
  have hk : (impls (defF d)).map (fun p => p.2.map itemKind) = pkKinds := by
    rw [hF, pkF, kinds_sub (pk_low d.ty d.children p) (pk_clean d.ty d.children p) packed_ready, pk_tplKinds]
  rw [map_pair _ (fun p => p.1) (fun p : Forest × List Item => p.2.map itemKind), hk, hF, pk_impls] at h1
  simp only [pkKinds, List.zip_cons_cons, List.zip_nil_left, List.mem_cons, List.not_mem_nil, or_false] at h1
  rcases h1 with h1 | h1 | h1 | h1 | h1 | h1 | h1 | h1 | h1
  · exact good_trait fmt!"AllBitPatternsValid" [] _ h1 (.plain (implFor_code (x := fmt!"unsafe impl ::gvariant::casting::AllBitPatternsValid for ")
      (w := fmt!"AllBitPatternsValid") d.ty (by decide +kernel))) ⟨rfl, rfl, by decide⟩
  · exact good_trait fmt!"AlignOf" [(false, fmt!"AlignOf")] _ h1 (.plain (implFor_code (x := fmt!"unsafe impl ::gvariant::casting::AlignOf for ")
      (w := fmt!"AlignOf") d.ty (by decide +kernel))) ⟨rfl, rfl, by decide⟩
  · exact good_own [fmt!"new"] h1 (by decide)
  · exact good_trait fmt!"Structure" [(false, fmt!"RefTuple"), (true, fmt!"to_tuple")] _ h1
      (.plain (implFor_code (x := fmt!"impl<'a> ::gvariant::Structure<'a> for ") (w := fmt!"Structure") d.ty (by decide +kernel)))
      ⟨rfl, rfl, by decide⟩
  · exact good_trait fmt!"Cast" [(true, fmt!"default_ref"), (true, fmt!"try_from_aligned_slice"), (true, fmt!"try_from_aligned_slice_mut")] _ h1
      (.plain (implFor_code (x := fmt!"impl ::gvariant::Cast for ") (w := fmt!"Cast") d.ty (by decide +kernel))) ⟨rfl, rfl, by decide⟩
  · exact good_trait fmt!"PartialEq" [(true, fmt!"eq")] _ h1
      (.plain (implFor_code (x := fmt!"impl PartialEq for ") (w := fmt!"PartialEq") d.ty (by decide +kernel))) ⟨rfl, rfl, by decide⟩
  · exact good_trait fmt!"From" [(true, fmt!"from")] _ h1 (.from _ _) ⟨rfl, rfl, by decide⟩
  · exact good_trait fmt!"SerializeTo" [(true, fmt!"serialize")] _ h1 (.ser _ _ _) ⟨rfl, rfl, by decide⟩
  · exact good_trait fmt!"Debug" [(true, fmt!"fmt")] _ h1
      (.plain (implFor_code (x := fmt!"impl std::fmt::Debug for ") (w := fmt!"Debug") d.ty (by decide +kernel))) ⟨rfl, rfl, by decide⟩

/-- The traits written for a definition, in order. -/
def defNames (d : StructDef) : List Bytes := if (Spec.size d.ty).isSome then pkNames else nfNames

theorem filterMap_fst {α β γ} (l : List (α × β)) (f : α → Option γ) : l.filterMap (fun p => f p.1) = (l.map (·.1)).filterMap f := by
  rw [List.filterMap_map]; rfl

theorem def_written (hok : DefOk d) : (impls (defF d)).filterMap (fun p => implFor p.1) = (defNames d).map (·, structName d.ty) := by
  have i1 := implFor_code (x := fmt!"impl ToOwned for ") (w := fmt!"ToOwned") d.ty (by decide +kernel)
  have i2 := implFor_code (x := fmt!"impl ::gvariant::Cast for ") (w := fmt!"Cast") d.ty (by decide +kernel)
  have i3 := implFor_code (x := fmt!"unsafe impl ::gvariant::casting::AllBitPatternsValid for ") (w := fmt!"AllBitPatternsValid") d.ty (by decide +kernel)
  have i4 := implFor_code (x := fmt!"unsafe impl ::gvariant::casting::AlignOf for ") (w := fmt!"AlignOf") d.ty (by decide +kernel)
  have i5 := implFor_code (x := fmt!"impl<'a> Structure<'a> for ") (w := fmt!"Structure") d.ty (by decide +kernel)
  have i6 := implFor_code (x := fmt!"impl<'a> ::gvariant::Structure<'a> for ") (w := fmt!"Structure") d.ty (by decide +kernel)
  have i7 := implFor_code (x := fmt!"impl PartialEq for ") (w := fmt!"PartialEq") d.ty (by decide +kernel)
  have i8 := implFor_code (x := fmt!"impl std::fmt::Debug for ") (w := fmt!"Debug") d.ty (by decide +kernel)
  have i9 := implFor_inherent d.ty
  cases hs : Spec.size d.ty with
  | none =>
    obtain ⟨p, _, hp, hF⟩ := nf_defF hok hs
    rw [filterMap_fst, hF, nf_impls]
    simp only [List.filterMap_cons, List.filterMap_nil, i1, i2, i3, i4, i5, i7, i8, i9, implFor_from, implFor_ser]
    simp only [defNames, hs, Option.isSome_none, Bool.false_eq_true, if_false, nfNames, List.map_cons, List.map_nil]
  | some n =>
    obtain ⟨p, _, hp, hF⟩ := pk_defF hok hs
    rw [filterMap_fst, hF, pk_impls]
    simp only [List.filterMap_cons, List.filterMap_nil, i2, i3, i4, i6, i7, i8, i9, implFor_from, implFor_ser]
    simp only [defNames, hs, Option.isSome_some, if_true, pkNames, List.map_cons, List.map_nil]

end

theorem defs_good {defs : List StructDef} (hall : ∀ d ∈ defs, DefOk d) : ∀ p ∈ impls (defsF defs), GoodImpl p := by
  intro p hp
  rw [impls_defs] at hp
  obtain ⟨d, hd, hp⟩ := List.mem_flatMap.1 hp
  cases hs : Spec.size d.ty with
  | some k => exact pk_good (hall d hd) hs p hp
  | none => exact nf_good (hall d hd) hs p hp

theorem writtenFor_defs {defs : List StructDef} (hall : ∀ d ∈ defs, DefOk d) :
    writtenFor (defsF defs) = defs.flatMap fun d => (defNames d).map (·, structName d.ty) := by
  unfold writtenFor
  rw [impls_defs, List.filterMap_flatMap, List.flatMap_def, List.flatMap_def]
  congr 1
  exact List.map_congr_left fun d hd => def_written (hall d hd)

theorem defNames_nodup (d : StructDef) : (defNames d).Nodup := by
  unfold defNames; split <;> decide

theorem cast_defNames (d : StructDef) : fmt!"Cast" ∈ defNames d := by
  unfold defNames; split <;> decide

theorem nodup_written {defs : List StructDef} (hn : (defs.flatMap fun d => (defNames d).map (·, structName d.ty)).Nodup) :
    (defs.map (·.ty)).Nodup := by
  refine List.pairwise_map.2 ((List.pairwise_flatMap.1 hn).2.imp fun {a b} h e => ?_)
  exact h (fmt!"Cast", structName a.ty) (List.mem_map_of_mem (cast_defNames a)) (fmt!"Cast", structName b.ty)
    (List.mem_map_of_mem (cast_defNames b)) (by rw [e])

theorem written_nodup {defs : List StructDef} (hn : (defs.map (·.ty)).Nodup) :
    (defs.flatMap fun d => (defNames d).map (·, structName d.ty)).Nodup := by
  refine List.pairwise_flatMap.2 ⟨fun d _ => ?_, ?_⟩
  · exact List.pairwise_map.2 ((defNames_nodup d).imp fun h e => h (Prod.mk.inj e).1)
  · refine (List.pairwise_map.1 hn).imp fun hne => ?_
    intro x hx y hy e
    obtain ⟨_, _, rfl⟩ := List.mem_map.1 hx
    obtain ⟨_, _, rfl⟩ := List.mem_map.1 hy
    exact hne (structName_inj (Prod.mk.inj e).2)

end GV.Props
