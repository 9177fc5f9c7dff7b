import Verif.Spec.Traits
import Verif.Props.C83
/-
Traits of the types `gv!` names.
-/
namespace GV.Props
open GV Spec

/-! ### Heads of implementations -/

theorem atFor_append {f p r : Forest} (g : Forest) (h : atFor f = some (p, r)) : atFor (f.append g) = some (p, r.append g) := by
  induction f generalizing p with
  | nil => cases h
  | leaf t f ih =>
    simp only [atFor, Forest.append] at h ⊢
    split at h
    · next ht => cases h; rw [if_pos ht]
    · next ht =>
      obtain ⟨q, hq, he⟩ := Option.map_eq_some_iff.1 h
      cases he
      rw [if_neg ht, ih hq]
      rfl
  | grp d i f _ ih =>
    simp only [atFor, Forest.append] at h ⊢
    obtain ⟨q, hq, he⟩ := Option.map_eq_some_iff.1 h
    cases he
    rw [ih hq]
    rfl

theorem atFor_split {f p r : Forest} (h : atFor f = some (p, r)) : f = p.append (.leaf (.word fmt!"for") r) := by
  induction f generalizing p with
  | nil => cases h
  | leaf t f ih =>
    simp only [atFor] at h
    split at h
    · next ht => cases h; rw [ht]; rfl
    · obtain ⟨q, hq, he⟩ := Option.map_eq_some_iff.1 h
      cases he
      rw [ih hq]
      rfl
  | grp d i f _ ih =>
    simp only [atFor] at h
    obtain ⟨q, hq, he⟩ := Option.map_eq_some_iff.1 h
    cases he
    rw [ih hq]
    rfl

/-- The last tree is bracketed. -/
def endsGrp : Forest → Bool
  | .nil => false
  | .leaf _ r => endsGrp r
  | .grp _ _ .nil => true
  | .grp _ _ r => endsGrp r

theorem endsGrp_append {f g : Forest} (h : endsGrp g = true) : endsGrp (f.append g) = true := by
  induction f with
  | nil => exact h
  | leaf t f ih => exact ih
  | grp d i f _ ih =>
    have : f.append g ≠ .nil := by
      intro h0
      rw [h0] at ih
      cases ih
    simp only [Forest.append]
    cases hf : f.append g with
    | nil => exact absurd hf this
    | leaf t r => rw [hf] at ih; exact ih
    | grp d' i' r => rw [hf] at ih; exact ih

theorem endsGrp_leaf (f : Forest) (t : Tok) (n : Bytes) : endsGrp (f.append (.leaf t (.leaf (.word n) .nil))) = false := by
  induction f with
  | nil => rfl
  | leaf t f ih => exact ih
  | grp d i f _ ih =>
    simp only [Forest.append]
    cases hf : f.append (.leaf t (.leaf (.word n) .nil)) with
    | nil => cases f <;> cases hf
    | leaf t r => rw [hf] at ih; exact ih
    | grp d' i' r => rw [hf] at ih; exact ih

theorem implFor_grp {h : Forest} (he : endsGrp h = true) : implFor h = none := by
  unfold implFor
  split
  · next p n hp =>
    rw [atFor_split hp, endsGrp_leaf] at he
    cases he
  · rfl

/-- The trait a text names up to the word `for`. -/
def traitOf (f : Forest) : Option Bytes :=
  match atFor f with
  | some (p, .nil) => lastWord 0 none p
  | _ => none

theorem implFor_head {f : Forest} {w : Bytes} (n : Bytes) (h : traitOf f = some w) :
    implFor (f.append (.leaf (.word n) .nil)) = some (w, n) := by
  unfold traitOf at h
  split at h
  · next p hp =>
    unfold implFor
    rw [atFor_append _ hp]
    simp only [Forest.append, h, Option.map_some]
  · cases h

theorem code_named {x : Bytes} (ty : Ty) (h : ((shape x).map (·.2) == some true && plainW x) = true) :
    code (x ++ structName ty) = (code x).append (.leaf (.word (structName ty)) .nil) :=
  code_of (parses_append (constC h) (parses_name ty))

theorem implFor_code {x w : Bytes} (ty : Ty)
    (h : ((shape x).map (·.2) == some true && plainW x && traitOf (code x) == some w) = true) :
    implFor (code (x ++ structName ty)) = some (w, structName ty) := by
  rw [Bool.and_eq_true, beq_iff_eq] at h
  rw [code_named ty h.1, implFor_head _ h.2]

theorem name_not_for (ty : Ty) : structName ty ≠ fmt!"for" := by
  rw [structName_eq]
  intro h
  have := congrArg List.head? h
  simp at this

theorem implFor_inherent (ty : Ty) : implFor (code (fmt!"impl " ++ structName ty)) = none := by
  rw [code_named ty (by decide +kernel)]
  have h0 : code fmt!"impl " = .leaf (.word fmt!"impl") .nil := by decide +kernel
  rw [h0]
  have h1 : atFor (.leaf (.word fmt!"impl") (.leaf (.word (structName ty)) .nil)) = none := by
    simp only [atFor, Tok.word.injEq, if_neg (name_not_for ty), Option.map_none]
    rfl
  unfold implFor
  simp only [Forest.append, h1]

theorem implFor_from (n : Bytes) (tup : Forest) : implFor (fromHead n tup) = none :=
  implFor_grp (endsGrp_append (by
    show endsGrp ((code fmt!"> for").append _) = true
    exact endsGrp_append rfl))

theorem implFor_ser (n : Bytes) (ps ts : Forest) : implFor (serHead n ps ts) = none :=
  implFor_grp (endsGrp_append (endsGrp_append (endsGrp_append (by
    show endsGrp ((code fmt!"> for &").append _) = true
    exact endsGrp_append rfl))))

theorem pair_mem {α β} {l : List (α × β)} {a : α} (h : a ∈ l.map (·.1)) : ∃ p ∈ l, p.1 = a := by
  obtain ⟨p, hp, rfl⟩ := List.mem_map.1 h
  exact ⟨p, hp, rfl⟩

/-! ### What the text of a definition implements -/

section
variable {F : Forest} {d : StructDef}

/-- The text `F` contains that of the definition. -/
def Holds (F : Forest) (d : StructDef) : Prop :=
  (∀ s ∈ structs (defF d), s ∈ structs F) ∧ (∀ p ∈ impls (defF d), p ∈ impls F)

theorem holds_defs {defs : List StructDef} (h : d ∈ defs) : Holds (defsF defs) d := by
  refine ⟨fun s hs => ?_, fun p hp => ?_⟩
  · rw [structs_defs]; exact List.mem_flatMap.2 ⟨d, h, hs⟩
  · rw [impls_defs]; exact List.mem_flatMap.2 ⟨d, h, hp⟩

theorem Holds.typeDefs (h : Holds F d) (name : Bytes) : ∀ p ∈ typeDefs name (defF d), p ∈ Spec.typeDefs name F := by
  intro p hp
  unfold Spec.typeDefs at hp ⊢
  obtain ⟨q, hq, hp⟩ := List.mem_flatMap.1 hp
  exact List.mem_flatMap.2 ⟨q, h.2 q hq, hp⟩

theorem impls_of_head (h : Holds F d) {x w : Bytes} {tr : Trt}
    (hx : ((shape x).map (·.2) == some true && plainW x && traitOf (code x) == some w) = true)
    (hw : traitNamed w = some tr) (hm : code (x ++ structName d.ty) ∈ (impls (defF d)).map (·.1)) :
    Impls F tr (.struct (structName d.ty)) := by
  obtain ⟨p, hp, he⟩ := pair_mem hm
  exact .written (h.2 p hp) (by rw [he]; exact implFor_code d.ty hx) hw

theorem nf_defF (hok : DefOk d) (hs : Spec.size d.ty = none) :
    ∃ p, d.body = .nonFixed p ∧ writeNonFixedSizeStructure d.children = .ok p ∧ defF d = nfF d.ty d.children p := by
  obtain ⟨p, h1, h2, h3⟩ := nf_def hok hs
  rw [def_parse] at h3
  exact ⟨p, h1, h2, Option.some.inj h3⟩

theorem pk_defF {n : Nat} (hok : DefOk d) (hs : Spec.size d.ty = some n) :
    ∃ p, d.body = .packed p ∧ writePackedStruct d.ty d.children = .ok p ∧ defF d = pkF d.ty d.children p := by
  obtain ⟨p, h1, h2, h3⟩ := pk_def hok hs
  rw [def_parse] at h3
  exact ⟨p, h1, h2, Option.some.inj h3⟩

theorem nf_has (h : Holds F d) (hok : DefOk d) (hs : Spec.size d.ty = none) :
    ∀ tr ∈ [Trt.toOwned, .cast, .valid, .alignOf, .structure, .partialEq, .debug], Impls F tr (.struct (structName d.ty)) := by
  obtain ⟨p, _, _, hF⟩ := nf_defF hok hs
  have hi := nf_impls d.ty d.children p
  rw [← hF] at hi
  have hm : ∀ x, x ∈ (impls (defF d)).map (·.1) ↔ x ∈ _ := fun x => by rw [hi]
  intro tr htr
  simp only [List.mem_cons, List.not_mem_nil, or_false] at htr
  rcases htr with rfl | rfl | rfl | rfl | rfl | rfl | rfl
  · exact impls_of_head h (x := fmt!"impl ToOwned for ") (w := fmt!"ToOwned") (by decide +kernel) rfl ((hm _).2 (by simp))
  · exact impls_of_head h (x := fmt!"impl ::gvariant::Cast for ") (w := fmt!"Cast") (by decide +kernel) rfl ((hm _).2 (by simp))
  · exact impls_of_head h (x := fmt!"unsafe impl ::gvariant::casting::AllBitPatternsValid for ") (w := fmt!"AllBitPatternsValid")
      (by decide +kernel) rfl ((hm _).2 (by simp))
  · exact impls_of_head h (x := fmt!"unsafe impl ::gvariant::casting::AlignOf for ") (w := fmt!"AlignOf")
      (by decide +kernel) rfl ((hm _).2 (by simp))
  · exact impls_of_head h (x := fmt!"impl<'a> Structure<'a> for ") (w := fmt!"Structure")
      (by decide +kernel) rfl ((hm _).2 (by simp))
  · exact impls_of_head h (x := fmt!"impl PartialEq for ") (w := fmt!"PartialEq")
      (by decide +kernel) rfl ((hm _).2 (by simp))
  · exact impls_of_head h (x := fmt!"impl std::fmt::Debug for ") (w := fmt!"Debug")
      (by decide +kernel) rfl ((hm _).2 (by simp))

theorem derives_pk {tr : Trt} : DerivesTrait [code fmt!"derive(Default,Copy,Clone)", code fmt!"repr(C)"] tr ↔
    tr ∈ [Trt.default, .copy, .clone] := by
  have h0 : code fmt!"derive(Default,Copy,Clone)" = .leaf (.word fmt!"derive") (.grp 40 (code fmt!"Default,Copy,Clone") .nil) := by
    decide +kernel
  have h1 : atCommas (code fmt!"Default,Copy,Clone") =
      [.leaf (.word fmt!"Default") .nil, .leaf (.word fmt!"Copy") .nil, .leaf (.word fmt!"Clone") .nil] := by decide +kernel
  have h2 : code fmt!"repr(C)" = .leaf (.word fmt!"repr") (.grp 40 (code fmt!"C") .nil) := by decide +kernel
  constructor
  · rintro ⟨i, w, hi, hw, ht⟩
    rw [h0, h2] at hi
    simp only [List.mem_cons, List.not_mem_nil, or_false] at hi
    rcases hi with hi | hi
    · cases hi
      rw [h1] at hw
      simp only [List.mem_cons, List.not_mem_nil, or_false, Forest.leaf.injEq, and_true, Tok.word.injEq] at hw
      rcases hw with rfl | rfl | rfl
      all_goals
        cases ht
        decide
    · simp only [Forest.leaf.injEq, Tok.word.injEq] at hi
      exact absurd hi.1 (by decide)
  · intro h
    simp only [List.mem_cons, List.not_mem_nil, or_false] at h
    rcases h with rfl | rfl | rfl
    · exact ⟨_, fmt!"Default", by rw [h0]; exact List.mem_cons_self, by rw [h1]; simp, rfl⟩
    · exact ⟨_, fmt!"Copy", by rw [h0]; exact List.mem_cons_self, by rw [h1]; simp, rfl⟩
    · exact ⟨_, fmt!"Clone", by rw [h0]; exact List.mem_cons_self, by rw [h1]; simp, rfl⟩

theorem pk_has {n : Nat} (h : Holds F d) (hok : DefOk d) (hs : Spec.size d.ty = some n) :
    ∀ tr ∈ [Trt.cast, .valid, .alignOf, .structure, .partialEq, .debug, .default, .copy, .clone],
      Impls F tr (.struct (structName d.ty)) := by
  obtain ⟨p, _, _, hF⟩ := pk_defF hok hs
  have hi := pk_impls d.ty d.children p
  have hst := pk_structs d.ty d.children p
  rw [← hF] at hi hst
  have hm : ∀ x, x ∈ (impls (defF d)).map (·.1) ↔ x ∈ _ := fun x => by rw [hi]
  have hd : ∀ tr ∈ [Trt.default, .copy, .clone], Impls F tr (.struct (structName d.ty)) := fun tr htr =>
    .derived (h.1 _ (by rw [hst]; exact List.mem_cons_self)) (derives_pk.2 htr)
  intro tr htr
  simp only [List.mem_cons, List.not_mem_nil, or_false] at htr
  rcases htr with rfl | rfl | rfl | rfl | rfl | rfl | rfl | rfl | rfl
  · exact impls_of_head h (x := fmt!"impl ::gvariant::Cast for ") (w := fmt!"Cast") (by decide +kernel) rfl ((hm _).2 (by simp))
  · exact impls_of_head h (x := fmt!"unsafe impl ::gvariant::casting::AllBitPatternsValid for ") (w := fmt!"AllBitPatternsValid")
      (by decide +kernel) rfl ((hm _).2 (by simp))
  · exact impls_of_head h (x := fmt!"unsafe impl ::gvariant::casting::AlignOf for ") (w := fmt!"AlignOf")
      (by decide +kernel) rfl ((hm _).2 (by simp))
  · exact impls_of_head h (x := fmt!"impl<'a> ::gvariant::Structure<'a> for ") (w := fmt!"Structure")
      (by decide +kernel) rfl ((hm _).2 (by simp))
  · exact impls_of_head h (x := fmt!"impl PartialEq for ") (w := fmt!"PartialEq")
      (by decide +kernel) rfl ((hm _).2 (by simp))
  · exact impls_of_head h (x := fmt!"impl std::fmt::Debug for ") (w := fmt!"Debug")
      (by decide +kernel) rfl ((hm _).2 (by simp))
  · exact hd _ (by simp)
  · exact hd _ (by simp)
  · exact hd _ (by simp)

theorem align_cases (t : Ty) : Spec.align t = 1 ∨ Spec.align t = 2 ∨ Spec.align t = 4 ∨ Spec.align t = 8 := by
  exact specAlign_isAl t

theorem def_alignIs (h : Holds F d) (hok : DefOk d) : AlignIs F (.struct (structName d.ty)) (Spec.align d.ty) := by
  cases hs : Spec.size d.ty with
  | none =>
    obtain ⟨p, _, _, hF⟩ := nf_defF hok hs
    have ha := nf_alignOf d.ty d.children p
    rw [← hF, alignOf_eq] at ha
    refine .written (h.typeDefs _ _ (by rw [ha]; exact List.mem_cons_self))
      (implFor_code (x := fmt!"unsafe impl ::gvariant::casting::AlignOf for ") (w := fmt!"AlignOf") d.ty (by decide +kernel)) ?_
    show alignPath (code (fmt!"aligned_bytes::A" ++ decText (Spec.align d.ty))) = _
    rcases align_cases d.ty with e | e | e | e <;> rw [e] <;> decide +kernel
  | some n =>
    obtain ⟨p, _, _, hF⟩ := pk_defF hok hs
    have ha := pk_alignOf d.ty d.children p
    rw [← hF, alignOf_eq] at ha
    refine .written (h.typeDefs _ _ (by rw [ha]; exact List.mem_cons_self))
      (implFor_code (x := fmt!"unsafe impl ::gvariant::casting::AlignOf for ") (w := fmt!"AlignOf") d.ty (by decide +kernel)) ?_
    show alignPath (code (fmt!"::gvariant::aligned_bytes::A" ++ decText (Spec.align d.ty))) = _
    rcases align_cases d.ty with e | e | e | e <;> rw [e] <;> decide +kernel

/-! ### Fields of structures of fixed size -/

theorem fieldTypes_eq (fs : List RField) : fieldTypes fs = memTypes fs := by
  unfold fieldTypes memTypes
  congr 1

theorem size_struct_members {c : Ty} (hs : isStruct c = true) (h : (Spec.size c).isSome) :
    ∀ m ∈ members c, (Spec.size m).isSome := by
  obtain ⟨n, hn⟩ := Option.isSome_iff_exists.1 h
  have h1 : Spec.size c = Spec.size (.tuple (members c)) := by
    cases c with
    | tuple ts => rfl
    | dict k v => exact size_dict_eq k v
    | _ => cases hs
  obtain ⟨e, he, hsz, _⟩ := size_tuple_members (h1 ▸ hn)
  exact hsz

theorem packFields_pads (ts : List Ty) : ∀ n pos k, .pad k ∈ packFields n pos ts → k ≤ 7 := by
  induction ts with
  | nil => intro n pos k h; cases h
  | cons t ts ih =>
    intro n pos k h
    simp only [packFields, List.mem_append, List.mem_cons, reduceCtorEq, false_or] at h
    rcases h with h | h
    · split at h
      · simp only [List.mem_singleton, Field.pad.injEq] at h
        have := roundUp_lt (specAlign_isAl t).pos pos
        rcases align_cases t with e | e | e | e <;> rw [e] at this h <;> omega
      · cases h
    · exact ih _ _ _ h

theorem pk_pads {n : Nat} {p : Packed} (hok : DefOk d) (hs : Spec.size d.ty = some n)
    (hp : writePackedStruct d.ty d.children = .ok p) : ∀ k, .pad k ∈ p.fields → k ≤ 7 := by
  have h1 : Spec.size d.ty = Spec.size (.tuple d.children) := by
    have h2 := hok.1
    rw [hok.2.2.1]
    cases hc : d.ty with
    | tuple ts => rfl
    | dict k v => exact size_dict_eq k v
    | _ => rw [hc] at h2; cases h2
  intro k hk
  rw [(writePackedStruct_ok h1 hs hp).1, List.mem_append] at hk
  rcases hk with hk | hk
  · exact packFields_pads _ _ _ _ hk
  · split at hk
    · simp only [List.mem_singleton, Field.pad.injEq] at hk
      have := tailPad_lt (h1 ▸ hs)
      omega
    · cases hk

theorem pair_fields (fs : List RField) :
    fs.filterMap (fun | .mem n ty => some (n, ty) | .pad _ _ => none) = (memNumbers fs).zip (memTypes fs) := by
  induction fs with
  | nil => rfl
  | cons f fs ih => cases f <;> simp_all [memNumbers, memTypes]

/-- The fields in the text of a structure of fixed size. -/
theorem pk_fields {n : Nat} (hok : DefOk d) (hs : Spec.size d.ty = some n) :
    ∃ B fs, structs (defF d) = [([code fmt!"derive(Default,Copy,Clone)", code fmt!"repr(C)"], structName d.ty, B)] ∧
      allSome readField (atCommas B) = some fs ∧ fieldTypes fs = (d.children.map markerType).map RTy.trees ∧
      (∀ k n, .pad k n ∈ fs → n ≤ 32) ∧ ∀ i (h : i < d.children.length), .mem i (markerType d.children[i]).trees ∈ fs := by
  obtain ⟨p, _, hp, hF⟩ := pk_defF hok hs
  obtain ⟨h1, h2, h3, h4⟩ := fieldsR_kind 0 p.fields d.children (writePacked_mems hp)
  have hk := memNumbers_kind (fieldsR 0 p.fields d.children)
  rw [h1, writePacked_numbers hp] at hk
  refine ⟨eachF (fieldsF 0 p.fields d.children), fieldsR 0 p.fields d.children, ?_, ?_, ?_, ?_, ?_⟩
  · rw [hF, pk_structs, zip_table_fst]
  · rw [atCommas_eachF (fieldsF_lone _ _ _), readField_all]
  · rw [fieldTypes_eq, h2, List.map_map]; rfl
  · intro k n hm
    have h5 := List.mem_map_of_mem (f := RField.kind) hm
    rw [h1] at h5
    have := pk_pads hok hs hp n h5
    omega
  · intro i hi
    have hz := pair_fields (fieldsR 0 p.fields d.children)
    rw [h2, hk] at hz
    have hm : (i, (markerType d.children[i]).trees) ∈
        (List.range d.children.length).zip (d.children.map fun c => (markerType c).trees) := by
      rw [List.mem_iff_getElem]
      exact ⟨i, by simpa using hi, by simp⟩
    rw [← hz] at hm
    obtain ⟨f, hf, he⟩ := List.mem_filterMap.1 hm
    cases f with
    | pad k n => cases he
    | mem n ty => cases he; exact hf

end

end GV.Props
