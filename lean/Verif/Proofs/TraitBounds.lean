import Verif.Proofs.TraitMarks
/-
What the text of a definition asks of types.
-/
namespace GV.Props
open GV Spec

theorem trees_struct (n : Bytes) : (RTy.struct n).trees = .leaf (.word n) .nil := rfl

/-- A type written like an integer type is an integer type. -/
theorem trees_integer {r : RTy} (c : Ty) (hr : isInteger r = true) (h : (markerType c).trees = r.trees) : isInt c = true := by
  obtain ⟨w, hw, hm⟩ : ∃ w : Bytes, r.trees = .leaf (.word w) .nil ∧
      w ∈ [fmt!"u8", fmt!"i16", fmt!"u16", fmt!"i32", fmt!"u32", fmt!"i64", fmt!"u64"] := by
    cases r with
    | u8 => exact ⟨fmt!"u8", by decide +kernel, by decide⟩
    | i16 => exact ⟨fmt!"i16", by decide +kernel, by decide⟩
    | u16 => exact ⟨fmt!"u16", by decide +kernel, by decide⟩
    | i32 => exact ⟨fmt!"i32", by decide +kernel, by decide⟩
    | u32 => exact ⟨fmt!"u32", by decide +kernel, by decide⟩
    | i64 => exact ⟨fmt!"i64", by decide +kernel, by decide⟩
    | u64 => exact ⟨fmt!"u64", by decide +kernel, by decide⟩
    | _ => cases hr
  rw [hw] at h
  have h1 : ∀ x : Bytes, x ∉ [fmt!"u8", fmt!"i16", fmt!"u16", fmt!"i32", fmt!"u32", fmt!"i64", fmt!"u64"] →
      Forest.leaf (.word x) .nil ≠ .leaf (.word w) .nil := by
    intro x hx he
    simp only [Forest.leaf.injEq, Tok.word.injEq, and_true] at he
    exact hx (he ▸ hm)
  have h2 : ∀ (x : Bytes) (g : Forest), g ≠ .nil → Forest.leaf (.word x) g ≠ .leaf (.word w) .nil := by
    intro x g hg he
    simp only [Forest.leaf.injEq] at he
    exact hg he.2
  have hst : ∀ ty : Ty, (RTy.struct (structName ty)).trees ≠ .leaf (.word w) .nil := by
    intro ty
    refine h1 _ fun hx => ?_
    simp only [List.mem_cons, List.not_mem_nil, or_false] at hx
    rw [structName_eq] at hx
    rcases hx with he | he | he | he | he | he | he <;> (have := congrArg List.head? he; simp at this)
  have a1 : code fmt!"NonFixedWidthArray::<" = .leaf (.word fmt!"NonFixedWidthArray") (code fmt!"::<") := by decide +kernel
  have a2 : code fmt!"MaybeNonFixedSize::<" = .leaf (.word fmt!"MaybeNonFixedSize") (code fmt!"::<") := by decide +kernel
  have a3 : code fmt!"MaybeFixedSize::<" = .leaf (.word fmt!"MaybeFixedSize") (code fmt!"::<") := by decide +kernel
  have a4 : code fmt!"::<" = .leaf (.op 58) (.leaf (.op 58) (.leaf (.op 60) .nil)) := by decide +kernel
  cases c with
  | A e =>
    simp only [markerType] at h
    split at h
    · rw [RTy.trees, a1, a4] at h
      cases h
    · cases h
  | M e =>
    simp only [markerType] at h
    split at h
    · rw [RTy.trees, a2, a4] at h
      cases h
    · rw [RTy.trees, a3, a4] at h
      cases h
  | tuple ts => exact absurd h (hst _)
  | dict k v => exact absurd h (hst _)
  | B =>
    have : (markerType .B).trees = .leaf (.word fmt!"Bool") .nil := by decide +kernel
    exact absurd (this ▸ h) (h1 _ (by decide))
  | D =>
    have : (markerType .D).trees = .leaf (.word fmt!"f64") .nil := by decide +kernel
    exact absurd (this ▸ h) (h1 _ (by decide))
  | S | O | G =>
    have : (markerType .S).trees = .leaf (.word fmt!"Str") .nil := by decide +kernel
    exact absurd (this ▸ h) (h1 _ (by decide))
  | V =>
    have : (markerType .V).trees = .leaf (.word fmt!"Variant") .nil := by decide +kernel
    exact absurd (this ▸ h) (h1 _ (by decide))
  | _ => rfl

theorem isInteger_marker {c : Ty} (h : isInt c = true) : isInteger (markerType c) = true := by
  cases c <;> first | rfl | cases h

theorem dataAlign_eq (ty : Ty) : dataAlign (code (fmt!"data: AlignedSlice<aligned_bytes::A" ++ (decText (Spec.align ty) ++ fmt!">,"))) =
    some (Spec.align ty) := by
  rcases align_cases ty with e | e | e | e <;> rw [e] <;> decide +kernel

/-- A structure with fields is not one around a slice. -/
theorem dataAlign_declared {B : Forest} {fs : List RField} (h : declared B = some fs) : dataAlign B = none := by
  unfold dataAlign
  rw [List.find?_eq_none]
  intro k hk he
  rw [decide_eq_true_eq] at he
  rw [he] at h
  simp only [List.mem_cons, List.not_mem_nil, or_false] at hk
  have h0 : ∀ k ∈ [1, 2, 4, 8], declared (code (fmt!"data: AlignedSlice<aligned_bytes::A" ++ (decText k ++ fmt!">,"))) = none := by
    decide +kernel
  rw [h0 k (by simpa using hk)] at h
  cases h

theorem pk_owned (ty : Ty) (children : List Ty) (pk : Packed) : typeDefs fmt!"Owned" (pkF ty children pk) = [] := by
  have h := pk_type ty children pk (name := fmt!"Owned") [] (by decide +kernel)
  exact h

theorem align_le {n m : Nat} (hn : n = 1 ∨ n = 2 ∨ n = 4 ∨ n = 8) (hm : m = 1 ∨ m = 2 ∨ m = 4 ∨ m = 8) (h : n ≤ m) :
    offsetInto m n = true ∧ alignedTo m n = true := by
  rcases hn with rfl | rfl | rfl | rfl <;> rcases hm with rfl | rfl | rfl | rfl <;> first | omega | decide

theorem super_one {F x : Forest} {name w0 : Bytes}
    (hS : ∀ tr ∈ [Trt.cast, .valid, .alignOf, .partialEq, .debug, .toOwned], Impls F tr (.struct name))
    (hx : implFor x = some (w0, name))
    (hw : ((traitNamed w0).elim [] superTraits).all
      (fun s => [Trt.cast, .valid, .alignOf, .partialEq, .debug, .toOwned].contains s) = true) :
    ∀ w n tr, implFor x = some (w, n) → traitNamed w = some tr → ∀ s ∈ superTraits tr, Impls F s (.struct n) := by
  intro w n tr h1 h2 s hs
  rw [hx] at h1
  cases h1
  rw [h2] at hw
  have := List.all_eq_true.1 hw s hs
  exact hS s (by simpa using this)

theorem super_none {F x : Forest} (hx : implFor x = none) :
    ∀ w n tr, implFor x = some (w, n) → traitNamed w = some tr → ∀ s ∈ superTraits tr, Impls F s (.struct n) := by
  intro w n tr h1
  rw [hx] at h1
  cases h1

theorem able_self {F : Forest} {d : StructDef} (hok : DefOk d) (ha : Able F d.ty) :
    ∀ tr ∈ [Trt.cast, .valid, .alignOf, .partialEq, .debug, .toOwned], Impls F tr (.struct (structName d.ty)) := by
  have := ha.has
  rwa [markerType_struct hok.1] at this

/-- The parameters of `SerializeTo`. -/
theorem writes_ok {F : Forest} {d : StructDef} (hok : DefOk d) (ha : Able F d.ty) (hm : ∀ m ∈ d.children, Able F m)
    {f : Forest × Forest × Forest} (hf : f.1 = serHead (structName d.ty) (serTypesF d.children) (serTypes2F d.children)) :
    ∃ (n : Bytes) (ps ts : Forest), f.1 = serHead n ps ts ∧
    Impls F .cast (.struct n) ∧ ∀ q ∈ atCommas ps, ∃ (w : Tok) (r : RTy),
      q = .leaf w ((code fmt!": ::gvariant::SerializeTo<").append (r.trees.append (code fmt!"> + Copy"))) ∧
      Named F r ∧ Impls F .cast r := by
  refine ⟨_, _, _, hf, able_self hok ha _ (by simp), ?_⟩
  rw [atCommas_serTypes]
  intro q hq
  obtain ⟨i, hi, rfl⟩ := List.mem_mapIdx.1 hq
  have := hm _ (List.getElem_mem hi)
  exact ⟨_, _, rfl, this.named, this.has _ (by simp)⟩

theorem tuple_impls {F : Forest} {ts : List Ty} (hm : ∀ m ∈ ts, Able F m) {tr : Trt}
    (ht : tr ∈ [Trt.cast, .valid, .alignOf, .partialEq, .debug, .toOwned]) (hl : ts.length ≤ 12) :
    TupleImpls F tr (ts.map markerType) := by
  refine ⟨by simpa using hl, fun r hr => ?_⟩
  obtain ⟨m, hm', rfl⟩ := List.mem_map.1 hr
  exact (hm m hm').has _ ht

theorem tuple_named {F : Forest} {ts : List Ty} (hm : ∀ m ∈ ts, Able F m) : ∀ r ∈ ts.map markerType, Named F r := by
  intro r hr
  obtain ⟨m, hm', rfl⟩ := List.mem_map.1 hr
  exact (hm m hm').named

theorem tuple_parts (ts : List Ty) : tupleParts (tupleF ts) =
    some ((ts.map markerType).map fun r => (code fmt!"&'a").append r.trees) := by
  rw [tupleParts_tuple, List.map_map]; rfl

theorem struct_align {c : Ty} (hs : isStruct c = true) {m : Ty} (hm : m ∈ members c) : Spec.align m ≤ Spec.align c := by
  cases c with
  | tuple ts => exact alignMax_ge hm
  | dict k v => rw [align_dict_eq]; exact alignMax_ge hm
  | _ => cases hs

theorem calls_ok {F : Forest} {d : StructDef} (hok : DefOk d) (hm : ∀ m ∈ d.children, Able F m) (nfo : Nat) :
    List.Forall₂ (fun (k : Call) r => k.elem = RTy.trees r ∧ Impls F .cast r ∧
      ∃ n, AlignIs F r n ∧ offsetInto k.b n = true ∧ alignedTo (Spec.align d.ty) n = true)
      (rowCalls d.children.length nfo 0 (d.children.zip (generateTable d.children))) (d.children.map markerType) := by
  have hl : d.children.length = (generateTable d.children).length := (generateTable_length _).symm
  have he := rowCalls_elem d.children.length nfo 0 _ _ hl
  have hr := rowCalls_row d.children.length nfo 0 _ _ hl
  obtain ⟨_, hal⟩ := tableLoop_aligned d.children ⟨-1, 0, 1, 0⟩ (Or.inl rfl)
  generalize rowCalls d.children.length nfo 0 (d.children.zip (generateTable d.children)) = ks at he hr
  have hkl : ks.length = d.children.length := by simpa using congrArg List.length he
  rw [List.forall₂_iff_get]
  refine ⟨by simpa using hkl, fun i h1 h2 => ?_⟩
  have hi : i < d.children.length := by simpa using h2
  have e1 : (ks[i]).elem = (markerType d.children[i]).trees := by
    have := congrArg (fun l => l[i]?) he
    simpa [hi, h1] using this
  have e2 : (ks[i]).row = (generateTable d.children)[i]'(by omega) := by
    have := congrArg (fun l => l[i]?) hr
    have h3 : i < (generateTable d.children).length := by omega
    simp only [List.getElem?_map, List.getElem?_eq_getElem h1, List.getElem?_eq_getElem h3, Option.map_some,
      Option.some.injEq] at this
    exact this
  have ha := hal (d.children[i], (generateTable d.children)[i]'(by omega)) (by
    rw [List.mem_iff_getElem]
    exact ⟨i, by simp only [List.length_zip]; show i < min _ (generateTable d.children).length; omega, by simp [generateTable]⟩)
  rw [← e2, alignOf_eq] at ha
  have hmi := hm _ (List.getElem_mem hi)
  simp only [List.get_eq_getElem, List.getElem_map]
  refine ⟨e1, hmi.has _ (by simp), _, hmi.align, ?_, ?_⟩
  · exact (align_le (align_cases _) ha.1 ha.2.1).1
  · refine (align_le (align_cases _) (align_cases _) (struct_align hok.1 ?_)).2
    rw [← hok.2.2.1]
    exact List.getElem_mem hi

section
variable {F : Forest} {d : StructDef}

theorem nf_bounds (hok : DefOk d) (ha : Able F d.ty) (hm : ∀ m ∈ d.children, Able F m)
    (hs : Spec.size d.ty = none) (hl : d.children.length ≤ 12) : Bounds F (defF d) := by
  obtain ⟨p, _, hp, hF⟩ := nf_defF hok hs
  have hr : p.rows = generateTable d.children := by
    simp only [writeNonFixedSizeStructure] at hp
    obtain ⟨cmds, _, h2⟩ := Res.bind_eq_ok.1 hp
    cases h2; rfl
  have hS := able_self hok ha
  have hst : structs (defF d) = [([code fmt!"repr(transparent)"], structName d.ty,
      code (fmt!"data: AlignedSlice<aligned_bytes::A" ++ (decText (Spec.align d.ty) ++ fmt!">,")))] := by
    rw [hF, nf_structs, alignOf_eq]
  have hda := dataAlign_eq d.ty
  constructor
  · intro q hq
    have h1 := List.mem_map_of_mem (f := (·.1)) hq
    rw [hF, nf_impls] at h1
    simp only [List.mem_cons, List.not_mem_nil, or_false] at h1
    rcases h1 with h1 | h1 | h1 | h1 | h1 | h1 | h1 | h1 | h1 | h1 <;> rw [h1]
    · exact super_none (implFor_inherent _)
    · exact super_one hS (implFor_code (x := fmt!"impl ToOwned for ") (w := fmt!"ToOwned") d.ty (by decide +kernel)) (by decide +kernel)
    · exact super_one hS (implFor_code (x := fmt!"impl ::gvariant::Cast for ") (w := fmt!"Cast") d.ty (by decide +kernel)) (by decide +kernel)
    · exact super_one hS (implFor_code (x := fmt!"unsafe impl ::gvariant::casting::AllBitPatternsValid for ")
        (w := fmt!"AllBitPatternsValid") d.ty (by decide +kernel)) (by decide +kernel)
    · exact super_one hS (implFor_code (x := fmt!"unsafe impl ::gvariant::casting::AlignOf for ") (w := fmt!"AlignOf") d.ty
        (by decide +kernel)) (by decide +kernel)
    · exact super_one hS (implFor_code (x := fmt!"impl<'a> Structure<'a> for ") (w := fmt!"Structure") d.ty (by decide +kernel))
        (by decide +kernel)
    · exact super_none (implFor_from _ _)
    · exact super_one hS (implFor_code (x := fmt!"impl PartialEq for ") (w := fmt!"PartialEq") d.ty (by decide +kernel)) (by decide +kernel)
    · exact super_none (implFor_ser _ _ _)
    · exact super_one hS (implFor_code (x := fmt!"impl std::fmt::Debug for ") (w := fmt!"Debug") d.ty (by decide +kernel))
        (by decide +kernel)
  · intro s h1 tr h2
    rw [hst, List.mem_singleton] at h1
    subst h1
    obtain ⟨i, w, h3, _⟩ := h2
    have h4 : code fmt!"repr(transparent)" = .leaf (.word fmt!"repr") (.grp 40 (code fmt!"transparent") .nil) := by decide +kernel
    rw [List.mem_singleton, h4] at h3
    simp only [Forest.leaf.injEq, Tok.word.injEq] at h3
    exact absurd h3.1 (by decide)
  · intro s h1
    rw [hst, List.mem_singleton] at h1
    subst h1
    exact .inl (by rw [hda]; rfl)
  · intro f hf
    rw [hF, nf_serialize, List.mem_singleton] at hf
    exact writes_ok hok ha hm (by rw [hf])
  · intro f hf s h1
    rw [hF, nf_to_tuple, List.mem_singleton] at hf
    rw [hst, List.mem_singleton] at h1
    subst hf h1
    refine ⟨_, d.children.map markerType, rfl, tuple_parts _, tuple_named hm, fun _ _ _ => tuple_impls hm (by simp) hl,
      fun _ _ _ => tuple_impls hm (by simp) hl, .inr ⟨_, _, readCalls_rows _ _ _, hda, ?_⟩⟩
    rw [hr]
    exact calls_ok hok hm _
  · intro f hf s h1
    rw [hF, nf_eq, List.mem_singleton] at hf
    subst hf
    exact .inl rfl
  · intro f hf s h1
    rw [hF, nf_default_ref, List.mem_singleton] at hf
    rw [hst, List.mem_singleton] at h1
    subst hf h1
    exact .inl ⟨_, hda, by rw [alignOf_eq]⟩
  · intro f hf s h1
    rw [hF, nf_try_from, nf_try_from_mut] at hf
    rw [hst, List.mem_singleton] at h1
    subst h1
    simp only [List.cons_append, List.nil_append, List.mem_cons, List.not_mem_nil, or_false] at hf
    rcases hf with rfl | rfl
    · exact .inl ⟨_, hda, .inr (by rw [alignOf_eq]; rfl)⟩
    · exact .inl ⟨_, hda, .inl rfl⟩
  · intro q hq _
    rw [hF, nf_owned, List.mem_singleton] at hq
    subst hq
    exact ⟨_, _, implFor_code (x := fmt!"impl ToOwned for ") (w := fmt!"ToOwned") d.ty (by decide +kernel), hS _ (by simp)⟩

theorem pk_bounds {n : Nat} (hok : DefOk d) (ha : Able F d.ty) (hm : ∀ m ∈ d.children, Able F m)
    (hs : Spec.size d.ty = some n) (hl : d.children.length ≤ 12) (hi : ∀ m ∈ d.children, isInt m = true) : Bounds F (defF d) := by
  obtain ⟨p, _, hp, hF⟩ := pk_defF hok hs
  obtain ⟨B, fs, hst, hfs, hft, hpad, hmem⟩ := pk_fields hok hs
  have hS := able_self hok ha
  have hz : (Spec.size d.ty).isSome := by rw [hs]; rfl
  have hZ := ha.sized hz
  rw [markerType_struct hok.1] at hZ
  have hB : declared B = some fs := hfs
  constructor
  · intro q hq
    have h1 := List.mem_map_of_mem (f := (·.1)) hq
    rw [hF, pk_impls] at h1
    simp only [List.mem_cons, List.not_mem_nil, or_false] at h1
    rcases h1 with h1 | h1 | h1 | h1 | h1 | h1 | h1 | h1 | h1 <;> rw [h1]
    · exact super_one hS (implFor_code (x := fmt!"unsafe impl ::gvariant::casting::AllBitPatternsValid for ")
        (w := fmt!"AllBitPatternsValid") d.ty (by decide +kernel)) (by decide +kernel)
    · exact super_one hS (implFor_code (x := fmt!"unsafe impl ::gvariant::casting::AlignOf for ") (w := fmt!"AlignOf") d.ty
        (by decide +kernel)) (by decide +kernel)
    · exact super_none (implFor_inherent _)
    · exact super_one hS (implFor_code (x := fmt!"impl<'a> ::gvariant::Structure<'a> for ") (w := fmt!"Structure") d.ty (by decide +kernel))
        (by decide +kernel)
    · exact super_one hS (implFor_code (x := fmt!"impl ::gvariant::Cast for ") (w := fmt!"Cast") d.ty (by decide +kernel)) (by decide +kernel)
    · exact super_one hS (implFor_code (x := fmt!"impl PartialEq for ") (w := fmt!"PartialEq") d.ty (by decide +kernel)) (by decide +kernel)
    · exact super_none (implFor_from _ _)
    · exact super_none (implFor_ser _ _ _)
    · exact super_one hS (implFor_code (x := fmt!"impl std::fmt::Debug for ") (w := fmt!"Debug") d.ty (by decide +kernel))
        (by decide +kernel)
  · intro s h1 tr h2
    rw [hst, List.mem_singleton] at h1
    subst h1
    have h3 := derives_pk.1 h2
    refine ⟨fun u hu => ?_, fs, d.children.map markerType, hB, hft, fun r hr => ?_, hpad⟩
    · simp only [List.mem_cons, List.not_mem_nil, or_false] at h3
      rcases h3 with rfl | rfl | rfl
      · cases hu
      · simp only [superTraits, List.mem_singleton] at hu
        subst hu
        exact hZ _ (by simp)
      · cases hu
    · obtain ⟨m, hm', rfl⟩ := List.mem_map.1 hr
      refine .number (by simp [isNumberTy, isInteger_marker (hi m hm')]) ?_
      simp only [List.mem_cons, List.not_mem_nil, or_false] at h3 ⊢
      tauto
  · intro s h1
    rw [hst, List.mem_singleton] at h1
    subst h1
    refine .inr ⟨fs, d.children.map markerType, hB, hft, fun r hr => ⟨tuple_named hm r hr, ?_⟩⟩
    obtain ⟨m, hm', rfl⟩ := List.mem_map.1 hr
    exact (hm m hm').sized (size_struct_members hok.1 hz m (hok.2.2.1 ▸ hm')) _ (by simp)
  · intro f hf
    rw [hF, pk_serialize, List.mem_singleton] at hf
    exact writes_ok hok ha hm (by rw [hf])
  · intro f hf s h1
    rw [hF, pk_to_tuple, List.mem_singleton] at hf
    rw [hst, List.mem_singleton] at h1
    subst hf h1
    refine ⟨_, d.children.map markerType, rfl, tuple_parts _, tuple_named hm, fun _ _ _ => tuple_impls hm (by simp) hl,
      fun _ _ _ => tuple_impls hm (by simp) hl, .inl ⟨_, fs, readRefs_eq _, hB, ?_⟩⟩
    rw [List.forall₂_iff_get]
    refine ⟨by simp, fun i h1 h2 => ?_⟩
    simpa using hmem i (by simpa using h2)
  · intro f hf s h1
    rw [hF, pk_eq, List.mem_singleton] at hf
    rw [hst, List.mem_singleton] at h1
    subst hf h1
    refine .inr ⟨_, fs, readEq_eq _, hB, fun q hq => ?_⟩
    obtain ⟨i, hi', rfl⟩ := List.mem_map.1 hq
    rw [List.mem_range] at hi'
    exact ⟨_, hmem i hi', hmem i hi', (hm _ (List.getElem_mem hi')).has _ (by simp)⟩
  · intro f hf s h1
    rw [hF, pk_default_ref, List.mem_singleton] at hf
    rw [hst, List.mem_singleton] at h1
    subst hf h1
    refine .inr ⟨_, _, _, _, d.children.map markerType, by rw [hF, pk_new], readDefault_eq _ _, readNew_eq _ _ _, ?_, by simp, ?_⟩
    · apply List.ext_getElem <;> simp
    · intro r hr
      obtain ⟨m, hm', rfl⟩ := List.mem_map.1 hr
      exact isInteger_marker (hi m hm')
  · intro f hf s h1
    rw [hF, pk_try_from, pk_try_from_mut] at hf
    rw [hst, List.mem_singleton] at h1
    subst h1
    simp only [List.cons_append, List.nil_append, List.mem_cons, List.not_mem_nil, or_false] at hf
    refine .inr ⟨?_, hZ _ (by simp), hS _ (by simp), hS _ (by simp)⟩
    rcases hf with rfl | rfl
    · exact .inl rfl
    · exact .inr rfl
  · intro q hq _
    rw [hF, pk_owned] at hq
    cases hq

theorem bounds_length (hok : DefOk d) (hb : Bounds F (defF d)) : d.children.length ≤ 12 := by
  have key : ∀ (a f : Forest) (s : List Forest × Bytes × Forest), s ∈ structs (defF d) →
      (a, (code fmt!"fn to_tuple(&'a self) ->").append (.grp 40 (tupleF d.children) .nil), f) ∈ fns fmt!"to_tuple" (defF d) →
      (∃ g ∈ fns fmt!"fmt" (defF d), g.2.2 = code fmt!"std::fmt::Debug::fmt(&self.to_tuple(), f)") →
      d.children.length ≤ 12 := by
    intro a f s hs' hf ⟨g, hg, hge⟩
    obtain ⟨tup, rs, h1, h2, _, h3, _⟩ := hb.tuples _ hf s hs'
    have h4 : tupleF d.children = tup := by
      have := congrArg (code fmt!"fn to_tuple(&'a self) ->").strip h1
      rw [strip_append, strip_append] at this
      cases this; rfl
    rw [← h4, tupleParts_tuple] at h2
    have h5 := congrArg List.length (Option.some.inj h2)
    simp only [List.length_map] at h5
    have := (h3 g hg hge).1
    omega
  cases hs : Spec.size d.ty with
  | none =>
    obtain ⟨p, _, _, hF⟩ := nf_defF hok hs
    have hst := nf_structs d.ty d.children p
    have ht := nf_to_tuple d.ty d.children p
    have hf := nf_fmt d.ty d.children p
    rw [← hF] at hst ht hf
    exact key _ _ _ (by rw [hst]; exact List.mem_cons_self) (by rw [ht]; exact List.mem_cons_self)
      ⟨_, by rw [hf]; exact List.mem_cons_self, rfl⟩
  | some n =>
    obtain ⟨p, _, _, hF⟩ := pk_defF hok hs
    have hst := pk_structs d.ty d.children p
    have ht := pk_to_tuple d.ty d.children p
    have hf := pk_fmt d.ty d.children p
    rw [← hF] at hst ht hf
    exact key _ _ _ (by rw [hst]; exact List.mem_cons_self) (by rw [ht]; exact List.mem_cons_self)
      ⟨_, by rw [hf]; exact List.mem_cons_self, rfl⟩

theorem bounds_integers {n : Nat} (hok : DefOk d) (hs : Spec.size d.ty = some n) (hb : Bounds F (defF d)) :
    ∀ m ∈ d.children, isInt m = true := by
  obtain ⟨p, _, hp, hF⟩ := pk_defF hok hs
  obtain ⟨B, fs, hst, hfs, _⟩ := pk_fields hok hs
  have hdf := pk_default_ref d.ty d.children p
  have hnew := pk_new d.ty d.children p
  rw [← hF] at hdf hnew
  have h1 := hb.zeros _ (by rw [hdf]; exact List.mem_cons_self) _ (by rw [hst]; exact List.mem_cons_self)
  rcases h1 with ⟨a, h1, _⟩ | ⟨g, k, ps, is, rs, h1, _, h3, h4, _, h6⟩
  · rw [dataAlign_declared (B := B) hfs] at h1
    cases h1
  · rw [hnew] at h1
    cases h1
    rw [readNew_eq] at h3
    cases h3
    intro m hm
    have h7 : (markerType m).trees ∈ rs.map RTy.trees := by
      rw [← h4, List.mem_map]
      obtain ⟨i, hi, rfl⟩ := List.getElem_of_mem hm
      exact ⟨(i, (markerType d.children[i]).trees), List.mem_mapIdx.2 ⟨i, hi, rfl⟩, rfl⟩
    obtain ⟨r, hr, he⟩ := List.mem_map.1 h7
    exact trees_integer m (h6 r hr) he.symm

theorem bounds_iff (hok : DefOk d) (ha : Able F d.ty) (hm : ∀ m ∈ d.children, Able F m) : Bounds F (defF d) ↔
    d.children.length ≤ 12 ∧ ((Spec.size d.ty).isSome → ∀ m ∈ d.children, isInt m = true) := by
  constructor
  · intro hb
    refine ⟨bounds_length hok hb, fun hz => ?_⟩
    obtain ⟨n, hn⟩ := Option.isSome_iff_exists.1 hz
    exact bounds_integers hok hn hb
  · rintro ⟨h1, h2⟩
    cases hs : Spec.size d.ty with
    | none => exact nf_bounds hok ha hm hs h1
    | some n => exact pk_bounds hok ha hm hs h1 (h2 (by rw [hs]; rfl))

end

end GV.Props
