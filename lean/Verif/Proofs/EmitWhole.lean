import Verif.Proofs.EmitPacked
/-
The text of a whole definition as one filled-in format string, and its items.
-/
namespace GV.Props
open GV Spec

/-- The parts of `write_non_fixed_size_structure` and the `Debug` implementation as one format string. -/
def nfAll : Bytes := nfHead ++ ([ph! "rows"] ++ (nfTail ++ debugTpl))

/-- The same for `write_packed_struct`. -/
def packedAll : Bytes := packedHead ++ ([ph! "fields"] ++ (packedTail ++ debugTpl))

/-- The arguments of `nfAll` with their trees. -/
def nfArgs (spec : Ty) (children : List Ty) (p : NonFixed) : List (UInt8 × Bytes × Forest) :=
  [(ph! "spec", escape spec.show, .nil), (ph! "alignment", decText (alignOf spec), .nil),
   (ph! "tuple", nfTuple children, .grp 40 (tupleF children) .nil),
   (ph! "rows", rowsText children.length p.nFrameOffsets 0 (children.zip p.rows),
     rowsF children.length p.nFrameOffsets 0 (children.zip p.rows)),
   (ph! "escaped", escape spec.show, .nil),
   (ph! "tuple2", (children.map fun c =>
      fill (args [(ph! "marker_type", markerText c)]) fmt!"&'a {marker_type}, ").flatten, tupleF children),
   (ph! "n_frame_offsets", decText p.nFrameOffsets, .nil),
   (ph! "serialize_types", serTypesText children, serTypesF children),
   (ph! "serialize_types2", serTypes2Text children, serTypes2F children),
   (ph! "serialize_cmds", cmdsText p.cmds, cmdsF p.cmds)]

theorem nfArgs_ok (spec children p) : ∀ x ∈ nfArgs spec children p, ArgOk x := by
  intro x hx
  simp only [nfArgs, List.mem_cons, List.not_mem_nil, or_false] at hx
  rcases hx with rfl | rfl | rfl | rfl | rfl | rfl | rfl | rfl | rfl | rfl
  · exact argOk_glue _ rfl (escape_ne _) (escape_word _)
  · exact argOk_dec _ _ rfl
  · exact argOk_seq rfl (parsesC_nfTuple _).parses
  · exact argOk_seq rfl (parsesC_rows _ _ _ _).parses
  · exact argOk_glue _ rfl (escape_ne _) (escape_word _)
  · exact argOk_seq rfl (parsesC_tuple2 _).parses
  · exact argOk_dec _ _ rfl
  · exact argOk_seq rfl (parses_serTypes _)
  · exact argOk_seq rfl (parses_serTypes2 _)
  · exact argOk_seq rfl (parses_cmds _)

/-- The arguments of `packedAll` with their trees. -/
def packedArgs (gv : Ty) (children : List Ty) (p : Packed) : List (UInt8 × Bytes × Forest) :=
  [(ph! "escaped", escape gv.show, .nil), (ph! "align", decText (alignOf gv), .nil),
   (ph! "get_fields", join fmt!" " (children.mapIdx fun n _ =>
      fill (args [(ph! "n", decText n)]) fmt!"&self.field_{n},"), refsF children),
   (ph! "field_arglist", join fmt!", " (children.mapIdx fun n c =>
      fill (args [(ph! "n", decText n), (ph! "marker_type", markerText c)]) fmt!"field_{n} : {marker_type}"),
     paramsF children),
   (ph! "serialize_types", serTypesText children, serTypesF children),
   (ph! "serialize_types2", serTypes2Text children, serTypes2F children),
   (ph! "serialize_cmds", cmdsText p.cmds, cmdsF p.cmds),
   (ph! "set_fields", setFieldsText 0 p.fields, eachF (initsF 0 p.fields)),
   (ph! "defaults", join fmt!", " (children.map fun _ => fmt!"0"), defaultsF children),
   (ph! "eq", join fmt!" && " (fmt!"true" :: children.mapIdx fun n _ =>
      fill (args [(ph! "n", decText n)]) fmt!"self.field_{n} == other.field_{n}"), eqsF children),
   (ph! "tuple", join fmt!" " (children.map fun c =>
      fill (args [(ph! "marker_type", markerText c)]) fmt!"&'a {marker_type},"), tupleF children),
   (ph! "fields", fieldsText 0 p.fields (children.zip (generateTable children)),
     eachF (fieldsF 0 p.fields ((children.zip (generateTable children)).map (·.1))))]

theorem packedArgs_ok (gv children p) : ∀ x ∈ packedArgs gv children p, ArgOk x := by
  intro x hx
  simp only [packedArgs, List.mem_cons, List.not_mem_nil, or_false] at hx
  rcases hx with rfl | rfl | rfl | rfl | rfl | rfl | rfl | rfl | rfl | rfl | rfl | rfl
  · exact argOk_glue _ rfl (escape_ne _) (escape_word _)
  · exact argOk_dec _ _ rfl
  · exact argOk_seq rfl (parses_refs _)
  · exact argOk_seq rfl (parses_params _)
  · exact argOk_seq rfl (parses_serTypes _)
  · exact argOk_seq rfl (parses_serTypes2 _)
  · exact argOk_seq rfl (parses_cmds _)
  · exact argOk_seq rfl (parsesC_inits _ _).parses
  · exact argOk_seq rfl (parses_defaults _)
  · exact argOk_seq rfl (parses_eqs _)
  · exact argOk_seq rfl (parses_packedTuple _)
  · exact argOk_seq rfl (parsesC_fields _ _ _).parses

/-- The arguments as text, and as trees. -/
def argT (xs : List (UInt8 × Bytes × Forest)) : UInt8 → Bytes := args (xs.map fun x => (x.1, x.2.1))
def argF (xs : List (UInt8 × Bytes × Forest)) : UInt8 → Forest := argsF (xs.map fun x => (x.1, x.2.2))

/-! ### One format string -/

theorem lookup_low {β} {xs : List (UInt8 × β)} (h : ∀ x ∈ xs, 128 ≤ x.1) {c : UInt8} (hc : c < 128) :
    xs.lookup c = none := by
  cases hx : xs.lookup c with
  | none => rfl
  | some y => exact absurd hc (UInt8.not_lt.2 (h _ (lookup_mem hx)))

theorem fill_agree {xs ys : List (UInt8 × Bytes)} {T : Bytes} (K : List UInt8)
    (hT : (T.all fun c => c < 128 || K.contains c) = true)
    (hx : (xs.map (·.1)).all (128 ≤ ·) = true) (hy : (ys.map (·.1)).all (128 ≤ ·) = true)
    (hK : ∀ c ∈ K, xs.lookup c = ys.lookup c) : fill (args xs) T = fill (args ys) T := by
  unfold fill
  refine flatMap_congr_mem fun c hc => ?_
  have h1 := List.all_eq_true.1 hT c hc
  simp only [Bool.or_eq_true, decide_eq_true_eq, List.contains_iff_mem] at h1
  unfold args
  simp only [List.all_map, List.all_eq_true, Function.comp, decide_eq_true_eq] at hx hy
  rcases h1 with h1 | h1
  · rw [lookup_low hx h1, lookup_low hy h1]
  · rw [hK c h1]

set_option maxRecDepth 100000 in
theorem nonFixedText_eq (spec children p) : nonFixedText spec children p = fill (argT (nfArgs spec children p)) nfAll := by
  have ha : ∀ (σ : UInt8 → Bytes) a b, fill σ (a ++ b) = fill σ a ++ fill σ b := fun σ a b => by
    simp [fill, List.flatMap_append]
  have h1 := fill_agree (T := nfHead) (xs := [(ph! "spec", escape spec.show),
    (ph! "alignment", decText (alignOf spec)), (ph! "tuple", nfTuple children)])
    (ys := (nfArgs spec children p).map fun x => (x.1, x.2.1))
    [ph! "spec", ph! "alignment", ph! "tuple"] (by decide +kernel) rfl rfl (by
      intro c hc
      simp only [List.mem_cons, List.not_mem_nil, or_false] at hc
      rcases hc with rfl | rfl | rfl <;> rfl)
  have h2 := fill_agree (T := nfTail) (xs := [(ph! "escaped", escape spec.show),
    (ph! "tuple2", (children.map fun c =>
      fill (args [(ph! "marker_type", markerText c)]) fmt!"&'a {marker_type}, ").flatten),
    (ph! "n_frame_offsets", decText p.nFrameOffsets),
    (ph! "serialize_types", serTypesText children), (ph! "serialize_types2", serTypes2Text children),
    (ph! "serialize_cmds", cmdsText p.cmds)])
    (ys := (nfArgs spec children p).map fun x => (x.1, x.2.1))
    [ph! "escaped", ph! "tuple2", ph! "n_frame_offsets", ph! "serialize_types", ph! "serialize_types2",
      ph! "serialize_cmds"] (by decide +kernel) rfl rfl (by
      intro c hc
      simp only [List.mem_cons, List.not_mem_nil, or_false] at hc
      rcases hc with rfl | rfl | rfl | rfl | rfl | rfl <;> rfl)
  have h3 := fill_agree (T := debugTpl) (xs := [(ph! "escaped", escape spec.show)])
    (ys := (nfArgs spec children p).map fun x => (x.1, x.2.1))
    [ph! "escaped"] (by decide +kernel) rfl rfl (by
      intro c hc
      simp only [List.mem_cons, List.not_mem_nil, or_false] at hc
      rcases hc with rfl <;> rfl)
  have h4 : fill (argT (nfArgs spec children p)) [ph! "rows"] =
      rowsText children.length p.nFrameOffsets 0 (children.zip p.rows) := by
    simp only [fill, List.flatMap_cons, List.flatMap_nil, List.append_nil]
    rfl
  unfold nonFixedText nfAll
  rw [ha, ha, ha, h4]
  simp only [h1, h2, h3, List.append_assoc]
  rfl

set_option maxRecDepth 100000 in
theorem packedText_eq (gv children p) : packedText gv children p = fill (argT (packedArgs gv children p)) packedAll := by
  have ha : ∀ (σ : UInt8 → Bytes) a b, fill σ (a ++ b) = fill σ a ++ fill σ b := fun σ a b => by
    simp [fill, List.flatMap_append]
  have h1 := fill_agree (T := packedHead) (xs := [(ph! "escaped", escape gv.show)])
    (ys := (packedArgs gv children p).map fun x => (x.1, x.2.1))
    [ph! "escaped"] (by decide +kernel) rfl rfl (by
      intro c hc
      simp only [List.mem_cons, List.not_mem_nil, or_false] at hc
      rcases hc with rfl <;> rfl)
  have h3 := fill_agree (T := debugTpl) (xs := [(ph! "escaped", escape gv.show)])
    (ys := (packedArgs gv children p).map fun x => (x.1, x.2.1))
    [ph! "escaped"] (by decide +kernel) rfl rfl (by
      intro c hc
      simp only [List.mem_cons, List.not_mem_nil, or_false] at hc
      rcases hc with rfl <;> rfl)
  have h2 := fill_agree (T := packedTail) (xs := ((packedArgs gv children p).map fun x => (x.1, x.2.1)).take 11)
    (ys := (packedArgs gv children p).map fun x => (x.1, x.2.1))
    [ph! "escaped", ph! "align", ph! "get_fields", ph! "field_arglist", ph! "serialize_types", ph! "serialize_types2",
      ph! "serialize_cmds", ph! "set_fields", ph! "defaults", ph! "eq", ph! "tuple"] (by decide +kernel) rfl rfl (by
      intro c hc
      simp only [List.mem_cons, List.not_mem_nil, or_false] at hc
      rcases hc with rfl | rfl | rfl | rfl | rfl | rfl | rfl | rfl | rfl | rfl | rfl <;> rfl)
  have h4 : fill (argT (packedArgs gv children p)) [ph! "fields"] =
      fieldsText 0 p.fields (children.zip (generateTable children)) := by
    simp only [fill, List.flatMap_cons, List.flatMap_nil, List.append_nil]
    rfl
  have h2' : fill (args [(ph! "escaped", escape gv.show), (ph! "align", decText (alignOf gv)),
    (ph! "get_fields", join fmt!" " (children.mapIdx fun n _ =>
      fill (args [(ph! "n", decText n)]) fmt!"&self.field_{n},")),
    (ph! "field_arglist", join fmt!", " (children.mapIdx fun n c =>
      fill (args [(ph! "n", decText n), (ph! "marker_type", markerText c)]) fmt!"field_{n} : {marker_type}")),
    (ph! "serialize_types", serTypesText children), (ph! "serialize_types2", serTypes2Text children),
    (ph! "serialize_cmds", cmdsText p.cmds), (ph! "set_fields", setFieldsText 0 p.fields),
    (ph! "defaults", join fmt!", " (children.map fun _ => fmt!"0")),
    (ph! "eq", join fmt!" && " (fmt!"true" :: children.mapIdx fun n _ =>
      fill (args [(ph! "n", decText n)]) fmt!"self.field_{n} == other.field_{n}")),
    (ph! "tuple", join fmt!" " (children.map fun c =>
      fill (args [(ph! "marker_type", markerText c)]) fmt!"&'a {marker_type},"))]) packedTail =
      fill (argT (packedArgs gv children p)) packedTail := h2
  unfold packedText packedAll
  rw [ha, ha, ha, h4]
  simp only [h1, h2', h3, List.append_assoc]
  rfl

/-! ### Trees of whole definitions -/

def nfTrees : Forest := tplF nfAll
def packedTrees : Forest := tplF packedAll

set_option maxRecDepth 100000 in
theorem nfAll_shape : shape nfAll = some (nfTrees, true) := by decide +kernel

set_option maxRecDepth 100000 in
theorem packedAll_shape : shape packedAll = some (packedTrees, true) := by decide +kernel

/-- Placeholders that stand for no items. -/
def cleanPh (h : UInt8) : Bool := h == ph! "tuple" || h == ph! "serialize_types"

set_option maxRecDepth 100000 in
theorem nf_ready : ready cleanPh nfTrees = true := by decide +kernel

set_option maxRecDepth 100000 in
theorem packed_ready : ready cleanPh packedTrees = true := by decide +kernel

/-- Arguments and trees of a definition. -/
def defArgs (d : StructDef) : List (UInt8 × Bytes × Forest) :=
  match d.body with
  | .packed p => packedArgs d.ty d.children p
  | .nonFixed p => nfArgs d.ty d.children p

def defTpl (d : StructDef) : Forest :=
  match d.body with
  | .packed _ => packedTrees
  | .nonFixed _ => nfTrees

/-- The trees of the text of a definition. -/
def defF (d : StructDef) : Forest := subF (argT (defArgs d)) (argF (defArgs d)) (defTpl d)

theorem parsesC_def (d : StructDef) : ParsesC d.text (defF d) := by
  obtain ⟨ty, name, children, body⟩ := d
  cases body with
  | packed p =>
    simp only [StructDef.text, packedText_eq]
    exact parsesC_args _ (packedArgs_ok _ _ _) packedAll_shape
  | nonFixed p =>
    simp only [StructDef.text, nonFixedText_eq]
    exact parsesC_args _ (nfArgs_ok _ _ _) nfAll_shape

theorem defArgs_low (d : StructDef) : ∀ c < 128, argT (defArgs d) c = [c] := by
  intro c hc
  unfold argT args
  rw [lookup_low _ hc]
  · rfl
  · obtain ⟨ty, name, children, body⟩ := d
    cases body with
    | packed p =>
      have h : (((packedArgs ty children p).map fun x => (x.1, x.2.1)).map (·.1)).all (128 ≤ ·) = true := rfl
      simp only [List.all_map, List.all_eq_true, Function.comp, decide_eq_true_eq] at h
      intro x hx
      obtain ⟨y, hy, rfl⟩ := List.mem_map.1 hx
      exact h y hy
    | nonFixed p =>
      have h : (((nfArgs ty children p).map fun x => (x.1, x.2.1)).map (·.1)).all (128 ≤ ·) = true := rfl
      simp only [List.all_map, List.all_eq_true, Function.comp, decide_eq_true_eq] at h
      intro x hx
      obtain ⟨y, hy, rfl⟩ := List.mem_map.1 hx
      exact h y hy

theorem defArgs_clean (d : StructDef) : ∀ h, cleanPh h = true → flat (argF (defArgs d) h) = true := by
  intro h hh
  simp only [cleanPh, Bool.or_eq_true, beq_iff_eq] at hh
  obtain ⟨ty, name, children, body⟩ := d
  cases body with
  | packed p =>
    rcases hh with rfl | rfl
    · exact tupleF_flat children
    · exact serTypesF_flat children
  | nonFixed p =>
    rcases hh with rfl | rfl
    · rfl
    · exact serTypesF_flat children

theorem def_ready (d : StructDef) : ready cleanPh (defTpl d) = true := by
  unfold defTpl
  split
  · exact packed_ready
  · exact nf_ready

theorem structs_def (d : StructDef) : structs (defF d) = (structs (defTpl d)).map fun p =>
    (p.1.map (subF (argT (defArgs d)) (argF (defArgs d))), p.2.1.flatMap (argT (defArgs d)),
      subF (argT (defArgs d)) (argF (defArgs d)) p.2.2) :=
  structs_sub (defArgs_low d) (defArgs_clean d) (def_ready d)

end GV.Props
