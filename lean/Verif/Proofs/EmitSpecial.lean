import Verif.Proofs.EmitItems
/-
The parts of the text of a definition that depend on the members.
-/
namespace GV.Props
open GV Spec

theorem impls_tpl {xs : List (UInt8 × Bytes × Forest)} {F : Forest}
    (hl : ∀ c < 128, argT xs c = [c]) (hc : ∀ h, cleanPh h = true → flat (argF xs h) = true) (hr : ready cleanPh F = true)
    (l : List (List Chunk)) (h : (impls F).map (·.1) = l.map fun q => tplF (chunksTpl q)) :
    (impls (subF (argT xs) (argF xs) F)).map (·.1) = l.map fun q => subF (argT xs) (argF xs) (tplF (chunksTpl q)) := by
  have h1 : (impls (subF (argT xs) (argF xs) F)).map (·.1) = ((impls F).map (·.1)).map (subF (argT xs) (argF xs)) := by
    rw [impls_sub hl hc hr, List.map_map, List.map_map]
    rfl
  rw [h1, h, List.map_map]
  rfl

/-- The body of `serialize` of a structure of variable size. -/
def nfSerF (nfo : Nat) (cs : List Cmd) : Forest :=
  (code fmt!"let mut off: usize = 0;").append ((code fmt!"let mut framing_offsets :").append
    (.grp 91 ((code fmt!"usize;").append (numF nfo)) (.leaf (.op 61) (.grp 91 ((code fmt!"0;").append (numF nfo))
      (.leaf (.op 59) ((cmdsF cs).append (code fmt!"off = write_offsets(off, &framing_offsets, f)?; Ok(off)")))))))

/-- `pub const fn new(…) -> name` -/
def newHead (name : Bytes) (ps : Forest) : Forest :=
  (code fmt!"pub const fn new").append (.grp 40 ps ((code fmt!"->").append (.leaf (.word name) .nil)))

/-- The body of `default_ref` of a structure of fixed size. -/
def pkDefaultF (name : Bytes) (zs : Forest) : Forest :=
  (code fmt!"static s :").append (.leaf (.word name) (.leaf (.op 61) (.leaf (.word name) ((code fmt!"::new").append
    (.grp 40 zs (.leaf (.op 59) (code fmt!"&s")))))))

/-- `Ok(core::mem::size_of::<name>())` -/
def sizeOkF (name : Bytes) : Forest :=
  .leaf (.word fmt!"Ok") (.grp 40 ((code fmt!"core::mem::size_of::<").append (.leaf (.word name) (code fmt!">()"))) .nil)

/-- The body of `serialize` of a structure of fixed size. -/
def pkSerF (name : Bytes) (cs : List Cmd) : Forest := (cmdsF cs).append (sizeOkF name)

section
variable (ty : Ty) (children : List Ty) (p : NonFixed) (pk : Packed)
set_option maxRecDepth 100000

theorem nf_d_rows : subF (argT (nfArgs ty children p)) (argF (nfArgs ty children p)) (tplF (chunksTpl [.lit fmt!"(", .ph (ph! "rows"), .lit fmt!")"])) =
    .grp 40 (rowsF children.length p.nFrameOffsets 0 (children.zip p.rows)) .nil := by
  have h : subG (argT (nfArgs ty children p)) (argF (nfArgs ty children p)) (tplF (chunksTpl [.lit fmt!"(", .ph (ph! "rows"), .lit fmt!")"])) =
    .grp 40 ((rowsF children.length p.nFrameOffsets 0 (children.zip p.rows)).append .nil) .nil := rfl
  rw [subF_eq, h, forest_append_nil]

theorem nf_d_toTuple : subF (argT (nfArgs ty children p)) (argF (nfArgs ty children p)) (tplF (chunksTpl [.lit fmt!"fn to_tuple(&'a self) -> ", .ph (ph! "tuple"), .lit fmt!" "])) =
    (code fmt!"fn to_tuple(&'a self) ->").append (.grp 40 (tupleF children) .nil) := by
  have h : subG (argT (nfArgs ty children p)) (argF (nfArgs ty children p)) (tplF (chunksTpl [.lit fmt!"fn to_tuple(&'a self) -> ", .ph (ph! "tuple"), .lit fmt!" "])) =
    (code fmt!"fn to_tuple(&'a self) ->").append (.grp 40 (tupleF children) .nil) := rfl
  rw [subF_eq, h]

theorem nf_d_tuple : subF (argT (nfArgs ty children p)) (argF (nfArgs ty children p)) (tplF (chunksTpl [.ph (ph! "tuple"), .lit fmt!" "])) =
    .grp 40 (tupleF children) .nil := by
  have h : subG (argT (nfArgs ty children p)) (argF (nfArgs ty children p)) (tplF (chunksTpl [.ph (ph! "tuple"), .lit fmt!" "])) =
    .grp 40 (tupleF children) .nil := rfl
  rw [subF_eq, h]

theorem nf_d_from : subF (argT (nfArgs ty children p)) (argF (nfArgs ty children p)) (tplF (chunksTpl [.lit fmt!"impl<'a> From<&'a ", .nm (ph! "escaped"), .lit fmt!"> for (", .ph (ph! "tuple2"), .lit fmt!")"])) =
    fromHead (structName ty) (tupleF children) := by
  have h : subG (argT (nfArgs ty children p)) (argF (nfArgs ty children p)) (tplF (chunksTpl [.lit fmt!"impl<'a> From<&'a ", .nm (ph! "escaped"), .lit fmt!"> for (", .ph (ph! "tuple2"), .lit fmt!")"])) =
    fromHead (structName ty) ((tupleF children).append .nil) := rfl
  rw [subF_eq, h, forest_append_nil]

theorem nf_d_ser : subF (argT (nfArgs ty children p)) (argF (nfArgs ty children p)) (tplF (chunksTpl [.lit fmt!"impl<", .ph (ph! "serialize_types"), .lit fmt!"> ::gvariant::SerializeTo<", .nm (ph! "escaped"),
       .lit fmt!"> for &(", .ph (ph! "serialize_types2"), .lit fmt!")"])) =
    serHead (structName ty) (serTypesF children) (serTypes2F children) := by
  have h : subG (argT (nfArgs ty children p)) (argF (nfArgs ty children p)) (tplF (chunksTpl [.lit fmt!"impl<", .ph (ph! "serialize_types"), .lit fmt!"> ::gvariant::SerializeTo<", .nm (ph! "escaped"),
       .lit fmt!"> for &(", .ph (ph! "serialize_types2"), .lit fmt!")"])) =
    serHead (structName ty) (serTypesF children) ((serTypes2F children).append .nil) := rfl
  rw [subF_eq, h, forest_append_nil]

theorem nf_d_body : subF (argT (nfArgs ty children p)) (argF (nfArgs ty children p)) (tplF (chunksTpl [.lit fmt!"let mut off: usize = 0;
            let mut framing_offsets : [usize; ", .ph (ph! "n_frame_offsets"), .lit fmt!"] = [0; ",
        .ph (ph! "n_frame_offsets"), .lit fmt!"];
            ", .ph (ph! "serialize_cmds"), .lit fmt!"
            off = write_offsets(off, &framing_offsets, f)?;
            Ok(off)"])) =
    nfSerF p.nFrameOffsets p.cmds := by
  have h : subG (argT (nfArgs ty children p)) (argF (nfArgs ty children p)) (tplF (chunksTpl [.lit fmt!"let mut off: usize = 0;
            let mut framing_offsets : [usize; ", .ph (ph! "n_frame_offsets"), .lit fmt!"] = [0; ",
        .ph (ph! "n_frame_offsets"), .lit fmt!"];
            ", .ph (ph! "serialize_cmds"), .lit fmt!"
            off = write_offsets(off, &framing_offsets, f)?;
            Ok(off)"])) =
    nfSerF p.nFrameOffsets p.cmds := rfl
  rw [subF_eq, h]

theorem pk_d_from : subF (argT (packedArgs ty children pk)) (argF (packedArgs ty children pk)) (tplF (chunksTpl [.lit fmt!"impl<'a> From<&'a ", .nm (ph! "escaped"), .lit fmt!"> for (", .ph (ph! "tuple"), .lit fmt!")"])) =
    fromHead (structName ty) (tupleF children) := by
  have h : subG (argT (packedArgs ty children pk)) (argF (packedArgs ty children pk)) (tplF (chunksTpl [.lit fmt!"impl<'a> From<&'a ", .nm (ph! "escaped"), .lit fmt!"> for (", .ph (ph! "tuple"), .lit fmt!")"])) =
    fromHead (structName ty) ((tupleF children).append .nil) := rfl
  rw [subF_eq, h, forest_append_nil]

theorem pk_d_ser : subF (argT (packedArgs ty children pk)) (argF (packedArgs ty children pk)) (tplF (chunksTpl [.lit fmt!"impl<", .ph (ph! "serialize_types"), .lit fmt!"> ::gvariant::SerializeTo<", .nm (ph! "escaped"),
       .lit fmt!"> for &(", .ph (ph! "serialize_types2"), .lit fmt!")"])) =
    serHead (structName ty) (serTypesF children) (serTypes2F children) := by
  have h : subG (argT (packedArgs ty children pk)) (argF (packedArgs ty children pk)) (tplF (chunksTpl [.lit fmt!"impl<", .ph (ph! "serialize_types"), .lit fmt!"> ::gvariant::SerializeTo<", .nm (ph! "escaped"),
       .lit fmt!"> for &(", .ph (ph! "serialize_types2"), .lit fmt!")"])) =
    serHead (structName ty) (serTypesF children) ((serTypes2F children).append .nil) := rfl
  rw [subF_eq, h, forest_append_nil]

theorem pk_d_fields : subF (argT (packedArgs ty children pk)) (argF (packedArgs ty children pk)) (tplF (chunksTpl [.ph (ph! "fields"), .lit fmt!" "])) =
    eachF (fieldsF 0 pk.fields ((children.zip (generateTable children)).map (·.1))) := by
  have h : subG (argT (packedArgs ty children pk)) (argF (packedArgs ty children pk)) (tplF (chunksTpl [.ph (ph! "fields"), .lit fmt!" "])) =
    (eachF (fieldsF 0 pk.fields ((children.zip (generateTable children)).map (·.1)))).append .nil := rfl
  rw [subF_eq, h, forest_append_nil]

theorem pk_d_new : subF (argT (packedArgs ty children pk)) (argF (packedArgs ty children pk)) (tplF (chunksTpl [.lit fmt!"pub const fn new(", .ph (ph! "field_arglist"), .lit fmt!") -> ", .nm (ph! "escaped"), .lit fmt!" "])) =
    newHead (structName ty) (paramsF children) := by
  have h : subG (argT (packedArgs ty children pk)) (argF (packedArgs ty children pk)) (tplF (chunksTpl [.lit fmt!"pub const fn new(", .ph (ph! "field_arglist"), .lit fmt!") -> ", .nm (ph! "escaped"), .lit fmt!" "])) =
    newHead (structName ty) ((paramsF children).append .nil) := rfl
  rw [subF_eq, h, forest_append_nil]

theorem pk_d_inits : subF (argT (packedArgs ty children pk)) (argF (packedArgs ty children pk)) (tplF (chunksTpl [.nm (ph! "escaped"), .lit fmt!" {{ ", .ph (ph! "set_fields"), .lit fmt!" }}"])) =
    .leaf (.word (structName ty)) (.grp 123 (eachF (initsF 0 pk.fields)) .nil) := by
  have h : subG (argT (packedArgs ty children pk)) (argF (packedArgs ty children pk)) (tplF (chunksTpl [.nm (ph! "escaped"), .lit fmt!" {{ ", .ph (ph! "set_fields"), .lit fmt!" }}"])) =
    .leaf (.word (structName ty)) (.grp 123 ((eachF (initsF 0 pk.fields)).append .nil) .nil) := rfl
  rw [subF_eq, h, forest_append_nil]

theorem pk_d_toTuple : subF (argT (packedArgs ty children pk)) (argF (packedArgs ty children pk)) (tplF (chunksTpl [.lit fmt!"fn to_tuple(&'a self) -> (", .ph (ph! "tuple"), .lit fmt!")"])) =
    (code fmt!"fn to_tuple(&'a self) ->").append (.grp 40 (tupleF children) .nil) := by
  have h : subG (argT (packedArgs ty children pk)) (argF (packedArgs ty children pk)) (tplF (chunksTpl [.lit fmt!"fn to_tuple(&'a self) -> (", .ph (ph! "tuple"), .lit fmt!")"])) =
    (code fmt!"fn to_tuple(&'a self) ->").append (.grp 40 ((tupleF children).append .nil) .nil) := rfl
  rw [subF_eq, h, forest_append_nil]

theorem pk_d_tuple : subF (argT (packedArgs ty children pk)) (argF (packedArgs ty children pk)) (tplF (chunksTpl [.lit fmt!"(", .ph (ph! "tuple"), .lit fmt!")"])) =
    .grp 40 (tupleF children) .nil := by
  have h : subG (argT (packedArgs ty children pk)) (argF (packedArgs ty children pk)) (tplF (chunksTpl [.lit fmt!"(", .ph (ph! "tuple"), .lit fmt!")"])) =
    .grp 40 ((tupleF children).append .nil) .nil := rfl
  rw [subF_eq, h, forest_append_nil]

theorem pk_d_refs : subF (argT (packedArgs ty children pk)) (argF (packedArgs ty children pk)) (tplF (chunksTpl [.lit fmt!"(", .ph (ph! "get_fields"), .lit fmt!")"])) =
    .grp 40 (refsF children) .nil := by
  have h : subG (argT (packedArgs ty children pk)) (argF (packedArgs ty children pk)) (tplF (chunksTpl [.lit fmt!"(", .ph (ph! "get_fields"), .lit fmt!")"])) =
    .grp 40 ((refsF children).append .nil) .nil := rfl
  rw [subF_eq, h, forest_append_nil]

theorem pk_d_eq : subF (argT (packedArgs ty children pk)) (argF (packedArgs ty children pk)) (tplF (chunksTpl [.ph (ph! "eq"), .lit fmt!" "])) =
    eqsF children := by
  have h : subG (argT (packedArgs ty children pk)) (argF (packedArgs ty children pk)) (tplF (chunksTpl [.ph (ph! "eq"), .lit fmt!" "])) =
    (eqsF children).append .nil := rfl
  rw [subF_eq, h, forest_append_nil]

theorem pk_d_default : subF (argT (packedArgs ty children pk)) (argF (packedArgs ty children pk)) (tplF (chunksTpl [.lit fmt!"static s : ", .nm (ph! "escaped"), .lit fmt!" = ", .nm (ph! "escaped"), .lit fmt!"::new(", .ph (ph! "defaults"), .lit fmt!");
                &s"])) =
    pkDefaultF (structName ty) (defaultsF children) := by
  have h : subG (argT (packedArgs ty children pk)) (argF (packedArgs ty children pk)) (tplF (chunksTpl [.lit fmt!"static s : ", .nm (ph! "escaped"), .lit fmt!" = ", .nm (ph! "escaped"), .lit fmt!"::new(", .ph (ph! "defaults"), .lit fmt!");
                &s"])) =
    pkDefaultF (structName ty) ((defaultsF children).append .nil) := rfl
  rw [subF_eq, h, forest_append_nil]

theorem pk_d_body : subF (argT (packedArgs ty children pk)) (argF (packedArgs ty children pk)) (tplF (chunksTpl [.ph (ph! "serialize_cmds"), .lit fmt!"
                Ok(core::mem::size_of::<", .nm (ph! "escaped"), .lit fmt!">())"])) =
    pkSerF (structName ty) pk.cmds := by
  have h : subG (argT (packedArgs ty children pk)) (argF (packedArgs ty children pk)) (tplF (chunksTpl [.ph (ph! "serialize_cmds"), .lit fmt!"
                Ok(core::mem::size_of::<", .nm (ph! "escaped"), .lit fmt!">())"])) =
    pkSerF (structName ty) pk.cmds := rfl
  rw [subF_eq, h]

theorem nf_to_tuple : fns fmt!"to_tuple" (nfF ty children p) =
    [(code (fmt!"impl<'a> Structure<'a> for " ++ structName ty),
      (code fmt!"fn to_tuple(&'a self) ->").append (.grp 40 (tupleF children) .nil),
      .grp 40 (rowsF children.length p.nFrameOffsets 0 (children.zip p.rows)) .nil)] := by
  have h := nf_fn ty children p (name := fmt!"to_tuple")
    [([.lit fmt!"impl<'a> Structure<'a> for ", .nm (ph! "spec")],
      [.lit fmt!"fn to_tuple(&'a self) -> ", .ph (ph! "tuple"), .lit fmt!" "],
      [.lit fmt!"(", .ph (ph! "rows"), .lit fmt!")"])] (by decide +kernel)
  simp only [List.map_cons, List.map_nil] at h
  rw [nf_code ty children p (by decide +kernel), nf_d_toTuple, nf_d_rows] at h
  exact h

theorem nf_refTuple : typeDefs fmt!"RefTuple" (nfF ty children p) =
    [(code (fmt!"impl<'a> Structure<'a> for " ++ structName ty), .grp 40 (tupleF children) .nil)] := by
  have h := nf_type ty children p (name := fmt!"RefTuple")
    [([.lit fmt!"impl<'a> Structure<'a> for ", .nm (ph! "spec")], [.ph (ph! "tuple"), .lit fmt!" "])] (by decide +kernel)
  simp only [List.map_cons, List.map_nil] at h
  rw [nf_code ty children p (by decide +kernel), nf_d_tuple] at h
  exact h

theorem nf_impls : (impls (nfF ty children p)).map (·.1) =
    [code (fmt!"impl " ++ structName ty), code (fmt!"impl ToOwned for " ++ structName ty),
     code (fmt!"impl ::gvariant::Cast for " ++ structName ty),
     code (fmt!"unsafe impl ::gvariant::casting::AllBitPatternsValid for " ++ structName ty),
     code (fmt!"unsafe impl ::gvariant::casting::AlignOf for " ++ structName ty),
     code (fmt!"impl<'a> Structure<'a> for " ++ structName ty),
     fromHead (structName ty) (tupleF children),
     code (fmt!"impl PartialEq for " ++ structName ty),
     serHead (structName ty) (serTypesF children) (serTypes2F children),
     code (fmt!"impl std::fmt::Debug for " ++ structName ty)] := by
  have h := impls_tpl (nf_low ty children p) (nf_clean ty children p) nf_ready
    [[.lit fmt!"impl ", .nm (ph! "spec")], [.lit fmt!"impl ToOwned for ", .nm (ph! "spec")],
     [.lit fmt!"impl ::gvariant::Cast for ", .nm (ph! "spec")],
     [.lit fmt!"unsafe impl ::gvariant::casting::AllBitPatternsValid for ", .nm (ph! "spec")],
     [.lit fmt!"unsafe impl ::gvariant::casting::AlignOf for ", .nm (ph! "spec")],
     [.lit fmt!"impl<'a> Structure<'a> for ", .nm (ph! "spec")],
     [.lit fmt!"impl<'a> From<&'a ", .nm (ph! "escaped"), .lit fmt!"> for (", .ph (ph! "tuple2"), .lit fmt!")"],
     [.lit fmt!"impl PartialEq for ", .nm (ph! "escaped")],
     [.lit fmt!"impl<", .ph (ph! "serialize_types"), .lit fmt!"> ::gvariant::SerializeTo<", .nm (ph! "escaped"),
       .lit fmt!"> for &(", .ph (ph! "serialize_types2"), .lit fmt!")"],
     [.lit fmt!"impl std::fmt::Debug for ", .nm (ph! "escaped")]] (by decide +kernel)
  simp only [List.map_cons, List.map_nil] at h
  rw [nf_code ty children p (cs := [.lit fmt!"impl ", .nm (ph! "spec")]) (by decide +kernel),
    nf_code ty children p (cs := [.lit fmt!"impl ToOwned for ", .nm (ph! "spec")]) (by decide +kernel),
    nf_code ty children p (cs := [.lit fmt!"impl ::gvariant::Cast for ", .nm (ph! "spec")]) (by decide +kernel),
    nf_code ty children p (cs := [.lit fmt!"unsafe impl ::gvariant::casting::AllBitPatternsValid for ",
      .nm (ph! "spec")]) (by decide +kernel),
    nf_code ty children p (cs := [.lit fmt!"unsafe impl ::gvariant::casting::AlignOf for ", .nm (ph! "spec")])
      (by decide +kernel),
    nf_code ty children p (cs := [.lit fmt!"impl<'a> Structure<'a> for ", .nm (ph! "spec")]) (by decide +kernel),
    nf_code ty children p (cs := [.lit fmt!"impl PartialEq for ", .nm (ph! "escaped")]) (by decide +kernel),
    nf_code ty children p (cs := [.lit fmt!"impl std::fmt::Debug for ", .nm (ph! "escaped")]) (by decide +kernel), nf_d_from, nf_d_ser] at h
  exact h

theorem nf_from : fns fmt!"from" (nfF ty children p) =
    [(fromHead (structName ty) (tupleF children),
      code (fmt!"fn from(value : &'a " ++ (structName ty ++ fmt!") -> Self")), code fmt!"value.to_tuple()")] := by
  have h := nf_fn ty children p (name := fmt!"from")
    [([.lit fmt!"impl<'a> From<&'a ", .nm (ph! "escaped"), .lit fmt!"> for (", .ph (ph! "tuple2"), .lit fmt!")"],
      [.lit fmt!"fn from(value : &'a ", .nm (ph! "escaped"), .lit fmt!") -> Self"],
      [.lit fmt!"value.to_tuple()"])] (by decide +kernel)
  simp only [List.map_cons, List.map_nil] at h
  rw [nf_code ty children p (cs := [.lit fmt!"fn from(value : &'a ", .nm (ph! "escaped"), .lit fmt!") -> Self"])
      (by decide +kernel), nf_code ty children p (cs := [.lit fmt!"value.to_tuple()"]) (by decide +kernel), nf_d_from] at h
  exact h

theorem nf_serialize : fns fmt!"serialize" (nfF ty children p) =
    [(serHead (structName ty) (serTypesF children) (serTypes2F children),
      code fmt!"fn serialize(self, f: &mut impl std::io::Write) -> std::io::Result<usize>",
      nfSerF p.nFrameOffsets p.cmds)] := by
  have h := nf_fn ty children p (name := fmt!"serialize")
    [([.lit fmt!"impl<", .ph (ph! "serialize_types"), .lit fmt!"> ::gvariant::SerializeTo<", .nm (ph! "escaped"),
       .lit fmt!"> for &(", .ph (ph! "serialize_types2"), .lit fmt!")"],
      [.lit fmt!"fn serialize(self, f: &mut impl std::io::Write) -> std::io::Result<usize>"],
      [.lit fmt!"let mut off: usize = 0;
            let mut framing_offsets : [usize; ", .ph (ph! "n_frame_offsets"), .lit fmt!"] = [0; ",
        .ph (ph! "n_frame_offsets"), .lit fmt!"];
            ", .ph (ph! "serialize_cmds"), .lit fmt!"
            off = write_offsets(off, &framing_offsets, f)?;
            Ok(off)"])] (by decide +kernel)
  simp only [List.map_cons, List.map_nil] at h
  rw [nf_code ty children p (cs := [.lit fmt!"fn serialize(self, f: &mut impl std::io::Write) -> std::io::Result<usize>"])
      (by decide +kernel), nf_d_ser, nf_d_body] at h
  exact h

theorem readVarSer_eq (nfo : Nat) (cs : List Cmd) : readVarSer (nfSerF nfo cs) = some (nfo, cs) := by
  have h0 : code fmt!"let mut off: usize = 0;" = (code fmt!"let mut off: usize = 0").append (.leaf (.op 59) .nil) := by
    decide +kernel
  have h1 : code fmt!"off = write_offsets(off, &framing_offsets, f)?; Ok(off)" =
      (code fmt!"off = write_offsets(off, &framing_offsets, f)?").append (.leaf (.op 59) (code fmt!"Ok(off)")) := by
    decide +kernel
  have hi : items (nfSerF nfo cs) = ⟨code fmt!"let mut off: usize = 0", .semi⟩ ::
      ⟨(code fmt!"let mut framing_offsets :").append (.grp 91 ((code fmt!"usize;").append (numF nfo))
        (.leaf (.op 61) (.grp 91 ((code fmt!"0;").append (numF nfo)) .nil))), .semi⟩ ::
      (cs.map (fun x => ⟨cmdF x, .semi⟩) ++ [⟨code fmt!"off = write_offsets(off, &framing_offsets, f)?", .semi⟩,
          ⟨code fmt!"Ok(off)", .eof⟩]) := by
    unfold nfSerF
    rw [h0, forest_append_assoc, Forest.append, Forest.append, items_semi (by decide +kernel)]
    have h2 := items_semi (g := (code fmt!"let mut framing_offsets :").append
      (.grp 91 ((code fmt!"usize;").append (numF nfo)) (.leaf (.op 61) (.grp 91 ((code fmt!"0;").append (numF nfo))
      .nil)))) (flat_append (by decide +kernel) rfl) ((cmdsF cs).append
        (code fmt!"off = write_offsets(off, &framing_offsets, f)?; Ok(off)"))
    rw [forest_append_assoc] at h2
    simp only [Forest.append] at h2
    rw [h2, items_cmds, h1, items_semi (by decide +kernel)]
    have h3 : items (code fmt!"Ok(off)") = [⟨code fmt!"Ok(off)", .eof⟩] := by decide +kernel
    rw [h3]
  have hf : readFrames ⟨(code fmt!"let mut framing_offsets :").append (.grp 91 ((code fmt!"usize;").append (numF nfo))
        (.leaf (.op 61) (.grp 91 ((code fmt!"0;").append (numF nfo)) .nil))), .semi⟩ = some nfo := by
    unfold readFrames
    simp only [strip_append, and_self, if_true, Option.bind_some, numeral_numF]
  unfold readVarSer
  rw [hi]
  simp only [if_true, hf]
  rw [readCmds_eq cs (by decide +kernel)]

/-! ### Structures of fixed size -/

theorem pk_structs : structs (pkF ty children pk) =
    [([code fmt!"derive(Default,Copy,Clone)", code fmt!"repr(C)"], structName ty,
      eachF (fieldsF 0 pk.fields ((children.zip (generateTable children)).map (·.1))))] := by
  have h := structs_tpl (pk_low ty children pk) (pk_clean ty children pk) packed_ready
    [([[.lit fmt!"derive(Default,Copy,Clone)"], [.lit fmt!"repr(C)"]], [.nm (ph! "escaped")],
      [.ph (ph! "fields"), .lit fmt!" "])] (by decide +kernel)
  simp only [List.map_cons, List.map_nil] at h
  rw [pk_code ty children pk (cs := [.lit fmt!"derive(Default,Copy,Clone)"]) (by decide +kernel),
    pk_code ty children pk (cs := [.lit fmt!"repr(C)"]) (by decide +kernel),
    chunks_fill (pk_low ty children pk) _ (by decide)] at h
  rw [pk_d_fields] at h
  exact h

theorem pk_impls : (impls (pkF ty children pk)).map (·.1) =
    [code (fmt!"unsafe impl ::gvariant::casting::AllBitPatternsValid for " ++ structName ty),
     code (fmt!"unsafe impl ::gvariant::casting::AlignOf for " ++ structName ty),
     code (fmt!"impl " ++ structName ty),
     code (fmt!"impl<'a> ::gvariant::Structure<'a> for " ++ structName ty),
     code (fmt!"impl ::gvariant::Cast for " ++ structName ty),
     code (fmt!"impl PartialEq for " ++ structName ty),
     fromHead (structName ty) (tupleF children),
     serHead (structName ty) (serTypesF children) (serTypes2F children),
     code (fmt!"impl std::fmt::Debug for " ++ structName ty)] := by
  have h := impls_tpl (pk_low ty children pk) (pk_clean ty children pk) packed_ready
    [[.lit fmt!"unsafe impl ::gvariant::casting::AllBitPatternsValid for ", .nm (ph! "escaped")],
     [.lit fmt!"unsafe impl ::gvariant::casting::AlignOf for ", .nm (ph! "escaped")],
     [.lit fmt!"impl ", .nm (ph! "escaped")],
     [.lit fmt!"impl<'a> ::gvariant::Structure<'a> for ", .nm (ph! "escaped")],
     [.lit fmt!"impl ::gvariant::Cast for ", .nm (ph! "escaped")],
     [.lit fmt!"impl PartialEq for ", .nm (ph! "escaped")],
     [.lit fmt!"impl<'a> From<&'a ", .nm (ph! "escaped"), .lit fmt!"> for (", .ph (ph! "tuple"), .lit fmt!")"],
     [.lit fmt!"impl<", .ph (ph! "serialize_types"), .lit fmt!"> ::gvariant::SerializeTo<", .nm (ph! "escaped"),
       .lit fmt!"> for &(", .ph (ph! "serialize_types2"), .lit fmt!")"],
     [.lit fmt!"impl std::fmt::Debug for ", .nm (ph! "escaped")]] (by decide +kernel)
  simp only [List.map_cons, List.map_nil] at h
  rw [pk_code ty children pk (cs := [.lit fmt!"unsafe impl ::gvariant::casting::AllBitPatternsValid for ",
      .nm (ph! "escaped")]) (by decide +kernel),
    pk_code ty children pk (cs := [.lit fmt!"unsafe impl ::gvariant::casting::AlignOf for ", .nm (ph! "escaped")])
      (by decide +kernel),
    pk_code ty children pk (cs := [.lit fmt!"impl ", .nm (ph! "escaped")]) (by decide +kernel),
    pk_code ty children pk (cs := [.lit fmt!"impl<'a> ::gvariant::Structure<'a> for ", .nm (ph! "escaped")])
      (by decide +kernel),
    pk_code ty children pk (cs := [.lit fmt!"impl ::gvariant::Cast for ", .nm (ph! "escaped")]) (by decide +kernel),
    pk_code ty children pk (cs := [.lit fmt!"impl PartialEq for ", .nm (ph! "escaped")]) (by decide +kernel),
    pk_code ty children pk (cs := [.lit fmt!"impl std::fmt::Debug for ", .nm (ph! "escaped")]) (by decide +kernel), pk_d_from, pk_d_ser] at h
  exact h

theorem pk_new : fns fmt!"new" (pkF ty children pk) =
    [(code (fmt!"impl " ++ structName ty), newHead (structName ty) (paramsF children),
      .leaf (.word (structName ty)) (.grp 123 (eachF (initsF 0 pk.fields)) .nil))] := by
  have h := pk_fn ty children pk (name := fmt!"new")
    [([.lit fmt!"impl ", .nm (ph! "escaped")],
      [.lit fmt!"pub const fn new(", .ph (ph! "field_arglist"), .lit fmt!") -> ", .nm (ph! "escaped"), .lit fmt!" "],
      [.nm (ph! "escaped"), .lit fmt!" {{ ", .ph (ph! "set_fields"), .lit fmt!" }}"])] (by decide +kernel)
  simp only [List.map_cons, List.map_nil] at h
  rw [pk_code ty children pk (cs := [.lit fmt!"impl ", .nm (ph! "escaped")]) (by decide +kernel)] at h
  rw [pk_d_new, pk_d_inits] at h
  exact h

theorem pk_to_tuple : fns fmt!"to_tuple" (pkF ty children pk) =
    [(code (fmt!"impl<'a> ::gvariant::Structure<'a> for " ++ structName ty),
      (code fmt!"fn to_tuple(&'a self) ->").append (.grp 40 (tupleF children) .nil),
      .grp 40 (refsF children) .nil)] := by
  have h := pk_fn ty children pk (name := fmt!"to_tuple")
    [([.lit fmt!"impl<'a> ::gvariant::Structure<'a> for ", .nm (ph! "escaped")],
      [.lit fmt!"fn to_tuple(&'a self) -> (", .ph (ph! "tuple"), .lit fmt!")"],
      [.lit fmt!"(", .ph (ph! "get_fields"), .lit fmt!")"])] (by decide +kernel)
  simp only [List.map_cons, List.map_nil] at h
  rw [pk_code ty children pk (by decide +kernel), pk_d_toTuple, pk_d_refs] at h
  exact h

theorem pk_refTuple : typeDefs fmt!"RefTuple" (pkF ty children pk) =
    [(code (fmt!"impl<'a> ::gvariant::Structure<'a> for " ++ structName ty), .grp 40 (tupleF children) .nil)] := by
  have h := pk_type ty children pk (name := fmt!"RefTuple")
    [([.lit fmt!"impl<'a> ::gvariant::Structure<'a> for ", .nm (ph! "escaped")],
      [.lit fmt!"(", .ph (ph! "tuple"), .lit fmt!")"])] (by decide +kernel)
  simp only [List.map_cons, List.map_nil] at h
  rw [pk_code ty children pk (by decide +kernel), pk_d_tuple] at h
  exact h

theorem pk_from : fns fmt!"from" (pkF ty children pk) =
    [(fromHead (structName ty) (tupleF children),
      code (fmt!"fn from(value : &'a " ++ (structName ty ++ fmt!") -> Self")), code fmt!"value.to_tuple()")] := by
  have h := pk_fn ty children pk (name := fmt!"from")
    [([.lit fmt!"impl<'a> From<&'a ", .nm (ph! "escaped"), .lit fmt!"> for (", .ph (ph! "tuple"), .lit fmt!")"],
      [.lit fmt!"fn from(value : &'a ", .nm (ph! "escaped"), .lit fmt!") -> Self"],
      [.lit fmt!"value.to_tuple()"])] (by decide +kernel)
  simp only [List.map_cons, List.map_nil] at h
  rw [pk_code ty children pk (cs := [.lit fmt!"fn from(value : &'a ", .nm (ph! "escaped"), .lit fmt!") -> Self"])
      (by decide +kernel), pk_code ty children pk (cs := [.lit fmt!"value.to_tuple()"]) (by decide +kernel), pk_d_from] at h
  exact h

theorem pk_eq : fns fmt!"eq" (pkF ty children pk) =
    [(code (fmt!"impl PartialEq for " ++ structName ty), code fmt!"fn eq(&self, other: &Self) -> bool",
      eqsF children)] := by
  have h := pk_fn ty children pk (name := fmt!"eq")
    [([.lit fmt!"impl PartialEq for ", .nm (ph! "escaped")],
      [.lit fmt!"fn eq(&self, other: &Self) -> bool"], [.ph (ph! "eq"), .lit fmt!" "])] (by decide +kernel)
  simp only [List.map_cons, List.map_nil] at h
  rw [pk_code ty children pk (by decide +kernel), pk_code ty children pk (cs := [.lit fmt!"fn eq(&self, other: &Self) -> bool"])
    (by decide +kernel), pk_d_eq] at h
  exact h

theorem pk_default_ref : fns fmt!"default_ref" (pkF ty children pk) =
    [(code (fmt!"impl ::gvariant::Cast for " ++ structName ty), code fmt!"fn default_ref() -> &'static Self",
      pkDefaultF (structName ty) (defaultsF children))] := by
  have h := pk_fn ty children pk (name := fmt!"default_ref")
    [([.lit fmt!"impl ::gvariant::Cast for ", .nm (ph! "escaped")],
      [.lit fmt!"fn default_ref() -> &'static Self"],
      [.lit fmt!"static s : ", .nm (ph! "escaped"), .lit fmt!" = ", .nm (ph! "escaped"), .lit fmt!"::new(",
        .ph (ph! "defaults"), .lit fmt!");
                &s"])] (by decide +kernel)
  simp only [List.map_cons, List.map_nil] at h
  rw [pk_code ty children pk (by decide +kernel), pk_code ty children pk (cs := [.lit fmt!"fn default_ref() -> &'static Self"])
    (by decide +kernel), pk_d_default] at h
  exact h

theorem pk_serialize : fns fmt!"serialize" (pkF ty children pk) =
    [(serHead (structName ty) (serTypesF children) (serTypes2F children),
      code fmt!"fn serialize(self, f: &mut impl std::io::Write) -> std::io::Result<usize>",
      pkSerF (structName ty) pk.cmds)] := by
  have h := pk_fn ty children pk (name := fmt!"serialize")
    [([.lit fmt!"impl<", .ph (ph! "serialize_types"), .lit fmt!"> ::gvariant::SerializeTo<", .nm (ph! "escaped"),
       .lit fmt!"> for &(", .ph (ph! "serialize_types2"), .lit fmt!")"],
      [.lit fmt!"fn serialize(self, f: &mut impl std::io::Write) -> std::io::Result<usize>"],
      [.ph (ph! "serialize_cmds"), .lit fmt!"
                Ok(core::mem::size_of::<", .nm (ph! "escaped"),
        .lit fmt!">())"])] (by decide +kernel)
  simp only [List.map_cons, List.map_nil] at h
  rw [pk_code ty children pk (cs := [.lit fmt!"fn serialize(self, f: &mut impl std::io::Write) -> std::io::Result<usize>"])
      (by decide +kernel), pk_d_ser, pk_d_body] at h
  exact h

end
end GV.Props
