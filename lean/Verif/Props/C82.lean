import Verif.Props.C81
/-
C82: the definition of a structure of variable size, read off the text.
-/
namespace GV.Props
open GV Spec

theorem nf_def {d : StructDef} (h : DefOk d) (hs : Spec.size d.ty = none) :
    ∃ p, d.body = .nonFixed p ∧ writeNonFixedSizeStructure d.children = .ok p ∧
      parseText d.text = some (nfF d.ty d.children p) := by
  obtain ⟨ty, name, children, body⟩ := d
  obtain ⟨_, hn, _, hg⟩ := h
  simp only at hn hs hg
  subst hn
  simp only [generateTuple, sizeOf_eq, hs, Option.isSome_none, Bool.false_eq_true, if_false] at hg
  obtain ⟨p, h1, h2⟩ := Res.bind_eq_ok.1 hg
  cases h2
  exact ⟨p, rfl, h1, def_parse _⟩

theorem rowCalls_elem (len nfo n) (ts : List Ty) (rows : List Row) (h : ts.length = rows.length) :
    (rowCalls len nfo n (ts.zip rows)).map Call.elem = ts.map fun c => (markerType c).trees := by
  induction ts generalizing n rows with
  | nil => rfl
  | cons t ts ih =>
    cases rows with
    | nil => cases h
    | cons r rows => simp only [List.zip_cons_cons, rowCalls, List.map_cons, ih (n + 1) rows (by simpa using h)]

theorem rowCalls_size (len nfo n) (ts : List Ty) (rows : List Row) (h : ts.length = rows.length) :
    (rowCalls len nfo n (ts.zip rows)).map Call.childSize = ts.map Spec.size := by
  induction ts generalizing n rows with
  | nil => rfl
  | cons t ts ih =>
    cases rows with
    | nil => cases h
    | cons r rows => simp only [List.zip_cons_cons, rowCalls, List.map_cons, ih (n + 1) rows (by simpa using h), sizeOf_eq]

theorem rowCalls_row (len nfo n) (ts : List Ty) (rows : List Row) (h : ts.length = rows.length) :
    (rowCalls len nfo n (ts.zip rows)).map Call.row = rows := by
  induction ts generalizing n rows with
  | nil => cases rows with
    | nil => rfl
    | cons r rows => cases h
  | cons t ts ih =>
    cases rows with
    | nil => cases h
    | cons r rows => simp only [List.zip_cons_cons, rowCalls, List.map_cons, ih (n + 1) rows (by simpa using h), Call.row]

theorem memberRefs_calls (c : Cfg) (s : Slice) (nfo : Nat) (ts : List Ty) (rows : List Row) (n : Nat)
    (h : ts.length = rows.length) (len : Nat) (hn : len = n + ts.length) :
    memberRefs c s nfo ts rows =
      Res.traverse (fun q : Ty × Call => getChildElem c q.1 s q.2.row q.2.lastChild q.2.nFrameOffsets)
        (ts.zip (rowCalls len nfo n (ts.zip rows))) := by
  induction ts generalizing n rows with
  | nil => rfl
  | cons t ts ih =>
    cases rows with
    | nil => cases h
    | cons r rows =>
      simp only [List.zip_cons_cons, rowCalls, memberRefs, Res.traverse, Call.row]
      rw [ih rows (n + 1) (by simpa using h) (by simp only [List.length_cons] at hn; omega)]
      have : ts.isEmpty = (n == len - 1) := by
        cases ts with
        | nil => simp at hn ⊢; omega
        | cons t' ts => simp at hn ⊢; omega
      rw [this]
      rfl

section
variable (t : Ty) (defs : List StructDef) (h : generateTypes t = .ok defs) (d : StructDef) (hd : d ∈ defs)
include h hd

/-- C82: a structure of variable size is `repr(transparent)` around a slice with the alignment of its type, which
    is also what `AlignOf` says. -/
theorem c82_struct (hs : Spec.size d.ty = none) : ∃ F, parseText d.text = some F ∧
    structs F = [([code fmt!"repr(transparent)"], d.name,
      code (fmt!"data: AlignedSlice<aligned_bytes::A" ++ (decText (Spec.align d.ty) ++ fmt!">,")))] ∧
    typeDefs fmt!"AlignOf" F = [(code (fmt!"unsafe impl ::gvariant::casting::AlignOf for " ++ d.name),
      code (fmt!"aligned_bytes::A" ++ decText (Spec.align d.ty)))] := by
  have hok := generateTypes_defOk t defs h d hd
  obtain ⟨p, _, _, hF⟩ := nf_def hok hs
  refine ⟨_, hF, ?_, ?_⟩
  · rw [nf_structs, hok.2.1, alignOf_eq]
  · rw [nf_alignOf, hok.2.1, alignOf_eq]

/-- C82: the pointer casts are between exactly this slice type and this structure. -/
theorem c82_casts (hs : Spec.size d.ty = none) : ∃ F, parseText d.text = some F ∧
    fns fmt!"from_aligned_slice_mut" F = [(code (fmt!"impl " ++ d.name),
      code fmt!"fn from_aligned_slice_mut(slice: &mut AlignedSlice<<Self as AlignOf>::AlignOf>) -> &mut Self",
      code (fmt!"unsafe {{&mut *(slice as *mut AlignedSlice<aligned_bytes::A" ++ (decText (Spec.align d.ty) ++
        (fmt!"> as *mut " ++ (d.name ++ fmt!")}}")))))] ∧
    fns fmt!"default_ref" F = [(code (fmt!"impl ::gvariant::Cast for " ++ d.name),
      code fmt!"fn default_ref() -> &'static Self",
      code (fmt!"let d = empty_aligned(); unsafe {{&*(d as *const AlignedSlice<aligned_bytes::A" ++
        (decText (Spec.align d.ty) ++ (fmt!"> as *const " ++ (d.name ++ fmt!")}}")))))] ∧
    fns fmt!"try_from_aligned_slice" F = [(code (fmt!"impl ::gvariant::Cast for " ++ d.name),
      code fmt!"fn try_from_aligned_slice(slice:&AlignedSlice<Self::AlignOf>) -> Result<&Self, ::gvariant::casting::WrongSize>",
      code (fmt!"Ok(unsafe {{&*(slice as *const AlignedSlice<aligned_bytes::A" ++
        (decText (Spec.align d.ty) ++ (fmt!"> as *const " ++ (d.name ++ fmt!")}})")))))] ∧
    fns fmt!"try_from_aligned_slice_mut" F = [(code (fmt!"impl ::gvariant::Cast for " ++ d.name),
      code fmt!"fn try_from_aligned_slice_mut(slice:&mut AlignedSlice<Self::AlignOf>) -> Result<&mut Self, ::gvariant::casting::WrongSize>",
      code fmt!"Ok(Self::from_aligned_slice_mut(slice))")] := by
  have hok := generateTypes_defOk t defs h d hd
  obtain ⟨p, _, _, hF⟩ := nf_def hok hs
  refine ⟨_, hF, ?_, ?_, ?_, ?_⟩
  · rw [nf_from_mut, hok.2.1, alignOf_eq]
  · rw [nf_default_ref, hok.2.1, alignOf_eq]
  · rw [nf_try_from, hok.2.1, alignOf_eq]
  · rw [nf_try_from_mut, hok.2.1]

/-- C82: what is implemented, in order; the tuple of references is that of the members' types, the tuple written
    has a parameter for each member that can be written as the member's type. -/
theorem c82_impls (hs : Spec.size d.ty = none) : ∃ F tup ps ts, parseText d.text = some F ∧
    (impls F).map (·.1) =
      [code (fmt!"impl " ++ d.name), code (fmt!"impl ToOwned for " ++ d.name),
       code (fmt!"impl ::gvariant::Cast for " ++ d.name),
       code (fmt!"unsafe impl ::gvariant::casting::AllBitPatternsValid for " ++ d.name),
       code (fmt!"unsafe impl ::gvariant::casting::AlignOf for " ++ d.name),
       code (fmt!"impl<'a> Structure<'a> for " ++ d.name),
       fromHead d.name tup, code (fmt!"impl PartialEq for " ++ d.name), serHead d.name ps ts,
       code (fmt!"impl std::fmt::Debug for " ++ d.name)] ∧
    tupleParts tup = some (d.children.map fun c => (code fmt!"&'a").append (markerType c).trees) ∧
    atCommas ps = d.children.mapIdx (fun n c => .leaf (.word (fmt!"T" ++ decText n))
      ((code fmt!": ::gvariant::SerializeTo<").append ((markerType c).trees.append (code fmt!"> + Copy")))) ∧
    tupleParts ts = some (d.children.mapIdx fun n _ => .leaf (.word (fmt!"T" ++ decText n)) .nil) ∧
    typeDefs fmt!"RefTuple" F = [(code (fmt!"impl<'a> Structure<'a> for " ++ d.name), .grp 40 tup .nil)] ∧
    fns fmt!"from" F = [(fromHead d.name tup, code (fmt!"fn from(value : &'a " ++ (d.name ++ fmt!") -> Self")),
      code fmt!"value.to_tuple()")] := by
  have hok := generateTypes_defOk t defs h d hd
  obtain ⟨p, _, _, hF⟩ := nf_def hok hs
  refine ⟨_, tupleF d.children, serTypesF d.children, serTypes2F d.children, hF, ?_, tupleParts_tuple _, atCommas_serTypes _,
    tupleParts_serTypes2 _, ?_, ?_⟩
  · rw [nf_impls, hok.2.1]
  · rw [nf_refTuple, hok.2.1]
  · rw [nf_from, hok.2.1]

/-- C82: `to_tuple` returns one `get_child_elem` per member: its type, the size of its type, the row the table has
    for it, whether it is last.  What the model says of `to_tuple` is what these calls do. -/
theorem c82_to_tuple (hs : Spec.size d.ty = none) : ∃ F tup body ks, parseText d.text = some F ∧
    fns fmt!"to_tuple" F = [(code (fmt!"impl<'a> Structure<'a> for " ++ d.name),
      (code fmt!"fn to_tuple(&'a self) ->").append (.grp 40 tup .nil), body)] ∧
    tupleParts tup = some (d.children.map fun c => (code fmt!"&'a").append (markerType c).trees) ∧
    readCalls body = some ks ∧
    ks.map Call.elem = d.children.map (fun c => (markerType c).trees) ∧
    ks.map Call.childSize = d.children.map Spec.size ∧
    ks.map Call.row = generateTable d.children ∧
    ∀ (c : Cfg) (s : Slice), tupRefs c d.ty d.children s =
      Res.traverse (fun q => getChildElem c q.1 s q.2.row q.2.lastChild q.2.nFrameOffsets) (d.children.zip ks) := by
  have hok := generateTypes_defOk t defs h d hd
  obtain ⟨p, _, hp, hF⟩ := nf_def hok hs
  have hr : p.rows = generateTable d.children := by
    simp only [writeNonFixedSizeStructure] at hp
    obtain ⟨cmds, _, h2⟩ := Res.bind_eq_ok.1 hp
    cases h2; rfl
  have hl : d.children.length = p.rows.length := by rw [hr, generateTable_length]
  refine ⟨_, tupleF d.children, .grp 40 (rowsF d.children.length p.nFrameOffsets 0 (d.children.zip p.rows)) .nil,
    rowCalls d.children.length p.nFrameOffsets 0 (d.children.zip p.rows), hF, ?_, tupleParts_tuple _,
    readCalls_rows _ _ _, ?_, ?_, ?_, ?_⟩
  · rw [nf_to_tuple, hok.2.1]
  · exact rowCalls_elem _ _ _ _ _ hl
  · exact rowCalls_size _ _ _ _ _ hl
  · rw [rowCalls_row _ _ _ _ _ hl, hr]
  · intro c s
    unfold tupRefs
    rw [sizeOf_eq, hs]
    simp only [hp, Res.bind_ok]
    exact memberRefs_calls c s _ _ _ 0 hl _ (by simp)

/-- C82: `serialize` sets up the framing offsets, runs statements that are the ones the model runs, and writes the
    framing offsets. -/
theorem c82_serialize (hs : Spec.size d.ty = none) : ∃ F hd' body n cs, parseText d.text = some F ∧
    fns fmt!"serialize" F = [(hd', code fmt!"fn serialize(self, f: &mut impl std::io::Write) -> std::io::Result<usize>",
      body)] ∧
    readVarSer body = some (n, cs) ∧
    ∀ {σ} (w : Writer σ) (c : Cfg) (ms : List (WM σ Nat)), serStruct w c d.ty d.children ms =
      (runCmds w c ms cs 0 (List.replicate n 0) >>= fun r => writeOffsets w c r.1 r.2) := by
  have hok := generateTypes_defOk t defs h d hd
  obtain ⟨p, hb, hp, hF⟩ := nf_def hok hs
  refine ⟨_, _, _, _, _, hF, nf_serialize _ _ _, readVarSer_eq _ _, ?_⟩
  intro σ w c ms
  unfold serStruct
  rw [hok.2.2.2]
  show (match d.body with
    | .packed p => _
    | .nonFixed p => _) = _
  rw [hb]

/-- C82: comparing and printing go by `to_tuple`, and an owned copy is made of the bytes. -/
theorem c82_rest (hs : Spec.size d.ty = none) : ∃ F, parseText d.text = some F ∧
    fns fmt!"eq" F = [(code (fmt!"impl PartialEq for " ++ d.name), code fmt!"fn eq(&self, other: &Self) -> bool",
      code fmt!"self.to_tuple() == other.to_tuple()")] ∧
    fns fmt!"fmt" F = [(code (fmt!"impl std::fmt::Debug for " ++ d.name),
      code fmt!"fn fmt(&self, f: &mut std::fmt::Formatter<'_>) -> std::fmt::Result",
      code fmt!"std::fmt::Debug::fmt(&self.to_tuple(), f)")] ∧
    fns fmt!"to_owned" F = [(code (fmt!"impl ToOwned for " ++ d.name), code fmt!"fn to_owned(&self) -> Self::Owned",
      code fmt!"Owned::from_bytes(&*self.data)")] ∧
    typeDefs fmt!"Owned" F = [(code (fmt!"impl ToOwned for " ++ d.name), code fmt!"Owned<Self>")] := by
  have hok := generateTypes_defOk t defs h d hd
  obtain ⟨p, _, _, hF⟩ := nf_def hok hs
  refine ⟨_, hF, ?_, ?_, ?_, ?_⟩
  · rw [nf_eq, hok.2.1]
  · rw [nf_fmt, hok.2.1]
  · rw [nf_to_owned, hok.2.1]
  · rw [nf_owned, hok.2.1]

end

/-- `(sauy)` -/
def sample82 : Ty := .tuple [.S, .A .U, .Y]

/-- The definition made for a structure type that can be expanded. -/
def defOf (t : Ty) : StructDef :=
  match generateTypes t with
  | .ok ds => ds.getLast?.getD ⟨.Y, [], [], .packed ⟨[], []⟩⟩
  | .fail _ => ⟨.Y, [], [], .packed ⟨[], []⟩⟩

example : generateTypes sample82 = .ok [defOf sample82] ∧ Spec.size (defOf sample82).ty = none := by decide +kernel

set_option maxRecDepth 100000 in
/-- What is read off the text for `(sauy)`: the three calls, and the statements that write the members. -/
example : (fns fmt!"to_tuple" (code (defOf sample82).text)).map (fun f => readCalls f.2.2) =
    [some [⟨code fmt!"Str", 1, -1, 0, 0, none, false, 2⟩, ⟨code fmt!"[u32]", 4, 0, 0, 0, none, false, 2⟩,
      ⟨code fmt!"u8", 1, 1, 0, 0, some 1, true, 2⟩]] ∧
    (fns fmt!"serialize" (code (defOf sample82).text)).map (fun f => readVarSer f.2.2) =
      [some (2, [.childOff 0, .setFrame 1, .writePadding 4, .childOff 1, .setFrame 0, .child 2, .addOff 1])] := by
  decide +kernel

end GV.Props
