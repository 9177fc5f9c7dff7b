import Verif.Props.C82
import Verif.Proofs.Alike
/-
C83: the definition of a structure of fixed size, read off the text.
-/
namespace GV.Props
open GV Spec

/-- What the generator decided about a declared field. -/
def RField.kind : RField → Field
  | .pad _ n => .pad n
  | .mem n _ => .mem n

/-- The types of the members among the declared fields. -/
def memTypes (fs : List RField) : List Forest := fs.filterMap fun | .mem _ ty => some ty | .pad _ _ => none

/-- The numbers in the names of the members among the declared fields. -/
def memNumbers (fs : List RField) : List Nat := fs.filterMap fun | .mem n _ => some n | .pad _ _ => none

/-- The numbers in the names of the padding among the declared fields. -/
def padNumbers (fs : List RField) : List Nat := fs.filterMap fun | .pad k _ => some k | .mem _ _ => none

/-- A value given to the field declared: zeros as many as declared, or the parameter of the same number. -/
def Fits : RInit → RField → Prop
  | .zeros k n, .pad k' n' => k = k' ∧ n = n'
  | .mem n m, .mem n' _ => n = n' ∧ m = n'
  | _, _ => False

theorem pk_def {d : StructDef} {n : Nat} (h : DefOk d) (hs : Spec.size d.ty = some n) :
    ∃ p, d.body = .packed p ∧ writePackedStruct d.ty d.children = .ok p ∧
      parseText d.text = some (pkF d.ty d.children p) := by
  obtain ⟨ty, name, children, body⟩ := d
  obtain ⟨_, hn, _, hg⟩ := h
  simp only at hn hs hg
  subst hn
  simp only [generateTuple, sizeOf_eq, hs, Option.isSome_some, if_true] at hg
  obtain ⟨p, h1, h2⟩ := Res.bind_eq_ok.1 hg
  cases h2
  exact ⟨p, rfl, h1, def_parse _⟩

theorem fieldsR_kind (k) (fs : List Field) (ms : List Ty) (h : memCount fs = ms.length) :
    (fieldsR k fs ms).map RField.kind = fs ∧ memTypes (fieldsR k fs ms) = ms.map (fun c => (markerType c).trees) ∧
    padNumbers (fieldsR k fs ms) = List.range' k (padNumbers (fieldsR k fs ms)).length ∧
    List.Forall₂ Fits (initsR k fs) (fieldsR k fs ms) := by
  induction fs generalizing k ms with
  | nil => cases ms with
    | nil => exact ⟨by simp [fieldsR], by simp [fieldsR, memTypes], by simp [fieldsR, padNumbers], by
        simp only [fieldsR, initsR]; exact .nil⟩
    | cons c ms => cases h
  | cons f fs ih =>
    cases f with
    | pad n =>
      obtain ⟨h1, h2, h3, h4⟩ := ih (k + 1) ms h
      refine ⟨?_, ?_, ?_, ?_⟩
      · simp only [fieldsR, List.map_cons, h1, RField.kind]
      · simpa [fieldsR, memTypes] using h2
      · have e : padNumbers (fieldsR k (.pad n :: fs) ms) = k :: padNumbers (fieldsR (k + 1) fs ms) := by
          simp only [fieldsR]; rfl
        rw [e, List.length_cons, List.range'_succ, ← h3]
      · simp only [fieldsR, initsR]; exact .cons ⟨rfl, rfl⟩ h4
    | mem n => cases ms with
      | nil => cases h
      | cons c ms =>
        obtain ⟨h1, h2, h3, h4⟩ := ih k ms (by simpa [memCount] using h)
        refine ⟨?_, ?_, ?_, ?_⟩
        · simp only [fieldsR, List.map_cons, h1, RField.kind]
        · simpa [fieldsR, memTypes] using h2
        · simpa [fieldsR, padNumbers] using h3
        · simp only [fieldsR, initsR]; exact .cons ⟨rfl, rfl⟩ h4

theorem memNumbers_kind (fs : List RField) :
    memNumbers fs = (fs.map RField.kind).filterMap fun | .mem n => some n | .pad _ => none := by
  induction fs with
  | nil => rfl
  | cons f fs ih => cases f <;> simp_all [memNumbers, RField.kind]

theorem packedLoop_numbers (l : List (Ty × Row)) : ∀ (n e : Nat) (p : Packed) (e' : Nat), packedLoop n e l = .ok (p, e') →
    p.fields.filterMap (fun | .mem n => some n | .pad _ => none) = List.range' n l.length := by
  induction l with
  | nil => intro n e p e' h; cases h; rfl
  | cons x l ih =>
    intro n e p e' h
    obtain ⟨child, row⟩ := x
    simp only [packedLoop, Res.bind_eq_ok] at h
    obtain ⟨size, _, h⟩ := h
    split at h
    · cases h
    · obtain ⟨⟨out, e1⟩, h1, h⟩ := Res.bind_eq_ok.1 h
      have := ih _ _ _ _ h1
      simp only at h
      split at h <;> cases h <;> simp [this, List.range'_succ]

theorem writePacked_numbers {gv : Ty} {ts : List Ty} {p : Packed} (h : writePackedStruct gv ts = .ok p) :
    p.fields.filterMap (fun | .mem n => some n | .pad _ => none) = List.range ts.length := by
  simp only [writePackedStruct, Res.bind_eq_ok] at h
  obtain ⟨⟨out, e⟩, h1, size, _, h⟩ := h
  have h2 := packedLoop_numbers _ _ _ _ _ h1
  rw [List.length_zip, generateTable_length, Nat.min_self, ← List.range_eq_range'] at h2
  simp only at h
  split at h
  · cases h
  · split at h <;> cases h
    · simpa using h2
    · exact h2

theorem zip_table_fst (ts : List Ty) : (ts.zip (generateTable ts)).map (·.1) = ts := by
  have : (fun x : Ty × Row => x.1) = Prod.fst := rfl
  rw [this, List.map_fst_zip]
  rw [generateTable_length]
  exact Nat.le_refl _

section
variable (t : Ty) (defs : List StructDef) (h : generateTypes t = .ok defs) (d : StructDef) (hd : d ∈ defs)
include h hd

/-- C83: a structure of fixed size is a `repr(C)` structure.  Its fields are the members in order, each of its
    marker type, with padding where the generator decided it; no two fields share a name.  `new` takes the members
    in order, gives each field the parameter of the same name and fills padding with zeros. -/
theorem c83_struct (n : Nat) (hs : Spec.size d.ty = some n) : ∃ F B fs head body is p, parseText d.text = some F ∧
    writePackedStruct d.ty d.children = .ok p ∧
    structs F = [([code fmt!"derive(Default,Copy,Clone)", code fmt!"repr(C)"], d.name, B)] ∧
    allSome readField (atCommas B) = some fs ∧
    fs.map RField.kind = p.fields ∧
    memTypes fs = d.children.map (fun c => (markerType c).trees) ∧
    memNumbers fs = List.range d.children.length ∧
    (padNumbers fs).Nodup ∧
    fns fmt!"new" F = [(code (fmt!"impl " ++ d.name), head, body)] ∧
    readNew d.name head body = some (d.children.mapIdx (fun n c => (n, (markerType c).trees)), is) ∧
    List.Forall₂ Fits is fs := by
  have hok := generateTypes_defOk t defs h d hd
  obtain ⟨p, _, hp, hF⟩ := pk_def hok hs
  obtain ⟨h1, h2, h3, h4⟩ := fieldsR_kind 0 p.fields d.children (writePacked_mems hp)
  refine ⟨_, eachF (fieldsF 0 p.fields d.children), fieldsR 0 p.fields d.children, newHead (structName d.ty) (paramsF d.children),
    .leaf (.word (structName d.ty)) (.grp 123 (eachF (initsF 0 p.fields)) .nil), initsR 0 p.fields, p, hF, hp, ?_, ?_, h1, h2,
    ?_, ?_, ?_, ?_, h4⟩
  · rw [pk_structs, hok.2.1, zip_table_fst]
  · rw [atCommas_eachF (fieldsF_lone _ _ _), readField_all]
  · rw [memNumbers_kind, h1, writePacked_numbers hp]
  · rw [h3]; exact List.nodup_range'
  · rw [pk_new, hok.2.1]
  · rw [hok.2.1, readNew_eq]

/-- C83: `AlignOf` is the alignment of the type; slices are turned into references by the checked casts of the
    library. -/
theorem c83_casts (n : Nat) (hs : Spec.size d.ty = some n) : ∃ F, parseText d.text = some F ∧
    typeDefs fmt!"AlignOf" F = [(code (fmt!"unsafe impl ::gvariant::casting::AlignOf for " ++ d.name),
      code (fmt!"::gvariant::aligned_bytes::A" ++ decText (Spec.align d.ty)))] ∧
    fns fmt!"try_from_aligned_slice" F = [(code (fmt!"impl ::gvariant::Cast for " ++ d.name),
      code fmt!"fn try_from_aligned_slice(slice:&::gvariant::aligned_bytes::AlignedSlice<Self::AlignOf>) -> Result<&Self, ::gvariant::casting::WrongSize>",
      code fmt!"::gvariant::casting::try_cast_slice_to::<Self>(slice)")] ∧
    fns fmt!"try_from_aligned_slice_mut" F = [(code (fmt!"impl ::gvariant::Cast for " ++ d.name),
      code fmt!"fn try_from_aligned_slice_mut(slice:&mut ::gvariant::aligned_bytes::AlignedSlice<Self::AlignOf>) -> Result<&mut Self, ::gvariant::casting::WrongSize>",
      code fmt!"::gvariant::casting::try_cast_slice_to_mut::<Self>(slice)")] := by
  have hok := generateTypes_defOk t defs h d hd
  obtain ⟨p, _, hp, hF⟩ := pk_def hok hs
  refine ⟨_, hF, ?_, ?_, ?_⟩
  · rw [pk_alignOf, hok.2.1, alignOf_eq]
  · rw [pk_try_from, hok.2.1]
  · rw [pk_try_from_mut, hok.2.1]

/-- C83: what is implemented, in order, with the types of the members. -/
theorem c83_impls (n : Nat) (hs : Spec.size d.ty = some n) : ∃ F tup ps ts, parseText d.text = some F ∧
    (impls F).map (·.1) =
      [code (fmt!"unsafe impl ::gvariant::casting::AllBitPatternsValid for " ++ d.name),
       code (fmt!"unsafe impl ::gvariant::casting::AlignOf for " ++ d.name),
       code (fmt!"impl " ++ d.name), code (fmt!"impl<'a> ::gvariant::Structure<'a> for " ++ d.name),
       code (fmt!"impl ::gvariant::Cast for " ++ d.name), code (fmt!"impl PartialEq for " ++ d.name),
       fromHead d.name tup, serHead d.name ps ts, code (fmt!"impl std::fmt::Debug for " ++ d.name)] ∧
    tupleParts tup = some (d.children.map fun c => (code fmt!"&'a").append (markerType c).trees) ∧
    atCommas ps = d.children.mapIdx (fun n c => .leaf (.word (fmt!"T" ++ decText n))
      ((code fmt!": ::gvariant::SerializeTo<").append ((markerType c).trees.append (code fmt!"> + Copy")))) ∧
    tupleParts ts = some (d.children.mapIdx fun n _ => .leaf (.word (fmt!"T" ++ decText n)) .nil) ∧
    typeDefs fmt!"RefTuple" F = [(code (fmt!"impl<'a> ::gvariant::Structure<'a> for " ++ d.name), .grp 40 tup .nil)] ∧
    fns fmt!"from" F = [(fromHead d.name tup, code (fmt!"fn from(value : &'a " ++ (d.name ++ fmt!") -> Self")),
      code fmt!"value.to_tuple()")] := by
  have hok := generateTypes_defOk t defs h d hd
  obtain ⟨p, _, hp, hF⟩ := pk_def hok hs
  refine ⟨_, tupleF d.children, serTypesF d.children, serTypes2F d.children, hF, ?_, tupleParts_tuple _, atCommas_serTypes _,
    tupleParts_serTypes2 _, ?_, ?_⟩
  · rw [pk_impls, hok.2.1]
  · rw [pk_refTuple, hok.2.1]
  · rw [pk_from, hok.2.1]

/-- C83: `to_tuple` gives references to all members in order, `default_ref` gives `new` a zero for every parameter,
    `==` compares every member with the same member of the other, printing goes by `to_tuple`. -/
theorem c83_members (n : Nat) (hs : Spec.size d.ty = some n) : ∃ F tup b1 b2 b3, parseText d.text = some F ∧
    fns fmt!"to_tuple" F = [(code (fmt!"impl<'a> ::gvariant::Structure<'a> for " ++ d.name),
      (code fmt!"fn to_tuple(&'a self) ->").append (.grp 40 tup .nil), b1)] ∧
    tupleParts tup = some (d.children.map fun c => (code fmt!"&'a").append (markerType c).trees) ∧
    readRefs b1 = some (List.range d.children.length) ∧
    fns fmt!"default_ref" F = [(code (fmt!"impl ::gvariant::Cast for " ++ d.name),
      code fmt!"fn default_ref() -> &'static Self", b2)] ∧
    readDefault d.name b2 = some d.children.length ∧
    fns fmt!"eq" F = [(code (fmt!"impl PartialEq for " ++ d.name), code fmt!"fn eq(&self, other: &Self) -> bool", b3)] ∧
    readEq b3 = some ((List.range d.children.length).map fun n => (n, n)) ∧
    fns fmt!"fmt" F = [(code (fmt!"impl std::fmt::Debug for " ++ d.name),
      code fmt!"fn fmt(&self, f: &mut std::fmt::Formatter<'_>) -> std::fmt::Result",
      code fmt!"std::fmt::Debug::fmt(&self.to_tuple(), f)")] := by
  have hok := generateTypes_defOk t defs h d hd
  obtain ⟨p, _, hp, hF⟩ := pk_def hok hs
  refine ⟨_, tupleF d.children, .grp 40 (refsF d.children) .nil, pkDefaultF (structName d.ty) (defaultsF d.children),
    eqsF d.children, hF, ?_, tupleParts_tuple _, readRefs_eq _, ?_, ?_, ?_, readEq_eq _, ?_⟩
  · rw [pk_to_tuple, hok.2.1]
  · rw [pk_default_ref, hok.2.1]
  · rw [hok.2.1, readDefault_eq]
  · rw [pk_eq, hok.2.1]
  · rw [pk_fmt, hok.2.1]

/-- C83: the statements of `serialize` are the ones the model runs; what it returns is the size of the structure. -/
theorem c83_serialize (n : Nat) (hs : Spec.size d.ty = some n) : ∃ F hd' body cs, parseText d.text = some F ∧
    fns fmt!"serialize" F = [(hd', code fmt!"fn serialize(self, f: &mut impl std::io::Write) -> std::io::Result<usize>",
      body)] ∧
    readFixedSer d.name body = some cs ∧
    ∀ {σ} (w : Writer σ) (c : Cfg) (ms : List (WM σ Nat)), serStruct w c d.ty d.children ms =
      (runCmds w c ms cs 0 [] >>= fun _ => WM.lift (rustLayout d.ty) >>= fun l => pure l.1) := by
  have hok := generateTypes_defOk t defs h d hd
  obtain ⟨p, hb, hp, hF⟩ := pk_def hok hs
  refine ⟨_, _, _, p.cmds, hF, pk_serialize _ _ _, ?_, ?_⟩
  · rw [hok.2.1, readFixedSer_eq]
  · intro σ w c ms
    unfold serStruct
    rw [hok.2.2.2]
    show (match d.body with
      | .packed p => _
      | .nonFixed p => _) = _
    rw [hb]

end

/-- `(yut)` -/
def sample83 : Ty := .tuple [.Y, .U, .T]

example : generateTypes sample83 = .ok [defOf sample83] ∧ Spec.size (defOf sample83).ty = some 16 := by decide +kernel

set_option maxRecDepth 100000 in
example : (structs (code (defOf sample83).text)).map (fun s => allSome readField (atCommas s.2.2)) =
    [some [.mem 0 (code fmt!"u8"), .pad 0 3, .mem 1 (code fmt!"u32"), .mem 2 (code fmt!"u64")]] ∧
    (fns fmt!"serialize" (code (defOf sample83).text)).map (fun f => readFixedSer (defOf sample83).name f.2.2) =
      [some [.child 0, .zeros 3, .child 1, .child 2]] := by
  decide +kernel

end GV.Props
