import Verif.Proofs.EmitNotes
import Verif.Props.C81
/-
C97: what the comments in the text that `gv!` emits say.
-/
namespace GV.Props
open GV Spec

/-- The comment and the field of a member: the type, the first byte and the byte after the last one. -/
def fieldNote (n : Nat) (t : Ty) (start stop : Nat) : Bytes :=
  fmt!"    // " ++ t.show ++ fmt!" bytes " ++ decText start ++ fmt!".." ++ decText stop ++
    fmt!"\n    pub field_" ++ decText n ++ fmt!" : " ++ markerText t ++ fmt!",\n"

/-- The comment and the beginning of the expression for a member. -/
def callNote (t : Ty) : Bytes :=
  fmt!"\n            // " ++ t.show ++ fmt!"\n            get_child_elem::<" ++ markerText t ++ fmt!", "

theorem text_infix {t c : Ty} {text : Bytes} (h : emitted t = .ok text) (hc : Component c t) (hs : isStruct c = true) :
    ∃ d : StructDef, d.ty = c ∧ DefOk d ∧ d.text <:+: text := by
  obtain ⟨defs, h1, rfl⟩ := emitted_ok h
  obtain ⟨d, hd, h2, h3⟩ := def_of_comp h1 hc hs
  refine ⟨d, h2, h3, ?_⟩
  obtain ⟨l, r, rfl⟩ := List.append_of_mem hd
  exact ⟨l.flatMap StructDef.text, r.flatMap StructDef.text, by simp⟩

/-- In the structure for a type of fixed size the comment before each field names the type of the member, where it
    starts in the serialized form, and where it ends. -/
theorem c97_fixed (t c : Ty) (text : Bytes) (h : emitted t = .ok text) (hc : Component c t) (hs : isStruct c = true)
    (hf : (Spec.size c).isSome) (n start size : Nat) (m : Ty) (hm : (members c)[n]? = some m)
    (hst : (startsFrom 0 (members c))[n]? = some start) (hsz : Spec.size m = some size) :
    fieldNote n m start (start + size) <:+: text := by
  obtain ⟨d, rfl, ⟨_, _, hch, hg⟩, hin⟩ := text_infix h hc hs
  obtain ⟨sz, hf⟩ := Option.isSome_iff_exists.1 hf
  rw [hch] at hg
  obtain ⟨p, hp, hd⟩ := generateTuple_packed hf hg
  refine List.IsInfix.trans ?_ hin
  have hgv : Spec.size d.ty = Spec.size (.tuple (members d.ty)) := by
    cases hty : d.ty <;> simp only [hty, isStruct, Bool.false_eq_true] at hs
    · rfl
    · exact size_dict_eq _ _
  obtain ⟨hfs, _⟩ := writePackedStruct_ok hgv hf hp
  have hnc := (writePackedStruct_isOk hgv hf).1 ⟨p, hp⟩
  obtain ⟨e, _, hall, _⟩ := size_tuple_members (hgv ▸ hf)
  have hlen : (generateTable (members d.ty)).length = (members d.ty).length :=
    (tableLoop_aligned (members d.ty) ⟨-1, 0, 1, 0⟩ (Or.inl rfl)).1
  have hnl : n < (generateTable (members d.ty)).length := by
    rw [hlen]; exact (List.getElem?_eq_some_iff.1 hm).1
  have hr := List.getElem?_eq_getElem hnl
  generalize (generateTable (members d.ty))[n] = r at hr
  obtain ⟨hr1, hr2⟩ := tableLoop_fixed_start (members d.ty) (-1) 0 1 0 (Or.inl rfl) hall n r hr
  rw [show Spec.roundUp 0 1 + 0 = 0 from rfl, hst, Option.some.injEq] at hr1
  have hor : align r.a r.b ||| r.c = start := by
    rw [hr1, ← align_eq hr2]
    exact or_eq_add (hnc r (List.mem_of_getElem? hr))
  have hn := fieldsText_notes (members d.ty) 0 0 0 (if tailPad (members d.ty) sz > 0 then [.pad (tailPad (members d.ty) sz)] else [])
    (generateTable (members d.ty)) hlen n m r hm hr
  rw [← hfs, hor, sizeOf_eq, hsz, Nat.zero_add] at hn
  rw [hd]
  simp only [StructDef.text, packedText]
  refine List.IsInfix.trans hn ?_
  rw [List.append_assoc, List.append_assoc]
  exact List.IsInfix.trans (List.prefix_append _ _).isInfix (List.suffix_append _ _).isInfix

/-- In the structure for a type of variable size the comment before the expression for each member names the type
    of the member. -/
theorem c97_variable (t c : Ty) (text : Bytes) (h : emitted t = .ok text) (hc : Component c t) (hs : isStruct c = true)
    (hf : Spec.size c = none) (m : Ty) (hm : m ∈ members c) : callNote m <:+: text := by
  obtain ⟨d, rfl, ⟨_, _, hch, hg⟩, hin⟩ := text_infix h hc hs
  refine List.IsInfix.trans ?_ hin
  rw [hch] at hg
  unfold generateTuple at hg
  rw [sizeOf_eq, hf] at hg
  simp only [Option.isSome_none, Bool.false_eq_true, if_false] at hg
  obtain ⟨p, hp, hg⟩ := Res.bind_eq_ok.1 hg
  simp only [Res.pure_eq, Res.ok.injEq] at hg
  obtain ⟨j, hj⟩ := List.getElem?_of_mem hm
  have hlen : p.rows.length = (members d.ty).length := by
    obtain ⟨cmds, _, hp⟩ := Res.bind_eq_ok.1 hp
    cases hp
    exact (tableLoop_aligned (members d.ty) ⟨-1, 0, 1, 0⟩ (Or.inl rfl)).1
  rw [← hg]
  simp only [StructDef.text, nonFixedText]
  refine List.IsInfix.trans (rowsText_notes (members d.ty).length p.nFrameOffsets _ 0 _ hlen j m hj) ?_
  rw [List.append_assoc, List.append_assoc]
  exact List.IsInfix.trans (List.prefix_append _ _).isInfix (List.suffix_append _ _).isInfix

/-- For `a((yu)s)`. -/
example : ∃ text, emitted (.A (.tuple [.tuple [.Y, .U], .S])) = .ok text ∧
    fmt!"    // u bytes 4..8\n    pub field_1 : u32,\n" <:+: text ∧
    fmt!"\n            // (yu)\n            get_child_elem::<StructureCyu7, " <:+: text := by
  obtain ⟨text, h⟩ : ∃ text, emitted (.A (.tuple [.tuple [.Y, .U], .S])) = .ok text := ⟨_, rfl⟩
  exact ⟨text, h, c97_fixed _ (.tuple [.Y, .U]) text h (.array (.member (.refl _) (by simp))) rfl rfl 1 4 4 .U rfl rfl rfl,
    c97_variable _ (.tuple [.tuple [.Y, .U], .S]) text h (.array (.refl _)) rfl rfl (.tuple [.Y, .U]) (by simp [members])⟩

end GV.Props
