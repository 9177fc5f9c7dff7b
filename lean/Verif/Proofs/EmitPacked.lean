import Verif.Proofs.EmitFields
/-
The lists in the text of a structure of fixed size are read as what they were written from.
-/
namespace GV.Props
open GV Spec

/-! ### Declared fields -/

/-- A line declaring padding. -/
def padF (k n : Nat) : Forest :=
  .leaf (.word (fmt!"_padding_" ++ decText k)) (.leaf (.op 58) (.grp 91 ((code fmt!"u8;").append (numF n)) .nil))

/-- A line declaring a member. -/
def memF (n : Nat) (child : Ty) : Forest :=
  .leaf (.word fmt!"pub") (.leaf (.word (fmt!"field_" ++ decText n)) (.leaf (.op 58) (markerType child).trees))

/-- The lines that declare the fields. -/
def fieldsF : Nat → List Field → List Ty → List Forest
  | k, .pad n :: fs, ms => padF k n :: fieldsF (k + 1) fs ms
  | k, .mem n :: fs, child :: ms => memF n child :: fieldsF k fs ms
  | _, _, _ => []

/-- The fields as they should be read. -/
def fieldsR : Nat → List Field → List Ty → List RField
  | k, .pad n :: fs, ms => .pad k n :: fieldsR (k + 1) fs ms
  | k, .mem n :: fs, child :: ms => .mem n (markerType child).trees :: fieldsR k fs ms
  | _, _, _ => []

/-- Each followed by a comma. -/
def eachF (fs : List Forest) : Forest := concatF (fs.map fun f => f.append (.leaf (.op 44) .nil))

theorem eachF_cons (f fs) : eachF (f :: fs) = (f.append (.leaf (.op 44) .nil)).append (eachF fs) := rfl

theorem atCommas_eachF {fs : List Forest} (h : ∀ f ∈ fs, lone f = true) : atCommas (eachF fs) = fs := by
  have := atCommas_each fs id h
  simpa [eachF] using this

theorem tupleParts_eachF {fs : List Forest} (h : ∀ f ∈ fs, lone f = true) : tupleParts (eachF fs) = some fs := by
  have := tupleParts_each fs id h
  simpa [eachF] using this

theorem parsesC_pad (k n : Nat) :
    ParsesC (fill (args [(ph! "padding_count", decText k), (ph! "padding", decText n)])
      fmt!"    _padding_{padding_count} : [u8;{padding}],\n") ((padF k n).append (.leaf (.op 44) .nil)) := by
  refine pieceC [(ph! "padding_count", decText k, .nil), (ph! "padding", decText n, .nil)] ?_ rfl rfl
  intro x hx
  simp only [List.mem_cons, List.not_mem_nil, or_false] at hx
  rcases hx with rfl | rfl <;> exact argOk_dec _ _ rfl

theorem parsesC_mem (n : Nat) (child : Ty) (start stop : Bytes) (h1 : 10 ∉ start) (h2 : 10 ∉ stop) :
    ParsesC (fill (args [(ph! "child", child.show), (ph! "start", start),
      (ph! "end", stop)]) fmt!"    // {child} bytes {start}..{end}\n" ++
      fill (args [(ph! "n", decText n), (ph! "marker_type", markerText child)])
      fmt!"    pub field_{n} : {marker_type},\n") ((memF n child).append (.leaf (.op 44) .nil)) := by
  have hc : ParsesC (fill (args [(ph! "child", child.show), (ph! "start", start),
      (ph! "end", stop)]) fmt!"    // {child} bytes {start}..{end}\n") .nil := by
    refine pieceC [(ph! "child", child.show, .nil), (ph! "start", start, .nil), (ph! "end", stop, .nil)] ?_ rfl rfl
    intro x hx
    simp only [List.mem_cons, List.not_mem_nil, or_false] at hx
    rcases hx with rfl | rfl | rfl
    · exact argOk_com _ rfl (show_noNl child)
    · exact argOk_com _ rfl h1
    · exact argOk_com _ rfl h2
  refine parsesC_append (f := .nil) hc ?_
  refine pieceC [(ph! "n", decText n, .nil), (ph! "marker_type", markerText child, (markerType child).trees)] ?_ rfl rfl
  intro x hx
  simp only [List.mem_cons, List.not_mem_nil, or_false] at hx
  rcases hx with rfl | rfl
  · exact argOk_dec _ _ rfl
  · exact argOk_seq rfl (parses_marker child)

theorem decText_noNl (n : Nat) : 10 ∉ decText n := fun h => by
  have := decText_word n 10 h
  exact absurd this (by decide)

theorem parsesC_fields (k : Nat) (fs : List Field) (ms : List (Ty × Row)) :
    ParsesC (fieldsText k fs ms) (eachF (fieldsF k fs (ms.map (·.1)))) := by
  fun_induction fieldsText k fs ms with
  | case1 k n fs ms ih =>
    simp only [fieldsF, eachF_cons]
    exact parsesC_append (parsesC_pad k n) ih
  | case2 k n fs child row ms start ih =>
    simp only [List.map_cons, fieldsF, eachF_cons]
    exact parsesC_append (parsesC_mem n child _ _ (decText_noNl _) (decText_noNl _)) ih
  | case3 fs k ms h1 h2 =>
    have : fieldsF k fs (ms.map (·.1)) = [] := by
      cases fs with
      | nil => simp [fieldsF]
      | cons f fs =>
        cases f with
        | pad n => exact (h1 n fs rfl).elim
        | mem n =>
          cases ms with
          | nil => simp [fieldsF]
          | cons p ms => exact (h2 n fs p.1 p.2 ms rfl rfl).elim
    rw [this]
    exact parsesC_nil

theorem readField_pad (k n : Nat) : readField (padF k n) = some (.pad k n) := by
  simp only [readField, padF, and_self, if_true, numbered_dec, strip_append, Option.bind_some, numeral_numF]

theorem readField_mem (n : Nat) (child : Ty) : readField (memF n child) = some (.mem n (markerType child).trees) := by
  simp only [readField, memF, and_self, if_true, numbered_dec, Option.map_some]

theorem memF_lone (n : Nat) (child : Ty) : lone (memF n child) = true := by
  simp only [memF, lone, trees_lone]
  rfl

theorem fieldsF_lone (k fs ms) : ∀ f ∈ fieldsF k fs ms, lone f = true := by
  fun_induction fieldsF k fs ms with
  | case1 k n fs ms ih =>
    intro f hf
    rcases List.mem_cons.1 hf with rfl | hf
    · rfl
    · exact ih f hf
  | case2 k n fs child ms ih =>
    intro f hf
    rcases List.mem_cons.1 hf with rfl | hf
    · exact memF_lone _ _
    · exact ih f hf
  | case3 => intro f hf; cases hf

theorem readField_all (k fs ms) : allSome readField (fieldsF k fs ms) = some (fieldsR k fs ms) := by
  fun_induction fieldsF k fs ms with
  | case1 k n fs ms ih => simp only [allSome, readField_pad, ih, fieldsR]
  | case2 k n fs child ms ih => simp only [allSome, readField_mem, ih, fieldsR]
  | case3 fs k ms h1 h2 =>
    have : fieldsR k fs ms = [] := by
      cases fs with
      | nil => simp [fieldsR]
      | cons f fs =>
        cases f with
        | pad n => exact (h1 n fs rfl).elim
        | mem n =>
          cases ms with
          | nil => simp [fieldsR]
          | cons p ms => exact (h2 n fs p ms rfl rfl).elim
    rw [this]; rfl

/-! ### Fields given a value in `new` -/

def zeroF (k n : Nat) : Forest :=
  .leaf (.word (fmt!"_padding_" ++ decText k)) (.leaf (.op 58) (.grp 91 ((code fmt!"0u8;").append (numF n)) .nil))

def setF (n : Nat) : Forest :=
  .leaf (.word (fmt!"field_" ++ decText n)) (.leaf (.op 58) (.leaf (.word (fmt!"field_" ++ decText n)) .nil))

def initsF : Nat → List Field → List Forest
  | _, [] => []
  | k, .pad n :: fs => zeroF k n :: initsF (k + 1) fs
  | k, .mem n :: fs => setF n :: initsF k fs

/-- The fields given a value as they should be read. -/
def initsR : Nat → List Field → List RInit
  | _, [] => []
  | k, .pad n :: fs => .zeros k n :: initsR (k + 1) fs
  | k, .mem n :: fs => .mem n n :: initsR k fs

theorem parsesC_inits (k : Nat) (fs : List Field) : ParsesC (setFieldsText k fs) (eachF (initsF k fs)) := by
  induction fs generalizing k with
  | nil => exact parsesC_nil
  | cons f fs ih =>
    cases f with
    | pad n =>
      refine parsesC_append ?_ (ih (k + 1))
      refine pieceC [(ph! "padding_count", decText k, .nil), (ph! "padding", decText n, .nil)] ?_ rfl rfl
      intro x hx
      simp only [List.mem_cons, List.not_mem_nil, or_false] at hx
      rcases hx with rfl | rfl <;> exact argOk_dec _ _ rfl
    | mem n =>
      refine parsesC_append ?_ (ih k)
      refine pieceC [(ph! "n", decText n, .nil)] ?_ rfl rfl
      simpa using argOk_dec _ _ rfl

theorem readInit_zero (k n : Nat) : readInit (zeroF k n) = some (.zeros k n) := by
  simp only [readInit, zeroF, and_self, if_true, numbered_dec, strip_append, Option.bind_some, numeral_numF]

theorem readInit_set (n : Nat) : readInit (setF n) = some (.mem n n) := by
  simp only [readInit, setF, if_true, numbered_dec]

theorem initsF_lone (k fs) : ∀ f ∈ initsF k fs, lone f = true := by
  induction fs generalizing k with
  | nil => intro f hf; cases hf
  | cons f fs ih =>
    cases f with
    | pad n =>
      intro f hf
      rcases List.mem_cons.1 hf with rfl | hf
      · rfl
      · exact ih _ f hf
    | mem n =>
      intro f hf
      rcases List.mem_cons.1 hf with rfl | hf
      · rfl
      · exact ih _ f hf

theorem readInit_all (k fs) : allSome readInit (initsF k fs) = some (initsR k fs) := by
  induction fs generalizing k with
  | nil => rfl
  | cons f fs ih =>
    cases f with
    | pad n => simp only [initsF, initsR, allSome, readInit_zero, ih]
    | mem n => simp only [initsF, initsR, allSome, readInit_set, ih]

/-! ### Parameters of `new` -/

def paramF (n : Nat) (c : Ty) : Forest :=
  .leaf (.word (fmt!"field_" ++ decText n)) (.leaf (.op 58) (markerType c).trees)

def paramsF (children : List Ty) : Forest := sepF (.leaf (.op 44) .nil) (children.mapIdx paramF)

theorem parses_param (n : Nat) (c : Ty) : Parses
    (fill (args [(ph! "n", decText n), (ph! "marker_type", markerText c)]) fmt!"field_{n} : {marker_type}")
    (paramF n c) := by
  have he : fill (args [(ph! "n", decText n), (ph! "marker_type", markerText c)]) fmt!"field_{n} : {marker_type}" =
      fill (args [(ph! "n", decText n)]) fmt!"field_{n} : " ++ markerText c := by
    simp [fill, args, List.lookup]
  rw [he]
  have h1 : ParsesC (fill (args [(ph! "n", decText n)]) fmt!"field_{n} : ")
      (.leaf (.word (fmt!"field_" ++ decText n)) (.leaf (.op 58) .nil)) := by
    refine pieceC [(ph! "n", decText n, .nil)] ?_ rfl rfl
    simpa using argOk_dec _ _ rfl
  exact parses_append h1 (parses_marker c)

theorem parses_params (children : List Ty) : Parses (join fmt!", " (children.mapIdx fun n c =>
      fill (args [(ph! "n", decText n), (ph! "marker_type", markerText c)]) fmt!"field_{n} : {marker_type}"))
    (paramsF children) := by
  unfold paramsF
  rw [mapIdx_eq, mapIdx_eq]
  exact parses_join (c := 44) (sep := [32]) rfl parsesC_comma _ _ _ fun p _ => parses_param _ _

theorem paramF_lone (n c) : lone (paramF n c) = true := by
  simp only [paramF, lone, trees_lone]
  rfl

theorem readParam_all (children : List Ty) :
    allSome readParam (atCommas (paramsF children)) = some (children.mapIdx fun n c => (n, (markerType c).trees)) := by
  unfold paramsF
  rw [mapIdx_eq, mapIdx_eq, atCommas_between _ _ fun p _ => ⟨paramF_lone _ _, by intro h; cases h⟩]
  refine allSome_map _ _ _ _ fun p _ => ?_
  simp only [readParam, paramF, if_true, numbered_dec, Option.map_some]

/-! ### References to the fields -/

def refF (n : Nat) : Forest := (code fmt!"&self.").append (.leaf (.word (fmt!"field_" ++ decText n)) .nil)

def refsF (children : List Ty) : Forest := eachF (children.mapIdx fun n _ => refF n)

theorem parses_refs (children : List Ty) : Parses (join fmt!" " (children.mapIdx fun n _ =>
      fill (args [(ph! "n", decText n)]) fmt!"&self.field_{n},")) (refsF children) := by
  unfold refsF eachF
  rw [mapIdx_eq, mapIdx_eq, List.map_map]
  have h := parses_join (c := 32) (sep := []) rfl parsesC_blank children.zipIdx
    (fun p => fill (args [(ph! "n", decText p.2)]) fmt!"&self.field_{n},")
    (fun p => (refF p.2).append (.leaf (.op 44) .nil)) fun p _ => ParsesC.parses (by
      refine pieceC [(ph! "n", decText p.2, .nil)] ?_ rfl rfl
      simpa using argOk_dec _ _ rfl)
  rw [sepF_nil] at h
  exact h

theorem refF_lone (n) : lone (refF n) = true := lone_append (by decide +kernel) rfl

theorem readRefs_eq (children : List Ty) :
    readRefs (.grp 40 (refsF children) .nil) = some (List.range children.length) := by
  simp only [readRefs, refsF, if_true]
  rw [mapIdx_eq, tupleParts_eachF, Option.bind_some]
  · rw [allSome_map _ _ (fun p => p.2)]
    · congr 1
      apply List.ext_getElem <;> simp
    · intro p _
      unfold readRef refF
      rw [strip_append]
      exact numbered_dec _ _
  · intro f hf
    obtain ⟨p, _, rfl⟩ := List.mem_map.1 hf
    exact refF_lone _

/-! ### Arguments of `new` in `default_ref` -/

def defaultsF (children : List Ty) : Forest := sepF (.leaf (.op 44) .nil) (children.map fun _ => code fmt!"0")

theorem parses_defaults (children : List Ty) : Parses (join fmt!", " (children.map fun _ => fmt!"0"))
    (defaultsF children) :=
  parses_join (c := 44) (sep := [32]) rfl parsesC_comma _ _ _ fun _ _ => const (by decide +kernel)

theorem atCommas_defaults (children : List Ty) :
    atCommas (defaultsF children) = children.map fun _ => code fmt!"0" :=
  atCommas_between _ _ fun _ _ => ⟨by decide +kernel, by decide +kernel⟩

/-! ### Comparison -/

def eqF (n : Nat) : Forest := (code fmt!"self.").append (.leaf (.word (fmt!"field_" ++ decText n))
  ((code fmt!"== other.").append (.leaf (.word (fmt!"field_" ++ decText n)) .nil)))

def eqsF (children : List Ty) : Forest :=
  (code fmt!"true").append (concatF (children.mapIdx fun n _ => (code fmt!"&&").append (eqF n)))

theorem parsesC_and : ParsesC fmt!" && " (code fmt!"&&") := by
  have h := constC (x := fmt!" && ") (by decide +kernel)
  have he : code fmt!" && " = code fmt!"&&" := by decide +kernel
  rwa [he] at h

theorem parses_eqs (children : List Ty) : Parses (join fmt!" && " (fmt!"true" :: children.mapIdx fun n _ =>
      fill (args [(ph! "n", decText n)]) fmt!"self.field_{n} == other.field_{n}")) (eqsF children) := by
  unfold eqsF
  rw [mapIdx_eq, mapIdx_eq]
  have h := parses_flatMap_sep (c := 32) (sep := fmt!"&& ") rfl parsesC_and children.zipIdx
    (fun p => fill (args [(ph! "n", decText p.2)]) fmt!"self.field_{n} == other.field_{n}")
    (fun p => eqF p.2) (fun p _ => by
      refine piece [(ph! "n", decText p.2, .nil)] ?_ rfl rfl
      simpa using argOk_dec _ _ rfl) (y := fmt!"true") (g := code fmt!"true") (const (by decide +kernel))
  rw [List.map_map] at h
  exact h

theorem readEqs_eq {α} (l : List α) (k : α → Nat) :
    readEqs (concatF (l.map fun a => (code fmt!"&&").append (eqF (k a)))) = some (l.map fun a => (k a, k a)) := by
  induction l with
  | nil => rfl
  | cons a l ih =>
    have h1 : concatF ((a :: l).map fun a => (code fmt!"&&").append (eqF (k a))) =
      .leaf (.op 38) (.leaf (.op 38) (.leaf (.word fmt!"self") (.leaf (.op 46)
        (.leaf (.word (fmt!"field_" ++ decText (k a))) (.leaf (.op 61) (.leaf (.op 61)
        (.leaf (.word fmt!"other") (.leaf (.op 46) (.leaf (.word (fmt!"field_" ++ decText (k a)))
        (concatF (l.map fun a => (code fmt!"&&").append (eqF (k a))))))))))))) := rfl
    rw [h1, readEqs]
    simp only [and_self, if_true, numbered_dec, ih, List.map_cons]

theorem readEq_eq (children : List Ty) :
    readEq (eqsF children) = some ((List.range children.length).map fun n => (n, n)) := by
  unfold readEq eqsF
  rw [strip_append, Option.bind_some, mapIdx_eq, readEqs_eq]
  congr 1
  apply List.ext_getElem <;> simp

end GV.Props
