import Verif.Proofs.EmitRead
/-
Calls, fields, parameters and the other lists in the emitted text are read as what they were written from.
-/
namespace GV.Props
open GV Spec

theorem forest_append_ne {f g : Forest} (h : f ≠ .nil) : f.append g ≠ .nil := by
  cases f with
  | nil => exact absurd rfl h
  | leaf t r => intro h; cases h
  | grp d i r => intro h; cases h

theorem allSome_map {α β γ} (f : β → Option γ) (g : α → β) (k : α → γ) (l : List α) (h : ∀ a ∈ l, f (g a) = some (k a)) :
    allSome f (l.map g) = some (l.map k) := by
  induction l with
  | nil => rfl
  | cons a l ih =>
    simp only [List.map_cons, allSome, h a (by simp), ih fun b hb => h b (by simp [hb])]

/-- Parts each followed by a comma. -/
theorem atCommas_each {α} (l : List α) (f : α → Forest) (h : ∀ a ∈ l, lone (f a) = true) :
    atCommas (concatF (l.map fun a => (f a).append (.leaf (.op 44) .nil))) = l.map f := by
  induction l with
  | nil => rfl
  | cons a l ih =>
    have ih := ih fun b hb => h b (by simp [hb])
    simp only [List.map_cons, concatF, List.foldr_cons, forest_append_assoc, Forest.append] at ih ⊢
    rw [atCommas_sep (h a (by simp)), ih]

/-- The parts of a tuple each followed by a comma. -/
theorem tupleParts_each {α} (l : List α) (f : α → Forest) (h : ∀ a ∈ l, lone (f a) = true) :
    tupleParts (concatF (l.map fun a => (f a).append (.leaf (.op 44) .nil))) = some (l.map f) := by
  unfold tupleParts
  rw [atCommas_each l f h]
  match l with
  | [] => rfl
  | [a] =>
    have := dropEnd_append (.op 44) (f a)
    simp only [List.map_cons, List.map_nil, concatF, List.foldr_cons, List.foldr_nil, forest_append_nil, this]
    rfl
  | a :: b :: l => rfl

/-- Parts with commas between. -/
theorem atCommas_between {α} (l : List α) (f : α → Forest) (h : ∀ a ∈ l, lone (f a) = true ∧ f a ≠ .nil) :
    atCommas (sepF (.leaf (.op 44) .nil) (l.map f)) = l.map f := by
  cases l with
  | nil => rfl
  | cons a l =>
    simp only [List.map_cons, sepF]
    induction l generalizing a with
    | nil =>
      simp only [List.map_nil, concatF, List.foldr_nil, forest_append_nil]
      exact atCommas_last (h a (by simp)).1 (h a (by simp)).2
    | cons b l ih =>
      simp only [List.map_cons, concatF, List.foldr_cons, forest_append_assoc, Forest.append] at ih ⊢
      rw [atCommas_sep (h a (by simp)).1, ih b fun c hc => h c (List.mem_cons_of_mem _ hc)]

theorem parsesC_comma : ParsesC fmt!", " (.leaf (.op 44) .nil) := constC (by decide +kernel)

theorem parsesC_blank : ParsesC fmt!" " .nil := constC (by decide +kernel)

theorem sepF_nil (fs : List Forest) : sepF .nil fs = concatF fs := by
  cases fs with
  | nil => rfl
  | cons f fs => simp only [sepF, concatF_append_nil]; rfl

/-! ### Calls -/

/-- No parentheses at the top. -/
def noParen : Forest → Bool
  | .nil => true
  | .leaf _ r => noParen r
  | .grp d _ r => d ≠ 40 && noParen r

theorem noParen_append {f g : Forest} (hf : noParen f = true) (hg : noParen g = true) : noParen (f.append g) = true := by
  induction f with
  | nil => exact hg
  | leaf t r ih => exact ih hf
  | grp d i r _ ih =>
    simp only [noParen, Bool.and_eq_true] at hf
    simp only [Forest.append, noParen, Bool.and_eq_true]
    exact ⟨hf.1, ih hf.2⟩

theorem trees_noParen (t : RTy) : noParen t.trees = true := by
  induction t with
  | slice e ih => rfl
  | nonFixedWidthArray e ih => exact noParen_append (by decide +kernel) (noParen_append ih (by decide +kernel))
  | maybeNonFixedSize e ih => exact noParen_append (by decide +kernel) (noParen_append ih (by decide +kernel))
  | maybeFixedSize e ih => exact noParen_append (by decide +kernel) (noParen_append ih (by decide +kernel))
  | struct n => rfl
  | _ => decide +kernel

theorem calls_sep {g : Forest} (hg : noParen g = true) {i r : Forest} {l} (hr : calls r = some l) :
    calls (g.append (.grp 40 i (.leaf (.op 44) r))) = some ((g, i) :: l) := by
  induction g with
  | nil => simp [Forest.append, calls, hr]
  | leaf t g ih => simp only [Forest.append, calls, ih hg]
  | grp d j g _ ih =>
    simp only [noParen, Bool.and_eq_true, decide_eq_true_eq] at hg
    rw [Forest.append, calls.eq_def]
    simp only [if_neg hg.1, ih hg.2]

/-- What is called. -/
def rowHead (child : Ty) (b : Nat) : Forest :=
  (code fmt!"get_child_elem::<").append ((markerType child).trees.append (.leaf (.op 44)
    ((code fmt!"aligned_bytes::").append (.leaf (.word (fmt!"A" ++ decText b)) (.leaf (.op 62) .nil)))))

/-- With which arguments. -/
def rowArgs (child : Ty) (row : Row) (last : Bool) (nfo : Nat) : Forest :=
  (code fmt!"self.data.as_aligned()").append (.leaf (.op 44) ((intF row.i).append (.leaf (.op 44)
    (.leaf (.word (decText row.a)) (.leaf (.op 44) (.leaf (.word (decText row.c)) (.leaf (.op 44)
      ((optF (GV.sizeOf child)).append (.leaf (.op 44) (.leaf (.word (boolText last)) (.leaf (.op 44)
        (.leaf (.word (decText nfo)) .nil))))))))))))

theorem show_noNl (t : Ty) : 10 ∉ t.show := fun h => absurd (show_bytes t 10 h) (by decide)

set_option maxRecDepth 20000 in
theorem parsesC_row (child : Ty) (row : Row) (last : Bool) (nfo : Nat) :
    ParsesC (fill (args [(ph! "ty", child.show), (ph! "marker_type", markerText child), (ph! "i", intText row.i),
      (ph! "a", decText row.a), (ph! "b", decText row.b), (ph! "c", decText row.c),
      (ph! "child_size", optText (GV.sizeOf child)), (ph! "last_child", boolText last),
      (ph! "n_frame_offsets", decText nfo)]) nfRow)
      ((rowHead child row.b).append (.grp 40 (rowArgs child row last nfo) (.leaf (.op 44) .nil))) := by
  refine pieceC [(ph! "ty", child.show, .nil), (ph! "marker_type", markerText child, (markerType child).trees),
    (ph! "i", intText row.i, intF row.i),
    (ph! "a", decText row.a, .nil), (ph! "b", decText row.b, .nil), (ph! "c", decText row.c, .nil),
    (ph! "child_size", optText (GV.sizeOf child), optF (GV.sizeOf child)), (ph! "last_child", boolText last, .nil),
    (ph! "n_frame_offsets", decText nfo, .nil)] ?_ rfl ?_
  · intro x hx
    simp only [List.mem_cons, List.not_mem_nil, or_false] at hx
    rcases hx with rfl | rfl | rfl | rfl | rfl | rfl | rfl | rfl | rfl
    · exact argOk_com _ rfl (show_noNl child)
    · exact argOk_seq rfl (parses_marker child)
    · exact argOk_seq rfl (parses_int _)
    · exact argOk_dec _ _ rfl
    · exact argOk_dec _ _ rfl
    · exact argOk_dec _ _ rfl
    · exact argOk_seq rfl (parses_opt _)
    · exact argOk_glue _ rfl (boolText_word last).1 (boolText_word last).2
    · exact argOk_dec _ _ rfl
  · simp only [rowHead, forest_append_assoc]
    rfl

theorem rowHead_noParen (child : Ty) (b : Nat) : noParen (rowHead child b) = true :=
  noParen_append (by decide +kernel) (noParen_append (trees_noParen _)
    (noParen_append (f := .leaf (.op 44) (code fmt!"aligned_bytes::")) (by decide +kernel) rfl))

theorem intF_lone (i : Int) : lone (intF i) = true := by
  unfold intF; split <;> rfl

theorem optF_lone (o : Option Nat) : lone (optF o) = true := by
  cases o
  · decide +kernel
  · rfl

theorem readCall_eq (child : Ty) (row : Row) (last : Bool) (nfo : Nat) :
    readCall (rowHead child row.b, rowArgs child row last nfo) =
      some ⟨(markerType child).trees, row.b, row.i, row.a, row.c, GV.sizeOf child, last, nfo⟩ := by
  have h1 : ((code fmt!"get_child_elem::<").strip (rowHead child row.b)).bind (dropEnd (.op 62)) =
      some ((markerType child).trees.append (.leaf (.op 44) ((code fmt!"aligned_bytes::").append
        (.leaf (.word (fmt!"A" ++ decText row.b)) .nil)))) := by
    rw [rowHead, strip_append, Option.bind_some]
    have h := dropEnd_append (.op 62) ((markerType child).trees.append (.leaf (.op 44) ((code fmt!"aligned_bytes::").append
        (.leaf (.word (fmt!"A" ++ decText row.b)) .nil))))
    simp only [forest_append_assoc, Forest.append] at h
    exact h
  have h2 : alignName ((code fmt!"aligned_bytes::").append (.leaf (.word (fmt!"A" ++ decText row.b)) .nil)) =
      some row.b := by
    unfold alignName
    rw [strip_append]
    exact numbered_dec fmt!"A" row.b
  have h3 : atCommas (rowArgs child row last nfo) = [code fmt!"self.data.as_aligned()", intF row.i, numF row.a,
      numF row.c, optF (GV.sizeOf child), .leaf (.word (boolText last)) .nil, numF nfo] := by
    unfold rowArgs
    rw [atCommas_sep (by decide +kernel), atCommas_sep (intF_lone _)]
    have hw : ∀ (w : Bytes) (r : Forest), atCommas (.leaf (.word w) (.leaf (.op 44) r)) =
        .leaf (.word w) .nil :: atCommas r := fun w r => atCommas_sep (g := .leaf (.word w) .nil) rfl r
    rw [hw, hw, atCommas_sep (optF_lone _), hw]
    rfl
  unfold readCall
  simp only [h1, h3, Option.map_some]
  rw [atCommas_sep (trees_lone _), atCommas_last (lone_append (by decide +kernel) rfl) (forest_append_ne (by decide +kernel))]
  simp only [if_true, h2, integer_intF, numeral_numF, optNumber_optF, truth_boolText]
  rfl

/-- The calls of all members. -/
def rowsF (len nfo : Nat) : Nat → List (Ty × Row) → Forest
  | _, [] => .nil
  | n, (child, row) :: rest =>
    ((rowHead child row.b).append (.grp 40 (rowArgs child row (n == len - 1) nfo) (.leaf (.op 44) .nil))).append
      (rowsF len nfo (n + 1) rest)

theorem parsesC_rows (len nfo n) (l) : ParsesC (rowsText len nfo n l) (rowsF len nfo n l) := by
  induction l generalizing n with
  | nil => exact parsesC_nil
  | cons p l ih => exact parsesC_append (parsesC_row _ _ _ _) (ih _)

/-- The calls as they should be read. -/
def rowCalls (len nfo : Nat) : Nat → List (Ty × Row) → List Call
  | _, [] => []
  | n, (child, row) :: rest =>
    ⟨(markerType child).trees, row.b, row.i, row.a, row.c, GV.sizeOf child, n == len - 1, nfo⟩ ::
      rowCalls len nfo (n + 1) rest

theorem calls_rows (len nfo n) (l) : ∃ ps, calls (rowsF len nfo n l) = some ps ∧
    allSome readCall ps = some (rowCalls len nfo n l) := by
  induction l generalizing n with
  | nil => exact ⟨[], rfl, rfl⟩
  | cons p l ih =>
    obtain ⟨ps, h1, h2⟩ := ih (n + 1)
    refine ⟨(rowHead p.1 p.2.b, rowArgs p.1 p.2 (n == len - 1) nfo) :: ps, ?_, ?_⟩
    · simp only [rowsF, forest_append_assoc, Forest.append]
      exact calls_sep (rowHead_noParen _ _) h1
    · simp only [allSome, readCall_eq, h2, rowCalls]

theorem readCalls_rows (len nfo l) :
    readCalls (.grp 40 (rowsF len nfo 0 l) .nil) = some (rowCalls len nfo 0 l) := by
  obtain ⟨ps, h1, h2⟩ := calls_rows len nfo 0 l
  simp only [readCalls, if_true, h1, Option.bind_some, h2]

/-! ### Tuples of references -/

/-- `&'a T` -/
def refTyF (c : Ty) : Forest := (code fmt!"&'a").append (markerType c).trees

theorem refTyF_lone (c : Ty) : lone (refTyF c) = true := lone_append (by decide +kernel) (trees_lone _)

/-- The types of the references to the members. -/
def tupleF (children : List Ty) : Forest := concatF (children.map fun c => (refTyF c).append (.leaf (.op 44) .nil))

theorem parsesC_nfTuple (children : List Ty) : ParsesC (nfTuple children) (.grp 40 (tupleF children) .nil) := by
  have h1 : ∀ c : Ty, ParsesC (fill (args [(ph! "marker_type", markerText c)]) fmt!"                &'a {marker_type},")
      ((refTyF c).append (.leaf (.op 44) .nil)) := by
    intro c
    refine pieceC [(ph! "marker_type", markerText c, (markerType c).trees)] ?_ rfl ?_
    · simpa using argOk_seq rfl (parses_marker c)
    · simp only [refTyF, forest_append_assoc]; rfl
  have h2 := parsesC_flatten children _ _ fun c _ => h1 c
  have h3 := parsesC_sep (a := (children.map fun c =>
    fill (args [(ph! "marker_type", markerText c)]) fmt!"                &'a {marker_type},").flatten)
    h2.parses (c := 32) rfl (b := fmt!"           ") (g := .nil) ⟨[], rfl, bal_nil⟩
  have h4 := parsesC_grp h3.parses (c := 40) (d := 41) (Or.inl ⟨rfl, rfl⟩)
  have h5 := parsesC_append h4 (b := [10]) (g := .nil) ⟨[], rfl, bal_nil⟩
  simp only [forest_append_nil] at h5
  simpa [nfTuple, tupleF] using h5

theorem parsesC_tuple2 (children : List Ty) : ParsesC (children.map fun c =>
    fill (args [(ph! "marker_type", markerText c)]) fmt!"&'a {marker_type}, ").flatten (tupleF children) := by
  refine parsesC_flatten children _ _ fun c _ => ?_
  refine pieceC [(ph! "marker_type", markerText c, (markerType c).trees)] ?_ rfl ?_
  · simpa using argOk_seq rfl (parses_marker c)
  · simp only [refTyF, forest_append_assoc]; rfl

theorem parses_packedTuple (children : List Ty) : Parses (join fmt!" " (children.map fun c =>
    fill (args [(ph! "marker_type", markerText c)]) fmt!"&'a {marker_type},")) (tupleF children) := by
  have h := parses_join (c := 32) (sep := []) rfl parsesC_blank children
    (fun c => fill (args [(ph! "marker_type", markerText c)]) fmt!"&'a {marker_type},")
    (fun c => (refTyF c).append (.leaf (.op 44) .nil)) fun c _ => ParsesC.parses (by
      refine pieceC [(ph! "marker_type", markerText c, (markerType c).trees)] ?_ rfl ?_
      · simpa using argOk_seq rfl (parses_marker c)
      · simp only [refTyF, forest_append_assoc]; rfl)
  rw [sepF_nil] at h
  exact h

theorem tupleParts_tuple (children : List Ty) : tupleParts (tupleF children) = some (children.map refTyF) :=
  tupleParts_each _ _ fun c _ => refTyF_lone c

/-! ### Type parameters of `SerializeTo` -/

/-- `Tn: ::gvariant::SerializeTo<T> + Copy` -/
def serTypeF (n : Nat) (child : Ty) : Forest :=
  .leaf (.word (fmt!"T" ++ decText n)) ((code fmt!": ::gvariant::SerializeTo<").append
    ((markerType child).trees.append (code fmt!"> + Copy")))

theorem serTypeF_lone (n child) : lone (serTypeF n child) = true := by
  have := lone_append (f := code fmt!": ::gvariant::SerializeTo<") (by decide +kernel)
    (lone_append (trees_lone (markerType child)) (g := code fmt!"> + Copy") (by decide +kernel))
  simp only [serTypeF, lone, this]
  rfl

theorem parses_serType (n child) : Parses (serTypeText n child) (serTypeF n child) := by
  refine piece [(ph! "n", decText n, .nil), (ph! "marker_type", markerText child, (markerType child).trees)] ?_ rfl ?_
  · intro x hx
    simp only [List.mem_cons, List.not_mem_nil, or_false] at hx
    rcases hx with rfl | rfl
    · exact argOk_dec _ _ rfl
    · exact argOk_seq rfl (parses_marker child)
  · rfl

def serTypesF (children : List Ty) : Forest := sepF (.leaf (.op 44) .nil) (children.mapIdx serTypeF)

theorem parses_serTypes (children) : Parses (serTypesText children) (serTypesF children) := by
  unfold serTypesText serTypesF
  rw [mapIdx_eq, mapIdx_eq]
  exact parses_join (c := 44) (sep := [32]) rfl parsesC_comma _ _ _ fun p _ => parses_serType _ _

theorem atCommas_serTypes (children) : atCommas (serTypesF children) = children.mapIdx serTypeF := by
  unfold serTypesF
  rw [mapIdx_eq]
  exact atCommas_between _ _ fun p _ => ⟨serTypeF_lone _ _, by intro h; cases h⟩

def serTypes2F (children : List Ty) : Forest :=
  concatF (children.mapIdx fun n _ => .leaf (.word (fmt!"T" ++ decText n)) (.leaf (.op 44) .nil))

theorem parses_serTypes2 (children) : Parses (serTypes2Text children) (serTypes2F children) := by
  unfold serTypes2Text serTypes2F
  rw [mapIdx_eq, mapIdx_eq]
  have h := parses_join (c := 32) (sep := []) rfl parsesC_blank children.zipIdx
    (fun p => fill (args [(ph! "n", decText p.2)]) fmt!"T{n},")
    (fun p => .leaf (.word (fmt!"T" ++ decText p.2)) (.leaf (.op 44) .nil)) fun p _ => ParsesC.parses (by
      refine pieceC [(ph! "n", decText p.2, .nil)] ?_ rfl rfl
      simpa using argOk_dec _ _ rfl)
  rw [sepF_nil] at h
  exact h

theorem tupleParts_serTypes2 (children : List Ty) : tupleParts (serTypes2F children) =
    some (children.mapIdx fun n _ => .leaf (.word (fmt!"T" ++ decText n)) .nil) := by
  unfold serTypes2F
  rw [mapIdx_eq, mapIdx_eq]
  exact tupleParts_each children.zipIdx (fun p => .leaf (.word (fmt!"T" ++ decText p.2)) .nil) fun p _ => rfl

theorem concatF_flat {fs : List Forest} (h : ∀ f ∈ fs, flat f = true) : flat (concatF fs) = true := by
  induction fs with
  | nil => rfl
  | cons f fs ih =>
    exact flat_append (h f (by simp)) (ih fun g hg => h g (by simp [hg]))

theorem tupleF_flat (children) : flat (tupleF children) = true := by
  refine concatF_flat fun f hf => ?_
  obtain ⟨c, _, rfl⟩ := List.mem_map.1 hf
  exact flat_append (lone_flat (refTyF_lone c)) rfl

theorem serTypesF_flat (children) : flat (serTypesF children) = true := by
  unfold serTypesF
  rw [mapIdx_eq]
  cases children.zipIdx with
  | nil => rfl
  | cons p l =>
    simp only [List.map_cons, sepF]
    refine flat_append (lone_flat (serTypeF_lone _ _)) (concatF_flat fun f hf => ?_)
    simp only [List.map_map, List.mem_map, Function.comp] at hf
    obtain ⟨q, _, rfl⟩ := hf
    exact flat_append (f := .leaf (.op 44) .nil) rfl (lone_flat (serTypeF_lone _ _))

end GV.Props
