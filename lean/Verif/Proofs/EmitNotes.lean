import Verif.Model.Emit
import Verif.Proofs.TraitMarks
/-
What the comments in the emitted text say.
-/
namespace GV
open Spec

/-- Where the rows of the table put members, if all are of fixed size. -/
theorem tableLoop_fixed_start (ts : List Ty) : ∀ (i : Int) (a b c : Nat), IsAl b → (∀ t ∈ ts, (Spec.size t).isSome) →
    ∀ (j : Nat) (r : Row), (tableLoop ⟨i, a, b, c⟩ ts)[j]? = some r →
      (startsFrom (Spec.roundUp a b + c) ts)[j]? = some (Spec.roundUp r.a r.b + r.c) ∧ IsAl r.b := by
  induction ts with
  | nil => intro i a b c _ _ j r h; simp [tableLoop] at h
  | cons t ts ih =>
    intro i a b c hb hsz j r h
    have hal := specAlign_isAl t
    obtain ⟨sz, hszt⟩ := Option.isSome_iff_exists.1 (hsz t (by simp))
    have hsz' : ∀ t ∈ ts, (Spec.size t).isSome := fun u hu => hsz u (by simp [hu])
    have key : ∃ a' b' c', IsAl b' ∧
        (if alignOf t ≤ b then (⟨i, a, b, align c (alignOf t)⟩ : Row)
          else ⟨i, a + align c b, alignOf t, 0⟩) = ⟨i, a', b', c'⟩ ∧
        Spec.roundUp a' b' + c' = Spec.roundUp (Spec.roundUp a b + c) (Spec.align t) := by
      rw [alignOf_eq]
      by_cases hle : Spec.align t ≤ b
      · refine ⟨a, b, Spec.roundUp c (Spec.align t), hb, ?_, ?_⟩
        · simp [hle, align_eq hal]
        · rw [roundUp_add_dvd hal.pos (Nat.dvd_trans (hal.dvd hb hle) (roundUp_dvd _ _))]
      · refine ⟨a + Spec.roundUp c b, Spec.align t, 0, hal, ?_, ?_⟩
        · simp [hle, align_eq hb]
        · have hd : b ∣ Spec.align t := hb.dvd hal (by omega)
          rw [← roundUp_roundUp (n := _ + c) hb.pos hal.pos hd,
            roundUp_add_dvd hb.pos (roundUp_dvd _ _), Nat.add_zero,
            ← roundUp_roundUp (n := _ + Spec.roundUp c b) hb.pos hal.pos hd,
            Nat.add_comm _ (Spec.roundUp c b), roundUp_add_dvd hb.pos (roundUp_dvd _ _),
            Nat.add_comm (Spec.roundUp c b)]
    obtain ⟨a', b', c', hb', hst, hpos⟩ := key
    have hszt' : sizeOf t = some sz := by rw [sizeOf_eq]; exact hszt
    simp only [tableLoop, hst, hszt'] at h
    cases j with
    | zero =>
      simp only [List.getElem?_cons_zero, Option.some.injEq] at h
      subst h
      exact ⟨by simp [startsFrom, hpos], hb'⟩
    | succ j =>
      rw [List.getElem?_cons_succ] at h
      have := ih i a' b' (c' + sz) hb' hsz' j r h
      rw [← Nat.add_assoc, hpos] at this
      simpa [startsFrom, hszt] using this

/-- The lines of one member. -/
def memberLines (n : Nat) (child : Ty) (start stop : Nat) : Bytes :=
  fmt!"    // " ++ child.show ++ fmt!" bytes " ++ decText start ++ fmt!".." ++ decText stop ++
    fmt!"\n    pub field_" ++ decText n ++ fmt!" : " ++ markerText child ++ fmt!",\n"

theorem fieldsText_mem (k n : Nat) (fs : List Field) (child : Ty) (row : Row) (ms : List (Ty × Row)) :
    fieldsText k (.mem n :: fs) ((child, row) :: ms) =
      memberLines n child (align row.a row.b ||| row.c) ((align row.a row.b ||| row.c) + (sizeOf child).getD 0) ++
        fieldsText k fs ms := by
  have h1 : ∀ a b c : Bytes, fill (args [(ph! "child", a), (ph! "start", b), (ph! "end", c)])
      fmt!"    // {child} bytes {start}..{end}\n" = fmt!"    // " ++ (a ++ (fmt!" bytes " ++ (b ++ (fmt!".." ++ (c ++ fmt!"\n"))))) :=
    fun _ _ _ => rfl
  have h2 : ∀ a b : Bytes, fill (args [(ph! "n", a), (ph! "marker_type", b)])
      fmt!"    pub field_{n} : {marker_type},\n" = fmt!"    pub field_" ++ (a ++ (fmt!" : " ++ (b ++ fmt!",\n"))) :=
    fun _ _ => rfl
  simp only [fieldsText, h1, h2, memberLines, List.append_assoc]
  rfl

theorem fieldsText_notes (ts : List Ty) : ∀ (k n pos : Nat) (tail : List Field) (rows : List Row),
    rows.length = ts.length → (j : Nat) → (t : Ty) → (r : Row) → ts[j]? = some t → rows[j]? = some r →
    memberLines (n + j) t (align r.a r.b ||| r.c) ((align r.a r.b ||| r.c) + (sizeOf t).getD 0) <:+:
      fieldsText k (packFields n pos ts ++ tail) (ts.zip rows) := by
  induction ts with
  | nil => intro _ _ _ _ _ _ j t r h; simp at h
  | cons u ts ih =>
    intro k n pos tail rows hlen j t r ht hr
    cases rows with
    | nil => simp at hr
    | cons r0 rows =>
      have go : ∀ k', memberLines (n + j) t (align r.a r.b ||| r.c) ((align r.a r.b ||| r.c) + (sizeOf t).getD 0) <:+:
          fieldsText k' (.mem n :: (packFields (n + 1) (Spec.roundUp pos (Spec.align u) + (Spec.size u).getD 0) ts ++ tail))
            ((u, r0) :: ts.zip rows) := by
        intro k'
        rw [fieldsText_mem]
        cases j with
        | zero =>
          simp only [List.getElem?_cons_zero, Option.some.injEq] at ht hr
          subst ht; subst hr
          exact (List.prefix_append _ _).isInfix
        | succ j =>
          rw [List.getElem?_cons_succ] at ht hr
          have := ih k' (n + 1) (Spec.roundUp pos (Spec.align u) + (Spec.size u).getD 0) tail rows
            (by simpa using hlen) j t r ht hr
          rw [show n + (j + 1) = n + 1 + j by omega]
          exact this.trans (List.suffix_append _ _).isInfix
      simp only [packFields, List.zip_cons_cons]
      split
      · simp only [List.cons_append, List.nil_append, fieldsText]
        exact (go (k + 1)).trans (List.suffix_append _ _).isInfix
      · simpa using go k

theorem rowsText_notes (len nfo : Nat) (ts : List Ty) : ∀ (n : Nat) (rows : List Row), rows.length = ts.length →
    ∀ (j : Nat) (t : Ty), ts[j]? = some t →
      fmt!"\n            // " ++ t.show ++ fmt!"\n            get_child_elem::<" ++ markerText t ++ fmt!", " <:+:
        rowsText len nfo n (ts.zip rows) := by
  induction ts with
  | nil => intro _ _ _ j t h; simp at h
  | cons u ts ih =>
    intro n rows hlen j t ht
    cases rows with
    | nil => simp at hlen
    | cons r0 rows =>
      simp only [List.zip_cons_cons, rowsText]
      cases j with
      | zero =>
        simp only [List.getElem?_cons_zero, Option.some.injEq] at ht
        subst ht
        have h1 : ∀ ty m i a b c s l f : Bytes, ∃ rest, fill (args [(ph! "ty", ty), (ph! "marker_type", m), (ph! "i", i),
            (ph! "a", a), (ph! "b", b), (ph! "c", c), (ph! "child_size", s), (ph! "last_child", l),
            (ph! "n_frame_offsets", f)]) nfRow = fmt!"\n            // " ++ (ty ++ (fmt!"\n            get_child_elem::<" ++
              (m ++ (fmt!", " ++ rest)))) := fun _ _ _ _ _ _ _ _ _ => ⟨_, rfl⟩
        obtain ⟨rest, h1⟩ := h1 u.show (markerText u) (intText r0.i) (decText r0.a) (decText r0.b) (decText r0.c)
          (optText (sizeOf u)) (boolText (n == len - 1)) (decText nfo)
        rw [h1]
        refine List.IsPrefix.isInfix ⟨rest ++ rowsText len nfo (n + 1) (ts.zip rows), ?_⟩
        simp only [List.append_assoc]
      | succ j =>
        rw [List.getElem?_cons_succ] at ht
        exact (ih (n + 1) rows (by simpa using hlen) j t ht).trans (List.suffix_append _ _).isInfix

end GV
