import Verif.Proofs.RustNames
import Verif.Proofs.EmitFinal
import Verif.Proofs.OwnTame
/-
Names in the text of a definition.
-/
namespace GV.Props
open GV Spec

/-! ### Scopes -/

/-- What the text relies on: `std`, and the crate under its own name. -/
structure Has (S : Scope) (A L V : List Bytes) : Prop where
  std : S.std = true
  crate : S.crate = fmt!"gvariant"
  assocs : ∀ w ∈ A, w ∈ S.assocs
  locals : ∀ w ∈ L, w ∈ S.locals
  lives : ∀ w ∈ V, w ∈ S.lives

/-- The least such scope. -/
def least (A L V : List Bytes) : Scope := ⟨true, fmt!"gvariant", [], A, L, V⟩

def plainUse : Use → Bool
  | .path _ ws => ws.all plainW
  | .life w => plainW w

/-- Uses known to be good: plain ones, and some that are filled in. -/
def litS (A L V : List Bytes) (sp : List Use) (u : Use) : Bool :=
  (plainUse u && (least A L V).resolves u) || sp.contains u

theorem subUse_plain {σ : UInt8 → Bytes} (hlow : ∀ c < 128, σ c = [c]) {u : Use} (h : plainUse u = true) :
    subUse σ u = u := by
  cases u with
  | life w => simp only [subUse, flatMap_plainW hlow h]
  | path r ws =>
    simp only [plainUse, List.all_eq_true] at h
    simp only [subUse, subPath]
    congr 1
    exact (List.map_congr_left fun w hw => flatMap_plainW hlow (h w hw)).trans (List.map_id ws)

theorem Has.extern {S A L V} (h : Has S A L V) (p : List Bytes) : S.extern p = (least A L V).extern p := by
  cases p with
  | nil => rfl
  | cons c p => simp only [Scope.extern, h.std, h.crate, least]

theorem Has.resolves {S A L V} (h : Has S A L V) {u : Use} (hu : (least A L V).resolves u = true) :
    S.resolves u = true := by
  have hm : ∀ {X Y : List Bytes} {w}, (∀ x ∈ X, x ∈ Y) → X.contains w = true → Y.contains w = true := by
    intro X Y w hXY hw
    simp only [List.contains_iff_mem] at hw ⊢
    exact hXY w hw
  cases u with
  | life w =>
    simp only [Scope.resolves, Bool.or_eq_true] at hu ⊢
    exact hu.imp id (hm h.lives)
  | path r p =>
    cases r with
    | top => simp only [Scope.resolves] at hu ⊢; rw [h.extern]; exact hu
    | after =>
      simp only [Scope.resolves, Bool.or_eq_true] at hu ⊢
      rw [h.extern]
      refine hu.imp id fun hu => ?_
      split at hu
      · exact hm h.assocs hu
      · cases hu
    | here =>
      simp only [Scope.resolves, Scope.here, Bool.or_eq_true] at hu ⊢
      rw [h.extern]
      refine hu.imp id fun hu => ?_
      split at hu
      · simp only [Bool.or_eq_true] at hu ⊢
        rcases hu with (((hu | hu) | hu) | hu) | hu
        · exact Or.inl (Or.inl (Or.inl (Or.inl (hm h.locals hu))))
        · simp [least] at hu
        · exact Or.inl (Or.inl (Or.inr hu))
        · exact Or.inl (Or.inr hu)
        · refine Or.inr ?_
          rw [h.std]
          exact hu
      · simp only [Bool.and_eq_true, Bool.or_eq_true] at hu ⊢
        refine ⟨hu.1.imp id fun hx => ?_, hm h.assocs hu.2⟩
        simp [least] at hx
      · cases hu

theorem litS_ok {S A L V sp} {σ : UInt8 → Bytes} (hlow : ∀ c < 128, σ c = [c]) (h : Has S A L V)
    (hsp : ∀ u ∈ sp, S.resolves (subUse σ u) = true) (u : Use) (hu : litS A L V sp u = true) :
    S.resolves (subUse σ u) = true := by
  simp only [litS, Bool.or_eq_true, Bool.and_eq_true] at hu
  rcases hu with hu | hu
  · rw [subUse_plain hlow hu.1]
    exact h.resolves hu.2
  · exact hsp u (by simpa using hu)

theorem Has.mono {S A L V A' L' V'} (h : Has S A L V) (hA : ∀ w ∈ A', w ∈ A) (hL : ∀ w ∈ L', w ∈ L)
    (hV : ∀ w ∈ V', w ∈ V) : Has S A' L' V' :=
  ⟨h.std, h.crate, fun w hw => h.assocs w (hA w hw), fun w hw => h.locals w (hL w hw), fun w hw => h.lives w (hV w hw)⟩

/-! ### Words -/

theorem keyword_short {w : Bytes} (h : keywords.contains w = true) : w.length ≤ 6 := by
  have hk : ∀ x ∈ keywords, x.length ≤ 6 := by decide
  exact hk w (by simpa using h)

theorem keyword_first {w : Bytes} (h : keywords.contains w = true) : ∃ c r, w = c :: r ∧ 95 ≤ c := by
  have hk : ∀ x ∈ keywords, (match x with | c :: _ => decide (95 ≤ c) | [] => false) = true := by decide
  have := hk w (by simpa using h)
  cases w with
  | nil => cases this
  | cons c r => exact ⟨c, r, rfl, by simpa using this⟩

/-- A word that starts with a capital is a name. -/
theorem name_upper {c : UInt8} {r : Bytes} (h : (decide (65 ≤ c) && decide (c ≤ 90)) = true) :
    keywords.contains (c :: r) = false ∧ isNumber (c :: r) = false := by
  simp only [Bool.and_eq_true, decide_eq_true_eq] at h
  constructor
  · cases hk : keywords.contains (c :: r) with
    | false => rfl
    | true =>
      obtain ⟨d, s, hd, h95⟩ := keyword_first hk
      cases hd
      have := UInt8.le_trans h95 h.2
      exact absurd this (by decide)
  · simp only [isNumber, Bool.and_eq_false_iff, decide_eq_false_iff_not]
    refine Or.inr fun hc => ?_
    have := UInt8.le_trans h.1 hc
    exact absurd this (by decide)

/-- A long word that does not start with a digit is a name. -/
theorem name_long {w : Bytes} (h : 6 < w.length) (hn : isNumber w = false) :
    keywords.contains w = false ∧ isNumber w = false := by
  refine ⟨?_, hn⟩
  cases hk : keywords.contains w with
  | false => rfl
  | true => have := keyword_short hk; omega

theorem number_dec (n : Nat) : isNumber (decText n) = true := by
  have h := decLoop_digits (n + 1) n
  have h0 := decText_ne n
  unfold decText at *
  cases hd : decLoop (n + 1) n with
  | nil => exact absurd hd h0
  | cons c r =>
    rw [hd] at h
    simpa [isNumber] using h c (by simp)

theorem name_field (n : Nat) : keywords.contains (fmt!"field_" ++ decText n) = false ∧
    isNumber (fmt!"field_" ++ decText n) = false := by
  refine name_long ?_ rfl
  have := List.length_pos_iff.2 (decText_ne n)
  simp only [List.length_append, List.length_cons, List.length_nil]
  omega

theorem name_padding (n : Nat) : keywords.contains (fmt!"_padding_" ++ decText n) = false ∧
    isNumber (fmt!"_padding_" ++ decText n) = false := by
  refine name_long ?_ rfl
  simp only [List.length_append, List.length_cons, List.length_nil]
  omega

theorem name_T (n : Nat) : keywords.contains (fmt!"T" ++ decText n) = false ∧ isNumber (fmt!"T" ++ decText n) = false :=
  name_upper rfl

theorem name_A (n : Nat) : keywords.contains (fmt!"A" ++ decText n) = false ∧ isNumber (fmt!"A" ++ decText n) = false :=
  name_upper rfl

theorem name_struct (t : Ty) : keywords.contains (structName t) = false ∧ isNumber (structName t) = false :=
  name_upper rfl

theorem isAl_cases {n : Nat} (h : IsAl n) : n = 1 ∨ n = 2 ∨ n = 4 ∨ n = 8 := h

/-! ### Parts -/

/-- Part from a format string. -/
theorem fine_piece {S A L V br} {T : Bytes} {g : Forest} (xs : List (UInt8 × Bytes × Forest)) (hS : Has S A L V)
    (hlow : (xs.map (·.1)).all (128 ≤ ·) = true) (sp : List Use) (ph : Bool → UInt8 → Bool) (nm nu : Bytes → Bool)
    (hsp : ∀ u ∈ sp, S.resolves (subUse (argT xs) u) = true)
    (hph : ∀ br h, ph br h = true → Fine br (fun u => S.resolves u = true) (argF xs h))
    (hnm : ∀ w, nm w = true → keywords.contains (w.flatMap (argT xs)) = false ∧ isNumber (w.flatMap (argT xs)) = false)
    (hnu : ∀ w, nu w = true → isNumber (w.flatMap (argT xs)) = true)
    (hs : (startsOk ph br (tplF T) && (tplRun (litS A L V sp) ph nm nu br (.at .none 0) (tplF T)).map is0 == some true) = true)
    (hg : subG (argT xs) (argF xs) (tplF T) = g) : Fine br (fun u => S.resolves u = true) g := by
  have hl : ∀ c < 128, argT xs c = [c] := by
    intro c hc
    unfold argT args
    rw [lookup_low _ hc]
    · rfl
    · simp only [List.all_map, List.all_eq_true, Function.comp, decide_eq_true_eq] at hlow
      intro x hx
      obtain ⟨y, hy, rfl⟩ := List.mem_map.1 hx
      exact hlow y hy
  simp only [Bool.and_eq_true, beq_iff_eq] at hs
  have := fine_tpl (ok := fun u => S.resolves u = true) hl (litS_ok hl hS hsp) hph hnm hnu hs.1 hs.2
  rwa [subF_eq, hg] at this

abbrev noName : Bytes → Bool := fun _ => false
abbrev noPh : Bool → UInt8 → Bool := fun _ _ => false
abbrev onePh (c : UInt8) : Bool → UInt8 → Bool := fun _ h => h == c

theorem fine_code {S A L V br} {T : Bytes} (hS : Has S A L V)
    (hs : (startsOk noPh br (code T) && (tplRun (litS A L V []) noPh noName noName br (.at .none 0) (code T)).map is0 == some true &&
      tplF T == code T && subG (argT []) (argF []) (tplF T) == code T) = true) :
    Fine br (fun u => S.resolves u = true) (code T) := by
  simp only [Bool.and_eq_true, beq_iff_eq] at hs
  refine fine_piece (T := T) [] hS rfl [] noPh noName noName (by simp) (by simp [noPh]) (by simp) (by simp) ?_ hs.2
  simp only [hs.1.2, hs.1.1.1, Bool.true_and, beq_iff_eq]
  exact hs.1.1.2

/-- The structures that occur in a type are known. -/
def Knows (S : Scope) (t : Ty) : Prop := ∀ u ∈ structOccs t, structName u ∈ S.structs

theorem resolves_struct {S : Scope} {t : Ty} (h : structName t ∈ S.structs) :
    S.resolves (.path .here [structName t]) = true := by
  simp [Scope.resolves, Scope.here, h]

theorem fine_struct {S : Scope} {t : Ty} {br} (h : structName t ∈ S.structs) :
    Fine br (fun u => S.resolves u = true) (.leaf (.word (structName t)) .nil) :=
  Fine.word (resolves_struct h) (name_struct t).1

theorem fine_wrap {S A L V br} {T : Bytes} {f g : Forest} (hS : Has S A L V)
    (hf : ∀ br, Fine br (fun u => S.resolves u = true) f)
    (hs : (startsOk (onePh (ph! "marker_type")) br (tplF T) && (tplRun (litS A L V []) (onePh (ph! "marker_type")) noName noName br
      (.at .none 0) (tplF T)).map is0 == some true) = true)
    (hg : subG (argT [(ph! "marker_type", [], f)]) (argF [(ph! "marker_type", [], f)]) (tplF T) = g) :
    Fine br (fun u => S.resolves u = true) g :=
  fine_piece [(ph! "marker_type", [], f)] hS rfl [] (onePh (ph! "marker_type")) noName noName (by simp)
    (fun br h hh => by
      simp only [onePh, beq_iff_eq] at hh
      subst hh
      exact hf br) (by simp) (by simp) hs hg

theorem fine_marker {S : Scope} (hS : Has S [] [] []) : ∀ t : Ty, Knows S t → ∀ br,
    Fine br (fun u => S.resolves u = true) (markerType t).trees
  | .B, _, br | .Y, _, br | .N, _, br | .Q, _, br | .I, _, br | .U, _, br | .X, _, br | .T, _, br | .D, _, br
  | .S, _, br | .O, _, br | .G, _, br | .V, _, br => by
    simp only [markerType, RTy.trees]
    cases br <;> exact fine_code hS (by decide +kernel)
  | .A t, h, br => by
    have ih := fine_marker hS t h
    simp only [markerType]
    cases GV.sizeOf t with
    | none =>
      simp only [RTy.trees]
      refine fine_wrap (T := fmt!"NonFixedWidthArray::<{marker_type}>") hS ih ?_ rfl
      cases br <;> decide +kernel
    | some n =>
      simp only [RTy.trees]
      exact Fine.grp (ih _).uses
  | .M t, h, br => by
    have ih := fine_marker hS t h
    simp only [markerType]
    cases GV.sizeOf t with
    | none =>
      simp only [RTy.trees]
      refine fine_wrap (T := fmt!"MaybeNonFixedSize::<{marker_type}>") hS ih ?_ rfl
      cases br <;> decide +kernel
    | some n =>
      simp only [RTy.trees]
      refine fine_wrap (T := fmt!"MaybeFixedSize::<{marker_type}>") hS ih ?_ rfl
      cases br <;> decide +kernel
  | .tuple ts, h, br => fine_struct (h (.tuple ts) (by simp [structOccs]))
  | .dict k v, h, br => fine_struct (h (.dict k v) (by simp [structOccs]))

end GV.Props
