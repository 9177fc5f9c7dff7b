import Verif.Model.Rust
import Verif.Proofs.Generate
/- Facts about the Rust types named by `gv!`. -/
namespace GV
open Spec

theorem findDef_eq {t : Ty} {defs : List StructDef} (h : generateTypes t = .ok defs) {c : Ty}
    (hc : Component c t) (hs : isStruct c = true) :
    ∃ d, findDef defs (structName c) = some d ∧ d.ty = c ∧ generateTuple c (members c) = .ok d := by
  have hm : c ∈ defs.map (·.ty) := by
    rw [generateTypes_tys t defs h]; exact (mem_structOccs t c).2 ⟨hc, hs⟩
  obtain ⟨d', hd', rfl⟩ := List.mem_map.1 hm
  have hok' := generateTypes_defOk t defs h d' hd'
  cases hf : findDef defs (structName d'.ty) with
  | none =>
    have := List.find?_eq_none.1 hf d' hd'
    rw [hok'.2.1] at this; simp at this
  | some d =>
    have hd : d ∈ defs := List.mem_of_find?_eq_some hf
    have hn : d.name = structName d'.ty := by simpa using List.find?_some hf
    have hok := generateTypes_defOk t defs h d hd
    rw [hok.2.1] at hn
    have hty := structName_inj hn
    refine ⟨d, rfl, hty, ?_⟩
    rw [← hty]
    have := hok.2.2.2
    rwa [hok.2.2.1] at this

theorem markerType_struct {c : Ty} (hs : isStruct c = true) : markerType c = .struct (structName c) := by
  cases c <;> simp [isStruct] at hs <;> rfl

theorem comp_array {e t : Ty} (h : Component (.A e) t) : Component e t := by
  generalize hx : Ty.A e = x at h
  induction h with
  | refl => subst hx; exact .array (.refl _)
  | array _ ih => exact .array ih
  | maybe _ ih => exact .maybe ih
  | member _ hm ih => exact .member ih hm
  | key _ ih => exact .key ih
  | value _ ih => exact .value ih

theorem comp_maybe {e t : Ty} (h : Component (.M e) t) : Component e t := by
  generalize hx : Ty.M e = x at h
  induction h with
  | refl => subst hx; exact .maybe (.refl _)
  | array _ ih => exact .array ih
  | maybe _ ih => exact .maybe ih
  | member _ hm ih => exact .member ih hm
  | key _ ih => exact .key ih
  | value _ ih => exact .value ih

theorem comp_expands {c t : Ty} (h : Component c t) : Expands t → Expands c := by
  induction h with
  | refl => exact id
  | array _ ih => intro hx; exact ih (expands_A.1 hx)
  | maybe _ ih => intro hx; exact ih (expands_M.1 hx)
  | member _ hm ih => intro hx; exact ih ((expands_tuple.1 hx).1 _ hm)
  | key _ ih => intro hx; exact ih (expands_dict.1 hx).1.1
  | value _ ih => intro hx; exact ih (expands_dict.1 hx).1.2

theorem marker_align {t : Ty} {defs : List StructDef} (h : generateTypes t = .ok defs) (c : Ty) :
    Component c t → (markerType c).alignOf defs = some (Spec.align c) := by
  induction c using Ty.ind with
  | a e ih =>
    intro hc
    have := ih (comp_array hc)
    simp only [markerType, Spec.align]
    cases sizeOf e <;> simpa [RTy.alignOf] using this
  | m e ih =>
    intro hc
    have := ih (comp_maybe hc)
    simp only [markerType, Spec.align]
    cases sizeOf e <;> simpa [RTy.alignOf] using this
  | tuple ts _ =>
    intro hc
    obtain ⟨d, hf, hty, _⟩ := findDef_eq h hc rfl
    simp [markerType, RTy.alignOf, hf, hty, alignOf_eq]
  | dict k v _ _ =>
    intro hc
    obtain ⟨d, hf, hty, _⟩ := findDef_eq h hc rfl
    simp [markerType, RTy.alignOf, hf, hty, alignOf_eq]
  | _ => intro _; rfl

theorem marker_sized_struct {t : Ty} {defs : List StructDef} (h : generateTypes t = .ok defs) {c : Ty}
    (hc : Component c t) (hs : isStruct c = true) :
    (markerType c).sized defs = (Spec.size c).isSome := by
  obtain ⟨d, hf, hty, hg⟩ := findDef_eq h hc hs
  rw [markerType_struct hs]
  simp only [RTy.sized, hf]
  unfold generateTuple at hg
  rw [sizeOf_eq] at hg
  cases hz : Spec.size c with
  | some n =>
    rw [hz] at hg
    simp only [Option.isSome_some, if_true, Res.bind_eq_ok] at hg
    obtain ⟨p, _, hg⟩ := hg
    simp at hg; subst hg; rfl
  | none =>
    rw [hz] at hg
    simp only [Option.isSome_none, Bool.false_eq_true, if_false, Res.bind_eq_ok] at hg
    obtain ⟨p, _, hg⟩ := hg
    simp at hg; subst hg; rfl

theorem marker_sized {t : Ty} {defs : List StructDef} (h : generateTypes t = .ok defs) (c : Ty)
    (hc : Component c t) : (markerType c).sized defs = (Spec.size c).isSome := by
  cases c with
  | A e => simp only [markerType, Spec.size]; cases sizeOf e <;> rfl
  | M e => simp only [markerType, Spec.size]; cases sizeOf e <;> rfl
  | tuple ts => exact marker_sized_struct h hc rfl
  | dict k v => exact marker_sized_struct h hc rfl
  | _ => rfl

theorem marker_wf {t : Ty} {defs : List StructDef} (h : generateTypes t = .ok defs) (c : Ty) :
    Component c t → (markerType c).wellFormed defs = true := by
  induction c using Ty.ind with
  | a e ih =>
    intro hc
    have h1 := ih (comp_array hc)
    have h2 := marker_sized h e (comp_array hc)
    simp only [markerType]
    cases hz : sizeOf e with
    | none => simpa [RTy.wellFormed] using h1
    | some n => rw [sizeOf_eq] at hz; simp [RTy.wellFormed, h1, h2, hz]
  | m e ih =>
    intro hc
    have h1 := ih (comp_maybe hc)
    have h2 := marker_sized h e (comp_maybe hc)
    simp only [markerType]
    cases hz : sizeOf e with
    | none => simpa [RTy.wellFormed] using h1
    | some n => rw [sizeOf_eq] at hz; simp [RTy.wellFormed, h1, h2, hz]
  | tuple ts _ =>
    intro hc
    obtain ⟨d, hf, _, _⟩ := findDef_eq h hc rfl
    simp [markerType, RTy.wellFormed, hf]
  | dict k v _ _ =>
    intro hc
    obtain ⟨d, hf, _, _⟩ := findDef_eq h hc rfl
    simp [markerType, RTy.wellFormed, hf]
  | _ => intro _; rfl

theorem marker_layout {t : Ty} {defs : List StructDef} (h : generateTypes t = .ok defs) {c : Ty}
    (hc : Component c t) {n : Nat} (hn : Spec.size c = some n) :
    (markerType c).layout defs = .ok (n, Spec.align c) := by
  have hx := comp_expands hc ⟨defs, h⟩
  have hl := rustLayout_ok c n hn hx
  cases c with
  | tuple ts =>
    obtain ⟨d, hf, hty, _⟩ := findDef_eq h hc rfl
    simp only [markerType, RTy.layout, hf, Res.unwrap_some, Res.bind_ok, hty, hl]
  | dict k v =>
    obtain ⟨d, hf, hty, _⟩ := findDef_eq h hc rfl
    simp only [markerType, RTy.layout, hf, Res.unwrap_some, Res.bind_ok, hty, hl]
  | _ => simp [Spec.size] at hn <;> subst hn <;> rfl

theorem packLays_sum (ts : List Ty) : ∀ pos e, Spec.endAfter pos ts = some e →
    pos + ((packLays pos ts).map (·.1)).sum = e := by
  induction ts with
  | nil => intro pos e h; simpa [packLays, Spec.endAfter] using h
  | cons t ts ih =>
    intro pos e h
    simp only [Spec.endAfter] at h
    split at h
    · simp at h
    · rename_i n hn
      have hle := le_roundUp (specAlign_isAl t).pos pos
      have := ih _ _ h
      simp only [packLays, hn, Option.getD_some, lay]
      split <;> simp <;> omega

/-- The fields of a packed struct fill it. -/
theorem structFields_sum {gv : Ty} {ts : List Ty} {n : Nat}
    (hgv : Spec.size gv = Spec.size (.tuple ts)) (hn : Spec.size gv = some n)
    (hx : ∀ t ∈ ts, Expands t) {d} (hd : generateTuple gv ts = .ok d) :
    ∃ fs, structFields gv ts = .ok fs ∧ (fs.map (·.1)).sum = n ∧ reprCSize fs = n := by
  obtain ⟨p, hp, _⟩ := generateTuple_packed hn hd
  obtain ⟨fs, h1, h2, h3, h4⟩ := packed_layout hgv hn hp
  obtain ⟨e, he, hsz, _⟩ := size_tuple_members (hgv ▸ hn)
  have hls : rustLayouts ts = .ok (ts.map lay) := rustLayouts_ok fun t ht => by
    obtain ⟨m, hm⟩ := Option.isSome_iff_exists.1 (hsz t ht)
    rw [rustLayout_ok t m hm (hx t ht), lay, hm]; rfl
  refine ⟨fs, by simp [structFields, hp, hls, h1], ?_, h2⟩
  obtain ⟨hf, _⟩ := writePackedStruct_ok hgv hn hp
  have hle := endAfter_le_size (hgv ▸ hn) he
  have htp : tailPad ts n = n - e := by simp [tailPad, he]
  rw [hf, fieldLayouts_append, fieldLayouts_pack ts ts 0 0 (by simp)] at h1
  have hsum := packLays_sum ts 0 e he
  split at h1
  · simp [fieldLayouts] at h1; subst h1; simp; omega
  · simp [fieldLayouts] at h1; subst h1; omega

end GV
