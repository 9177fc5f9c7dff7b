import Verif.Proofs.RustLayout
import Verif.Proofs.TypeParser
/- Which types `gv!` expands, and which definitions it emits (C05-C08, C51). -/
namespace GV

theorem noCarry_iff (ts : List Ty) : ∀ (i : Int) (a b c : Nat), IsAl b →
    (∀ t ∈ ts, (Spec.size t).isSome) →
    ((∀ r ∈ tableLoop ⟨i, a, b, c⟩ ts, noCarry r) ↔
      Spec.carryFree (Spec.roundUp a b) b (Spec.roundUp a b + c) ts) := by
  induction ts with
  | nil => intro i a b c _ _; simp [tableLoop, Spec.carryFree]
  | cons t ts ih =>
    intro i a b c hb hsz
    have hal := specAlign_isAl t
    obtain ⟨sz, hs⟩ := Option.isSome_iff_exists.1 (hsz t (by simp))
    have hsz' : ∀ u ∈ ts, (Spec.size u).isSome := fun u hu => hsz u (by simp [hu])
    simp only [tableLoop, Spec.carryFree, alignOf_eq, sizeOf_eq, hs, Option.getD_some]
    by_cases hle : Spec.align t ≤ b
    · simp only [hle, if_true, List.forall_mem_cons]
      have hst : Spec.roundUp (Spec.roundUp a b + c) (Spec.align t)
          = Spec.roundUp a b + Spec.roundUp c (Spec.align t) :=
        roundUp_add_dvd hal.pos (Nat.dvd_trans (hal.dvd hb hle) (roundUp_dvd _ _))
      rw [ih i a b _ hb hsz', hst, noCarry, align_eq hal, align_eq hb]
      simp only [Nat.add_sub_cancel_left, Nat.add_assoc]
    · simp only [hle, if_false, List.forall_mem_cons]
      have hb1 : b ∣ Spec.align t := hb.dvd hal (by omega)
      have hst : Spec.roundUp (Spec.roundUp a b + c) (Spec.align t)
          = Spec.roundUp (a + Spec.roundUp c b) (Spec.align t) := by
        rw [← roundUp_roundUp hb.pos hal.pos hb1, roundUp_add_dvd hb.pos (roundUp_dvd _ _),
          Nat.add_comm, ← roundUp_add_dvd hb.pos (roundUp_dvd _ _), Nat.add_comm,
          roundUp_roundUp hb.pos hal.pos hb1]
      rw [ih i _ _ _ hal hsz', hst, align_eq hb]
      have h1' : noCarry ⟨i, a + Spec.roundUp c b, Spec.align t, 0⟩ := by simp [noCarry]
      simp [h1']

theorem generateTable_noCarry {ts : List Ty} (h : ∀ t ∈ ts, (Spec.size t).isSome) :
    (∀ r ∈ generateTable ts, noCarry r) ↔ Spec.carryFree 0 1 0 ts := by
  have := noCarry_iff ts (-1) 0 1 0 (Or.inl rfl) h
  simpa [generateTable, Spec.roundUp] using this

/-- number of members that need a framing offset, counting from the front of the remaining list -/
def framesLeft : List Ty → Nat
  | [] => 0
  | t :: ts => (if (Spec.size t).isNone ∧ ts ≠ [] then 1 else 0) + framesLeft ts

theorem nFrameOffsets_eq (ts : List Ty) : nFrameOffsets ts = framesLeft ts := by
  induction ts with
  | nil => rfl
  | cons t ts ih =>
    cases ts with
    | nil =>
      simp only [nFrameOffsets, framesLeft, sizeOf_eq, List.getLast?_singleton]
      cases h : Spec.size t <;> simp [h]
    | cons u us =>
      have hlast : ∃ l, (u :: us).getLast? = some l := ⟨_, List.getLast?_eq_some_getLast (by simp)⟩
      obtain ⟨l, hl⟩ := hlast
      have hl' : (t :: u :: us).getLast? = some l := by rw [List.getLast?_cons_cons]; exact hl
      have hmem : l ∈ u :: us := List.mem_of_getLast? hl
      simp only [nFrameOffsets, hl'] 
      rw [framesLeft, ← ih, nFrameOffsets, hl]
      simp only [sizeOf_eq, List.filter_cons]
      have hge : (Spec.size l).isNone = true →
          1 ≤ ((u :: us).filter fun x => (Spec.size x).isNone).length := by
        intro h
        exact List.length_pos_of_mem (List.mem_filter.2 ⟨hmem, h⟩)
      simp only [List.filter_cons] at hge
      by_cases h1 : (Spec.size t).isNone = true <;> by_cases h2 : (Spec.size l).isNone = true <;>
        simp [h1, h2] at hge ⊢ <;> omega

theorem serLoop_ok (nfo : Nat) (ts : List Ty) : ∀ n base offset nth, nth + framesLeft ts ≤ nfo →
    ∃ cmds, serLoop nfo n base offset nth ts = .ok cmds := by
  induction ts with
  | nil => intro n base offset nth _; exact ⟨_, rfl⟩
  | cons t ts ih =>
    intro n base offset nth h
    simp only [framesLeft] at h
    simp only [serLoop, sizeOf_eq]
    generalize (if alignOf t ≤ base then _ else _ : List Cmd × Nat × Nat) = x
    obtain ⟨pre, base', offset'⟩ := x
    simp only
    cases hs : Spec.size t with
    | some x =>
      simp only
      obtain ⟨cmds, hc⟩ := ih (n + 1) base' (offset' + x) nth (by omega)
      rw [hc]; exact ⟨_, rfl⟩
    | none =>
      simp only
      cases ts with
      | nil => simp [serLoop]
      | cons u us =>
        simp [hs] at h
        simp only [List.isEmpty_cons, Bool.false_eq_true, if_false]
        rw [if_pos (by omega)]
        obtain ⟨cmds, hc⟩ := ih (n + 1) 1 0 (nth + 1) (by omega)
        rw [hc]; exact ⟨_, rfl⟩

theorem writeNonFixed_ok (ts : List Ty) : ∃ p, writeNonFixedSizeStructure ts = .ok p := by
  obtain ⟨cmds, hc⟩ := serLoop_ok (nFrameOffsets ts) ts 0 8 0 0 (by rw [nFrameOffsets_eq]; omega)
  exact ⟨_, by simp [writeNonFixedSizeStructure, hc]; rfl⟩

/-- `generate_tuple` succeeds. -/
theorem generateTuple_isOk {gv : Ty} {ts : List Ty}
    (hgv : Spec.size gv = Spec.size (.tuple ts)) :
    (∃ d, generateTuple gv ts = .ok d) ↔
      ((Spec.size gv).isSome → Spec.carryFree 0 1 0 ts) := by
  unfold generateTuple
  rw [sizeOf_eq]
  cases hn : Spec.size gv with
  | none =>
    obtain ⟨p, hp⟩ := writeNonFixed_ok ts
    simp [hp]
  | some n =>
    obtain ⟨e, he, hsz, _⟩ := size_tuple_members (hgv ▸ hn)
    rw [← generateTable_noCarry hsz, ← writePackedStruct_isOk hgv hn]
    simp only [Option.isSome_some, if_true, forall_const]
    constructor
    · rintro ⟨d, hd⟩
      rw [Res.bind_eq_ok] at hd
      obtain ⟨p, hp, _⟩ := hd
      exact ⟨p, hp⟩
    · rintro ⟨p, hp⟩
      exact ⟨_, by rw [hp]; rfl⟩

/-- Every fixed-size structure inside `t` is laid out without carries. -/
def AllCarryFree (t : Ty) : Prop :=
  ∀ c, Spec.Component c t → Spec.isStruct c = true → (Spec.size c).isSome →
    Spec.carryFree 0 1 0 (Spec.members c)

theorem expands_iff (t : Ty) : Expands t ↔ AllCarryFree t := by
  induction t using Ty.ind with
  | a e ih =>
    rw [expands_A, ih]
    constructor
    · intro h c hc hs hz
      cases hc with
      | refl => simp [Spec.isStruct] at hs
      | array hc => exact h c hc hs hz
    · intro h c hc hs hz; exact h c (.array hc) hs hz
  | m e ih =>
    rw [expands_M, ih]
    constructor
    · intro h c hc hs hz
      cases hc with
      | refl => simp [Spec.isStruct] at hs
      | maybe hc => exact h c hc hs hz
    · intro h c hc hs hz; exact h c (.maybe hc) hs hz
  | tuple ts ih =>
    rw [expands_tuple, generateTuple_isOk rfl]
    constructor
    · rintro ⟨h1, h2⟩ c hc hs hz
      cases hc with
      | refl => exact h2 hz
      | member hc hm => exact (ih _ hm).1 (h1 _ hm) c hc hs hz
    · intro h
      exact ⟨fun t ht => (ih t ht).2 fun c hc hs hz => h c (.member hc ht) hs hz,
        fun hz => h _ (.refl _) rfl hz⟩
  | dict k v ihk ihv =>
    rw [expands_dict, generateTuple_isOk (size_dict_eq k v)]
    constructor
    · rintro ⟨⟨h1, h2⟩, h3⟩ c hc hs hz
      cases hc with
      | refl => exact h3 hz
      | key hc => exact ihk.1 h1 c hc hs hz
      | value hc => exact ihv.1 h2 c hc hs hz
    · intro h
      exact ⟨⟨ihk.2 fun c hc hs hz => h c (.key hc) hs hz,
        ihv.2 fun c hc hs hz => h c (.value hc) hs hz⟩, fun hz => h _ (.refl _) rfl hz⟩
  | _ =>
    constructor
    · intro _ c hc hs _; cases hc; simp [Spec.isStruct] at hs
    · intro _; exact ⟨_, rfl⟩

/-! ### emitted definitions -/

theorem generateTuple_ty {spec : Ty} {ts d} (h : generateTuple spec ts = .ok d) :
    d.ty = spec ∧ d.name = structName spec ∧ d.children = ts := by
  unfold generateTuple at h
  split at h <;> rw [Res.bind_eq_ok] at h <;> obtain ⟨p, _, h⟩ := h <;> simp at h <;> subst h <;> simp

theorem generateTypesAll_tys {ts : List Ty}
    (ih : ∀ t ∈ ts, ∀ defs, generateTypes t = .ok defs → defs.map (·.ty) = Spec.structOccs t) :
    ∀ defs, generateTypesAll ts = .ok defs → defs.map (·.ty) = Spec.structOccsAll ts := by
  induction ts with
  | nil => intro defs h; simp [generateTypesAll] at h; subst h; rfl
  | cons t ts ihl =>
    intro defs h
    simp only [generateTypesAll, Res.bind_eq_ok] at h
    obtain ⟨o1, h1, o2, h2, h⟩ := h
    simp at h; subst h
    simp [Spec.structOccsAll, ih t (by simp) o1 h1, ihl (fun u hu => ih u (by simp [hu])) o2 h2]

/-- The definitions emitted are those of the structure occurrences, in order. -/
theorem generateTypes_tys (t : Ty) : ∀ defs, generateTypes t = .ok defs →
    defs.map (·.ty) = Spec.structOccs t := by
  induction t using Ty.ind with
  | a e ih => intro defs h; simpa [Spec.structOccs] using ih defs (by simpa [generateTypes] using h)
  | m e ih => intro defs h; simpa [Spec.structOccs] using ih defs (by simpa [generateTypes] using h)
  | tuple ts ih =>
    intro defs h
    simp only [generateTypes, Res.bind_eq_ok] at h
    obtain ⟨o, h1, d, h2, h⟩ := h
    simp at h; subst h
    simp [Spec.structOccs, generateTypesAll_tys ih o h1, (generateTuple_ty h2).1]
  | dict k v ihk ihv =>
    intro defs h
    simp only [generateTypes, Res.bind_eq_ok] at h
    obtain ⟨o1, h1, o2, h2, d, h3, h⟩ := h
    simp at h; subst h
    simp [Spec.structOccs, ihk o1 h1, ihv o2 h2, (generateTuple_ty h3).1]
  | _ => intro defs h; simp [generateTypes] at h; subst h; rfl

/-- What is known about one definition. -/
def DefOk (d : StructDef) : Prop :=
  Spec.isStruct d.ty = true ∧ d.name = structName d.ty ∧ d.children = Spec.members d.ty ∧
    generateTuple d.ty d.children = .ok d

theorem generateTypesAll_mem {ts : List Ty} : ∀ {defs}, generateTypesAll ts = .ok defs →
    ∀ d ∈ defs, ∃ t ∈ ts, ∃ ds, generateTypes t = .ok ds ∧ d ∈ ds := by
  induction ts with
  | nil => intro defs h d hd; simp [generateTypesAll] at h; subst h; simp at hd
  | cons t ts ihl =>
    intro defs h d hd
    simp only [generateTypesAll, Res.bind_eq_ok] at h
    obtain ⟨o1, h1, o2, h2, h⟩ := h
    simp at h; subst h
    rcases List.mem_append.1 hd with hd | hd
    · exact ⟨t, by simp, o1, h1, hd⟩
    · obtain ⟨u, hu, r⟩ := ihl h2 d hd
      exact ⟨u, by simp [hu], r⟩

theorem generateTypes_defOk (t : Ty) : ∀ defs, generateTypes t = .ok defs → ∀ d ∈ defs, DefOk d := by
  induction t using Ty.ind with
  | a e ih => intro defs h; exact ih defs (by simpa [generateTypes] using h)
  | m e ih => intro defs h; exact ih defs (by simpa [generateTypes] using h)
  | tuple ts ih =>
    intro defs h d hd
    simp only [generateTypes, Res.bind_eq_ok] at h
    obtain ⟨o, h1, d', h2, h⟩ := h
    simp at h; subst h
    rcases List.mem_append.1 hd with hd | hd
    · obtain ⟨u, hu, ds, hds, hd⟩ := generateTypesAll_mem h1 d hd
      exact ih u hu ds hds d hd
    · simp at hd; subst hd
      obtain ⟨e1, e2, e3⟩ := generateTuple_ty h2
      exact ⟨by rw [e1]; rfl, by rw [e2, e1], by rw [e1, e3]; rfl, by rw [e1, e3, h2]⟩
  | dict k v ihk ihv =>
    intro defs h d hd
    simp only [generateTypes, Res.bind_eq_ok] at h
    obtain ⟨o1, h1, o2, h2, d', h3, h⟩ := h
    simp at h; subst h
    simp only [List.mem_append, List.mem_singleton] at hd
    rcases hd with hd | hd | hd
    · exact ihk o1 h1 d hd
    · exact ihv o2 h2 d hd
    · subst hd
      obtain ⟨e1, e2, e3⟩ := generateTuple_ty h3
      exact ⟨by rw [e1]; rfl, by rw [e2, e1], by rw [e1, e3]; rfl, by rw [e1, e3, h3]⟩
  | _ => intro defs h; simp [generateTypes] at h; subst h; simp

theorem mem_structOccsAll {c : Ty} {ts : List Ty} :
    c ∈ Spec.structOccsAll ts ↔ ∃ t ∈ ts, c ∈ Spec.structOccs t := by
  induction ts with
  | nil => simp [Spec.structOccsAll]
  | cons t ts ih => simp [Spec.structOccsAll, ih]

theorem mem_structOccs (t : Ty) : ∀ c,
    c ∈ Spec.structOccs t ↔ Spec.Component c t ∧ Spec.isStruct c = true := by
  induction t using Ty.ind with
  | a e ih =>
    intro c; rw [Spec.structOccs, ih]
    constructor
    · rintro ⟨h, hs⟩; exact ⟨.array h, hs⟩
    · rintro ⟨h, hs⟩
      cases h with
      | refl => simp [Spec.isStruct] at hs
      | array h => exact ⟨h, hs⟩
  | m e ih =>
    intro c; rw [Spec.structOccs, ih]
    constructor
    · rintro ⟨h, hs⟩; exact ⟨.maybe h, hs⟩
    · rintro ⟨h, hs⟩
      cases h with
      | refl => simp [Spec.isStruct] at hs
      | maybe h => exact ⟨h, hs⟩
  | tuple ts ih =>
    intro c
    simp only [Spec.structOccs, List.mem_append, mem_structOccsAll, List.mem_singleton]
    constructor
    · rintro (⟨u, hu, h⟩ | rfl)
      · obtain ⟨h, hs⟩ := (ih u hu c).1 h
        exact ⟨.member h hu, hs⟩
      · exact ⟨.refl _, rfl⟩
    · rintro ⟨h, hs⟩
      cases h with
      | refl => exact .inr rfl
      | member h hm => exact .inl ⟨_, hm, (ih _ hm c).2 ⟨h, hs⟩⟩
  | dict k v ihk ihv =>
    intro c
    simp only [Spec.structOccs, List.mem_append, List.mem_singleton, ihk, ihv]
    constructor
    · rintro ((⟨h, hs⟩ | ⟨h, hs⟩) | rfl)
      · exact ⟨.key h, hs⟩
      · exact ⟨.value h, hs⟩
      · exact ⟨.refl _, rfl⟩
    · rintro ⟨h, hs⟩
      cases h with
      | refl => exact .inr rfl
      | key h => exact .inl (.inl ⟨h, hs⟩)
      | value h => exact .inl (.inr ⟨h, hs⟩)
  | _ =>
    intro c
    simp only [Spec.structOccs, List.not_mem_nil, false_iff]
    rintro ⟨h, hs⟩
    cases h; simp [Spec.isStruct] at hs

/-! ### names -/

/-- Bytes `escape` produces that never occur in type strings. -/
def isTypeByte (c : UInt8) : Prop := c ≠ 67 ∧ c ≠ 70 ∧ c ≠ 55 ∧ c ≠ 51

theorem shows_typeByte {ts : List Ty} (ih : ∀ t ∈ ts, ∀ c ∈ t.show, isTypeByte c) :
    ∀ c ∈ Ty.shows ts, isTypeByte c := by
  induction ts with
  | nil => intro c hc; simp [Ty.shows] at hc
  | cons t ts ihl =>
    intro c hc
    simp only [Ty.shows, List.mem_append] at hc
    rcases hc with hc | hc
    · exact ih t (by simp) c hc
    · exact ihl (fun u hu => ih u (by simp [hu])) c hc

theorem show_typeByte (t : Ty) : ∀ c ∈ t.show, isTypeByte c := by
  induction t using Ty.ind with
  | a e ih =>
    intro c hc
    simp only [Ty.show, List.mem_cons] at hc
    rcases hc with rfl | hc
    · simp [isTypeByte]
    · exact ih c hc
  | m e ih =>
    intro c hc
    simp only [Ty.show, List.mem_cons] at hc
    rcases hc with rfl | hc
    · simp [isTypeByte]
    · exact ih c hc
  | tuple ts ih =>
    intro c hc
    have := shows_typeByte ih c
    simp [Ty.show] at hc
    rcases hc with rfl | hc | rfl
    · simp [isTypeByte]
    · exact this hc
    · simp [isTypeByte]
  | dict k v ihk ihv =>
    intro c hc
    simp [Ty.show] at hc
    rcases hc with rfl | hc | hc | rfl
    · simp [isTypeByte]
    · exact ihk c hc
    · exact ihv c hc
    · simp [isTypeByte]
  | _ => intro c hc; simp [Ty.show] at hc; subst hc; simp [isTypeByte]

/-- Left inverse of `escape` on type bytes. -/
def unescape (x : Bytes) : Bytes :=
  x.map fun c => if c = 67 then 40 else if c = 70 then 123 else if c = 55 then 41
    else if c = 51 then 125 else c

theorem unescape_escape {x : Bytes} (hx : ∀ c ∈ x, isTypeByte c) : unescape (escape x) = x := by
  simp only [unescape, escape, List.map_map]
  rw [List.map_congr_left (g := id)]
  · simp
  · intro c hc
    obtain ⟨a1, a2, a3, a4⟩ := hx c hc
    simp only [Function.comp]
    by_cases h1 : c = 40
    · subst h1; rfl
    by_cases h2 : c = 123
    · subst h2; rfl
    by_cases h3 : c = 41
    · subst h3; rfl
    by_cases h4 : c = 125
    · subst h4; rfl
    simp [h1, h2, h3, h4, a1, a2, a3, a4]

theorem escape_inj {x y : Bytes} (hx : ∀ c ∈ x, isTypeByte c) (hy : ∀ c ∈ y, isTypeByte c)
    (h : escape x = escape y) : x = y := by
  rw [← unescape_escape hx, h, unescape_escape hy]

theorem structName_inj {t u : Ty} (h : structName t = structName u) : t = u := by
  have := escape_inj (show_typeByte t) (show_typeByte u) (List.append_cancel_left h)
  have h1 := (one_eq_some_iff t.show t).2 rfl
  rw [this, (one_eq_some_iff u.show u).2 rfl] at h1
  simpa using h1.symm

end GV
