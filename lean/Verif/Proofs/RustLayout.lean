import Verif.Proofs.Table
/- Rust's layout of the generated structs agrees with the specification (C07). -/
namespace GV

/-- (size, alignment) of a fixed-size type -/
def lay (t : Ty) : Nat × Nat := ((Spec.size t).getD 0, Spec.align t)

/-- layouts of the fields `packFields` -/
def packLays : Nat → List Ty → List (Nat × Nat)
  | _, [] => []
  | pos, t :: ts =>
    let st := Spec.roundUp pos (Spec.align t)
    (if st - pos > 0 then [(st - pos, 1)] else []) ++
      lay t :: packLays (st + (Spec.size t).getD 0) ts

theorem fieldLayouts_append (ms : List (Nat × Nat)) (fs gs : List Field) :
    fieldLayouts ms (fs ++ gs) = (fieldLayouts ms fs >>= fun a => fieldLayouts ms gs >>= fun b =>
      .ok (a ++ b)) := by
  induction fs with
  | nil => simp [fieldLayouts]; cases fieldLayouts ms gs <;> simp
  | cons f fs ih =>
    cases f with
    | pad n =>
      simp only [List.cons_append, fieldLayouts, ih]
      cases fieldLayouts ms fs <;> simp
      cases fieldLayouts ms gs <;> simp
    | mem k =>
      simp only [List.cons_append, fieldLayouts, ih]
      cases Res.unwrap ms[k]? <;> simp
      cases fieldLayouts ms fs <;> simp
      cases fieldLayouts ms gs <;> simp

theorem fieldLayouts_pack (all : List Ty) (ts : List Ty) : ∀ (n pos : Nat), all.drop n = ts →
    fieldLayouts (all.map lay) (packFields n pos ts) = .ok (packLays pos ts) := by
  induction ts with
  | nil => intro n pos _; simp [packFields, fieldLayouts, packLays]
  | cons t ts ih =>
    intro n pos h
    have hn : all[n]? = some t := by
      have := congrArg (fun l => l[0]?) h
      simpa using this
    have hd : all.drop (n + 1) = ts := by
      have := congrArg List.tail h
      simpa using this
    have hih := ih (n + 1) (Spec.roundUp pos (Spec.align t) + (Spec.size t).getD 0) hd
    simp only [packFields, packLays]
    rw [fieldLayouts_append]
    have h2 : fieldLayouts (all.map lay)
        (.mem n :: packFields (n + 1) (Spec.roundUp pos (Spec.align t) + (Spec.size t).getD 0) ts)
        = .ok (lay t :: packLays (Spec.roundUp pos (Spec.align t) + (Spec.size t).getD 0) ts) := by
      simp [fieldLayouts, hn, hih]
    rw [h2]
    split <;> simp [fieldLayouts]

theorem reprCLoop_append (pos : Nat) (fs gs : List (Nat × Nat)) :
    reprCLoop pos (fs ++ gs) =
      ((reprCLoop pos fs).1 ++ (reprCLoop (reprCLoop pos fs).2 gs).1,
        (reprCLoop (reprCLoop pos fs).2 gs).2) := by
  induction fs generalizing pos with
  | nil => simp [reprCLoop]
  | cons f fs ih => obtain ⟨s, al⟩ := f; simp [reprCLoop, ih]

theorem memberOffsets_append (fs gs : List Field) (os ps : List Nat) (h : fs.length = os.length) :
    memberOffsets (fs ++ gs) (os ++ ps) = memberOffsets fs os ++ memberOffsets gs ps := by
  induction fs generalizing os with
  | nil => cases os <;> simp [memberOffsets] at *
  | cons f fs ih =>
    cases os with
    | nil => simp at h
    | cons o os =>
      simp at h
      cases f <;> simp [memberOffsets, ih os h]

theorem reprCLoop_length (pos : Nat) (fs : List (Nat × Nat)) :
    (reprCLoop pos fs).1.length = fs.length := by
  induction fs generalizing pos with
  | nil => simp [reprCLoop]
  | cons f fs ih => obtain ⟨s, al⟩ := f; simp [reprCLoop, ih]

theorem pack_lengths (ts : List Ty) : ∀ n pos, (packFields n pos ts).length = (packLays pos ts).length := by
  induction ts with
  | nil => intros; rfl
  | cons t ts ih => intro n pos; simp only [packFields, packLays]; split <;> simp [ih]

theorem reprC_pack (ts : List Ty) : ∀ (n pos : Nat), (∀ t ∈ ts, (Spec.size t).isSome) →
    memberOffsets (packFields n pos ts) (reprCLoop pos (packLays pos ts)).1 = Spec.startsFrom pos ts ∧
    Spec.endAfter pos ts = some (reprCLoop pos (packLays pos ts)).2 := by
  induction ts with
  | nil => intro n pos _; simp [packFields, packLays, reprCLoop, memberOffsets, Spec.startsFrom, Spec.endAfter]
  | cons t ts ih =>
    intro n pos hsz
    obtain ⟨sz, hs⟩ := Option.isSome_iff_exists.1 (hsz t (by simp))
    have hal := specAlign_isAl t
    obtain ⟨h1, h2⟩ := ih (n + 1) (Spec.roundUp pos (Spec.align t) + sz) (fun u hu => hsz u (by simp [hu]))
    have hle := le_roundUp hal.pos pos
    have hself : Spec.roundUp (Spec.roundUp pos (Spec.align t)) (Spec.align t) = Spec.roundUp pos (Spec.align t) :=
      roundUp_of_dvd hal.pos (roundUp_dvd _ _)
    simp only [packFields, packLays, hs, Option.getD_some, Spec.startsFrom, Spec.endAfter, lay]
    split
    · rename_i hp
      have e1 : (pos + 1 - 1) / 1 * 1 + (Spec.roundUp pos (Spec.align t) - pos) = Spec.roundUp pos (Spec.align t) := by omega
      have hself' := hself
      unfold Spec.roundUp at hself'
      simp only [List.singleton_append, reprCLoop, memberOffsets, e1]
      rw [show (Spec.roundUp pos (Spec.align t) + Spec.align t - 1) / Spec.align t * Spec.align t
        = Spec.roundUp pos (Spec.align t) from hself]
      exact ⟨by rw [h1], h2⟩
    · rename_i hp
      have e1 : pos = Spec.roundUp pos (Spec.align t) := by omega
      simp only [List.nil_append, reprCLoop, memberOffsets]
      rw [show (pos + Spec.align t - 1) / Spec.align t * Spec.align t = Spec.roundUp pos (Spec.align t) from rfl]
      exact ⟨by rw [h1], h2⟩

theorem reprCAlign_append (fs gs : List (Nat × Nat)) :
    reprCAlign (fs ++ gs) = max (reprCAlign fs) (reprCAlign gs) := by
  induction fs with
  | nil =>
    have : 1 ≤ reprCAlign gs := by
      induction gs with
      | nil => simp [reprCAlign]
      | cons g gs ih => simp only [reprCAlign, List.foldr_cons] at *; omega
    simp only [List.nil_append]; unfold reprCAlign at *; simp; omega
  | cons f fs ih => simp only [reprCAlign, List.cons_append, List.foldr_cons] at *; omega

theorem reprCAlign_pack (ts : List Ty) : ∀ pos, reprCAlign (packLays pos ts) = Spec.alignMax ts := by
  induction ts with
  | nil => intro pos; rfl
  | cons t ts ih =>
    intro pos
    have h := ih (Spec.roundUp pos (Spec.align t) + (Spec.size t).getD 0)
    have hp := (specAlign_isAl t).pos
    have hp' := (alignMax_isAl ts).pos
    simp only [packLays, Spec.alignMax]
    rw [reprCAlign_append]
    have h2 : reprCAlign (lay t :: packLays (Spec.roundUp pos (Spec.align t) + (Spec.size t).getD 0) ts)
        = max (Spec.align t) (Spec.alignMax ts) := by
      simp only [reprCAlign, List.foldr_cons, lay] at *
      rw [h]
    rw [h2]
    split
    · simp [reprCAlign]; omega
    · simp [reprCAlign]; omega

/-- members of a fixed-size structure are fixed-size -/
theorem endAfter_isSome {ts : List Ty} : ∀ {pos e : Nat}, Spec.endAfter pos ts = some e →
    ∀ t ∈ ts, (Spec.size t).isSome := by
  induction ts with
  | nil => intro pos e _ t ht; simp at ht
  | cons u ts ih =>
    intro pos e h t ht
    simp only [Spec.endAfter] at h
    split at h
    · simp at h
    · rename_i n hn
      rcases List.mem_cons.1 ht with rfl | ht
      · simp [hn]
      · exact ih h t ht

theorem size_tuple_members {ts : List Ty} {n : Nat} (h : Spec.size (.tuple ts) = some n) :
    ∃ e, Spec.endAfter 0 ts = some e ∧ (∀ t ∈ ts, (Spec.size t).isSome) ∧
      n = if ts = [] then 1 else Spec.roundUp e (Spec.alignMax ts) := by
  simp only [Spec.size] at h
  split at h
  · simp at h
  · rename_i e he
    exact ⟨e, he, endAfter_isSome he, by simpa using h.symm⟩

theorem endAfter_le_size {ts : List Ty} {n e : Nat} (h : Spec.size (.tuple ts) = some n)
    (he : Spec.endAfter 0 ts = some e) : e ≤ n := by
  obtain ⟨e', he', _, hn⟩ := size_tuple_members h
  rw [he] at he'; cases he'
  rw [hn]
  split
  · rename_i hts; subst hts; simp [Spec.endAfter] at he; omega
  · exact le_roundUp (alignMax_isAl ts).pos e

/-- Padding appended at the end of a packed struct of members `ts` and size `n`. -/
def tailPad (ts : List Ty) (n : Nat) : Nat := n - (Spec.endAfter 0 ts).getD 0

theorem tailPad_lt {ts : List Ty} {n : Nat} (h : Spec.size (.tuple ts) = some n) :
    tailPad ts n < 8 := by
  obtain ⟨e, he, _, hn⟩ := size_tuple_members h
  simp only [tailPad, he, Option.getD_some]
  rw [hn]
  split
  · omega
  · have := roundUp_lt (alignMax_isAl ts).pos e
    rcases alignMax_isAl ts with h | h | h | h <;> rw [h] at this ⊢ <;> omega

/-- What `write_packed_struct` emits for a structure whose size is that of the tuple of its
    members, when it does not panic. -/
theorem writePackedStruct_ok {gv : Ty} {ts : List Ty} {n : Nat} {p : Packed}
    (hgv : Spec.size gv = Spec.size (.tuple ts)) (hn : Spec.size gv = some n)
    (h : writePackedStruct gv ts = .ok p) :
    p.fields = packFields 0 0 ts ++ (if tailPad ts n > 0 then [.pad (tailPad ts n)] else []) ∧
    p.cmds = packCmds 0 0 ts ++ (if tailPad ts n > 0 then [.zeros (tailPad ts n)] else []) := by
  obtain ⟨e, he, hsz, _⟩ := size_tuple_members (hgv ▸ hn)
  have hb : IsAl 1 := Or.inl rfl
  have h0 : Spec.roundUp 0 1 + 0 = 0 := rfl
  have hpk := (packedLoop_ok ts (-1) 0 1 0 0 hb hsz).2
  rw [h0] at hpk
  unfold writePackedStruct generateTable at h
  rw [Res.bind_eq_ok] at h
  obtain ⟨⟨out, lastEnd⟩, hx, h⟩ := h
  obtain ⟨he', ho⟩ := hpk out lastEnd hx
  rw [he] at he'; cases he'
  have hle : e ≤ n := endAfter_le_size (hgv ▸ hn) he
  have hsz' : sizeOf gv = some n := by rw [sizeOf_eq]; exact hn
  simp only [hsz', Res.unwrap_some, Res.bind_ok] at h
  rw [if_neg (by omega)] at h
  subst ho
  have htp : tailPad ts n = n - e := by simp [tailPad, he]
  rw [htp]
  split at h
  · rename_i hp
    simp at h; subst h; simp [hp]
  · rename_i hp
    simp at h; subst h
    have hp' : ¬ n - e > 0 := hp
    simp only [hp', if_false, List.append_nil]
    trivial

theorem writePackedStruct_isOk {gv : Ty} {ts : List Ty} {n : Nat}
    (hgv : Spec.size gv = Spec.size (.tuple ts)) (hn : Spec.size gv = some n) :
    (∃ p, writePackedStruct gv ts = .ok p) ↔ ∀ r ∈ generateTable ts, noCarry r := by
  obtain ⟨e, he, hsz, _⟩ := size_tuple_members (hgv ▸ hn)
  have hb : IsAl 1 := Or.inl rfl
  have h0 : Spec.roundUp 0 1 + 0 = 0 := rfl
  have hpk := packedLoop_ok ts (-1) 0 1 0 0 hb hsz
  rw [h0] at hpk
  have hle : e ≤ n := endAfter_le_size (hgv ▸ hn) he
  have hsz' : sizeOf gv = some n := by rw [sizeOf_eq]; exact hn
  unfold generateTable
  rw [← hpk.1]
  unfold writePackedStruct generateTable
  constructor
  · rintro ⟨p, h⟩
    rw [Res.bind_eq_ok] at h
    obtain ⟨x, hx, _⟩ := h
    exact ⟨x, hx⟩
  · rintro ⟨⟨out, e'⟩, hx⟩
    have := (hpk.2 out e' hx).1
    rw [he] at this; cases this
    simp only [hx, Res.bind_ok, hsz', Res.unwrap_some]
    rw [if_neg (by omega)]
    split <;> exact ⟨_, rfl⟩

/-- Layout of a packed struct with known member layouts. -/
theorem packed_layout {gv : Ty} {ts : List Ty} {n : Nat} {p : Packed}
    (hgv : Spec.size gv = Spec.size (.tuple ts)) (hn : Spec.size gv = some n)
    (h : writePackedStruct gv ts = .ok p) :
    ∃ fs, fieldLayouts (ts.map lay) p.fields = .ok fs ∧ reprCSize fs = n ∧
      reprCAlign fs = Spec.alignMax ts ∧
      memberOffsets p.fields (reprCLoop 0 fs).1 = Spec.startsFrom 0 ts := by
  obtain ⟨hf, _⟩ := writePackedStruct_ok hgv hn h
  have hgn : Spec.size (.tuple ts) = some n := hgv ▸ hn
  obtain ⟨e, he, hsz, hn'⟩ := size_tuple_members hgn
  obtain ⟨hr1, hr2⟩ := reprC_pack ts 0 0 hsz
  rw [he] at hr2
  have hr2' : (reprCLoop 0 (packLays 0 ts)).2 = e := by simpa using hr2.symm
  have htp : tailPad ts n = n - e := by simp [tailPad, he]
  have hle := endAfter_le_size hgn he
  have hal := (alignMax_isAl ts)
  have hra := reprCAlign_pack ts 0
  have hdvd : Spec.alignMax ts ∣ n := by
    have := (size_pos_dvd (.tuple ts) n hgn).2
    simpa [Spec.align] using this
  rw [hf]
  refine ⟨packLays 0 ts ++ (if tailPad ts n > 0 then [(tailPad ts n, 1)] else []), ?_, ?_, ?_, ?_⟩
  · rw [fieldLayouts_append, fieldLayouts_pack ts ts 0 0 (by simp)]
    split <;> simp [fieldLayouts]
  · have halign : reprCAlign (packLays 0 ts ++ (if tailPad ts n > 0 then [(tailPad ts n, 1)] else []))
        = Spec.alignMax ts := by
      rw [reprCAlign_append, hra]
      have := hal.pos
      split <;> simp [reprCAlign] <;> omega
    have hend : (reprCLoop 0 (packLays 0 ts ++ (if tailPad ts n > 0 then [(tailPad ts n, 1)] else []))).2
        = n := by
      rw [reprCLoop_append, hr2']
      split
      · simp [reprCLoop]; omega
      · simp [reprCLoop]; omega
    unfold reprCSize
    rw [halign, hend]
    exact roundUp_of_dvd hal.pos hdvd
  · rw [reprCAlign_append, hra]
    have := hal.pos
    split <;> simp [reprCAlign] <;> omega
  · rw [reprCLoop_append]
    simp only
    rw [memberOffsets_append _ _ _ _ (by rw [pack_lengths, reprCLoop_length]), hr1]
    split <;> simp [memberOffsets, reprCLoop]

theorem generateTuple_packed {spec : Ty} {ts : List Ty} {n : Nat} {d : StructDef}
    (hn : Spec.size spec = some n) (h : generateTuple spec ts = .ok d) :
    ∃ p, writePackedStruct spec ts = .ok p ∧ d = ⟨spec, structName spec, ts, .packed p⟩ := by
  unfold generateTuple at h
  rw [sizeOf_eq, hn] at h
  simp only [Option.isSome_some, if_true] at h
  rw [Res.bind_eq_ok] at h
  obtain ⟨p, hp, h⟩ := h
  simp at h
  exact ⟨p, hp, h.symm⟩

instance (t : Ty) : Decidable (Expands t) :=
  decidable_of_iff ((generateTypes t).isOk = true) (by
    unfold Expands
    cases generateTypes t <;> simp [Res.isOk])

theorem expands_A {e : Ty} : Expands (.A e) ↔ Expands e := by simp [Expands, generateTypes]
theorem expands_M {e : Ty} : Expands (.M e) ↔ Expands e := by simp [Expands, generateTypes]

theorem generateTypesAll_ok {ts : List Ty} {defs} (h : generateTypesAll ts = .ok defs) :
    ∀ t ∈ ts, Expands t := by
  induction ts generalizing defs with
  | nil => intro t ht; simp at ht
  | cons u ts ih =>
    intro t ht
    simp only [generateTypesAll, Res.bind_eq_ok] at h
    obtain ⟨o1, h1, o2, h2, _⟩ := h
    rcases List.mem_cons.1 ht with rfl | ht
    · exact ⟨o1, h1⟩
    · exact ih h2 t ht

theorem generateTypesAll_ok' {ts : List Ty} (h : ∀ t ∈ ts, Expands t) :
    ∃ defs, generateTypesAll ts = .ok defs := by
  induction ts with
  | nil => exact ⟨_, rfl⟩
  | cons u ts ih =>
    obtain ⟨o1, h1⟩ := h u (by simp)
    obtain ⟨o2, h2⟩ := ih fun t ht => h t (by simp [ht])
    exact ⟨o1 ++ o2, by simp [generateTypesAll, h1, h2]⟩

theorem expands_tuple {ts : List Ty} :
    Expands (.tuple ts) ↔ (∀ t ∈ ts, Expands t) ∧ ∃ d, generateTuple (.tuple ts) ts = .ok d := by
  constructor
  · rintro ⟨defs, h⟩
    simp only [generateTypes, Res.bind_eq_ok] at h
    obtain ⟨o, h1, d, h2, _⟩ := h
    exact ⟨generateTypesAll_ok h1, d, h2⟩
  · rintro ⟨h, d, hd⟩
    obtain ⟨o, ho⟩ := generateTypesAll_ok' h
    exact ⟨o ++ [d], by simp [generateTypes, ho, hd]⟩

theorem expands_dict {k v : Ty} :
    Expands (.dict k v) ↔ (Expands k ∧ Expands v) ∧ ∃ d, generateTuple (.dict k v) [k, v] = .ok d := by
  constructor
  · rintro ⟨defs, h⟩
    simp only [generateTypes, Res.bind_eq_ok] at h
    obtain ⟨o, h1, o2, h2, d, h3, _⟩ := h
    exact ⟨⟨⟨o, h1⟩, ⟨o2, h2⟩⟩, d, h3⟩
  · rintro ⟨⟨⟨o, h1⟩, ⟨o2, h2⟩⟩, d, h3⟩
    exact ⟨o ++ o2 ++ [d], by simp [generateTypes, h1, h2, h3]⟩

theorem rustLayouts_ok {ts : List Ty} (h : ∀ t ∈ ts, rustLayout t = .ok (lay t)) :
    rustLayouts ts = .ok (ts.map lay) := by
  induction ts with
  | nil => rfl
  | cons t ts ih =>
    simp [rustLayouts, h t (by simp), ih fun u hu => h u (by simp [hu])]

/-- `size_of::<T>()` and `align_of::<T>()` of the Rust type of a fixed-size type. -/
theorem rustLayout_ok (t : Ty) : ∀ n, Spec.size t = some n → Expands t →
    rustLayout t = .ok (n, Spec.align t) := by
  induction t using Ty.ind with
  | tuple ts ih =>
    intro n hn hx
    obtain ⟨hc, d, hd⟩ := expands_tuple.1 hx
    obtain ⟨p, hp, _⟩ := generateTuple_packed hn hd
    obtain ⟨fs, h1, h2, h3, _⟩ := packed_layout rfl hn hp
    obtain ⟨e, he, hsz, _⟩ := size_tuple_members hn
    have hls : rustLayouts ts = .ok (ts.map lay) := rustLayouts_ok fun t ht => by
      obtain ⟨m, hm⟩ := Option.isSome_iff_exists.1 (hsz t ht)
      rw [ih t ht m hm (hc t ht), lay, hm]; rfl
    simp [rustLayout, hp, hls, h1, h2, h3, Spec.align]
  | dict k v ihk ihv =>
    intro n hn hx
    obtain ⟨⟨hk, hv⟩, d, hd⟩ := expands_dict.1 hx
    obtain ⟨p, hp, _⟩ := generateTuple_packed hn hd
    obtain ⟨fs, h1, h2, h3, _⟩ := packed_layout (size_dict_eq k v) hn hp
    obtain ⟨e, he, hsz, _⟩ := size_tuple_members (size_dict_eq k v ▸ hn)
    obtain ⟨mk, hmk⟩ := Option.isSome_iff_exists.1 (hsz k (by simp))
    obtain ⟨mv, hmv⟩ := Option.isSome_iff_exists.1 (hsz v (by simp))
    have hk' := ihk mk hmk hk
    have hv' := ihv mv hmv hv
    have hal := align_dict_eq k v
    simp only [List.map, lay, hmk, hmv, Option.getD_some] at h1
    rw [hal]
    simp only [rustLayout, hp, hk', hv', h1, h2, h3, Res.bind_ok, Res.pure_eq, Spec.align]
  | _ => intro n hn _; simp [Spec.size] at hn <;> subst hn <;> rfl

/-- Offsets of the members in the generated struct. -/
theorem fieldOffsets_ok {gv : Ty} {ts : List Ty} {n : Nat}
    (hgv : Spec.size gv = Spec.size (.tuple ts)) (hn : Spec.size gv = some n)
    (hx : ∀ t ∈ ts, Expands t) {d} (hd : generateTuple gv ts = .ok d) :
    fieldOffsets gv ts = .ok (Spec.startsFrom 0 ts) := by
  obtain ⟨p, hp, _⟩ := generateTuple_packed hn hd
  obtain ⟨fs, h1, h2, h3, h4⟩ := packed_layout hgv hn hp
  obtain ⟨e, he, hsz, _⟩ := size_tuple_members (hgv ▸ hn)
  have hls : rustLayouts ts = .ok (ts.map lay) := rustLayouts_ok fun t ht => by
    obtain ⟨m, hm⟩ := Option.isSome_iff_exists.1 (hsz t ht)
    rw [rustLayout_ok t m hm (hx t ht), lay, hm]; rfl
  simp [fieldOffsets, hp, hls, h1, h4]

end GV
