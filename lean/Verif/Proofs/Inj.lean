import Verif.Proofs.RoundTrip
/-
Different values have different encodings, even with padded last elements; and when padding the last
elements makes no difference.
-/
namespace GV
open Spec

/-- Body of an encoded variable-width array. -/
def arrBody (E : Enc) (e : Ty) (bs : List Bytes) : Bytes :=
  laid 0 (bs.map fun b => (e, b)) ++
    zeros (if E.padLast then roundUp (laid 0 (bs.map fun b => (e, b))).length (Spec.align e) -
      (laid 0 (bs.map fun b => (e, b))).length else 0)

theorem encArr_eq (E : Enc) (e : Ty) (bs : List Bytes) : encArr E e bs =
    arrBody E e bs ++ frames (arrBody E e bs).length (layEnds 0 (bs.map fun b => (e, b))) := rfl

theorem encArr_nil (E : Enc) (e : Ty) : encArr E e [] = [] := by
  have h : roundUp 0 (Spec.align e) = 0 := roundUp_of_dvd (specAlign_isAl e).pos (Nat.dvd_zero _)
  simp [encArr, laid, layEnds, frames, h, zeros]

theorem encArr_pos {E : Enc} {e : Ty} {bs : List Bytes} (h : bs ≠ []) : 0 < (encArr E e bs).length := by
  rw [encArr_eq, List.length_append, frames_length]
  have h1 : 0 < (layEnds 0 (bs.map fun b => (e, b))).length := by
    rw [layEnds_length, List.length_map]; exact List.length_pos_iff.2 h
  have := Nat.mul_pos h1 (frameWidth_isWidth (arrBody E e bs).length
    (layEnds 0 (bs.map fun b => (e, b))).length).pos
  omega

theorem arrBody_ends {E : Enc} {e : Ty} {bs : List Bytes} :
    ∀ o ∈ layEnds 0 (bs.map fun b => (e, b)), o ≤ (arrBody E e bs).length := by
  intro o ho
  have := layEnds_le ho
  unfold arrBody
  rw [List.length_append]
  omega

theorem map_inj_of {α β : Type} {f : α → β} : ∀ {l l' : List α}, (∀ x ∈ l, ∀ y ∈ l', f x = f y → x = y) →
    l.map f = l'.map f → l = l' := by
  intro l
  induction l with
  | nil => intro l' _ h; cases l' with
    | nil => rfl
    | cons => simp at h
  | cons x l ih =>
    intro l' h heq
    cases l' with
    | nil => simp at heq
    | cons y l' =>
      simp only [List.map_cons, List.cons.injEq] at heq
      rw [h x (by simp) y (by simp) heq.1, ih (fun a ha b hb => h a (by simp [ha]) b (by simp [hb])) heq.2]

theorem encArr_inj {E : Enc} {e : Ty} {bs bs' : List Bytes}
    (hl : (encArr E e bs).length < 2 ^ 64) (h : encArr E e bs = encArr E e bs') : bs = bs' := by
  by_cases hb : bs = []
  · subst hb
    by_cases hb' : bs' = []
    · exact hb'.symm
    · have := encArr_pos (E := E) (e := e) hb'
      rw [← h, encArr_nil] at this
      simp at this
  · have hb' : bs' ≠ [] := by
      rintro rfl
      have := encArr_pos (E := E) (e := e) hb
      rw [h, encArr_nil] at this
      simp at this
    have hl' := hl
    rw [h] at hl'
    have hne : layEnds 0 (bs.map fun b => (e, b)) ≠ [] := by
      intro h; have := congrArg List.length h; rw [layEnds_length] at this; simp [hb] at this
    have hne' : layEnds 0 (bs'.map fun b => (e, b)) ≠ [] := by
      intro h; have := congrArg List.length h; rw [layEnds_length] at this; simp [hb'] at this
    have h0 := h
    rw [encArr_eq] at hl
    rw [encArr_eq] at hl'
    rw [encArr_eq, encArr_eq] at h
    have l1 := last_frames hne arrBody_ends hl
    have l2 := last_frames hne' arrBody_ends hl'
    rw [h, l2, layEnds_last, layEnds_last] at l1
    have hbody : (arrBody E e bs).length = (arrBody E e bs').length := by
      unfold arrBody
      simp only [List.length_append, zeros_length]
      rw [show (laid 0 (bs.map fun b => (e, b))).length = (laid 0 (bs'.map fun b => (e, b))).length by omega]
    have hw : frameWidth (arrBody E e bs).length (layEnds 0 (bs.map fun b => (e, b))).length =
        frameWidth (arrBody E e bs').length (layEnds 0 (bs'.map fun b => (e, b))).length := by
      rw [← frames_total hne, ← frames_total hne', ← List.length_append, ← List.length_append, h]
    have hn : (layEnds 0 (bs.map fun b => (e, b))).length = (layEnds 0 (bs'.map fun b => (e, b))).length := by
      have := congrArg List.length h
      rw [List.length_append, List.length_append, frames_length, frames_length, hbody, ← hw, hbody] at this
      exact Nat.eq_of_mul_eq_mul_right (frameWidth_isWidth _ _).pos (Nat.add_left_cancel this)
    have hoffs : layEnds 0 (bs.map fun b => (e, b)) = layEnds 0 (bs'.map fun b => (e, b)) := by
      apply List.ext_getElem hn
      intro i h1 h2
      rw [← le_frames arrBody_ends hl h1, ← le_frames arrBody_ends hl' h2, h, hw, hbody]
    have key : ∀ bs : List Bytes, elemsFrom (encArr E e bs) (encArr E e bs).length (Spec.align e) 0
        (layEnds 0 (bs.map fun b => (e, b))) = bs.map some := by
      intro bs
      have := elemsFrom_laid (e := e) (bs.map fun b => (e, b)) (List.forall_mem_map.2 fun _ _ => rfl) []
        (zeros (if E.padLast then roundUp (laid 0 (bs.map fun b => (e, b))).length (Spec.align e) -
          (laid 0 (bs.map fun b => (e, b))).length else 0) ++
          frames (arrBody E e bs).length (layEnds 0 (bs.map fun b => (e, b)))) 0 (encArr E e bs).length rfl
        (by rw [encArr_eq]; unfold arrBody; simp only [List.length_append]; omega)
      have he : ([] : Bytes) ++ laid 0 (bs.map fun b => (e, b)) ++
          (zeros (if E.padLast then roundUp (laid 0 (bs.map fun b => (e, b))).length (Spec.align e) -
            (laid 0 (bs.map fun b => (e, b))).length else 0) ++
          frames (arrBody E e bs).length (layEnds 0 (bs.map fun b => (e, b)))) = encArr E e bs := by
        rw [encArr_eq, List.nil_append]
        conv_rhs => unfold arrBody
        simp [arrBody]
      rw [he] at this
      rw [this]; simp
    have k1 := key bs
    have k2 := key bs'
    rw [h0, hoffs, k2] at k1
    exact (map_inj_of (fun _ _ _ _ h => Option.some.inj h) k1).symm

theorem encAll_inj {E : Enc} {ts : List Ty} : ∀ {vs vs' : List Val}, FitsAll ts vs → FitsAll ts vs' →
    (∀ t ∈ ts, ∀ v v', v ∈ vs → Fits t v → Fits t v' → (t, enc E t v) ∈ encAll E ts vs →
      enc E t v = enc E t v' → v = v') →
    (encAll E ts vs).map (fun m => some m.2) = (encAll E ts vs').map (fun m => some m.2) → vs = vs' := by
  induction ts with
  | nil =>
    intro vs vs' h h' _ _
    cases vs with
    | nil => cases vs' with
      | nil => rfl
      | cons => simp [FitsAll] at h'
    | cons => simp [FitsAll] at h
  | cons t ts ih =>
    intro vs vs' h h' hall heq
    cases vs with
    | nil => simp [FitsAll] at h
    | cons v vs =>
      cases vs' with
      | nil => simp [FitsAll] at h'
      | cons v' vs' =>
        simp only [FitsAll] at h h'
        simp only [encAll, List.map_cons, List.cons.injEq, Option.some.injEq] at heq
        have h1 := hall t (by simp) v v' (by simp) h.1 h'.1 (by simp [encAll]) heq.1
        have h2 := ih h.2 h'.2 (fun u hu w w' hw hf hf' hm he =>
          hall u (by simp [hu]) w w' (by simp [hw]) hf hf' (by simp [encAll, hm]) he) heq.2
        rw [h1, h2]

theorem enc_inj (E : Enc) (t : Ty) : ∀ v v', Fits t v → Fits t v' → (enc E t v).length < 2 ^ 64 →
    enc E t v = enc E t v' → v = v' := by
  have leaf : ∀ t, (∀ v, Fits t v → EvenEnds E t v) → ∀ v v', Fits t v → Fits t v' →
      (enc E t v).length < 2 ^ 64 → enc E t v = enc E t v' → v = v' := by
    intro t hE v v' hf hf' hl h
    have h1 := (trip (R := ⟨E.bigEndian, true, true⟩) (E := E) rfl t v hf hl).1.2 fun _ => hE v hf
    have h2 := (trip (R := ⟨E.bigEndian, true, true⟩) (E := E) rfl t v' hf' (h ▸ hl)).1.2
      fun _ => hE v' hf'
    rw [← h1, h, h2]
  induction t using Ty.ind with
  | a e ih =>
    intro v v' hf hf' hl h
    cases v with
    | arr vs =>
      cases v' with
      | arr vs' =>
        simp only [Fits] at hf hf'
        congr 1
        cases hs : size e with
        | some n =>
          simp only [enc, hs, Option.isSome_some, if_true] at hl h
          have hn : ∀ (us : List Val), (∀ v ∈ us, Fits e v) → ∀ b ∈ us.map (enc E e), b.length = n := by
            intro us hu b hb
            obtain ⟨v, hv, rfl⟩ := List.mem_map.1 hb
            exact enc_length E e v n (hu v hv) hs
          have hp := (size_pos_dvd e n hs).1
          have := congrArg (chunks n) h
          rw [chunks_flatten hp (hn vs hf), chunks_flatten hp (hn vs' hf')] at this
          exact map_inj_of (fun x hx y hy hxy => ih x y (hf x hx) (hf' y hy)
            (Nat.lt_of_le_of_lt (mem_flatten_length (List.mem_map_of_mem hx)) hl) hxy) this
        | none =>
          simp only [enc, hs, Option.isSome_none, Bool.false_eq_true, if_false] at hl h
          have := encArr_inj hl h
          exact map_inj_of (fun x hx y hy hxy => ih x y (hf x hx) (hf' y hy)
            (Nat.lt_of_le_of_lt (mem_encArr_length (List.mem_map_of_mem hx)) hl) hxy) this
      | _ => simp [Fits] at hf'
    | _ => simp [Fits] at hf
  | m e ih =>
    intro v v' hf hf' hl h
    have hj : ∀ x, Fits e x → enc E (.M e) (.just x) ≠ [] := by
      intro x hx he
      have := congrArg List.length he
      simp only [enc, List.length_append, List.length_nil] at this
      cases hs : size e with
      | none => simp [hs] at this
      | some n =>
        have h1 := enc_length E e x n hx hs
        have h2 := (size_pos_dvd e n hs).1
        omega
    have hn : enc E (.M e) .nothing = [] := by simp [enc]
    cases v with
    | nothing =>
      cases v' with
      | nothing => rfl
      | just y => simp only [Fits] at hf'; exact absurd (h.symm.trans hn) (hj y hf')
      | _ => simp [Fits] at hf'
    | just x =>
      simp only [Fits] at hf
      cases v' with
      | nothing => exact absurd (h.trans hn) (hj x hf)
      | just y =>
        simp only [Fits] at hf'
        simp only [enc] at h hl
        rw [List.length_append] at hl
        rw [ih x y hf hf' (by omega) (List.append_cancel_right h)]
      | _ => simp [Fits] at hf'
    | _ => simp [Fits] at hf
  | tuple ts ih =>
    intro v v' hf hf' hl h
    cases v with
    | tup vs =>
      cases v' with
      | tup vs' =>
        simp only [Fits] at hf hf'
        simp only [enc] at hl h
        have hc : ∀ us, FitsAll ts us → (encStruct (size (.tuple ts)) (encAll E ts us)).length < 2 ^ 64 →
            memberChildren (.pdf false) ts (encStruct (size (.tuple ts)) (encAll E ts us)) =
              (encAll E ts us).map fun m => some m.2 := fun us hu hlu =>
          memberChildren_encStruct (encAll_types hu) (by
            intro m hm n hn
            obtain ⟨t, _, v, _, hv, rfl⟩ := encAll_mem hu m hm
            exact enc_length E t v n hv hn) hlu
        have h1 := hc vs hf hl
        have h2 := hc vs' hf' (h ▸ hl)
        rw [h, h2] at h1
        congr 1
        exact encAll_inj hf hf' (fun t ht v v' _ hv hv' hm he => ih t ht v v' hv hv'
          (Nat.lt_of_le_of_lt (mem_encStruct_length hm) hl) he) h1.symm
      | _ => simp [Fits] at hf'
    | _ => simp [Fits] at hf
  | dict k w ihk ihw =>
    intro v v' hf hf' hl h
    have hshape : ∀ u, Fits (.dict k w) u → ∃ x y, u = .tup [x, y] ∧ Fits k x ∧ Fits w y := by
      intro u hu
      cases u with
      | tup us =>
        match us, hu with
        | [x, y], hu => simp only [Fits] at hu; exact ⟨x, y, rfl, hu.1, hu.2⟩
        | [], hu => simp [Fits] at hu
        | [_], hu => simp [Fits] at hu
        | _ :: _ :: _ :: _, hu => simp [Fits] at hu
      | _ => simp [Fits] at hu
    obtain ⟨x, y, rfl, hx, hy⟩ := hshape v hf
    obtain ⟨x', y', rfl, hx', hy'⟩ := hshape v' hf'
    have hz : ∀ x y, enc E (.dict k w) (.tup [x, y]) =
        encStruct (size (.tuple [k, w])) [(k, enc E k x), (w, enc E w y)] := by
      intro x y; rw [enc, size_dict_eq]
    rw [hz] at hl
    rw [hz, hz] at h
    have hc : ∀ x y, Fits k x → Fits w y →
        (encStruct (size (.tuple [k, w])) [(k, enc E k x), (w, enc E w y)]).length < 2 ^ 64 →
        memberChildren (.pdf false) [k, w]
          (encStruct (size (.tuple [k, w])) [(k, enc E k x), (w, enc E w y)]) =
          [some (enc E k x), some (enc E w y)] := fun x y hx hy hlu =>
      memberChildren_encStruct (ts := [k, w]) (ms := [(k, enc E k x), (w, enc E w y)]) rfl (by
        intro m hm n hn
        simp only [List.mem_cons, List.not_mem_nil, or_false] at hm
        rcases hm with rfl | rfl
        · exact enc_length E k x n hx hn
        · exact enc_length E w y n hy hn) hlu
    have h1 := hc x y hx hy hl
    have h2 := hc x' y' hx' hy' (h ▸ hl)
    rw [h, h2] at h1
    simp only [List.cons.injEq, Option.some.injEq, and_true] at h1
    rw [ihk x x' hx hx' (Nat.lt_of_le_of_lt (mem_encStruct_length (m := (k, enc E k x)) (by simp)) hl)
        h1.1.symm,
      ihw y y' hy hy' (Nat.lt_of_le_of_lt (mem_encStruct_length (m := (w, enc E w y)) (by simp)) hl)
        h1.2.symm]
  | _ => exact leaf _ (by intro v hf; cases v <;> simp [Fits] at hf <;> simp [EvenEnds])

/-! ### Padding the last elements -/

theorem encAll_even {be : Bool} {ts : List Ty} : ∀ {vs : List Val}, EvenEndsAll (.crate be) ts vs →
    (∀ t ∈ ts, ∀ v, EvenEnds (.crate be) t v → enc (.crate be) t v = enc (.pdf be) t v) →
    encAll (.crate be) ts vs = encAll (.pdf be) ts vs := by
  induction ts with
  | nil => intro vs _ _; cases vs <;> rfl
  | cons t ts ih =>
    intro vs h hall
    cases vs with
    | nil => rfl
    | cons v vs =>
      simp only [EvenEndsAll] at h
      simp only [encAll]
      rw [hall t (by simp) v h.1, ih h.2 fun u hu => hall u (by simp [hu])]

/-- With even ends the crate's layout is the specification's. -/
theorem enc_even (be : Bool) (t : Ty) : ∀ v, EvenEnds (.crate be) t v →
    enc (.crate be) t v = enc (.pdf be) t v := by
  induction t using Ty.ind with
  | a e ih =>
    intro v h
    cases v with
    | arr vs =>
      simp only [EvenEnds] at h
      have hm : vs.map (enc (.crate be) e) = vs.map (enc (.pdf be) e) :=
        List.map_congr_left fun v hv => ih v (h.1 v hv)
      simp only [enc]
      cases hs : size e with
      | some n => simp only [Option.isSome_some, if_true, hm]
      | none =>
        have h2 := h.2 (by simp [hs])
        simp only [Option.isSome_none, Bool.false_eq_true, if_false]
        have hl : (laid 0 ((vs.map (enc (.crate be) e)).map fun b => (e, b))).length =
            (laid 0 (vs.map fun v => (e, enc (.crate be) e v))).length := by rw [List.map_map]; rfl
        unfold encArr
        simp only [Enc.crate, Enc.pdf, if_true, Bool.false_eq_true, if_false] at hm ⊢
        simp only [Enc.crate] at hl h2
        rw [hl, roundUp_of_dvd (specAlign_isAl e).pos h2, hm, Nat.sub_self]
    | _ => simp [enc]
  | m e ih =>
    intro v h
    cases v with
    | just x => simp only [EvenEnds] at h; simp only [enc, ih x h]
    | _ => simp [enc]
  | tuple ts ih =>
    intro v h
    cases v with
    | tup vs => simp only [EvenEnds] at h; simp only [enc]; rw [encAll_even h ih]
    | _ => simp [enc]
  | dict k w ihk ihw =>
    intro v h
    cases v with
    | tup vs =>
      match vs, h with
      | [x, y], h => simp only [EvenEnds] at h; simp only [enc, ihk x h.1, ihw y h.2]
      | [], _ => simp [enc]
      | [_], _ => simp [enc]
      | _ :: _ :: _ :: _, _ => simp [enc]
    | _ => simp [enc]
  | _ => intro v _; cases v <;> simp [enc, Enc.crate, Enc.pdf]

end GV
