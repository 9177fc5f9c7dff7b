import Verif.Spec.Tame
import Verif.Proofs.RoundTrip
/-
Helper lemmas: encodings have no absurdly large framing offsets, so reading them needs no 4 GiB limit.
-/
namespace GV
open Spec

theorem arrFrame_short {body : Bytes} {offs : List Nat} (hne : offs ≠ [])
    (hb : ∀ o ∈ offs, o ≤ body.length) (hl : (body ++ frames body.length offs).length < 2 ^ 64)
    (hbig : 2 ^ 32 ≤ (body ++ frames body.length offs).length)
    (hlast : offs.getLast hne < body.length) (hpad : body.length < offs.getLast hne + 8) :
    (arrFrame (body ++ frames body.length offs)).2 = [] := by
  have hW : offsetWidth (body ++ frames body.length offs).length = frameWidth body.length offs.length := by
    rw [List.length_append]; exact frames_total hne
  have h8 : offsetWidth (body ++ frames body.length offs).length = 8 := by
    unfold offsetWidth
    rw [if_neg (by omega), if_neg (by omega), if_neg (by omega), if_neg (by omega)]
  have hlf := last_frames hne hb hl
  have hfw : frameWidth body.length offs.length = 8 := by rw [← hW, h8]
  have hfl : (body ++ frames body.length offs).length - offs.getLast hne =
      (body.length - offs.getLast hne) + offs.length * 8 := by
    rw [List.length_append, frames_length, hfw]; omega
  unfold arrFrame
  simp only [hlf, hfl]
  rw [h8]
  split
  · rfl
  · rename_i h
    simp only [not_or, Nat.add_mul_mod_self_right, not_not] at h
    omega

/-- The framing offsets of an encoded array, and its elements: those encoded, unless the container is
    small or the array has no elements. -/
theorem encArr_tame {R : Rules} {E : Enc} {e : Ty} {bs : List Bytes} (he : size e = none)
    (hl : (encArr E e bs).length < 2 ^ 63) (hbig : 2 ^ 32 ≤ (encArr E e bs).length) :
    (∀ o ∈ (arrFrame (encArr E e bs)).2, o < 2 ^ 63) ∧
    ∀ x, some x ∈ arrChildren R e (encArr E e bs) → x ∈ bs := by
  by_cases hd : E.padLast = true → Spec.align e ∣ (laid 0 (bs.map fun b => (e, b))).length
  · rw [arrChildren_encArr he (Nat.lt_trans hl (by decide)) hd]
    refine ⟨?_, fun x hx => by simpa using hx⟩
    have hz : zeros (if E.padLast then roundUp (laid 0 (bs.map fun b => (e, b))).length (Spec.align e) -
        (laid 0 (bs.map fun b => (e, b))).length else 0) = [] := by
      split
      · rename_i h
        rw [roundUp_of_dvd (specAlign_isAl e).pos (hd h)]; simp [zeros]
      · rfl
    have henc : encArr E e bs = laid 0 (bs.map fun b => (e, b)) ++
        frames (laid 0 (bs.map fun b => (e, b))).length (layEnds 0 (bs.map fun b => (e, b))) := by
      simp only [encArr, hz, List.append_nil]
    rw [henc] at hl ⊢
    cases bs with
    | nil => intro o ho; simp [laid, layEnds, frames, arrFrame] at ho
    | cons b bs =>
      have hne : layEnds 0 ((b :: bs).map fun b => (e, b)) ≠ [] := by simp [layEnds]
      have hlast := layEnds_last hne
      rw [Nat.zero_add] at hlast
      rw [arrFrame_enc hne (fun o ho => by simpa using layEnds_le ho) (Nat.lt_trans hl (by decide)) hlast]
      intro o ho
      have := layEnds_le ho
      rw [List.length_append] at hl
      omega
  · have hE : E.padLast = true := by
      by_contra h; exact hd fun h' => absurd h' h
    have hp : ¬ Spec.align e ∣ (laid 0 (bs.map fun b => (e, b))).length := fun h => hd fun _ => h
    have hle := le_roundUp (specAlign_isAl e).pos (laid 0 (bs.map fun b => (e, b))).length
    have hlt8 := roundUp_lt (specAlign_isAl e).pos (laid 0 (bs.map fun b => (e, b))).length
    have hal : Spec.align e ≤ 8 := by have := (specAlign_isAl e).cases; omega
    have hlt : (laid 0 (bs.map fun b => (e, b))).length <
        roundUp (laid 0 (bs.map fun b => (e, b))).length (Spec.align e) := by
      rcases Nat.lt_or_ge (laid 0 (bs.map fun b => (e, b))).length
        (roundUp (laid 0 (bs.map fun b => (e, b))).length (Spec.align e)) with h | h
      · exact h
      · exact absurd (Nat.le_antisymm hle h ▸ roundUp_dvd _ _) hp
    have hne : layEnds 0 (bs.map fun b => (e, b)) ≠ [] := by
      cases bs with
      | nil => simp [laid] at hp
      | cons b bs => simp [layEnds]
    have hlast := layEnds_last hne
    have hbl : (laid 0 (bs.map fun b => (e, b)) ++
        zeros (roundUp (laid 0 (bs.map fun b => (e, b))).length (Spec.align e) -
          (laid 0 (bs.map fun b => (e, b))).length)).length =
        roundUp (laid 0 (bs.map fun b => (e, b))).length (Spec.align e) := by
      rw [List.length_append, zeros_length]; omega
    simp only [encArr, hE, if_true] at hl hbig ⊢
    have h := arrFrame_short hne (fun o ho => by
      rw [hbl]; have := layEnds_le ho; omega) (Nat.lt_trans hl (by decide)) hbig
      (by rw [hbl]; omega) (by rw [hbl]; omega)
    refine ⟨by rw [h]; simp, ?_⟩
    simp only [arrChildren, he, h, elemsFrom]
    simp

theorem encStruct_frames {ts : List Ty} {ms : List (Ty × Bytes)}
    (ht : ms.map (·.1) = ts) (hl : (encStruct (size (.tuple ts)) ms).length < 2 ^ 63) :
    ∀ i o, i < frameCount ts → frame (encStruct (size (.tuple ts)) ms) i = some o → o < 2 ^ 63 := by
  intro i o hi ho
  cases hs : size (.tuple ts) with
  | some n => rw [frameCount_fixed hs] at hi; omega
  | none =>
    rw [hs] at hl ho
    simp only [encStruct] at hl ho
    have hle : ∀ o ∈ frameEnds 0 ms, o ≤ (laid 0 ms).length := fun o ho => by simpa using frameEnds_le ho
    have hi' : i < (frameEnds 0 ms).length := by rw [frameEnds_length, ht]; exact hi
    rw [frame_frames hle (Nat.lt_trans hl (by decide)) hi'] at ho
    cases ho
    have := hle _ (List.getElem_mem hi')
    rw [List.length_append] at hl
    omega

theorem tames {R : Rules} {E : Enc} {ts : List Ty} : ∀ {vs : List Val}, FitsAll ts vs →
    (∀ t ∈ ts, ∀ v ∈ vs, Fits t v → (t, enc E t v) ∈ encAll E ts vs → Tame R t (enc E t v)) →
    TameAll R ts ((encAll E ts vs).map fun m => some m.2) := by
  induction ts with
  | nil =>
    intro vs _ _
    cases vs <;> simp [TameAll]
  | cons t ts ih =>
    intro vs h hall
    cases vs with
    | nil => simp [FitsAll] at h
    | cons v vs =>
      simp only [FitsAll] at h
      simp only [encAll, List.map_cons, TameAll]
      exact ⟨fun x hx => by cases hx; exact hall t (by simp) v (by simp) h.1 (by simp [encAll]),
        ih h.2 fun u hu w hw hf hm => hall u (by simp [hu]) w (by simp [hw]) hf (by simp [encAll, hm])⟩

theorem tame_struct {R : Rules} {ts : List Ty} {ms : List (Ty × Bytes)}
    (ht : ms.map (·.1) = ts) (hm : ∀ m ∈ ms, ∀ n, size m.1 = some n → m.2.length = n)
    (hl : (encStruct (size (.tuple ts)) ms).length < 2 ^ 63)
    (h : TameAll R ts (ms.map fun m => some m.2)) :
    Tame R (.tuple ts) (encStruct (size (.tuple ts)) ms) := by
  rw [Tame]
  refine ⟨encStruct_frames ht hl, ?_⟩
  rw [memberChildren_encStruct ht hm (Nat.lt_trans hl (by decide))]
  exact h

/-- Encodings are tame. -/
theorem tame_enc {R : Rules} {E : Enc} (t : Ty) : ∀ v, Fits t v →
    (enc E t v).length < 2 ^ 63 → Tame R t (enc E t v) := by
  induction t using Ty.ind with
  | a e ih =>
    intro v hf hl
    cases v with
    | arr vs =>
      simp only [Fits] at hf
      rw [Tame]
      cases hs : size e with
      | some n =>
        simp only [enc, hs, Option.isSome_some, if_true] at hl ⊢
        refine ⟨by simp, fun x hx => ?_⟩
        exact tame_fixed R e n hs x
      | none =>
        by_cases hbig : (enc E (.A e) (.arr vs)).length < 2 ^ 32
        · have := tame_small R (.A e) _ hbig
          rw [Tame, hs] at this
          exact this
        simp only [enc, hs, Option.isSome_none, Bool.false_eq_true, if_false] at hl hbig ⊢
        obtain ⟨h1, h2⟩ := encArr_tame (R := R) hs hl (by omega)
        refine ⟨fun _ => h1, fun x hx => ?_⟩
        have hx' := h2 x hx
        have hle := mem_encArr_length (E := E) (e := e) hx'
        obtain ⟨v, hv, rfl⟩ := List.mem_map.1 hx'
        exact ih v (hf v hv) (by omega)
    | _ => simp [Fits] at hf
  | m e ih =>
    intro v hf hl
    rw [Tame]
    intro x hx
    cases v with
    | nothing =>
      have hz : enc E (.M e) .nothing = [] := by simp [enc]
      rw [hz] at hx
      have := maybeChild_le hx
      exact tame_small R e x (by simp at this; simp [this])
    | just y =>
      simp only [Fits] at hf
      have hz : enc E (.M e) (.just y) = enc E e y ++ (if (size e).isSome then [] else [0]) := by simp [enc]
      rw [hz] at hl hx
      rw [List.length_append] at hl
      have hc : maybeChild e (enc E e y ++ (if (size e).isSome then [] else [0])) = some (enc E e y) := by
        unfold maybeChild
        cases hs : size e with
        | none => simp
        | some n => simp [enc_length E e y n hf hs]
      rw [hc] at hx
      cases hx
      exact ih y hf (by omega)
    | _ => simp [Fits] at hf
  | tuple ts ih =>
    intro v hf hl
    cases v with
    | tup vs =>
      simp only [Fits] at hf
      simp only [enc] at hl ⊢
      refine tame_struct (encAll_types hf) ?_ hl ?_
      · intro m hm n hn
        obtain ⟨t, _, v, _, hv, rfl⟩ := encAll_mem hf m hm
        exact enc_length E t v n hv hn
      · exact tames hf fun t ht v _ hv hm => ih t ht v hv
          (Nat.lt_of_le_of_lt (mem_encStruct_length hm) hl)
    | _ => simp [Fits] at hf
  | dict k w ihk ihw =>
    intro v hf hl
    cases v with
    | tup vs =>
      match vs, hf with
      | [x, y], hf =>
        simp only [Fits] at hf
        have hz : enc E (.dict k w) (.tup [x, y]) =
            encStruct (size (.tuple [k, w])) [(k, enc E k x), (w, enc E w y)] := by
          rw [enc, size_dict_eq]
        rw [tame_dict]
        rw [hz] at hl ⊢
        refine tame_struct rfl ?_ hl ?_
        · intro m hm n hn
          simp only [List.mem_cons, List.not_mem_nil, or_false] at hm
          rcases hm with rfl | rfl
          · exact enc_length E k x n hf.1 hn
          · exact enc_length E w y n hf.2 hn
        · simp only [List.map_cons, List.map_nil, TameAll, Option.some.injEq, forall_eq', and_true]
          exact ⟨ihk x hf.1 (Nat.lt_of_le_of_lt (mem_encStruct_length (m := (k, enc E k x)) (by simp)) hl),
            ihw y hf.2 (Nat.lt_of_le_of_lt (mem_encStruct_length (m := (w, enc E w y)) (by simp)) hl)⟩
      | [], hf => simp [Fits] at hf
      | [_], hf => simp [Fits] at hf
      | _ :: _ :: _ :: _, hf => simp [Fits] at hf
    | _ => simp [Fits] at hf
  | _ => intro v _ _; simp [Tame]

end GV
