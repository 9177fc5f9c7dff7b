import Verif.Spec.Back
import Verif.Proofs.RoundTrip
/-
Decoding an encoding, with padding after last elements or not.
-/
namespace GV
open Spec

theorem sub_zeros {p lo hi : Nat} : sub (zeros p) lo hi = zeros (min hi p - lo) := by
  simp [sub, zeros, List.take_replicate, List.drop_replicate]

/-- The framing offsets read when `p` zero bytes are between the last element and the framing offsets. -/
theorem arrFrame_back {b0 : Bytes} {p : Nat} {offs : List Nat} (hne : offs ≠ [])
    (hb : ∀ o ∈ offs, o ≤ b0.length) (hlast : offs.getLast hne = b0.length)
    (hl : ((b0 ++ zeros p) ++ frames (b0 ++ zeros p).length offs).length < 2 ^ 64) :
    arrFrame ((b0 ++ zeros p) ++ frames (b0 ++ zeros p).length offs) =
      if p % frameWidth (b0 ++ zeros p).length offs.length ≠ 0 then
        (((b0 ++ zeros p) ++ frames (b0 ++ zeros p).length offs).length, [])
      else (b0.length, List.replicate (p / frameWidth (b0 ++ zeros p).length offs.length) 0 ++ offs) := by
  have hn := List.length_pos_iff.2 hne
  have hb' : ∀ o ∈ offs, o ≤ (b0 ++ zeros p).length := fun o ho => by
    have := hb o ho; rw [List.length_append]; omega
  have hwp := (frameWidth_isWidth (b0 ++ zeros p).length offs.length).pos
  have hW : offsetWidth ((b0 ++ zeros p) ++ frames (b0 ++ zeros p).length offs).length =
      frameWidth (b0 ++ zeros p).length offs.length := by
    rw [List.length_append]; exact frames_total hne
  have hlf := last_frames hne hb' hl
  have hle := fun i (hi : i < offs.length) => le_frames hb' hl hi
  rw [hW] at hlf
  have hbl : (b0 ++ zeros p).length = b0.length + p := by simp
  have hfl : ((b0 ++ zeros p) ++ frames (b0 ++ zeros p).length offs).length - b0.length =
      p + offs.length * frameWidth (b0 ++ zeros p).length offs.length := by
    rw [List.length_append, frames_length, hbl]; omega
  have hne' : (b0 ++ zeros p) ++ frames (b0 ++ zeros p).length offs ≠ [] := by
    intro h
    have := congrArg List.length h
    rw [List.length_append, frames_length] at this
    have := Nat.mul_pos hn hwp
    simp at *; omega
  have hbig : ¬ b0.length > ((b0 ++ zeros p) ++ frames (b0 ++ zeros p).length offs).length := by
    rw [List.length_append, hbl]; omega
  unfold arrFrame
  simp only [hlf, hlast, hfl, hW]
  generalize hw : frameWidth (b0 ++ zeros p).length offs.length = w at *
  simp only [hne', hbig, false_or, Nat.add_mul_mod_self_right]
  by_cases hp : p % w ≠ 0
  · rw [if_pos hp, if_pos hp]
  · rw [if_neg hp, if_neg hp]
    have hp0 : p / w * w = p := Nat.div_mul_cancel (Nat.dvd_of_mod_eq_zero (not_not.1 hp))
    rw [Nat.add_mul_div_right _ _ hwp]
    congr 1
    apply List.ext_getElem
    · simp
    · intro i h1 h2
      simp only [List.getElem_map, List.getElem_range]
      by_cases hi : i < p / w
      · rw [List.getElem_append_left (by simpa using hi), List.getElem_replicate]
        have hi' : i * w + w ≤ p := by
          rw [← Nat.succ_mul, ← hp0]
          exact Nat.mul_le_mul_right _ hi
        rw [sub_suffix _ _ (by rw [hbl]; omega), Nat.add_assoc, sub_prefix _ _ rfl, sub_zeros]
        exact le_zeros _
      · have hlen : i - p / w < offs.length := by
          simp only [List.length_map, List.length_range] at h1; omega
        rw [List.getElem_append_right (by simpa using Nat.not_lt.1 hi)]
        simp only [List.length_replicate]
        rw [← hle _ hlen]
        have : b0.length + i * w = (b0 ++ zeros p).length + (i - p / w) * w := by
          rw [hbl, Nat.sub_mul, hp0]
          have : p ≤ i * w := by rw [← hp0]; exact Nat.mul_le_mul_right _ (Nat.not_lt.1 hi)
          omega
        rw [this]

theorem elemsFrom_zeros (b : Bytes) (limit al m : Nat) (offs : List Nat) (hal : 0 < al) :
    elemsFrom b limit al 0 (List.replicate m 0 ++ offs) =
      List.replicate m (some []) ++ elemsFrom b limit al 0 offs := by
  induction m with
  | zero => rfl
  | succ m ih =>
    have h0 : roundUp 0 al = 0 := roundUp_of_dvd hal (Nat.dvd_zero _)
    rw [List.replicate_succ, List.cons_append, elemsFrom, ih, h0, List.replicate_succ, List.cons_append]
    simp [place, sub]

/-- Elements read from an encoded variable-width array. -/
theorem arrChildren_back {R : Rules} {E : Enc} {e : Ty} {bs : List Bytes} (he : size e = none)
    (hl : (encArr E e bs).length < 2 ^ 64) :
    arrChildren R e (encArr E e bs) =
      if endPad E e bs % endWidth E e bs ≠ 0 then []
      else List.replicate (endPad E e bs / endWidth E e bs) (some []) ++ bs.map some := by
  have henc : encArr E e bs = (laid 0 (bs.map fun b => (e, b)) ++ zeros (endPad E e bs)) ++
      frames (laid 0 (bs.map fun b => (e, b)) ++ zeros (endPad E e bs)).length
        (layEnds 0 (bs.map fun b => (e, b))) := rfl
  have hw : frameWidth (laid 0 (bs.map fun b => (e, b)) ++ zeros (endPad E e bs)).length
      (layEnds 0 (bs.map fun b => (e, b))).length = endWidth E e bs := by
    rw [layEnds_length, List.length_map, List.length_append, zeros_length]; rfl
  cases bs with
  | nil =>
    have h0 : endPad E e [] = 0 := by
      unfold endPad
      simp only [List.map_nil, laid, List.length_nil, roundUp_of_dvd (specAlign_isAl e).pos (Nat.dvd_zero _)]
      simp
    have h1 : encArr E e [] = [] := by
      rw [henc, h0]; rfl
    rw [h0, h1]
    simp [arrChildren, he, arrFrame, elemsFrom]
  | cons b bs =>
    have hne : layEnds 0 ((b :: bs).map fun b => (e, b)) ≠ [] := by simp [layEnds]
    have hlast := layEnds_last hne
    rw [Nat.zero_add] at hlast
    rw [henc] at hl ⊢
    have hfr := arrFrame_back (p := endPad E e (b :: bs)) hne (fun o ho => by simpa using layEnds_le ho) hlast hl
    rw [hw] at hfr
    simp only [arrChildren, he, hfr]
    by_cases hp : endPad E e (b :: bs) % endWidth E e (b :: bs) ≠ 0
    · rw [if_pos hp, if_pos hp]; rfl
    · rw [if_neg hp, if_neg hp]
      simp only
      rw [elemsFrom_zeros _ _ _ _ _ (specAlign_isAl e).pos]
      congr 1
      have := elemsFrom_laid (e := e) ((b :: bs).map fun b => (e, b))
        (List.forall_mem_map.2 fun _ _ => rfl) []
        (zeros (endPad E e (b :: bs)) ++ frames (laid 0 ((b :: bs).map fun b => (e, b)) ++
          zeros (endPad E e (b :: bs))).length (layEnds 0 ((b :: bs).map fun b => (e, b)))) 0
        (if R.disjoint then (laid 0 ((b :: bs).map fun b => (e, b))).length else
          ((laid 0 ((b :: bs).map fun b => (e, b)) ++ zeros (endPad E e (b :: bs))) ++
            frames (laid 0 ((b :: bs).map fun b => (e, b)) ++ zeros (endPad E e (b :: bs))).length
              (layEnds 0 ((b :: bs).map fun b => (e, b)))).length) rfl
        (by
          split
          · omega
          · rw [List.length_append, List.length_append]; omega)
      rw [List.nil_append, ← List.append_assoc] at this
      rw [this]
      simp

/-- What is to be shown of each type. -/
def Back (R : Rules) (E : Enc) (t : Ty) (v : Val) : Prop :=
  dec R t (enc E t v) = back E t v ∧ ragged R t (enc E t v) = false

theorem backs {R : Rules} {E : Enc} {ts : List Ty} : ∀ {vs : List Val}, FitsAll ts vs →
    (∀ t ∈ ts, ∀ v ∈ vs, Fits t v → (t, enc E t v) ∈ encAll E ts vs → Back R E t v) →
    decAll R ts ((encAll E ts vs).map fun m => some m.2) = backAll E ts vs ∧
      raggedAny R ts ((encAll E ts vs).map fun m => some m.2) = false := by
  induction ts with
  | nil =>
    intro vs h _
    cases vs with
    | nil => simp [decAll, backAll, raggedAny]
    | cons v vs => simp [FitsAll] at h
  | cons t ts ih =>
    intro vs h hall
    cases vs with
    | nil => simp [FitsAll] at h
    | cons v vs =>
      simp only [FitsAll] at h
      have h1 := hall t (by simp) v (by simp) h.1 (by simp [encAll])
      have h2 := ih h.2 fun u hu w hw hf hm => hall u (by simp [hu]) w (by simp [hw]) hf (by simp [encAll, hm])
      simp only [encAll, List.map_cons, decAll, backAll, raggedAny, h1.1, h2.1, h1.2, h2.2,
        Bool.or_self, and_self]

/-- Decoding an encoding never meets a ragged array, and gives `back` of the value. -/
theorem back_enc {R : Rules} {E : Enc} (hbe : R.bigEndian = E.bigEndian) (t : Ty) : ∀ v, Fits t v →
    (enc E t v).length < 2 ^ 64 → Back R E t v := by
  induction t using Ty.ind with
  | a e ih =>
    intro v hf hl
    cases v with
    | arr vs =>
      simp only [Fits] at hf
      unfold Back
      cases hs : size e with
      | some n =>
        simp only [enc, hs, Option.isSome_some, if_true] at hl ⊢
        have hn : ∀ b ∈ vs.map (enc E e), b.length = n := by
          intro b hb; obtain ⟨v, hv, rfl⟩ := List.mem_map.1 hb; exact enc_length E e v n (hf v hv) hs
        have hc : arrChildren R e (vs.map (enc E e)).flatten = (vs.map (enc E e)).map some := by
          simp only [arrChildren, hs]
          rw [flatten_length hn, Nat.mul_mod_left, if_pos rfl, chunks_flatten (size_pos_dvd e n hs).1 hn]
        have ih' : ∀ v ∈ vs, Back R E e v := fun v hv => ih v (hf v hv)
          (Nat.lt_of_le_of_lt (mem_flatten_length (List.mem_map_of_mem hv)) hl)
        simp only [dec, ragged, back, hc, List.map_map, hs, Option.isSome_some, if_true, Val.arr.injEq,
          List.any_map, List.any_eq_false]
        refine ⟨List.map_congr_left fun v hv => (ih' v hv).1, fun v hv => ?_⟩
        simp [badSize_enc (hf v hv), (ih' v hv).2]
      | none =>
        simp only [enc, hs, Option.isSome_none, Bool.false_eq_true, if_false] at hl ⊢
        have ih' : ∀ v ∈ vs, Back R E e v := fun v hv => ih v (hf v hv)
          (Nat.lt_of_le_of_lt (mem_encArr_length (List.mem_map_of_mem hv)) hl)
        have hc := arrChildren_back (R := R) hs hl
        simp only [dec, ragged, back, hc, hs, Option.isSome_none, Bool.false_eq_true, if_false]
        by_cases hp : endPad E e (vs.map (enc E e)) % endWidth E e (vs.map (enc E e)) ≠ 0
        · simp only [if_pos hp]; exact ⟨rfl, rfl⟩
        · simp only [if_neg hp]
          have hbad : badSize e [] = false := by
            cases e <;> simp only [badSize]
            split <;> simp
          constructor
          · congr 1
            simp only [List.map_append, List.map_replicate, (dec_nil R e).1, List.map_map]
            congr 1
            exact List.map_congr_left fun v hv => (ih' v hv).1
          · simp only [List.any_append, List.any_replicate, List.any_map, Bool.or_eq_false_iff]
            constructor
            · simp [hbad, (dec_nil R e).2]
            · rw [List.any_eq_false]
              intro v hv
              simp [badSize_enc (hf v hv), (ih' v hv).2]
    | _ => simp [Fits] at hf
  | m e ih =>
    intro v hf hl
    cases v with
    | nothing =>
      unfold Back
      have hz : enc E (.M e) .nothing = [] := by simp [enc]
      rw [hz, (dec_nil R _).1]
      exact ⟨rfl, (dec_nil R _).2⟩
    | just x =>
      simp only [Fits] at hf
      have hz : enc E (.M e) (.just x) = enc E e x ++ (if (size e).isSome then [] else [0]) := by simp [enc]
      unfold Back
      rw [hz] at hl ⊢
      rw [List.length_append] at hl
      have ih' := ih x hf (by omega)
      have hc : maybeChild e (enc E e x ++ (if (size e).isSome then [] else [0])) = some (enc E e x) := by
        unfold maybeChild
        cases hs : size e with
        | none => simp
        | some n => simp [enc_length E e x n hf hs]
      simp only [dec, ragged, hc, back, Val.just.injEq, badSize_enc hf, Bool.false_or]
      exact ih'
    | _ => simp [Fits] at hf
  | tuple ts ih =>
    intro v hf hl
    cases v with
    | tup vs =>
      simp only [Fits] at hf
      unfold Back
      simp only [enc] at hl ⊢
      have hc := memberChildren_encStruct (R := R) (encAll_types hf) (by
        intro m hm n hn
        obtain ⟨t, _, v, _, hv, rfl⟩ := encAll_mem hf m hm
        exact enc_length E t v n hv hn) hl
      simp only [dec, ragged, hc, back, Val.tup.injEq]
      exact backs hf fun t ht v _ hv hm => ih t ht v hv
        (Nat.lt_of_le_of_lt (mem_encStruct_length hm) hl)
    | _ => simp [Fits] at hf
  | dict k w ihk ihw =>
    intro v hf hl
    cases v with
    | tup vs =>
      match vs, hf with
      | [x, y], hf =>
        simp only [Fits] at hf
        unfold Back
        have hz : enc E (.dict k w) (.tup [x, y]) =
            encStruct (size (.tuple [k, w])) [(k, enc E k x), (w, enc E w y)] := by
          rw [enc, size_dict_eq]
        rw [hz] at hl ⊢
        have hc := memberChildren_encStruct (R := R) (ts := [k, w])
          (ms := [(k, enc E k x), (w, enc E w y)]) rfl (by
          intro m hm n hn
          simp only [List.mem_cons, List.not_mem_nil, or_false] at hm
          rcases hm with rfl | rfl
          · exact enc_length E k x n hf.1 hn
          · exact enc_length E w y n hf.2 hn) hl
        have h1 := ihk x hf.1 (Nat.lt_of_le_of_lt
          (mem_encStruct_length (m := (k, enc E k x)) (by simp)) hl)
        have h2 := ihw y hf.2 (Nat.lt_of_le_of_lt
          (mem_encStruct_length (m := (w, enc E w y)) (by simp)) hl)
        simp only [dec, ragged, hc, back, List.map_cons, List.map_nil, h1.1, h2.1, h1.2, h2.2,
          Bool.or_self, and_self]
      | [], hf => simp [Fits] at hf
      | [_], hf => simp [Fits] at hf
      | _ :: _ :: _ :: _, hf => simp [Fits] at hf
    | _ => simp [Fits] at hf
  | _ =>
    intro v hf hl
    have h := trip hbe _ v hf hl
    refine ⟨(h.1.2 fun _ => ?_).trans ?_, h.2 fun _ => ?_⟩
    all_goals cases v <;> first | (simp [Fits] at hf; done) | rfl | simp [EvenEnds]

end GV
