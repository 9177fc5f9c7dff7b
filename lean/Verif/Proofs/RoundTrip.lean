import Verif.Proofs.Enc
import Verif.Proofs.View
/-
Decoding an encoding.
-/
namespace GV
open Spec

theorem text_enc {R : Rules} {b : Bytes} (h : Text b) : text R (b ++ [0]) = b := by
  have hn : (0 : UInt8) ∉ b := h.2
  have hall : b.takeWhile (fun x => decide (x ≠ 0)) = b := by
    clear h
    induction b with
    | nil => rfl
    | cons x b ih =>
      simp only [List.mem_cons, not_or] at hn
      rw [List.takeWhile_cons, if_pos (by simpa using Ne.symm hn.1), ih hn.2]
  simp only [text, List.reverse_append, List.reverse_cons, List.reverse_nil, List.nil_append,
    List.singleton_append, List.reverse_reverse]
  split
  · rw [if_pos ⟨(utf8Valid_iff b).2 h.1, hn⟩]
  · exact hall

/-- Encodings of arrays of fixed-size elements have possible sizes. -/
theorem badSize_enc {E : Enc} {t : Ty} {v : Val} (h : Fits t v) : badSize t (enc E t v) = false := by
  cases t with
  | A e =>
    simp only [badSize]
    cases hs : size e with
    | none => rfl
    | some n =>
      cases v with
      | arr vs =>
        simp only [Fits] at h
        simp only [enc, hs, Option.isSome_some, if_true]
        rw [flatten_length (w := n) (by
          intro b hb; obtain ⟨v, hv, rfl⟩ := List.mem_map.1 hb; exact enc_length E e v n (h v hv) hs)]
        simp
      | _ => simp [Fits] at h
  | _ => rfl

theorem mem_flatten_length {bs : List Bytes} {b : Bytes} (h : b ∈ bs) : b.length ≤ bs.flatten.length := by
  induction bs with
  | nil => simp at h
  | cons c bs ih =>
    rw [List.flatten_cons, List.length_append]
    rcases List.mem_cons.1 h with rfl | h
    · omega
    · have := ih h; omega

theorem mem_encArr_length {E : Enc} {e : Ty} {bs : List Bytes} {b : Bytes} (h : b ∈ bs) :
    b.length ≤ (encArr E e bs).length := by
  have := laid_mem_length (pos := 0) (ms := bs.map fun b => (e, b)) (e, b) (List.mem_map.2 ⟨b, h, rfl⟩)
  unfold encArr
  simp only [List.length_append]
  simp only at this
  omega

theorem mem_encStruct_length {sz : Option Nat} {ms : List (Ty × Bytes)} {m : Ty × Bytes} (h : m ∈ ms) :
    m.2.length ≤ (encStruct sz ms).length := by
  have := laid_mem_length (pos := 0) m h
  unfold encStruct
  cases sz <;> simp only [List.length_append] <;> omega

theorem map_self_iff {α : Type} {g : α → α} {l : List α} : l.map g = l ↔ ∀ x ∈ l, g x = x := by
  conv_lhs => rhs; rw [← List.map_id l]
  rw [List.map_inj_left]; rfl

/-- What is to be shown of each type. -/
def Trip (R : Rules) (E : Enc) (t : Ty) (v : Val) : Prop :=
  (dec R t (enc E t v) = v ↔ (E.padLast = true → EvenEnds E t v)) ∧
  ((E.padLast = true → EvenEnds E t v) → ragged R t (enc E t v) = false)

theorem evenEnds_each {E : Enc} {e : Ty} {vs : List Val} :
    (∀ v ∈ vs, E.padLast = true → EvenEnds E e v) ↔ (E.padLast = true → ∀ v ∈ vs, EvenEnds E e v) :=
  ⟨fun h hp v hv => h v hv hp, fun h v hv hp => h hp v hv⟩

theorem trips {R : Rules} {E : Enc} {ts : List Ty} : ∀ {vs : List Val}, FitsAll ts vs →
    (∀ t ∈ ts, ∀ v ∈ vs, Fits t v → (t, enc E t v) ∈ encAll E ts vs → Trip R E t v) →
    (decAll R ts ((encAll E ts vs).map fun m => some m.2) = vs ↔ (E.padLast = true → EvenEndsAll E ts vs)) ∧
    ((E.padLast = true → EvenEndsAll E ts vs) →
      raggedAny R ts ((encAll E ts vs).map fun m => some m.2) = false) := by
  induction ts with
  | nil =>
    intro vs h _
    cases vs with
    | nil => simp [encAll, decAll, EvenEndsAll, raggedAny]
    | cons v vs => simp [FitsAll] at h
  | cons t ts ih =>
    intro vs h hall
    cases vs with
    | nil => simp [FitsAll] at h
    | cons v vs =>
      simp only [FitsAll] at h
      have h1 := hall t (by simp) v (by simp) h.1 (by simp [encAll])
      have h2 := ih h.2 fun u hu w hw hf hm => hall u (by simp [hu]) w (by simp [hw]) hf (by simp [encAll, hm])
      simp only [encAll, List.map_cons, decAll, EvenEndsAll, raggedAny, List.cons.injEq, h1.1, h2.1,
        Bool.or_eq_false_iff]
      refine ⟨⟨fun ⟨a, b⟩ hp => ⟨a hp, b hp⟩, fun h => ⟨fun hp => (h hp).1, fun hp => (h hp).2⟩⟩, ?_⟩
      intro h
      exact ⟨h1.2 fun hp => (h hp).1, h2.2 fun hp => (h hp).2⟩

/-- Decoding an encoding gives the value back, exactly when no last element of an array was padded. -/
theorem trip {R : Rules} {E : Enc} (hbe : R.bigEndian = E.bigEndian) (t : Ty) : ∀ v, Fits t v →
    (enc E t v).length < 2 ^ 64 → Trip R E t v := by
  induction t using Ty.ind with
  | a e ih =>
    intro v hf hl
    cases v with
    | arr vs =>
      simp only [Fits] at hf
      unfold Trip
      cases hs : size e with
      | some n =>
        simp only [enc, hs, Option.isSome_some, if_true] at hl ⊢
        have hn : ∀ b ∈ vs.map (enc E e), b.length = n := by
          intro b hb; obtain ⟨v, hv, rfl⟩ := List.mem_map.1 hb; exact enc_length E e v n (hf v hv) hs
        have hc : arrChildren R e (vs.map (enc E e)).flatten = (vs.map (enc E e)).map some := by
          simp only [arrChildren, hs]
          rw [flatten_length hn, Nat.mul_mod_left, if_pos rfl, chunks_flatten (size_pos_dvd e n hs).1 hn]
        have ih' : ∀ v ∈ vs, Trip R E e v := fun v hv => ih v (hf v hv)
          (Nat.lt_of_le_of_lt (mem_flatten_length (List.mem_map_of_mem hv)) hl)
        simp only [dec, ragged, hc, List.map_map, EvenEnds, hs, Option.isNone_some, Bool.false_eq_true,
          IsEmpty.forall_iff, and_true, Val.arr.injEq, List.any_map, List.any_eq_false]
        refine ⟨?_, fun h v hv => ?_⟩
        · rw [← evenEnds_each]
          refine map_self_iff.trans ?_
          exact forall₂_congr fun v hv => (ih' v hv).1
        · simp [badSize_enc (hf v hv), (ih' v hv).2 (fun hp => h hp v hv)]
      | none =>
        simp only [enc, hs, Option.isSome_none, Bool.false_eq_true, if_false] at hl ⊢
        have hmap : (vs.map (enc E e)).map (fun b => (e, b)) = vs.map fun v => (e, enc E e v) := by simp
        have ih' : ∀ v ∈ vs, Trip R E e v := fun v hv => ih v (hf v hv)
          (Nat.lt_of_le_of_lt (mem_encArr_length (List.mem_map_of_mem hv)) hl)
        by_cases hd : E.padLast = true → Spec.align e ∣ (laid 0 (vs.map fun v => (e, enc E e v))).length
        · have hc := arrChildren_encArr (R := R) hs hl (by rw [hmap]; exact hd)
          simp only [dec, ragged, hc, List.map_map, EvenEnds, hs, Option.isNone_none, true_implies,
            Val.arr.injEq, List.any_map, List.any_eq_false]
          refine ⟨?_, fun h v hv => ?_⟩
          · have : (E.padLast = true → (∀ v ∈ vs, EvenEnds E e v) ∧
                Spec.align e ∣ (laid 0 (vs.map fun v => (e, enc E e v))).length) ↔
                ∀ v ∈ vs, E.padLast = true → EvenEnds E e v :=
              ⟨fun h v hv hp => (h hp).1 v hv, fun h hp => ⟨fun v hv => h v hv hp, hd hp⟩⟩
            rw [this]
            refine map_self_iff.trans ?_
            exact forall₂_congr fun v hv => (ih' v hv).1
          · simp [badSize_enc (hf v hv), (ih' v hv).2 (fun hp => (h hp).1 v hv)]
        · have hpad : E.padLast = true := by
            by_contra h; exact hd fun h' => absurd h' h
          have hnd : ¬ Spec.align e ∣ (laid 0 (vs.map fun v => (e, enc E e v))).length :=
            fun h => hd fun _ => h
          have hc := arrChildren_padded (R := R) hs hl hpad (by rw [hmap]; exact hnd)
          have hno : ¬ (E.padLast = true → EvenEnds E (.A e) (.arr vs)) := by
            intro h
            have := h hpad
            simp only [EvenEnds, hs, Option.isNone_none, true_implies] at this
            exact hnd this.2
          refine ⟨⟨fun h => ?_, fun h => absurd h hno⟩, fun h => absurd h hno⟩
          simp only [dec, Val.arr.injEq] at h
          have := congrArg List.length h
          simp only [List.length_map] at this hc
          exact absurd this hc
    | _ => simp [Fits] at hf
  | m e ih =>
    intro v hf hl
    cases v with
    | nothing =>
      unfold Trip
      have hz : enc E (.M e) .nothing = [] := by simp [enc]
      have hc : maybeChild e [] = none := by
        unfold maybeChild
        cases hs : size e with
        | none => rfl
        | some n =>
          have := (size_pos_dvd e n hs).1
          simp only [List.length_nil]
          rw [if_neg (by omega)]
      simp [hz, dec, ragged, hc, EvenEnds]
    | just x =>
      simp only [Fits] at hf
      have hz : enc E (.M e) (.just x) = enc E e x ++ (if (size e).isSome then [] else [0]) := by simp [enc]
      unfold Trip
      rw [hz] at hl ⊢
      rw [List.length_append] at hl
      have ih' := ih x hf (by omega)
      have hc : maybeChild e (enc E e x ++ (if (size e).isSome then [] else [0])) = some (enc E e x) := by
        unfold maybeChild
        cases hs : size e with
        | none => simp
        | some n => simp [enc_length E e x n hf hs]
      simp only [dec, ragged, hc, EvenEnds, Val.just.injEq, badSize_enc hf, Bool.false_or]
      exact ih'
    | _ => simp [Fits] at hf
  | tuple ts ih =>
    intro v hf hl
    cases v with
    | tup vs =>
      simp only [Fits] at hf
      unfold Trip
      simp only [enc] at hl ⊢
      have hc := memberChildren_encStruct (R := R) (encAll_types hf) (by
        intro m hm n hn
        obtain ⟨t, _, v, _, hv, rfl⟩ := encAll_mem hf m hm
        exact enc_length E t v n hv hn) hl
      simp only [dec, ragged, hc, EvenEnds, Val.tup.injEq]
      exact trips hf fun t ht v _ hv hm => ih t ht v hv
        (Nat.lt_of_le_of_lt (mem_encStruct_length hm) hl)
    | _ => simp [Fits] at hf
  | dict k w ihk ihw =>
    intro v hf hl
    cases v with
    | tup vs =>
      match vs, hf with
      | [x, y], hf =>
        simp only [Fits] at hf
        unfold Trip
        have hz : enc E (.dict k w) (.tup [x, y]) =
            encStruct (size (.tuple [k, w])) [(k, enc E k x), (w, enc E w y)] := by
          rw [enc, size_dict_eq]
        rw [hz] at hl ⊢
        have hc := memberChildren_encStruct (R := R) (ts := [k, w])
          (ms := [(k, enc E k x), (w, enc E w y)]) rfl (by
          intro m hm n hn
          simp only [List.mem_cons, List.not_mem_nil, or_false] at hm
          rcases hm with rfl | rfl
          · exact enc_length E k x n hf.1 hn
          · exact enc_length E w y n hf.2 hn) hl
        have h1 := ihk x hf.1 (Nat.lt_of_le_of_lt
          (mem_encStruct_length (m := (k, enc E k x)) (by simp)) hl)
        have h2 := ihw y hf.2 (Nat.lt_of_le_of_lt
          (mem_encStruct_length (m := (w, enc E w y)) (by simp)) hl)
        simp only [dec, ragged, hc, EvenEnds, Val.tup.injEq, List.map_cons, List.map_nil,
          List.cons.injEq, and_true, h1.1, h2.1, Bool.or_eq_false_iff]
        exact ⟨⟨fun ⟨a, b⟩ hp => ⟨a hp, b hp⟩, fun h => ⟨fun hp => (h hp).1, fun hp => (h hp).2⟩⟩,
          fun h => ⟨h1.2 fun hp => (h hp).1, h2.2 fun hp => (h hp).2⟩⟩
      | [], hf => simp [Fits] at hf
      | [_], hf => simp [Fits] at hf
      | _ :: _ :: _ :: _, hf => simp [Fits] at hf
    | _ => simp [Fits] at hf
  | b =>
    intro v hf _
    cases v with
    | bool b => cases b <;> simp [Trip, enc, dec, EvenEnds, ragged]
    | _ => simp [Fits] at hf
  | s | o | g =>
    intro v hf _
    cases v with
    | str b =>
      simp only [Fits] at hf
      simp [Trip, enc, dec, EvenEnds, ragged, text_enc hf]
    | _ => simp [Fits] at hf
  | v =>
    intro v hf _
    cases v with
    | variant ty d =>
      simp only [Fits] at hf
      have : d ++ [0] ++ ty = d ++ 0 :: ty := by simp
      simp [Trip, enc, dec, EvenEnds, ragged, variantParts_append hf]
    | _ => simp [Fits] at hf
  | y =>
    intro v hf _
    cases v with
    | num n =>
      simp only [Fits] at hf
      simp [Trip, enc, dec, EvenEnds, ragged, hbe, numBytes_length,
        number_numBytes (w := 1) (by simpa using hf)]
    | _ => simp [Fits] at hf
  | _ =>
    intro v hf _
    cases v with
    | num n =>
      simp only [Fits] at hf
      simp [Trip, enc, dec, EvenEnds, ragged, hbe, numBytes_length, number_numBytes hf]
    | _ => simp [Fits] at hf

end GV
