import Verif.Proofs.Back
import Verif.Spec.Settle
/-
Repeated rounds of writing and reading come to rest.
-/
namespace GV
open Spec

theorem backAll_dflts {E : Enc} {ts : List Ty} (h : ∀ t ∈ ts, back E t (dflt t) = dflt t) :
    backAll E ts (dflts ts) = dflts ts := by
  induction ts with
  | nil => rfl
  | cons t ts ih =>
    simp only [dflts, backAll, h t (by simp), ih fun u hu => h u (by simp [hu])]

theorem endPad_nil (E : Enc) (e : Ty) : endPad E e [] = 0 := by
  have h0 : roundUp 0 (Spec.align e) = 0 := roundUp_of_dvd (specAlign_isAl e).pos (Nat.dvd_zero _)
  unfold endPad
  simp [laid, h0]

theorem map_self {α : Type} {f : α → α} {l : List α} (h : ∀ a ∈ l, f a = a) : l.map f = l := by
  rw [List.map_congr_left (g := id) h, List.map_id]

theorem back_nil (E : Enc) (e : Ty) : back E (.A e) (.arr []) = .arr [] := by
  by_cases hs : (size e).isSome = true <;> simp [back, hs, endPad_nil]

theorem back_dflt {E : Enc} (t : Ty) : back E t (dflt t) = dflt t := by
  induction t using Ty.ind with
  | a e ih => exact back_nil E e
  | m e ih => rfl
  | tuple ts ih => simp only [dflt, back, backAll_dflts ih]
  | dict k v ihk ihv => simp only [dflt, back, ihk, ihv]
  | _ => rfl

theorem backN_succ {E : Enc} {t : Ty} (n : Nat) : ∀ v, backN E t (n + 1) v = back E t (backN E t n v) := by
  induction n with
  | zero => intro v; rfl
  | succ n ih => intro v; rw [backN, ih]; rfl

theorem backN_add {E : Enc} {t : Ty} (m n : Nat) (v : Val) :
    backN E t (m + n) v = backN E t n (backN E t m v) := by
  induction n with
  | zero => rfl
  | succ n ih => rw [← Nat.add_assoc, backN_succ, ih, backN_succ]

theorem backN_fix {E : Enc} {t : Ty} {v : Val} (h : back E t v = v) (n : Nat) : backN E t n v = v := by
  induction n with
  | zero => rfl
  | succ n ih => rw [backN_succ, ih, h]

theorem backN_rest {E : Enc} {t : Ty} {v : Val} {m n : Nat} (h : back E t (backN E t m v) = backN E t m v)
    (hmn : m ≤ n) : backN E t n v = backN E t m v := by
  obtain ⟨k, rfl⟩ := Nat.exists_eq_add_of_le hmn
  rw [backN_add, backN_fix h]

theorem rest_mono {E : Enc} {t : Ty} {v : Val} {m n : Nat} (h : back E t (backN E t m v) = backN E t m v)
    (hmn : m ≤ n) : back E t (backN E t n v) = backN E t n v := by
  rw [backN_rest h hmn, h]

/-! ### Arrays -/

theorem end_mod {e : Ty} {bs : List Bytes} (hne : bs ≠ []) : ∀ pos,
    (pos + (laid pos (bs.map fun b => (e, b))).length) % Spec.align e =
      (laid 0 (bs.map fun b => (e, b))).length % Spec.align e := by
  induction bs with
  | nil => exact absurd rfl hne
  | cons b bs ih =>
    have h0 : roundUp 0 (Spec.align e) = 0 := roundUp_of_dvd (specAlign_isAl e).pos (Nat.dvd_zero _)
    have hz := laid_cons_length 0 e b (bs.map fun b => (e, b))
    rw [h0] at hz
    intro pos
    rw [List.map_cons, laid_cons_length]
    simp only [Nat.zero_add] at hz
    rw [hz]
    by_cases hb : bs = []
    · subst hb
      obtain ⟨q, hq⟩ := roundUp_dvd pos (Spec.align e)
      simp only [List.map_nil, laid, List.length_nil, Nat.add_zero]
      rw [hq, Nat.mul_add_mod]
    · rw [ih hb, ih hb]

theorem laid_append_end {e : Ty} (xs bs : List Bytes) : ∀ pos,
    pos + (laid pos ((xs ++ bs).map fun b => (e, b))).length =
      (pos + (laid pos (xs.map fun b => (e, b))).length) +
        (laid (pos + (laid pos (xs.map fun b => (e, b))).length) (bs.map fun b => (e, b))).length := by
  induction xs with
  | nil => intro pos; simp [laid]
  | cons x xs ih =>
    intro pos
    rw [List.cons_append, List.map_cons, laid_cons_length, List.map_cons, laid_cons_length, ih]

/-- Elements put in front do not change the padding at the end. -/
theorem endPad_append {E : Enc} {e : Ty} (xs bs : List Bytes) (hne : bs ≠ []) :
    endPad E e (xs ++ bs) = endPad E e bs := by
  have h1 := laid_append_end (e := e) xs bs 0
  have h2 := end_mod (e := e) hne (0 + (laid 0 (xs.map fun b => (e, b))).length)
  rw [← h1] at h2
  simp only [Nat.zero_add] at h2
  unfold endPad
  generalize (laid 0 ((xs ++ bs).map fun b => (e, b))).length = n at h2
  generalize (laid 0 (bs.map fun b => (e, b))).length = m at h2
  have : roundUp n (Spec.align e) - n = roundUp m (Spec.align e) - m := by
    unfold roundUp
    rcases specAlign_isAl e with ha | ha | ha | ha <;> rw [ha] at h2 ⊢ <;> omega
  simp only [this]

theorem endPad_lt (E : Enc) (e : Ty) (bs : List Bytes) : endPad E e bs < 8 := by
  unfold endPad
  have := padding_ok (specAlign_isAl e) (n := (laid 0 (bs.map fun b => (e, b))).length)
  simp only
  split <;> omega

/-- One round on the elements of an array of variable-width elements. -/
def backElems (E : Enc) (e : Ty) (vs : List Val) : List Val :=
  if endPad E e (vs.map (enc E e)) % endWidth E e (vs.map (enc E e)) ≠ 0 then []
  else List.replicate (endPad E e (vs.map (enc E e)) / endWidth E e (vs.map (enc E e))) (dflt e) ++
    vs.map (back E e)

theorem back_arr {E : Enc} {e : Ty} (hs : (size e).isSome = false) (vs : List Val) :
    back E (.A e) (.arr vs) = .arr (backElems E e vs) := by
  unfold backElems
  simp only [back, hs, Bool.false_eq_true, if_false]
  split <;> rfl

/-- After any number of rounds: nothing, or the elements after as many rounds, with defaults in front. -/
theorem rounds_arr {E : Enc} {e : Ty} (hs : (size e).isSome = false) (vs : List Val) (n : Nat) :
    backN E (.A e) n (.arr vs) = .arr [] ∨
      ∃ k, backN E (.A e) n (.arr vs) = .arr (List.replicate k (dflt e) ++ vs.map (backN E e n)) := by
  induction n with
  | zero => exact .inr ⟨0, by simp [backN]⟩
  | succ n ih =>
    rw [backN_succ]
    rcases ih with h | ⟨k, h⟩
    · left; rw [h, back_nil]
    · rw [h, back_arr hs]
      unfold backElems
      split
      · exact .inl rfl
      · right
        refine ⟨endPad E e ((List.replicate k (dflt e) ++ vs.map (backN E e n)).map (enc E e)) /
          endWidth E e ((List.replicate k (dflt e) ++ vs.map (backN E e n)).map (enc E e)) + k, ?_⟩
        have hm : (List.replicate k (dflt e) ++ vs.map (backN E e n)).map (back E e) =
            List.replicate k (dflt e) ++ vs.map (back E e ∘ backN E e n) := by
          rw [List.map_append, List.map_replicate, back_dflt, List.map_map]
        rw [hm, ← List.append_assoc, List.replicate_append_replicate]
        congr 2
        apply List.map_congr_left
        intro v _
        exact (backN_succ n v).symm

/-- If the elements are at rest and there is padding at the end, each round puts something in front. -/
theorem rounds_grow {E : Enc} {e : Ty} (hs : (size e).isSome = false) {vs : List Val}
    (hv : ∀ v ∈ vs, back E e v = v) (hp : endPad E e (vs.map (enc E e)) ≠ 0) (n : Nat) :
    backN E (.A e) n (.arr vs) = .arr [] ∨
      ∃ k, n ≤ k ∧ backN E (.A e) n (.arr vs) = .arr (List.replicate k (dflt e) ++ vs) := by
  have hne : vs.map (enc E e) ≠ [] := fun h => hp (by rw [h, endPad_nil])
  induction n with
  | zero => exact .inr ⟨0, Nat.le_refl _, by simp [backN]⟩
  | succ n ih =>
    rw [backN_succ]
    rcases ih with h | ⟨k, hk, h⟩
    · left; rw [h, back_nil]
    · rw [h, back_arr hs]
      unfold backElems
      rw [List.map_append (f := enc E e), endPad_append _ _ hne]
      split
      · exact .inl rfl
      · right
        rename_i hz
        generalize hw : endWidth E e ((List.replicate k (dflt e)).map (enc E e) ++ vs.map (enc E e)) = w at hz
        have hd : endPad E e (vs.map (enc E e)) / w ≠ 0 := by
          intro h0
          have := Nat.div_add_mod (endPad E e (vs.map (enc E e))) w
          simp only [ne_eq, Decidable.not_not] at hz
          rw [h0, hz] at this
          omega
        refine ⟨endPad E e (vs.map (enc E e)) / w + k, by have := Nat.pos_of_ne_zero hd; omega, ?_⟩
        rw [List.map_append, List.map_replicate, back_dflt, ← List.append_assoc, List.replicate_append_replicate]
        congr 2
        exact map_self hv

/-- So in the end everything is lost. -/
theorem rounds_lost {E : Enc} {e : Ty} (hs : (size e).isSome = false) {vs : List Val}
    (hv : ∀ v ∈ vs, back E e v = v) (hp : endPad E e (vs.map (enc E e)) ≠ 0) :
    backN E (.A e) (2 ^ 32 + 1) (.arr vs) = .arr [] := by
  have hne : vs.map (enc E e) ≠ [] := fun h => hp (by rw [h, endPad_nil])
  rw [backN_succ]
  rcases rounds_grow hs hv hp (2 ^ 32) with h | ⟨k, hk, h⟩
  · rw [h, back_nil]
  · rw [h, back_arr hs]
    unfold backElems
    rw [List.map_append (f := enc E e), endPad_append _ _ hne]
    have hw : endWidth E e ((List.replicate k (dflt e)).map (enc E e) ++ vs.map (enc E e)) = 8 := by
      unfold endWidth
      rw [frameWidth_eq]
      simp only [List.length_append, List.length_map, List.length_replicate]
      rw [if_neg (by omega), if_neg (by omega), if_neg (by omega)]
    rw [hw, if_pos]
    have := endPad_lt E e (vs.map (enc E e))
    omega

/-! ### Every value -/

theorem backN_maybe {E : Enc} {e : Ty} (x : Val) (n : Nat) :
    backN E (.M e) n (.just x) = .just (backN E e n x) := by
  induction n with
  | zero => rfl
  | succ n ih => rw [backN_succ, ih, backN_succ]; rfl

/-- Members after `n` rounds. -/
def backNs (E : Enc) (n : Nat) : List Ty → List Val → List Val
  | t :: ts, v :: vs => backN E t n v :: backNs E n ts vs
  | _, vs => vs

theorem backNs_zero {E : Enc} (ts : List Ty) : ∀ vs, backNs E 0 ts vs = vs := by
  induction ts with
  | nil => intro vs; cases vs <;> rfl
  | cons t ts ih =>
    intro vs
    cases vs with
    | nil => rfl
    | cons v vs => simp only [backNs, ih, backN]

theorem backAll_backNs {E : Enc} (n : Nat) (ts : List Ty) : ∀ vs,
    backAll E ts (backNs E n ts vs) = backNs E (n + 1) ts vs := by
  induction ts with
  | nil => intro vs; cases vs <;> rfl
  | cons t ts ih =>
    intro vs
    cases vs with
    | nil => rfl
    | cons v vs => simp only [backNs, backAll, ih, backN_succ]

theorem backN_tuple {E : Enc} {ts : List Ty} (vs : List Val) (n : Nat) :
    backN E (.tuple ts) n (.tup vs) = .tup (backNs E n ts vs) := by
  induction n with
  | zero => rw [backNs_zero]; rfl
  | succ n ih => rw [backN_succ, ih]; simp only [back, backAll_backNs]

theorem backN_dict {E : Enc} {k v : Ty} (x y : Val) (n : Nat) :
    backN E (.dict k v) n (.tup [x, y]) = .tup [backN E k n x, backN E v n y] := by
  induction n with
  | zero => rfl
  | succ n ih => rw [backN_succ, ih]; simp only [back, backN_succ]

/-- Rounds that suffice. -/
def enough (t : Ty) : Nat := arrayDepth t * (2 ^ 32 + 1)

theorem rests {E : Enc} {B : Nat} (ts : List Ty)
    (h : ∀ t ∈ ts, ∀ v, back E t (backN E t (enough t) v) = backN E t (enough t) v)
    (hB : arrayDepths ts * (2 ^ 32 + 1) ≤ B) : ∀ vs, backNs E (B + 1) ts vs = backNs E B ts vs := by
  induction ts with
  | nil => intro vs; cases vs <;> rfl
  | cons t ts ih =>
    intro vs
    simp only [arrayDepths] at hB
    have h1 : enough t ≤ B := Nat.le_trans (Nat.mul_le_mul_right _ (Nat.le_max_left _ _)) hB
    have h2 : arrayDepths ts * (2 ^ 32 + 1) ≤ B :=
      Nat.le_trans (Nat.mul_le_mul_right _ (Nat.le_max_right _ _)) hB
    cases vs with
    | nil => rfl
    | cons v vs =>
      simp only [backNs, ih (fun u hu => h u (by simp [hu])) h2]
      rw [backN_succ, rest_mono (h t (by simp) v) h1]

theorem settles {E : Enc} (t : Ty) : ∀ v, back E t (backN E t (enough t) v) = backN E t (enough t) v := by
  induction t using Ty.ind with
  | a e ih =>
    intro v
    have hen : enough (.A e) = enough e + (2 ^ 32 + 1) := by
      unfold enough; simp only [arrayDepth, Nat.succ_mul]
    rw [hen]
    cases v with
    | arr vs =>
      by_cases hs : (size e).isSome = true
      · have hall : ∀ n, backN E (.A e) n (.arr vs) = .arr (vs.map (backN E e n)) := by
          intro n
          induction n with
          | zero => simp [backN]
          | succ n ihn =>
            rw [backN_succ, ihn]
            simp only [back, hs, if_true, List.map_map]
            congr 1
            apply List.map_congr_left
            intro v _
            exact (backN_succ n v).symm
        have hB : enough e ≤ enough e + (2 ^ 32 + 1) := Nat.le_add_right _ _
        generalize enough e + (2 ^ 32 + 1) = B at hB
        rw [← backN_succ, hall, hall]
        congr 1
        apply List.map_congr_left
        intro v _
        rw [backN_succ]
        exact rest_mono (ih v) hB
      · have hs : (size e).isSome = false := by simpa using hs
        rcases rounds_arr (E := E) hs vs (enough e) with h | ⟨k, h⟩
        · rw [backN_add, h, backN_fix (back_nil E e), back_nil]
        · rw [backN_add, h]
          generalize hws : List.replicate k (dflt e) ++ vs.map (backN E e (enough e)) = ws
          have hv : ∀ v ∈ ws, back E e v = v := by
            intro v hv
            rw [← hws] at hv
            rcases List.mem_append.1 hv with hv | hv
            · rw [(List.mem_replicate.1 hv).2, back_dflt]
            · obtain ⟨u, _, rfl⟩ := List.mem_map.1 hv
              exact ih u
          by_cases hp : endPad E e (ws.map (enc E e)) = 0
          · have hfix : back E (.A e) (.arr ws) = .arr ws := by
              rw [back_arr hs]
              unfold backElems
              rw [hp]
              simp only [Nat.zero_mod, ne_eq, not_true_eq_false, if_false, Nat.zero_div, List.replicate_zero,
                List.nil_append]
              congr 1
              exact map_self hv
            rw [backN_fix hfix, hfix]
          · rw [rounds_lost hs hv hp, back_nil]
    | _ => rw [backN_fix rfl]; rfl
  | m e ih =>
    intro v
    have hen : enough (.M e) = enough e := rfl
    rw [hen]
    cases v with
    | just x => rw [backN_maybe]; simp only [back]; rw [ih]
    | _ => rw [backN_fix rfl]; rfl
  | tuple ts ih =>
    intro v
    cases v with
    | tup vs =>
      rw [← backN_succ, backN_tuple, backN_tuple, rests ts ih (by unfold enough; simp only [arrayDepth]; omega)]
    | _ => rw [backN_fix rfl]; rfl
  | dict k v ihk ihv =>
    intro u
    have h1 : enough k ≤ enough (.dict k v) := Nat.mul_le_mul_right _ (Nat.le_max_left _ _)
    have h2 : enough v ≤ enough (.dict k v) := Nat.mul_le_mul_right _ (Nat.le_max_right _ _)
    cases u with
    | tup vs =>
      match vs with
      | [x, y] =>
        rw [← backN_succ, backN_dict, backN_dict, backN_succ, backN_succ, rest_mono (ihk x) h1, rest_mono (ihv y) h2]
      | [] => rw [backN_fix rfl]; rfl
      | [x] => rw [backN_fix rfl]; rfl
      | x :: y :: z :: l => rw [backN_fix rfl]; rfl
    | _ => rw [backN_fix rfl]; rfl
  | _ => intro v; rfl

end GV
