import Verif.Spec.Visits
import Verif.Proofs.Blow
/-
Data whose elements overlap at each of several levels.
-/
namespace GV
open Spec

/-- A string of `m` letters; then, `d` times, an array whose elements are `k` times all that is before the
    framing offsets (and `k` times nothing). -/
def pile (m k : Nat) : Nat → Bytes
  | 0 => List.replicate m 120 ++ [0]
  | d + 1 => pile m k d ++ frames (pile m k d).length (zigzag (pile m k d).length k)

theorem pile_length (m k d : Nat) : (pile m k d).length ≤ m + 1 + 16 * k * d := by
  induction d with
  | zero => simp [pile]
  | succ d ih =>
    simp only [pile, List.length_append, frames_length, zigzag_length]
    have := Nat.mul_le_mul_left (2 * k) (width_le (pile m k d).length (2 * k))
    have h : 16 * k * (d + 1) = 16 * k * d + 16 * k := Nat.mul_succ _ _
    have h' : 2 * k * 8 = 16 * k := by omega
    omega

theorem pile_mono (m k d : Nat) : (pile m k d).length ≤ (pile m k (d + 1)).length := by
  simp [pile]

theorem nest_size (d : Nat) : size (nest d) = none := by cases d <;> rfl

theorem nest_align (d : Nat) : Spec.align (nest d) = 1 := by
  induction d with
  | zero => rfl
  | succ d ih => simp [nest, Spec.align, ih]

theorem pile_children (be : Bool) (m k d : Nat) (hk : 0 < k) (hl : (pile m k (d + 1)).length < 2 ^ 64) :
    arrChildren (.crate be) (nest d) (pile m k (d + 1)) =
        elemsFrom (pile m k (d + 1)) (pile m k d).length 1 0 (zigzag (pile m k d).length k) ∧
      (pile m k (d + 1)).take (pile m k d).length = pile m k d := by
  obtain ⟨k, rfl⟩ : ∃ j, k = j + 1 := ⟨k - 1, by omega⟩
  constructor
  · have hne : zigzag (pile m (k + 1) d).length (k + 1) ≠ [] := by simp [zigzag]
    have := arrFrame_enc (body := pile m (k + 1) d) (offs := zigzag (pile m (k + 1) d).length (k + 1)) hne
      (zigzag_le _ _) (by simpa [pile] using hl) (zigzag_last _ _ _)
    have hf : arrFrame (pile m (k + 1) (d + 1)) =
        ((pile m (k + 1) d).length, zigzag (pile m (k + 1) d).length (k + 1)) := by
      simpa [pile, zigzag_length] using this
    simp [arrChildren, nest_size, hf, nest_align, Rules.crate]
  · simp [pile]

/-- Whatever is counted, it is counted `k` times over at each level. -/
theorem pile_count (be : Bool) (f : Ty → Val → Nat) (m k : Nat)
    (hf : ∀ e vs, (vs.map (f e)).sum ≤ f (.A e) (.arr vs)) :
    ∀ d, (pile m k d).length < 2 ^ 64 →
      k ^ d * f .S (.str (List.replicate m 120)) ≤ f (nest d) (dec (.crate be) (nest d) (pile m k d)) := by
  intro d
  induction d with
  | zero =>
    intro _
    simp only [pile, nest, dec, text_enc (utf8_xs m), Nat.pow_zero, Nat.one_mul]
    exact Nat.le_refl _
  | succ d ih =>
    intro hl
    cases Nat.eq_zero_or_pos k with
    | inl h => subst h; simp
    | inr hk =>
      have h1 := ih (Nat.lt_of_le_of_lt (pile_mono m k d) hl)
      obtain ⟨h2, h3⟩ := pile_children be m k d hk hl
      have h4 := zigzag_sum (fun o => f (nest d) (match o with
        | some x => dec (.crate be) (nest d) x
        | none => dflt (nest d))) (pile m k (d + 1)) (pile m k d).length k 0
      simp only [h3] at h4
      refine Nat.le_trans ?_ (hf (nest d) _)
      simp only [nest, h2, List.map_map]
      refine Nat.le_trans ?_ h4
      rw [Nat.pow_succ, Nat.mul_comm (k ^ d) k, Nat.mul_assoc]
      exact Nat.mul_le_mul_left _ h1

theorem partsAll_sum (vs : List Val) : partsAll vs = (vs.map parts).sum := by
  induction vs with
  | nil => rfl
  | cons v vs ih => simp [partsAll, ih]

theorem pile_parts (be : Bool) (m k d : Nat) (hl : (pile m k d).length < 2 ^ 64) :
    k ^ d ≤ parts (dec (.crate be) (nest d) (pile m k d)) := by
  have := pile_count be (fun _ v => parts v) m k (fun e vs => by
    simp only [parts, partsAll_sum]; exact Nat.le_add_left _ _) d hl
  simpa [parts] using this

theorem pile_enc (E : Enc) (be : Bool) (m k d : Nat) (hl : (pile m k d).length < 2 ^ 64) :
    k ^ d * (m + 1) ≤ (enc E (nest d) (dec (.crate be) (nest d) (pile m k d))).length := by
  have hA : ∀ e vs, (vs.map fun v => (enc E e v).length).sum ≤ (enc E (.A e) (.arr vs)).length := by
    intro e vs
    simp only [enc]
    split
    · rw [List.length_flatten]; simp [List.map_map, Function.comp_def]
    · have := encArr_sum E e (vs.map (enc E e))
      simpa [List.map_map, Function.comp_def] using this
  have := pile_count be (fun t v => (enc E t v).length) m k hA d hl
  simpa [enc] using this

theorem nest_expands (d : Nat) : Expands (nest d) := by
  induction d with
  | zero => decide
  | succ d ih => exact expands_A.2 ih

theorem nest_show (d : Nat) : (nest d).show.length = d + 1 := by
  induction d with
  | zero => rfl
  | succ d ih => simp [nest, Ty.show, ih]

theorem nest_ragged (R : Rules) (d : Nat) : ∀ b, ragged R (nest d) b = false := by
  induction d with
  | zero => intro b; rfl
  | succ d ih =>
    intro b
    simp only [nest, ragged, List.any_eq_false]
    intro o _
    cases o with
    | none => simp
    | some x =>
      have : badSize (nest d) x = false := by
        cases d with
        | zero => rfl
        | succ d => simp [nest, badSize, nest_size]
      simp [this, ih]

theorem nest_arrayDepth (d : Nat) : arrayDepth (nest d) = d := by
  induction d with
  | zero => rfl
  | succ d ih => simp [nest, arrayDepth, ih]

theorem nest_degree (d : Nat) : degree (nest d) = d + 1 := by
  induction d with
  | zero => rfl
  | succ d ih => simp [nest, degree, ih]

/-! ### Values of a type and their encodings -/

theorem fixed_parts (t : Ty) : ∀ v n, size t = some n → Fits t v → parts v ≤ types t := by
  have key : ∀ (ts : List Ty), (∀ t ∈ ts, ∀ v n, size t = some n → Fits t v → parts v ≤ types t) →
      (∀ t ∈ ts, (size t).isSome) → ∀ vs, FitsAll ts vs → partsAll vs ≤ typesAll ts := by
    intro ts
    induction ts with
    | nil => intro _ _ vs hf; cases vs with
      | nil => simp [partsAll]
      | cons => simp [FitsAll] at hf
    | cons t ts iht =>
      intro ih hs vs hf
      cases vs with
      | nil => simp [FitsAll] at hf
      | cons v vs =>
        simp only [FitsAll] at hf
        obtain ⟨n, hn⟩ := Option.isSome_iff_exists.1 (hs t (by simp))
        have h1 := ih t (by simp) v n hn hf.1
        have h2 := iht (fun u hu => ih u (by simp [hu])) (fun u hu => hs u (by simp [hu])) vs hf.2
        simp only [partsAll, typesAll]
        omega
  induction t using Ty.ind with
  | a e _ => intro v n h; simp [size] at h
  | m e _ => intro v n h; simp [size] at h
  | tuple ts ih =>
    intro v n h hf
    have hs := (size_tuple_members h).choose_spec.2.1
    cases v <;> simp only [Fits] at hf
    rename_i vs
    have := key ts ih hs vs hf
    simp only [parts, types]; omega
  | dict k w ihk ihw =>
    intro v n h hf
    cases v <;> simp only [Fits] at hf
    split at hf
    · rename_i x y
      simp only [size] at h
      split at h
      · rename_i h1 h2
        have := ihk x _ h1 hf.1
        have := ihw y _ h2 hf.2
        simp only [parts, partsAll, types]; omega
      · cases h
    · exact hf.elim
  | _ => intro v n h hf; cases v <;> simp_all [Fits, parts, types]

theorem encStruct_sum (sz : Option Nat) (ms : List (Ty × Bytes)) :
    (ms.map (·.2.length)).sum ≤ (encStruct sz ms).length := by
  have := laid_sum ms 0
  unfold encStruct
  split <;> simp only [List.length_append] <;> omega

theorem encArr_count (E : Enc) (e : Ty) (bs : List Bytes) :
    (bs.map List.length).sum + bs.length ≤ (encArr E e bs).length := by
  have := laid_sum (bs.map fun b => (e, b)) 0
  simp only [List.map_map] at this
  have hw : ∀ n k, 1 ≤ frameWidth n k := by
    intro n k
    unfold frameWidth
    cases h : [1, 2, 4].find? fun w => decide (offsetWidth (n + k * w) ≤ w) with
    | none => simp
    | some w =>
      have := List.mem_of_find?_eq_some h
      simp only [List.mem_cons, List.not_mem_nil, or_false] at this
      simp only [Option.getD_some]; omega
  have hl : ∀ (ms : List (Ty × Bytes)) p, (layEnds p ms).length = ms.length := by
    intro ms
    induction ms with
    | nil => intro p; rfl
    | cons m ms ih => intro p; simp [layEnds, ih]
  simp only [encArr, List.length_append, frames_length, hl, List.length_map]
  have h : (bs.map List.length).sum = (bs.map ((fun x : Ty × Bytes => x.2.length) ∘ fun b => (e, b))).sum := rfl
  have := fun n => Nat.le_mul_of_pos_right bs.length (hw n bs.length)
  have := this ((laid 0 (bs.map fun b => (e, b))).length + (zeros (if E.padLast = true then
    roundUp (laid 0 (bs.map fun b => (e, b))).length (Spec.align e) - (laid 0 (bs.map fun b => (e, b))).length
    else 0)).length)
  omega

/-- Written out properly, each value takes some room. -/
theorem parts_enc (E : Enc) (t : Ty) : ∀ v, Fits t v → parts v ≤ types t * ((enc E t v).length + 1) := by
  have key : ∀ (ts : List Ty), (∀ t ∈ ts, ∀ v, Fits t v → parts v ≤ types t * ((enc E t v).length + 1)) →
      ∀ vs N, FitsAll ts vs → ((encAll E ts vs).map (·.2.length)).sum ≤ N → partsAll vs ≤ typesAll ts * (N + 1) := by
    intro ts
    induction ts with
    | nil => intro _ vs N hf _; cases vs with
      | nil => simp [partsAll]
      | cons => simp [FitsAll] at hf
    | cons t ts iht =>
      intro ih vs N hf hN
      cases vs with
      | nil => simp [FitsAll] at hf
      | cons v vs =>
        simp only [FitsAll] at hf
        simp only [encAll, List.map_cons, List.sum_cons] at hN
        have h1 := ih t (by simp) v hf.1
        have h2 := iht (fun u hu => ih u (by simp [hu])) vs N hf.2 (by omega)
        have h3 : types t * ((enc E t v).length + 1) ≤ types t * (N + 1) := Nat.mul_le_mul_left _ (by omega)
        simp only [partsAll, typesAll, Nat.add_mul]
        omega
  induction t using Ty.ind with
  | a e ih =>
    intro v hf
    cases v <;> simp only [Fits] at hf
    rename_i vs
    simp only [enc, parts, types]
    have main : ∀ N, partsAll vs ≤ types e * N → 1 + partsAll vs ≤ (1 + types e) * (N + 1) := by
      intro N h
      simp only [Nat.add_mul, Nat.mul_add]; omega
    cases hs : size e with
    | some n =>
      simp only [Option.isSome_some, if_true]
      refine main _ ?_
      have hpos : 0 < n := (size_pos_dvd e n hs).1
      clear main
      induction vs with
      | nil => simp [partsAll]
      | cons v vs ihv =>
        have h1 := fixed_parts e v n hs (hf v (by simp))
        have h2 := ihv fun w hw => hf w (by simp [hw])
        have h3 := enc_length E e v n (hf v (by simp)) hs
        simp only [partsAll, List.map_cons, List.flatten_cons, List.length_append, Nat.mul_add, h3]
        have := Nat.le_mul_of_pos_right (types e) hpos
        omega
    | none =>
      simp only [Option.isSome_none, Bool.false_eq_true, if_false]
      refine main _ (Nat.le_trans ?_ (Nat.mul_le_mul_left _ (encArr_count E e (vs.map (enc E e)))))
      clear main
      induction vs with
      | nil => simp [partsAll]
      | cons v vs ihv =>
        have h1 := ih v (hf v (by simp))
        have h2 := ihv fun w hw => hf w (by simp [hw])
        simp only [partsAll, List.map_cons, List.sum_cons, List.length_cons, Nat.mul_add] at *
        omega
  | m e ih =>
    intro v hf
    simp only [Fits] at hf
    split at hf
    · simp only [parts, types, enc, List.length_nil]; omega
    · rename_i x
      have h1 := ih x hf
      simp only [parts, types, enc, List.length_append, Nat.add_mul, Nat.mul_add] at *
      omega
    · exact hf.elim
  | tuple ts ih =>
    intro v hf
    cases v <;> simp only [Fits] at hf
    rename_i vs
    have := key ts ih vs _ hf (encStruct_sum (size (.tuple ts)) (encAll E ts vs))
    simp only [parts, types, enc, Nat.add_mul] at *
    omega
  | dict k w ihk ihw =>
    intro v hf
    cases v <;> simp only [Fits] at hf
    split at hf
    · rename_i x y
      have := key [k, w] (by
        intro t ht
        simp only [List.mem_cons, List.not_mem_nil, or_false] at ht
        rcases ht with rfl | rfl <;> assumption) [x, y] _ (by simpa [FitsAll] using hf)
        (encStruct_sum (size (.dict k w)) (encAll E [k, w] [x, y]))
      simp only [parts, types, typesAll, enc, encAll, Nat.add_mul] at *
      omega
    · exact hf.elim
  | _ => intro v hf; cases v <;> simp_all [Fits, parts, types]

end GV
