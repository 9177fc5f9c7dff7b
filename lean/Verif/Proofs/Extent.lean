import Verif.Spec.Extent
import Verif.Proofs.Visits
import Verif.Proofs.SerRun
/-
Lengths of encodings.
-/
namespace GV
open Spec

/-- What is to be shown of each type. -/
def Extends (E : Enc) (t : Ty) : Prop := ∀ v, Fits t v →
  content t v ≤ (enc E t v).length ∧ (enc E t v).length + 15 ≤ content t v + 22 * parts v

theorem laid_le : ∀ (ms : List (Ty × Bytes)) (pos : Nat),
    (laid pos ms).length ≤ (ms.map (·.2.length)).sum + 7 * ms.length
  | [], _ => by simp [laid]
  | (t, b) :: ms, pos => by
    have h1 := roundUp_lt (specAlign_isAl t).pos pos
    have h2 : Spec.align t ≤ 8 := by rcases (specAlign_isAl t).cases with h | h | h | h <;> omega
    have h3 := laid_le ms (roundUp pos (Spec.align t) + b.length)
    simp only [laid, List.length_append, zeros_length, List.map_cons, List.sum_cons, List.length_cons]
    omega

theorem encArr_le (E : Enc) (e : Ty) (bs : List Bytes) :
    (encArr E e bs).length ≤ (bs.map List.length).sum + 15 * bs.length + 7 := by
  have h1 := laid_le (bs.map fun b => (e, b)) 0
  unfold encArr
  simp only [List.length_append, frames_length, layEnds_length, zeros_length]
  have hm : ((bs.map fun b => (e, b)).map (·.2.length)).sum = (bs.map List.length).sum := by
    rw [List.map_map]; rfl
  rw [hm] at h1
  generalize hL : (laid 0 (bs.map fun b => (e, b))).length = L at *
  have h2 := roundUp_lt (specAlign_isAl e).pos L
  have h3 : Spec.align e ≤ 8 := by rcases (specAlign_isAl e).cases with h | h | h | h <;> omega
  simp only [List.length_map] at h1 ⊢
  generalize hw : frameWidth _ bs.length = w
  have h4 : w ≤ 8 := by rw [← hw]; exact width_le _ _
  have h5 : bs.length * w ≤ bs.length * 8 := Nat.mul_le_mul_left _ h4
  have h6 : (if E.padLast = true then roundUp L (Spec.align e) - L else 0) ≤ 7 := by split <;> omega
  omega

theorem encStruct_le (ts : List Ty) (ms : List (Ty × Bytes)) (ht : ms.map (·.1) = ts)
    (h : ∀ m ∈ ms, ∀ k, size m.1 = some k → m.2.length = k) :
    (encStruct (size (.tuple ts)) ms).length ≤ (ms.map (·.2.length)).sum + 15 * ms.length + 7 := by
  have h1 := laid_le ms 0
  cases hs : size (.tuple ts) with
  | some n =>
    obtain ⟨g1, g2, _⟩ := encStruct_fixed_length ht h hs
    obtain ⟨e, he, _, hn⟩ := size_tuple_members hs
    have := laid_fixed_length g2 0
    rw [ht, he] at this
    simp only [Option.some.injEq, Nat.zero_add] at this
    rw [g1, hn]
    split
    · omega
    · have h2 := roundUp_lt (alignMax_isAl ts).pos e
      have h3 : Spec.alignMax ts ≤ 8 := by rcases (alignMax_isAl ts).cases with h | h | h | h <;> omega
      omega
  | none =>
    simp only [encStruct, List.length_append, frames_length, List.length_reverse, frameEnds_length]
    have h3 : frameCount (ms.map (·.1)) ≤ ms.length := by
      unfold frameCount
      have := List.length_filter_le (fun t => (size t).isNone) (ms.map (·.1)).dropLast
      simp only [List.length_dropLast, List.length_map] at this
      omega
    generalize frameCount _ = k at *
    have h4 : k * frameWidth (laid 0 ms).length k ≤ k * 8 := Nat.mul_le_mul_left _ (width_le _ _)
    omega

theorem extends_each {E : Enc} {e : Ty} (ih : Extends E e) : ∀ vs : List Val, (∀ v ∈ vs, Fits e v) →
    contentEach e vs ≤ ((vs.map (enc E e)).map List.length).sum ∧
      ((vs.map (enc E e)).map List.length).sum + 15 * vs.length ≤ contentEach e vs + 22 * partsAll vs := by
  intro vs
  induction vs with
  | nil => intro _; simp [contentEach, partsAll]
  | cons v vs ihv =>
    intro h
    have h1 := ih v (h v (by simp))
    have h2 := ihv fun w hw => h w (by simp [hw])
    simp only [contentEach, partsAll, List.map_cons, List.sum_cons, List.length_cons]
    omega

theorem extends_all {E : Enc} : ∀ (ts : List Ty) (vs : List Val), (∀ t ∈ ts, Extends E t) → FitsAll ts vs →
    contentAll ts vs ≤ ((encAll E ts vs).map (·.2.length)).sum ∧
      ((encAll E ts vs).map (·.2.length)).sum + 15 * (encAll E ts vs).length ≤ contentAll ts vs + 22 * partsAll vs
  | [], [], _, _ => by simp [contentAll, partsAll, encAll]
  | [], _ :: _, _, h => by simp [FitsAll] at h
  | _ :: _, [], _, h => by simp [FitsAll] at h
  | t :: ts, v :: vs, ih, h => by
    simp only [FitsAll] at h
    have h1 := ih t (by simp) v h.1
    have h2 := extends_all ts vs (fun u hu => ih u (by simp [hu])) h.2
    simp only [contentAll, partsAll, encAll, List.map_cons, List.sum_cons, List.length_cons]
    omega

theorem extends_struct {E : Enc} {ts : List Ty} {vs : List Val} (ih : ∀ t ∈ ts, Extends E t) (hf : FitsAll ts vs) :
    contentAll ts vs ≤ (encStruct (size (.tuple ts)) (encAll E ts vs)).length ∧
      (encStruct (size (.tuple ts)) (encAll E ts vs)).length + 15 ≤ contentAll ts vs + 22 * (1 + partsAll vs) := by
  obtain ⟨h1, h2⟩ := extends_all ts vs ih hf
  have h3 := encStruct_sum (size (.tuple ts)) (encAll E ts vs)
  have h4 := encStruct_le ts (encAll E ts vs) (encAll_types hf) (by
    intro m hm k hk
    obtain ⟨t, _, v, _, g1, rfl⟩ := encAll_mem hf m hm
    exact enc_length E t v k g1 hk)
  omega

theorem extends_ok (E : Enc) (t : Ty) : Extends E t := by
  induction t using Ty.ind with
  | a e ih =>
    intro v hf
    cases v <;> simp only [Fits] at hf
    rename_i vs
    obtain ⟨h1, h2⟩ := extends_each ih vs hf
    simp only [content, parts, enc]
    split
    · rw [List.length_flatten]
      omega
    · have h3 := encArr_le E e (vs.map (enc E e))
      have h4 := encArr_count E e (vs.map (enc E e))
      simp only [List.length_map] at h3 h4
      omega
  | m e ih =>
    intro v hf
    simp only [Fits] at hf
    split at hf
    · simp [content, parts, enc]
    · rename_i x
      have h1 := ih x hf
      simp only [content, parts, enc, List.length_append]
      split <;> simp <;> omega
    · exact hf.elim
  | tuple ts ih =>
    intro v hf
    cases v <;> simp only [Fits] at hf
    exact extends_struct ih hf
  | dict k w ihk ihw =>
    intro v hf
    cases v <;> simp only [Fits] at hf
    split at hf
    · rename_i x y
      have := extends_struct (E := E) (ts := [k, w]) (vs := [x, y]) (by
        intro t ht
        simp only [List.mem_cons, List.not_mem_nil, or_false] at ht
        rcases ht with rfl | rfl <;> assumption) (by simpa [FitsAll] using hf)
      rw [← size_dict_eq] at this
      exact this
    · exact hf.elim
  | _ =>
    intro v hf
    cases v <;> simp_all [Fits, parts, content, enc, numWidth, numBytes_length] <;> omega

/-- What is to be shown of each source. -/
def Spreads (E : Enc) (t : Ty) (x : Src) : Prop :=
  bulk t x ≤ content t (meaning E t x) ∧
    content t (meaning E t x) + 22 * parts (meaning E t x) ≤ bulk t x + 22 * units x

theorem spreads_each {E : Enc} {e : Ty} : ∀ xs : List Src, (∀ x ∈ xs, Spreads E e x) →
    bulkEach e xs ≤ contentEach e (meaningEach E e xs) ∧
      contentEach e (meaningEach E e xs) + 22 * partsAll (meaningEach E e xs) ≤ bulkEach e xs + 22 * unitsAll xs
  | [], _ => by simp [bulkEach, contentEach, meaningEach, partsAll, unitsAll]
  | x :: xs, h => by
    have h1 := h x (by simp)
    have h2 := spreads_each xs fun y hy => h y (by simp [hy])
    unfold Spreads at h1
    simp only [bulkEach, contentEach, meaningEach, partsAll, unitsAll]
    omega

theorem spreads_all {E : Enc} : ∀ (ts : List Ty) (xs : List Src), AcceptsAll ts xs →
    (∀ x ∈ xs, ∀ t, Accepts t x → Spreads E t x) →
    bulkAll ts xs ≤ contentAll ts (meaningAll E ts xs) ∧
      contentAll ts (meaningAll E ts xs) + 22 * partsAll (meaningAll E ts xs) ≤ bulkAll ts xs + 22 * unitsAll xs
  | [], [], _, _ => by simp [bulkAll, contentAll, meaningAll, partsAll, unitsAll]
  | [], _ :: _, h, _ => by simp [AcceptsAll] at h
  | _ :: _, [], h, _ => by simp [AcceptsAll] at h
  | t :: ts, x :: xs, ha, h => by
    simp only [AcceptsAll] at ha
    have h1 := h x (by simp) t ha.1
    have h2 := spreads_all ts xs ha.2 fun y hy => h y (by simp [hy])
    unfold Spreads at h1
    simp only [bulkAll, contentAll, meaningAll, partsAll, unitsAll]
    omega

theorem spreads_ok (E : Enc) (x : Src) : ∀ t, Accepts t x → ¬ HasNul x → Spreads E t x := by
  induction x using Src.ind with
  | num n => intro t _ _; simp [Spreads, bulk, content, meaning, parts, units]
  | bool b => intro t _ _; simp [Spreads, bulk, content, meaning, parts, units]
  | boolRef b => intro t _ _; simp [Spreads, bulk, content, meaning, parts, units]
  | str b => intro t _ _; simp [Spreads, bulk, content, meaning, parts, units]
  | strRef b => intro t _ _; simp [Spreads, bulk, content, meaning, parts, units]
  | variantRef a b => intro t _ _; simp [Spreads, bulk, content, meaning, parts, units]
  | nothing => intro t _ _; simp [Spreads, bulk, content, meaning, parts, units]
  | wrap u x ih =>
    intro t h hn
    simp only [Accepts] at h
    have h1 := ih u h.2 hn
    have h2 := extends_ok E u (meaning E u x) (fits_meaning E x u h.2 hn)
    unfold Spreads at h1
    simp only [Spreads, bulk, content, meaning, parts, units]
    omega
  | seq xs ih =>
    intro t h hn
    cases t with
    | A e =>
      simp only [Accepts, acceptsEach_iff] at h
      simp only [HasNul, hasNulAny_iff] at hn
      have h1 := spreads_each (E := E) xs fun x hx => ih x hx e (h x hx) fun hh => hn ⟨x, hx, hh⟩
      simp only [Spreads, bulk, content, meaning, parts, units]
      omega
    | _ => simp [Accepts] at h
  | just x ih =>
    intro t h hn
    cases t with
    | M e =>
      have h1 := ih e h hn
      unfold Spreads at h1
      simp only [Spreads, bulk, content, meaning, parts, units]
      omega
    | _ => simp [Accepts] at h
  | iter xs ih =>
    intro t h hn
    cases t with
    | M e =>
      simp only [Accepts, acceptsEach_iff] at h
      cases xs with
      | nil => simp [Spreads, bulk, content, meaning, parts, units]
      | cons x xs =>
        have h1 := ih x (by simp) e (h.2 x (by simp)) hn
        unfold Spreads at h1
        simp only [Spreads, bulk, content, meaning, parts, units]
        omega
    | _ => simp [Accepts] at h
  | tup xs ih =>
    intro t h hn
    simp only [HasNul, hasNulAny_iff] at hn
    cases t with
    | tuple ts =>
      have h1 := spreads_all (E := E) ts xs h fun x hx t ht => ih x hx t ht fun hh => hn ⟨x, hx, hh⟩
      simp only [Spreads, bulk, content, meaning, parts, units]
      omega
    | dict k v =>
      have h1 := spreads_all (E := E) [k, v] xs h fun x hx t ht => ih x hx t ht fun hh => hn ⟨x, hx, hh⟩
      simp only [Spreads, bulk, content, meaning, parts, units]
      omega
    | _ => simp [Accepts] at h

theorem units_mend (f : Bytes → Bytes) (x : Src) : units (mend f x) = units x := by
  have hAll : ∀ xs : List Src, (∀ x ∈ xs, units (mend f x) = units x) → unitsAll (xs.map (mend f)) = unitsAll xs := by
    intro xs
    induction xs with
    | nil => intro _; rfl
    | cons x xs ihx =>
      intro ih
      simp only [List.map_cons, unitsAll, ih x (by simp), ihx fun y hy => ih y (by simp [hy])]
  induction x using Src.ind with
  | wrap u x ih => simp only [mend, units, ih]
  | seq xs ih => simp only [mend, units, mendAll_eq, hAll xs ih]
  | just x ih => simp only [mend, units, ih]
  | iter xs ih =>
    cases xs with
    | nil => rfl
    | cons x xs => simp only [mend, mendAll, units, ih x (by simp)]
  | tup xs ih => simp only [mend, units, mendAll_eq, hAll xs ih]
  | _ => rfl

theorem bulk_mend (x : Src) : ∀ t, bulk t (mend (fun _ => []) x) ≤ bulk t x := by
  have hEach : ∀ (e : Ty) (xs : List Src), (∀ x ∈ xs, ∀ t, bulk t (mend (fun _ => []) x) ≤ bulk t x) →
      bulkEach e (xs.map (mend fun _ => [])) ≤ bulkEach e xs := by
    intro e xs
    induction xs with
    | nil => intro _; simp
    | cons x xs ihx =>
      intro ih
      have h1 := ih x (by simp) e
      have h2 := ihx fun y hy => ih y (by simp [hy])
      simp only [List.map_cons, bulkEach]
      omega
  have hAll : ∀ (xs : List Src) (ts : List Ty), (∀ x ∈ xs, ∀ t, bulk t (mend (fun _ => []) x) ≤ bulk t x) →
      bulkAll ts (xs.map (mend fun _ => [])) ≤ bulkAll ts xs := by
    intro xs
    induction xs with
    | nil => intro ts _; simp
    | cons x xs ihx =>
      intro ts ih
      cases ts with
      | nil => simp [bulkAll]
      | cons t ts =>
        have h1 := ih x (by simp) t
        have h2 := ihx ts fun y hy => ih y (by simp [hy])
        simp only [List.map_cons, bulkAll]
        omega
  induction x using Src.ind with
  | str b =>
    intro t
    simp only [mend, bulk]
    split <;> simp
  | wrap u x ih =>
    intro t
    have := ih u
    simp only [mend, bulk]
    omega
  | seq xs ih =>
    intro t
    cases t <;> simp only [mend, bulk, mendAll_eq, Nat.le_refl]
    exact hEach _ xs ih
  | just x ih => intro t; cases t <;> simp only [mend, bulk, Nat.le_refl]; exact ih _
  | iter xs ih =>
    intro t
    cases xs with
    | nil => exact Nat.le_refl _
    | cons x xs =>
      cases t <;> simp only [mend, mendAll, bulk, Nat.le_refl]
      exact ih x (by simp) _
  | tup xs ih =>
    intro t
    cases t <;> simp only [mend, bulk, mendAll_eq, Nat.le_refl]
    · exact hAll xs _ ih
    · exact hAll xs _ ih
  | _ => intro t; exact Nat.le_refl _

/-- What is short enough by these measures is short enough to serialize. -/
theorem bounded_bulk {c : Cfg} {t : Ty} {x : Src} (h : Serializable t x) (hl : bulk t x + 22 * units x < 2 ^ 63) :
    Bounded c t x := by
  have hf : ∀ b : Bytes, Text ((fun _ => []) b) := fun _ => text_nil
  have ha := accepts_mend hf x t h.acc
  have hn := noNul_mend hf x
  have h1 := extends_ok (.crate c.bigEndian) t _ (fits_meaning (.crate c.bigEndian) _ t ha hn)
  have h2 := spreads_ok (.crate c.bigEndian) _ t ha hn
  have h3 := bulk_mend x t
  have h4 := units_mend (fun _ => []) x
  unfold Spreads at h2
  unfold Bounded bytesOf
  omega

end GV
