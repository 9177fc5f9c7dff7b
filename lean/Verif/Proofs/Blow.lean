import Verif.Spec.Blow
import Verif.Proofs.TameEnc
import Verif.Proofs.SerRun
/-
The size of the encoding of what was read.
-/
namespace GV
open Spec

mutual
/-- A bound on the size of the encoding of any value of the type that `n` bytes can stand for. -/
def blow : Ty → Nat → Nat
  | .B, _ | .Y, _ => 1
  | .N, _ | .Q, _ => 2
  | .I, _ | .U, _ => 4
  | .X, _ | .T, _ | .D, _ => 8
  | .S, n | .O, n | .G, n => n + 1
  | .V, n => n + 3
  | .A e, n => n * (blow e n + 22)
  | .M e, n => blow e n + 1
  | .tuple ts, n => blows ts n + (size (.tuple ts)).getD 0
  | .dict k v, n => (blow k n + 15) + (blow v n + 15) + (size (.dict k v)).getD 0
/-- The same for the members of a structure. -/
def blows : List Ty → Nat → Nat
  | [], _ => 0
  | t :: ts, n => (blow t n + 15) + blows ts n
end

theorem blows_mono {ts : List Ty} {n m : Nat} (ih : ∀ t ∈ ts, blow t n ≤ blow t m) : blows ts n ≤ blows ts m := by
  induction ts with
  | nil => simp [blows]
  | cons t ts iht =>
    simp only [blows]
    have := ih t (by simp)
    have := iht fun u hu => ih u (by simp [hu])
    omega

theorem blow_mono (t : Ty) {n m : Nat} (h : n ≤ m) : blow t n ≤ blow t m := by
  induction t using Ty.ind with
  | a e ih => simp only [blow]; exact Nat.mul_le_mul h (by omega)
  | m e ih => simp only [blow]; omega
  | tuple ts ih => simp only [blow]; have := blows_mono ih; omega
  | dict k v ihk ihv => simp only [blow]; omega
  | _ => simp only [blow]; omega

theorem place_length {b x : Bytes} {l s e : Nat} (h : place b l s e = some x) : x.length ≤ b.length := by
  unfold place at h
  split at h
  · cases h; exact sub_length_le' _ _ _
  · cases h

theorem elemsFrom_mem {b x : Bytes} {l al : Nat} : ∀ {stops : List Nat} {p : Nat},
    some x ∈ elemsFrom b l al p stops → x.length ≤ b.length
  | [], _, h => by simp [elemsFrom] at h
  | s :: ss, p, h => by
    simp only [elemsFrom, List.mem_cons] at h
    rcases h with h | h
    · exact place_length h.symm
    · exact elemsFrom_mem h

theorem elemsFrom_count (b : Bytes) (l al : Nat) : ∀ (stops : List Nat) (p : Nat),
    (elemsFrom b l al p stops).length = stops.length
  | [], _ => rfl
  | s :: ss, p => by simp [elemsFrom, elemsFrom_count b l al ss s]

theorem arrChildren_mem {R : Rules} {e : Ty} {b x : Bytes} (h : some x ∈ arrChildren R e b) :
    x.length ≤ b.length := by
  unfold arrChildren at h
  split at h
  · split at h
    · simp only [chunks, List.map_map, List.mem_map] at h
      obtain ⟨i, _, h⟩ := h
      simp only [Function.comp, Option.some.injEq] at h
      rw [← h]; exact sub_length_le' _ _ _
    · simp at h
  · exact elemsFrom_mem h

theorem arrChildren_count (R : Rules) (e : Ty) (b : Bytes) : (arrChildren R e b).length ≤ b.length := by
  unfold arrChildren
  split
  · split
    · simp only [chunks, List.map_map, List.length_map, List.length_range]
      exact Nat.div_le_self _ _
    · simp
  · simp only [elemsFrom_count]
    have h1 := arrFrame_count b
    have h2 := (arrW_isWidth b).pos
    have : (arrFrame b).2.length ≤ (arrFrame b).2.length * arrW b := Nat.le_mul_of_pos_right _ h2
    omega

theorem maybeChild_mem {e : Ty} {b x : Bytes} (h : maybeChild e b = some x) : x.length ≤ b.length := by
  unfold maybeChild at h
  split at h
  · split at h
    · cases h; exact Nat.le_refl _
    · cases h
  · split at h
    · cases h
    · cases h; simp

theorem membersFrom_mem {b x : Bytes} {l : Nat} {be : Option Nat} : ∀ {ts : List Ty} {pos : Option Nat} {k : Nat},
    some x ∈ membersFrom b l be pos k ts → x.length ≤ b.length
  | [], _, _, h => by simp [membersFrom] at h
  | t :: ts, pos, k, h => by
    simp only [membersFrom] at h
    split at h
    · rcases List.mem_cons.1 h with h | h
      · obtain ⟨s, _, h⟩ := Option.bind_eq_some_iff.1 h.symm
        exact place_length h
      · exact membersFrom_mem h
    · rcases List.mem_cons.1 h with h | h
      · obtain ⟨s, _, h⟩ := Option.bind_eq_some_iff.1 h.symm
        obtain ⟨e, _, h⟩ := Option.bind_eq_some_iff.1 h
        exact place_length h
      · exact membersFrom_mem h

theorem memberChildren_mem {R : Rules} {ts : List Ty} {b x : Bytes} (h : some x ∈ memberChildren R ts b) :
    x.length ≤ b.length := by
  unfold memberChildren at h
  repeat' split at h
  all_goals first
    | exact membersFrom_mem h
    | simp at h

theorem laid_bound {K : Nat} (ms : List (Ty × Bytes)) : ∀ pos, (∀ m ∈ ms, m.2.length ≤ K) →
    (laid pos ms).length ≤ ms.length * (K + 7) := by
  induction ms with
  | nil => intro _ _; simp [laid]
  | cons m ms ih =>
    intro pos h
    obtain ⟨t, b⟩ := m
    have h1 := roundUp_lt (specAlign_isAl t).pos pos
    have h2 : Spec.align t ≤ 8 := by rcases (specAlign_isAl t).cases with h | h | h | h <;> omega
    have h3 := ih (roundUp pos (Spec.align t) + b.length) fun m hm => h m (by simp [hm])
    have h4 : b.length ≤ K := h (t, b) (by simp)
    simp only [laid, List.length_append, zeros_length, List.length_cons, Nat.succ_mul]
    omega

theorem width_le (body n : Nat) : frameWidth body n ≤ 8 := by
  rcases frameWidth_isWidth body n with h | h | h | h <;> omega

theorem encArr_bound {E : Enc} {e : Ty} {K : Nat} {bs : List Bytes} (h : ∀ b ∈ bs, b.length ≤ K) :
    (encArr E e bs).length ≤ bs.length * (K + 22) := by
  cases bs with
  | nil => simp [encArr, laid, layEnds, frames, roundUp_of_dvd (specAlign_isAl e).pos (Nat.dvd_zero _), zeros]
  | cons b bs =>
    have h1 := laid_bound (K := K) ((b :: bs).map fun b => (e, b)) 0 (by simpa using h)
    unfold encArr
    simp only [List.length_append, frames_length, layEnds_length, zeros_length]
    generalize hL : (laid 0 ((b :: bs).map fun b => (e, b))).length = L at *
    have h2 := roundUp_lt (specAlign_isAl e).pos L
    have h3 : Spec.align e ≤ 8 := by rcases (specAlign_isAl e).cases with h | h | h | h <;> omega
    simp only [List.length_map] at h1 ⊢
    generalize hw : frameWidth _ (b :: bs).length = w
    have h4 : w ≤ 8 := by rw [← hw]; exact width_le _ _
    have h5 : (b :: bs).length * w ≤ (b :: bs).length * 8 := Nat.mul_le_mul_left _ h4
    have h6 : (if E.padLast = true then roundUp L (Spec.align e) - L else 0) ≤ 7 := by split <;> omega
    have h7 : 1 ≤ (b :: bs).length := by simp
    rw [Nat.mul_add] at h1 ⊢
    omega

theorem encStruct_bound {sz : Option Nat} (ms : List (Ty × Bytes)) (f : Ty → Nat)
    (h : ∀ m ∈ ms, m.2.length ≤ f m.1) :
    (encStruct sz ms).length ≤ (ms.map fun m => f m.1 + 15).sum + sz.getD 0 := by
  have h1 : ∀ (ms : List (Ty × Bytes)) pos, (∀ m ∈ ms, m.2.length ≤ f m.1) →
      (laid pos ms).length + 8 * ms.length ≤ (ms.map fun m => f m.1 + 15).sum := by
    intro ms
    induction ms with
    | nil => intro _ _; simp [laid]
    | cons m ms ih =>
      intro pos h
      obtain ⟨t, b⟩ := m
      have h1 := roundUp_lt (specAlign_isAl t).pos pos
      have h2 : Spec.align t ≤ 8 := by rcases (specAlign_isAl t).cases with h | h | h | h <;> omega
      have h3 := ih (roundUp pos (Spec.align t) + b.length) fun m hm => h m (by simp [hm])
      have h4 : b.length ≤ f t := h (t, b) (by simp)
      simp only [laid, List.length_append, zeros_length, List.length_cons, List.map_cons, List.sum_cons]
      omega
  have h2 := h1 ms 0 h
  unfold encStruct
  cases sz with
  | some n => simp only [List.length_append, zeros_length, Option.getD_some]; omega
  | none =>
    simp only [List.length_append, frames_length, List.length_reverse, frameEnds_length, Option.getD_none]
    have h3 : frameCount (ms.map (·.1)) ≤ ms.length := by
      unfold frameCount
      have := List.length_filter_le (fun t => (size t).isNone) (ms.map (·.1)).dropLast
      simp only [List.length_dropLast, List.length_map] at this
      omega
    generalize frameCount _ = k at *
    have h4 : k * frameWidth (laid 0 ms).length k ≤ k * 8 := Nat.mul_le_mul_left _ (width_le _ _)
    omega

/-- What is to be shown of each type. -/
def Blow (E : Enc) (R : Rules) (t : Ty) : Prop :=
  (∀ b, (enc E t (dec R t b)).length ≤ blow t b.length) ∧ (enc E t (dflt t)).length ≤ blow t 0

theorem blows_eq (ts : List Ty) (n : Nat) : blows ts n = (ts.map fun t => blow t n + 15).sum := by
  induction ts with
  | nil => rfl
  | cons t ts ih => simp [blows, ih]

theorem encAll_tys (E : Enc) : ∀ (ts : List Ty) (vs : List Val), ts.length = vs.length →
    (encAll E ts vs).map (·.1) = ts
  | [], [], _ => rfl
  | t :: ts, v :: vs, h => by simp [encAll, encAll_tys E ts vs (by simpa using h)]
  | [], _ :: _, h => by simp at h
  | _ :: _, [], h => by simp at h

theorem encAll_blow {E : Enc} {R : Rules} {N : Nat} : ∀ (ts : List Ty) (os : List (Option Bytes)),
    (∀ t ∈ ts, Blow E R t) → (∀ x, some x ∈ os → x.length ≤ N) →
    ∀ m ∈ encAll E ts (decAll R ts os), m.2.length ≤ blow m.1 N
  | [], os, _, _, m, hm => by cases os <;> simp [encAll] at hm
  | t :: ts, [], _, _, m, hm => by simp [decAll, encAll] at hm
  | t :: ts, o :: os, h, hx, m, hm => by
    simp only [decAll, encAll, List.mem_cons] at hm
    rcases hm with rfl | hm
    · cases o with
      | none => exact Nat.le_trans (h t (by simp)).2 (blow_mono t (Nat.zero_le _))
      | some x => exact Nat.le_trans ((h t (by simp)).1 x) (blow_mono t (hx x (by simp)))
    · exact encAll_blow ts os (fun u hu => h u (by simp [hu])) (fun x hx' => hx x (by simp [hx'])) m hm

theorem encAll_dflts {E : Enc} {R : Rules} : ∀ (ts : List Ty), (∀ t ∈ ts, Blow E R t) →
    ∀ m ∈ encAll E ts (dflts ts), m.2.length ≤ blow m.1 0
  | [], _, m, hm => by simp [encAll] at hm
  | t :: ts, h, m, hm => by
    simp only [dflts, encAll, List.mem_cons] at hm
    rcases hm with rfl | hm
    · exact (h t (by simp)).2
    · exact encAll_dflts ts (fun u hu => h u (by simp [hu])) m hm

theorem variantParts_length (b : Bytes) :
    (variantParts b).2.length + 1 + (variantParts b).1.length ≤ b.length + 3 := by
  unfold variantParts
  have h := congrArg List.length (List.takeWhile_append_dropWhile (p := (· ≠ (0 : UInt8))) (l := b.reverse))
  rw [List.length_append, List.length_reverse] at h
  split
  · simp
  · rename_i x d hd
    rw [hd] at h
    simp only [List.length_reverse, List.length_cons] at *
    omega

theorem dflts_length (ts : List Ty) : (dflts ts).length = ts.length := by
  induction ts with
  | nil => rfl
  | cons t ts ih => simp [dflts, ih]

theorem spec_text_length (be : Bool) (b : Bytes) : (text (.crate be) b).length ≤ b.length := by
  rw [← text_eq]; exact toStr_length_le b

theorem blow_enc (E : Enc) (be : Bool) (t : Ty) : Blow E (.crate be) t := by
  induction t using Ty.ind with
  | b => 
    refine ⟨fun b => ?_, by simp [enc, dflt, blow]⟩
    match b with
    | [] => simp [dec, enc, blow]
    | [x] => simp [dec, enc, blow]
    | _ :: _ :: _ => simp [dec, enc, blow]
  | s | o | g =>
    refine ⟨fun b => ?_, by simp [enc, dflt, blow]⟩
    have := spec_text_length be b
    simp only [dec, enc, blow, List.length_append, List.length_singleton]; omega
  | v =>
    refine ⟨fun b => ?_, by simp [enc, dflt, blow]⟩
    have := variantParts_length b
    simp only [dec, enc, blow, List.length_append, List.length_singleton]; omega
  | a e ih =>
    refine ⟨fun b => ?_, ?_⟩
    · simp only [dec, enc, blow, List.map_map]
      generalize hbs : (arrChildren (.crate be) e b).map _ = bs
      have hk : ∀ x ∈ bs, x.length ≤ blow e b.length := by
        intro x hx
        rw [← hbs] at hx
        obtain ⟨o, ho, rfl⟩ := List.mem_map.1 hx
        cases o with
        | none => exact Nat.le_trans ih.2 (blow_mono e (Nat.zero_le _))
        | some y => exact Nat.le_trans (ih.1 y) (blow_mono e (arrChildren_mem ho))
      have hc : bs.length ≤ b.length := by
        rw [← hbs, List.length_map]; exact arrChildren_count _ _ _
      split
      · have : ∀ (l : List Bytes), (∀ x ∈ l, x.length ≤ blow e b.length) →
            l.flatten.length ≤ l.length * blow e b.length := by
          intro l
          induction l with
          | nil => simp
          | cons x l ih =>
            intro h
            have h1 := h x (by simp)
            have h2 := ih fun y hy => h y (by simp [hy])
            simp only [List.flatten_cons, List.length_append, List.length_cons, Nat.succ_mul]
            omega
        exact Nat.le_trans (this bs hk) (Nat.mul_le_mul hc (by omega))
      · exact Nat.le_trans (encArr_bound hk) (Nat.mul_le_mul_right _ hc)
    · simp only [dflt, enc, List.map_nil, blow, Nat.zero_mul]
      split
      · simp
      · exact Nat.le_trans (encArr_bound (K := 0) (by simp)) (by simp)
  | m e ih =>
    refine ⟨fun b => ?_, by simp [dflt, enc, blow]⟩
    simp only [dec, blow]
    cases h : maybeChild e b with
    | none => simp [enc]
    | some x =>
      have h1 := Nat.le_trans (ih.1 x) (blow_mono e (maybeChild_mem h))
      simp only [enc, List.length_append]
      split <;> simp <;> omega
  | tuple ts ih =>
    refine ⟨fun b => ?_, ?_⟩
    · simp only [dec, enc, blow, blows_eq]
      have h := encStruct_bound (sz := size (.tuple ts)) _ (fun t => blow t b.length)
        (encAll_blow ts (memberChildren (.crate be) ts b) ih fun x hx => memberChildren_mem hx)
      rw [show (fun m : Ty × Bytes => blow m.1 b.length + 15) = (fun t => blow t b.length + 15) ∘ (·.1) from rfl,
        ← List.map_map, encAll_tys E ts _ (by
          rw [decAll_length]; rw [memberChildren_length])] at h
      exact h
    · simp only [dflt, enc, blow, blows_eq]
      have h := encStruct_bound (sz := size (.tuple ts)) _ (fun t => blow t 0) (encAll_dflts ts ih)
      rw [show (fun m : Ty × Bytes => blow m.1 0 + 15) = (fun t => blow t 0 + 15) ∘ (·.1) from rfl,
        ← List.map_map, encAll_tys E ts _ (dflts_length ts).symm] at h
      exact h
  | dict k v ihk ihv =>
    refine ⟨fun b => ?_, ?_⟩
    · have hl := memberChildren_length (.crate be) [k, v] b
      have hm : ∀ x, some x ∈ memberChildren (.crate be) [k, v] b → x.length ≤ b.length :=
        fun x hx => memberChildren_mem hx
      have key : ∀ (x y : Val), (enc E k x).length ≤ blow k b.length → (enc E v y).length ≤ blow v b.length →
          (enc E (.dict k v) (.tup [x, y])).length ≤ blow (.dict k v) b.length := by
        intro x y h1 h2
        simp only [enc, blow]
        have h := encStruct_bound (sz := size (.dict k v)) [(k, enc E k x), (v, enc E v y)]
          (fun t => blow t b.length) (by
            intro m hm'
            simp only [List.mem_cons, List.not_mem_nil, or_false] at hm'
            rcases hm' with rfl | rfl
            · exact h1
            · exact h2)
        simpa [Nat.add_assoc] using h
      simp only [dec]
      generalize memberChildren (.crate be) [k, v] b = os at hl hm
      match os, hl, hm with
      | [o, p], _, hm =>
        apply key
        · cases o with
          | none => exact Nat.le_trans ihk.2 (blow_mono k (Nat.zero_le _))
          | some x => exact Nat.le_trans (ihk.1 x) (blow_mono k (hm x (by simp)))
        · cases p with
          | none => exact Nat.le_trans ihv.2 (blow_mono v (Nat.zero_le _))
          | some x => exact Nat.le_trans (ihv.1 x) (blow_mono v (hm x (by simp)))
    · simp only [dflt, enc, blow]
      have h := encStruct_bound (sz := size (.dict k v)) [(k, enc E k (dflt k)), (v, enc E v (dflt v))]
        (fun t => blow t 0) (by
          intro m hm
          simp only [List.mem_cons, List.not_mem_nil, or_false] at hm
          rcases hm with rfl | rfl
          · exact ihk.2
          · exact ihv.2)
      simpa [Nat.add_assoc] using h
  | _ =>
    refine ⟨fun b => ?_, ?_⟩ <;> simp [dec, dflt, enc, blow, numBytes_length]

theorem pow_le_max {n a b : Nat} (h : a ≤ b) : (n + 1) ^ a ≤ (n + 1) ^ b :=
  Nat.pow_le_pow_right (by omega) h

/-- The bound is a polynomial. -/
theorem blow_poly (t : Ty) (n : Nat) : blow t n ≤ coeff t * (n + 1) ^ degree t := by
  induction t using Ty.ind with
  | a e ih =>
    simp only [blow, coeff, degree, Nat.pow_succ]
    have h1 : 1 ≤ (n + 1) ^ degree e := Nat.pos_of_ne_zero (by simp)
    have h2 : blow e n + 22 ≤ (coeff e + 22) * (n + 1) ^ degree e := by rw [Nat.add_mul]; omega
    calc n * (blow e n + 22) ≤ (n + 1) * ((coeff e + 22) * (n + 1) ^ degree e) := Nat.mul_le_mul (by omega) h2
      _ = (coeff e + 22) * ((n + 1) ^ degree e * (n + 1)) := by
        rw [Nat.mul_comm (n + 1), Nat.mul_assoc]
  | m e ih =>
    simp only [blow, coeff, degree]
    have h1 : 1 ≤ (n + 1) ^ degree e := Nat.pos_of_ne_zero (by simp)
    rw [Nat.add_mul]; omega
  | tuple ts ih =>
    simp only [blow, coeff, degree]
    have h1 : 1 ≤ (n + 1) ^ degrees ts := Nat.pos_of_ne_zero (by simp)
    have h2 : blows ts n ≤ coeffs ts * (n + 1) ^ degrees ts := by
      clear h1
      induction ts with
      | nil => simp [blows]
      | cons t ts iht =>
        simp only [blows, coeffs, degrees]
        have ha := ih t (by simp)
        have hb := iht fun u hu => ih u (by simp [hu])
        have hc := Nat.mul_le_mul_left (coeff t) (pow_le_max (n := n) (Nat.le_max_left (degree t) (degrees ts)))
        have hd := Nat.mul_le_mul_left (coeffs ts) (pow_le_max (n := n) (Nat.le_max_right (degree t) (degrees ts)))
        have h1 : 1 ≤ (n + 1) ^ max (degree t) (degrees ts) := Nat.pos_of_ne_zero (by simp)
        rw [Nat.add_mul, Nat.add_mul]; omega
    have h3 := Nat.mul_le_mul_left ((size (.tuple ts)).getD 0) h1
    rw [Nat.add_mul]; omega
  | dict k v ihk ihv =>
    simp only [blow, coeff, degree]
    have h1 : 1 ≤ (n + 1) ^ max (degree k) (degree v) := Nat.pos_of_ne_zero (by simp)
    have hc := Nat.mul_le_mul_left (coeff k) (pow_le_max (n := n) (Nat.le_max_left (degree k) (degree v)))
    have hd := Nat.mul_le_mul_left (coeff v) (pow_le_max (n := n) (Nat.le_max_right (degree k) (degree v)))
    have h3 := Nat.mul_le_mul_left ((size (.dict k v)).getD 0) h1
    simp only [Nat.add_mul]; omega
  | _ => simp only [blow, coeff, degree, Nat.pow_zero, Nat.pow_one]; omega

/-! ### Overlapping elements -/

theorem laid_sum : ∀ (ms : List (Ty × Bytes)) (pos : Nat), (ms.map (·.2.length)).sum ≤ (laid pos ms).length
  | [], _ => by simp
  | (t, b) :: ms, pos => by
    have := laid_sum ms (roundUp pos (Spec.align t) + b.length)
    simp only [laid, List.map_cons, List.sum_cons, List.length_append]
    omega

theorem encArr_sum (E : Enc) (e : Ty) (bs : List Bytes) : (bs.map List.length).sum ≤ (encArr E e bs).length := by
  have := laid_sum (bs.map fun b => (e, b)) 0
  simp only [List.map_map] at this
  simp only [encArr, List.length_append]
  have h : (bs.map List.length).sum = (bs.map ((fun x : Ty × Bytes => x.2.length) ∘ fun b => (e, b))).sum := rfl
  omega

/-- `k` times: back to 0, then on to `l`. -/
def zigzag (l : Nat) : Nat → List Nat
  | 0 => []
  | k + 1 => 0 :: l :: zigzag l k

theorem zigzag_length (l k : Nat) : (zigzag l k).length = 2 * k := by
  induction k with
  | zero => rfl
  | succ k ih => simp only [zigzag, List.length_cons, ih]; omega

theorem zigzag_le (l k : Nat) : ∀ o ∈ zigzag l k, o ≤ l := by
  induction k with
  | zero => simp [zigzag]
  | succ k ih => simp only [zigzag, List.mem_cons]; rintro o (rfl | rfl | h); · omega
                 · omega
                 · exact ih o h

theorem zigzag_last (l k : Nat) : ∀ h, (zigzag l (k + 1)).getLast h = l := by
  induction k with
  | zero => intro h; rfl
  | succ k ih =>
    intro h
    have : zigzag l (k + 1) ≠ [] := by simp [zigzag]
    show (0 :: l :: zigzag l (k + 1)).getLast (List.cons_ne_nil _ _) = l
    rw [List.getLast_cons (List.cons_ne_nil _ _), List.getLast_cons this]
    exact ih this

theorem roundUp_one (n : Nat) : roundUp n 1 = n := by simp [roundUp]

/-- Each time the whole body is read again. -/
theorem zigzag_sum (f : Option Bytes → Nat) (b : Bytes) (l : Nat) (k : Nat) : ∀ p,
    k * f (some (b.take l)) ≤ ((elemsFrom b l 1 p (zigzag l k)).map f).sum := by
  induction k with
  | zero => simp
  | succ k ih =>
    intro p
    have := ih l
    have h : place b l (roundUp 0 1) l = some (b.take l) := by
      simp [place, sub, roundUp_one]
    simp only [zigzag, elemsFrom, List.map_cons, List.sum_cons, h, Nat.succ_mul]
    omega

theorem utf8_xs (m : Nat) : Text (List.replicate m 120) := by
  refine ⟨(utf8Valid_iff _).1 ?_, ?_⟩
  · induction m with
    | zero => rfl
    | succ m ih => rw [List.replicate_succ, utf8Valid_1 (by decide)]; exact ih
  · intro h
    have := List.eq_of_mem_replicate h
    revert this; decide

/-- `m` letters and a zero byte, which are all of `k` elements of an array of strings at once. -/
def overlap (m k : Nat) : Bytes :=
  let body := List.replicate m 120 ++ [0]
  body ++ frames body.length (zigzag (m + 1) k)

theorem overlap_length (m k : Nat) : (overlap m k).length ≤ m + 1 + 16 * k := by
  simp only [overlap, List.length_append, frames_length, zigzag_length, List.length_replicate,
    List.length_singleton]
  have := Nat.mul_le_mul_left (2 * k) (width_le (m + 1) (2 * k))
  omega

theorem overlap_enc (E : Enc) (be : Bool) (m k : Nat) (hl : m + 1 + 16 * k < 2 ^ 64) :
    k * (m + 1) ≤ (enc E (.A .S) (dec (.crate be) (.A .S) (overlap m k))).length := by
  cases k with
  | zero => simp
  | succ k =>
    have hlen := overlap_length m (k + 1)
    have hfr : arrFrame (overlap m (k + 1)) = (m + 1, zigzag (m + 1) (k + 1)) := by
      have hne : zigzag (m + 1) (k + 1) ≠ [] := by simp [zigzag]
      have h1 : (List.replicate m (120 : UInt8) ++ [0]).length = m + 1 := by simp
      have := arrFrame_enc (body := List.replicate m 120 ++ [0]) (offs := zigzag (m + 1) (k + 1)) hne
        (by rw [h1]; exact zigzag_le _ _) (by simp only [overlap] at hlen; omega) (by rw [h1]; exact zigzag_last _ _ _)
      rw [h1] at this
      simpa [overlap] using this
    have htake : (overlap m (k + 1)).take (m + 1) = List.replicate m 120 ++ [0] := by
      simp only [overlap]
      rw [List.take_append_of_le_length (by simp)]
      exact List.take_of_length_le (by simp)
    have hch : arrChildren (.crate be) .S (overlap m (k + 1)) =
        elemsFrom (overlap m (k + 1)) (m + 1) 1 0 (zigzag (m + 1) (k + 1)) := by
      simp [arrChildren, size, hfr, Spec.align, Rules.crate]
    have h := encArr_sum E .S ((arrChildren (.crate be) .S (overlap m (k + 1))).map fun o =>
      enc E .S (match o with | some x => dec (.crate be) .S x | none => dflt .S))
    have hz := zigzag_sum (fun o => (enc E .S (match o with | some x => dec (.crate be) .S x | none => dflt .S)).length)
      (overlap m (k + 1)) (m + 1) (k + 1) 0
    have hd : dec (.crate be) .S (List.replicate m 120 ++ [0]) = .str (List.replicate m 120) := by
      simp only [dec, text_enc (utf8_xs m)]
    simp only [htake, hd, enc, List.length_append, List.length_replicate, List.length_singleton] at hz
    rw [hch, List.map_map] at h
    simp only [dec, enc, size, Option.isSome_none, Bool.false_eq_true, if_false, hch, List.map_map]
    refine Nat.le_trans hz ?_
    exact h

end GV
