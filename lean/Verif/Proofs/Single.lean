import Verif.Proofs.View
import Verif.Proofs.EncLen
import Verif.Proofs.Generate
import Verif.Spec.Single
import Verif.Spec.Normal
/-
Structures of one member are laid out as their member.
-/
namespace GV.Props
open GV Spec

theorem peels_eq (ts : List Ty) : peels ts = ts.map peel := by
  induction ts with
  | nil => rfl
  | cons t ts ih => simp [peels, ih]

theorem peel_one (t : Ty) : peel (.tuple [t]) = peel t := rfl

theorem peel_many {ts : List Ty} (h : ts.length ≠ 1) : peel (.tuple ts) = .tuple (peels ts) := by
  match ts, h with
  | [], _ => rfl
  | [_], h => simp at h
  | _ :: _ :: _, _ => rfl

theorem align_one (t : Ty) : Spec.align (.tuple [t]) = Spec.align t := by
  have := (specAlign_isAl t).pos
  simp only [Spec.align, alignMax]
  omega

theorem size_one (t : Ty) : size (.tuple [t]) = size t := by
  have hp := (specAlign_isAl t).pos
  have h1 : alignMax [t] = Spec.align t := by simpa only [Spec.align] using align_one t
  simp only [size, endAfter, h1]
  cases h : size t with
  | none => rfl
  | some n =>
    have hd := (size_pos_dvd t n h).2
    have h0 : roundUp 0 (Spec.align t) = 0 := roundUp_of_dvd hp (Nat.dvd_zero _)
    simp [h0, roundUp_of_dvd hp hd]

theorem align_peel (t : Ty) : Spec.align (peel t) = Spec.align t := by
  induction t using Ty.ind with
  | a e ih => simpa only [peel, Spec.align] using ih
  | m e ih => simpa only [peel, Spec.align] using ih
  | tuple ts ih =>
    by_cases h1 : ts.length = 1
    · obtain ⟨t, rfl⟩ := List.length_eq_one_iff.1 h1
      rw [peel_one, align_one, ih t (by simp)]
    · rw [peel_many h1]
      simp only [Spec.align]
      clear h1
      induction ts with
      | nil => rfl
      | cons t ts ihl =>
        simp only [peels, alignMax, ih t (by simp), ihl fun u hu => ih u (by simp [hu])]
  | dict k v ihk ihv => simp only [peel, Spec.align, ihk, ihv]
  | _ => rfl

theorem alignMax_peels (ts : List Ty) : alignMax (peels ts) = alignMax ts := by
  induction ts with
  | nil => rfl
  | cons t ts ih => simp only [peels, alignMax, align_peel, ih]

theorem peels_nil (ts : List Ty) : peels ts = [] ↔ ts = [] := by rw [peels_eq]; simp

theorem size_peel (t : Ty) : size (peel t) = size t := by
  induction t using Ty.ind with
  | tuple ts ih =>
    by_cases h1 : ts.length = 1
    · obtain ⟨t, rfl⟩ := List.length_eq_one_iff.1 h1
      rw [peel_one, size_one, ih t (by simp)]
    · rw [peel_many h1]
      have h2 : ∀ pos, endAfter pos (peels ts) = endAfter pos ts := by
        clear h1
        induction ts with
        | nil => intro pos; rfl
        | cons t ts ihl =>
          intro pos
          simp only [peels, endAfter, ih t (by simp), align_peel, ihl fun u hu => ih u (by simp [hu])]
      simp only [size, alignMax_peels, h2, peels_nil]
  | dict k v ihk ihv => simp only [peel, size, align_peel, ihk, ihv]
  | _ => rfl

theorem size_tuple_peels (ts : List Ty) : size (.tuple (peels ts)) = size (.tuple ts) := by
  have h2 : ∀ pos, endAfter pos (peels ts) = endAfter pos ts := by
    induction ts with
    | nil => intro pos; rfl
    | cons t ts ihl => intro pos; simp only [peels, endAfter, size_peel, align_peel, ihl]
  simp only [size, alignMax_peels, h2, peels_nil]

/-! ### Reading -/

theorem membersFrom_peels (b : Bytes) (limit : Nat) (be : Option Nat) (ts : List Ty) : ∀ pos k,
    membersFrom b limit be pos k (peels ts) = membersFrom b limit be pos k ts := by
  induction ts with
  | nil => intro pos k; rfl
  | cons t ts ih => intro pos k; simp only [peels, membersFrom, size_peel, align_peel, ih, peels_nil]

theorem frameCount_peels (ts : List Ty) : frameCount (peels ts) = frameCount ts := by
  simp only [frameCount, peels_eq, ← List.map_dropLast, List.filter_map, List.length_map]
  congr 2
  funext t
  simp [size_peel]

theorem memberChildren_peels (R : Rules) (ts : List Ty) (b : Bytes) :
    memberChildren R (peels ts) b = memberChildren R ts b := by
  have h : ((peels ts).map fun _ => (none : Option Bytes)) = ts.map fun _ => none := by
    rw [peels_eq, List.map_map]; rfl
  simp only [memberChildren, size_tuple_peels, bodyEnd, frameCount_peels, membersFrom_peels, h]

theorem sub_whole (b : Bytes) : sub b 0 b.length = b := by simp [sub]

/-- The only member of a structure has all the bytes, if they are not too few or too many. -/
theorem memberChildren_one (R : Rules) (t : Ty) (b : Bytes) :
    memberChildren R [t] b = [match size t with
      | some n => if b.length = n then some b else none
      | none => some b] := by
  have h0 : roundUp 0 (Spec.align t) = 0 := roundUp_of_dvd (specAlign_isAl t).pos (Nat.dvd_zero _)
  have hf : bodyEnd [t] b = some b.length := by simp [bodyEnd, frameCount]
  unfold memberChildren
  rw [size_one]
  cases h : size t with
  | some n =>
    by_cases hb : b.length = n
    · subst hb
      simp [membersFrom, h, h0, place, sub_whole]
    · simp [hb]
  | none =>
    cases R.disjoint <;> simp [hf, membersFrom, h, h0, place, sub_whole]

theorem dec_one (R : Rules) (t : Ty) (b : Bytes) : dec R (.tuple [t]) b = .tup [dec R t b] := by
  rw [dec, memberChildren_one]
  cases h : size t with
  | none => simp [decAll]
  | some n =>
    by_cases hb : b.length = n
    · simp [decAll, hb]
    · simp [decAll, hb, (dec_fixed R t n h b).1 hb]

theorem peelVals_one (t : Ty) (v : Val) : peelVal (.tuple [t]) (.tup [v]) = peelVal t v := rfl

theorem peelVals_length (ts : List Ty) : ∀ vs : List Val, vs.length = ts.length → (peelVals ts vs).length = ts.length := by
  induction ts with
  | nil => intro vs _; cases vs <;> rfl
  | cons t ts ih =>
    intro vs h
    cases vs with
    | nil => simp at h
    | cons v vs => simp [peelVals, ih vs (by simpa using h)]

theorem peelVal_many {ts : List Ty} {vs : List Val} (hl : vs.length = ts.length) (h : ts.length ≠ 1) :
    peelVal (.tuple ts) (.tup vs) = .tup (peelVals ts vs) := by
  have h1 := peelVals_length ts vs hl
  rw [peelVal]
  match he : peelVals ts vs with
  | [] => rfl
  | [_] => rw [he] at h1; simp at h1; omega
  | _ :: _ :: _ => rfl

theorem dflts_len (ts : List Ty) : (dflts ts).length = ts.length := by
  induction ts with
  | nil => rfl
  | cons t ts ih => simp [dflts, ih]

theorem dflt_peel (t : Ty) : dflt (peel t) = peelVal t (dflt t) := by
  induction t using Ty.ind with
  | a e ih => simp [peel, dflt, peelVal]
  | m e ih => simp [peel, dflt, peelVal]
  | tuple ts ih =>
    by_cases h1 : ts.length = 1
    · obtain ⟨t, rfl⟩ := List.length_eq_one_iff.1 h1
      rw [peel_one, ih t (by simp)]
      simp only [dflt, dflts, peelVals_one]
    · rw [peel_many h1]
      simp only [dflt]
      rw [peelVal_many (dflts_len ts) h1]
      congr 1
      clear h1
      induction ts with
      | nil => rfl
      | cons t ts ihl => simp only [peels, dflts, peelVals, ih t (by simp), ihl fun u hu => ih u (by simp [hu])]
  | dict k v ihk ihv => simp only [peel, dflt, peelVal, ihk, ihv]
  | _ => rfl

theorem membersFrom_len (b : Bytes) (limit : Nat) (be : Option Nat) (ts : List Ty) : ∀ pos k,
    (membersFrom b limit be pos k ts).length = ts.length := by
  induction ts with
  | nil => intro pos k; rfl
  | cons t ts ih => intro pos k; simp only [membersFrom]; split <;> simp [ih]

theorem memberChildren_len (R : Rules) (ts : List Ty) (b : Bytes) : (memberChildren R ts b).length = ts.length := by
  unfold memberChildren
  split
  · split <;> simp [membersFrom_len]
  · split
    · split <;> simp [membersFrom_len]
    · simp [membersFrom_len]

theorem decAll_len (R : Rules) (ts : List Ty) : ∀ os : List (Option Bytes), os.length = ts.length →
    (decAll R ts os).length = ts.length := by
  induction ts with
  | nil => intro os _; cases os <;> rfl
  | cons t ts ih =>
    intro os h
    cases os with
    | nil => simp at h
    | cons o os => simp [decAll, ih os (by simpa using h)]

theorem arrChildren_peel (R : Rules) (e : Ty) (b : Bytes) : arrChildren R (peel e) b = arrChildren R e b := by
  simp only [arrChildren, size_peel, align_peel]

theorem maybeChild_peel (e : Ty) (b : Bytes) : maybeChild (peel e) b = maybeChild e b := by
  simp only [maybeChild, size_peel]

theorem dec_peel (R : Rules) (t : Ty) : ∀ b, dec R (peel t) b = peelVal t (dec R t b) := by
  induction t using Ty.ind with
  | a e ih =>
    intro b
    simp only [peel, dec, peelVal, arrChildren_peel, List.map_map]
    congr 1
    refine List.map_congr_left fun o _ => ?_
    cases o with
    | none => simp [dflt_peel]
    | some x => simp [ih]
  | m e ih =>
    intro b
    simp only [peel, dec, maybeChild_peel]
    cases maybeChild e b with
    | none => simp [peelVal]
    | some x => simp [peelVal, ih]
  | tuple ts ih =>
    intro b
    by_cases h1 : ts.length = 1
    · obtain ⟨t, rfl⟩ := List.length_eq_one_iff.1 h1
      rw [peel_one, dec_one, peelVals_one, ih t (by simp)]
    · rw [peel_many h1]
      have hl := decAll_len R ts _ (memberChildren_len R ts b)
      simp only [dec]
      rw [peelVal_many hl h1, memberChildren_peels]
      congr 1
      generalize memberChildren R ts b = os
      clear h1 hl
      induction ts generalizing os with
      | nil => cases os <;> rfl
      | cons t ts ihl =>
        cases os with
        | nil => rfl
        | cons o os =>
          simp only [peels, decAll, peelVals, ihl fun u hu => ih u (by simp [hu])]
          cases o with
          | none => simp [dflt_peel]
          | some x => simp [ih t (by simp)]
  | dict k v ihk ihv =>
    intro b
    have hm : memberChildren R [peel k, peel v] b = memberChildren R [k, v] b := memberChildren_peels R [k, v] b
    have hl := memberChildren_len R [k, v] b
    simp only [peel, dec, hm]
    match memberChildren R [k, v] b, hl with
    | [x, y], _ =>
      simp only [peelVal]
      cases x <;> cases y <;> simp [ihk, ihv, dflt_peel]
  | _ => intro b; cases h : dec R _ b <;> simp_all [peel, peelVal]

theorem ragged_one (R : Rules) (t : Ty) (b : Bytes) : ragged R (.tuple [t]) b = ragged R t b := by
  simp only [ragged, memberChildren_one]
  cases h : size t with
  | none => simp [raggedAny]
  | some n =>
    by_cases hb : b.length = n
    · simp [raggedAny, hb]
    · simp [raggedAny, hb, (dec_fixed R t n h b).2]

theorem badSize_peel (t : Ty) (b : Bytes) (h : badSize t b = true) : badSize (peel t) b = true := by
  cases t <;> simp_all [badSize, peel, size_peel]

/-- What can be read without the structures of one member can be read with them. -/
theorem ragged_peel (R : Rules) (t : Ty) : ∀ b, ragged R t b = true → ragged R (peel t) b = true := by
  induction t using Ty.ind with
  | a e ih =>
    intro b h
    simp only [peel, ragged, arrChildren_peel, List.any_eq_true] at h ⊢
    obtain ⟨o, ho, h⟩ := h
    refine ⟨o, ho, ?_⟩
    cases o with
    | none => simp at h
    | some x =>
      simp only [Bool.or_eq_true] at h ⊢
      exact h.imp (badSize_peel e x) (ih x)
  | m e ih =>
    intro b h
    simp only [peel, ragged, maybeChild_peel] at h ⊢
    cases hm : maybeChild e b with
    | none => rw [hm] at h; simp at h
    | some x =>
      rw [hm] at h
      simp only [Bool.or_eq_true] at h ⊢
      exact h.imp (badSize_peel e x) (ih x)
  | tuple ts ih =>
    intro b h
    by_cases h1 : ts.length = 1
    · obtain ⟨t, rfl⟩ := List.length_eq_one_iff.1 h1
      rw [ragged_one] at h
      rw [peel_one]
      exact ih t (by simp) b h
    · rw [peel_many h1]
      simp only [ragged, memberChildren_peels] at h ⊢
      generalize memberChildren R ts b = os at h ⊢
      clear h1
      induction ts generalizing os with
      | nil => simp [raggedAny] at h
      | cons t ts ihl =>
        cases os with
        | nil => simp [raggedAny] at h
        | cons o os =>
          simp only [peels, raggedAny, Bool.or_eq_true] at h ⊢
          refine h.imp (fun h => ?_) (ihl (fun u hu => ih u (by simp [hu])) os)
          cases o with
          | none => simp at h
          | some x => exact ih t (by simp) x h
  | dict k v ihk ihv =>
    intro b h
    have hm : memberChildren R [peel k, peel v] b = memberChildren R [k, v] b := memberChildren_peels R [k, v] b
    simp only [peel, ragged, hm] at h ⊢
    match memberChildren R [k, v] b, memberChildren_len R [k, v] b, h with
    | [x, y], _, h =>
      simp only [Bool.or_eq_true] at h ⊢
      refine h.imp (fun h => ?_) (fun h => ?_)
      · cases x with
        | none => simp at h
        | some x => exact ihk x h
      · cases y with
        | none => simp at h
        | some y => exact ihv y h
  | _ => intro b h; simp [ragged] at h

/-! ### Writing -/

theorem frames_none (n : Nat) : frames n [] = [] := by simp [frames]

/-- A structure of one member has the bytes of the member. -/
theorem enc_one (E : Enc) (t : Ty) (v : Val) (h : Fits t v) : enc E (.tuple [t]) (.tup [v]) = enc E t v := by
  have h0 : roundUp 0 (Spec.align t) = 0 := roundUp_of_dvd (specAlign_isAl t).pos (Nat.dvd_zero _)
  simp only [enc, encAll, encStruct, size_one]
  cases hs : size t with
  | some n => simp [laid, h0, zeros, enc_length E t v n h hs]
  | none => simp [laid, h0, zeros, frameEnds, frames]

theorem laid_types {ms ms' : List (Ty × Bytes)} (h : ms.map (fun m => (Spec.align m.1, m.2)) = ms'.map fun m => (Spec.align m.1, m.2)) :
    ∀ pos, laid pos ms = laid pos ms' ∧ layEnds pos ms = layEnds pos ms' := by
  induction ms generalizing ms' with
  | nil =>
    intro pos
    cases ms' with
    | nil => exact ⟨rfl, rfl⟩
    | cons _ _ => simp at h
  | cons m ms ih =>
    intro pos
    cases ms' with
    | nil => simp at h
    | cons m' ms' =>
      obtain ⟨t, b⟩ := m
      obtain ⟨t', b'⟩ := m'
      simp only [List.map_cons, List.cons.injEq, Prod.mk.injEq] at h
      obtain ⟨⟨h1, rfl⟩, h2⟩ := h
      simp only [laid, layEnds, h1]
      exact ⟨by rw [(ih h2 _).1], by rw [(ih h2 _).2]⟩

theorem encAll_peels {E : Enc} {ts : List Ty} (ih : ∀ t ∈ ts, ∀ v, Fits t v → enc E (peel t) (peelVal t v) = enc E t v) :
    ∀ vs, FitsAll ts vs → encAll E (peels ts) (peelVals ts vs) = (encAll E ts vs).map fun m => (peel m.1, m.2) := by
  induction ts with
  | nil => intro vs _; cases vs <;> rfl
  | cons t ts ihl =>
    intro vs h
    cases vs with
    | nil => simp [FitsAll] at h
    | cons v vs =>
      simp only [FitsAll] at h
      simp only [peels, peelVals, encAll, List.map_cons, ih t (by simp) v h.1, ihl (fun u hu => ih u (by simp [hu])) vs h.2]

theorem frameEnds_peel (ms : List (Ty × Bytes)) : ∀ pos,
    frameEnds pos (ms.map fun m => (peel m.1, m.2)) = frameEnds pos ms := by
  induction ms with
  | nil => intro pos; rfl
  | cons m ms ih =>
    intro pos
    obtain ⟨t, b⟩ := m
    simp only [List.map_cons, frameEnds, align_peel, size_peel, ih, ne_eq, List.map_eq_nil_iff]

theorem encStruct_peel (sz : Option Nat) (ms : List (Ty × Bytes)) :
    encStruct sz (ms.map fun m => (peel m.1, m.2)) = encStruct sz ms := by
  have h := (laid_types (ms := ms.map fun m => (peel m.1, m.2)) (ms' := ms) (by simp [align_peel]) 0).1
  simp only [encStruct, h, frameEnds_peel]

theorem fitsAll_len {ts : List Ty} : ∀ {vs : List Val}, FitsAll ts vs → vs.length = ts.length := by
  induction ts with
  | nil => intro vs h; cases vs with
    | nil => rfl
    | cons _ _ => simp [FitsAll] at h
  | cons t ts ih => intro vs h; cases vs with
    | nil => simp [FitsAll] at h
    | cons v vs => simp only [FitsAll] at h; simp [ih h.2]

theorem fits_tup {ts : List Ty} {v : Val} (h : Fits (.tuple ts) v) : ∃ vs, v = .tup vs ∧ FitsAll ts vs := by
  cases v <;> simp [Fits] at h
  exact ⟨_, rfl, h⟩

theorem fits_pair {k w : Ty} {v : Val} (h : Fits (.dict k w) v) : ∃ x y, v = .tup [x, y] ∧ Fits k x ∧ Fits w y := by
  match v, h with
  | .tup [x, y], h => exact ⟨x, y, rfl, by simpa [Fits] using h⟩
  | .tup [], h => simp [Fits] at h
  | .tup [_], h => simp [Fits] at h
  | .tup (_ :: _ :: _ :: _), h => simp [Fits] at h

theorem enc_peel (E : Enc) (t : Ty) : ∀ v, Fits t v → enc E (peel t) (peelVal t v) = enc E t v := by
  induction t using Ty.ind with
  | a e ih =>
    intro v h
    cases v <;> simp only [Fits] at h
    rename_i vs
    have h1 : (vs.map (peelVal e)).map (enc E (peel e)) = vs.map (enc E e) := by
      rw [List.map_map]
      exact List.map_congr_left fun v hv => ih v (h v hv)
    have h2 : ∀ bs : List Bytes, encArr E (peel e) bs = encArr E e bs := by
      intro bs
      have h3 := laid_types (ms := bs.map fun b => (peel e, b)) (ms' := bs.map fun b => (e, b)) (by simp [align_peel]) 0
      simp only [encArr, h3.1, h3.2, align_peel]
    simp only [peel, peelVal, enc, size_peel, h1, h2]
  | m e ih =>
    intro v h
    cases v <;> simp only [Fits] at h
    · simp [peel, peelVal, enc]
    · simp only [peel, peelVal, enc, size_peel, ih _ h]
  | tuple ts ih =>
    intro v h
    obtain ⟨vs, rfl, hh⟩ := fits_tup h
    replace h := hh; clear hh
    by_cases h1 : ts.length = 1
    · obtain ⟨t, rfl⟩ := List.length_eq_one_iff.1 h1
      match vs, h with
      | [v], h =>
        simp only [FitsAll] at h
        rw [peel_one, peelVals_one, enc_one E t v h.1, ih t (by simp) v h.1]
      | [], h => simp [FitsAll] at h
      | _ :: _ :: _, h => simp [FitsAll] at h
    · rw [peel_many h1, peelVal_many (fitsAll_len h) h1]
      simp only [enc, size_tuple_peels, encAll_peels ih vs h, encStruct_peel]
  | dict k w ihk ihw =>
    intro v h
    obtain ⟨x, y, rfl, hx, hy⟩ := fits_pair h
    have h1 : size (.dict (peel k) (peel w)) = size (.dict k w) := size_peel (.dict k w)
    have h2 := encStruct_peel (size (.dict k w)) [(k, enc E k x), (w, enc E w y)]
    simp only [peel, peelVal, enc, h1, ihk x hx, ihw y hy]
    simpa using h2
  | _ => intro v h; cases v <;> simp [Fits] at h <;> simp [peel, peelVal]

/-! ### Values correspond -/

theorem fits_peel (t : Ty) : ∀ v, Fits t v → Fits (peel t) (peelVal t v) := by
  induction t using Ty.ind with
  | a e ih =>
    intro v h
    cases v <;> simp only [Fits] at h
    simp only [peel, peelVal, Fits, List.mem_map]
    rintro _ ⟨v, hv, rfl⟩
    exact ih v (h v hv)
  | m e ih =>
    intro v h
    cases v <;> simp only [Fits] at h
    · simp [peel, peelVal, Fits]
    · simp only [peel, peelVal, Fits, ih _ h]
  | tuple ts ih =>
    intro v h
    obtain ⟨vs, rfl, hh⟩ := fits_tup h
    replace h := hh; clear hh
    by_cases h1 : ts.length = 1
    · obtain ⟨t, rfl⟩ := List.length_eq_one_iff.1 h1
      match vs, h with
      | [v], h =>
        simp only [FitsAll] at h
        rw [peel_one, peelVals_one]
        exact ih t (by simp) v h.1
      | [], h => simp [FitsAll] at h
      | _ :: _ :: _, h => simp [FitsAll] at h
    · rw [peel_many h1, peelVal_many (fitsAll_len h) h1]
      simp only [Fits]
      clear h1
      induction ts generalizing vs with
      | nil => cases vs <;> simp [peels, peelVals, FitsAll]
      | cons t ts ihl =>
        cases vs with
        | nil => simp [FitsAll] at h
        | cons v vs =>
          simp only [FitsAll] at h
          simp only [peels, peelVals, FitsAll]
          exact ⟨ih t (by simp) v h.1, ihl (fun u hu => ih u (by simp [hu])) vs h.2⟩
  | dict k w ihk ihw =>
    intro v h
    obtain ⟨x, y, rfl, hx, hy⟩ := fits_pair h
    simp only [peel, peelVal, Fits]
    exact ⟨ihk x hx, ihw y hy⟩
  | _ => intro v h; cases v <;> simp [Fits] at h <;> simpa [peel, peelVal, Fits] using h

/-- Every value of the type without structures of one member comes from one, and only one, value of the type
    with them. -/
theorem peel_onto (t : Ty) : ∀ w, Fits (peel t) w → ∃ v, Fits t v ∧ peelVal t v = w := by
  induction t using Ty.ind with
  | a e ih =>
    intro w h
    cases w <;> simp only [peel, Fits] at h
    rename_i ws
    have : ∃ vs : List Val, (∀ v ∈ vs, Fits e v) ∧ vs.map (peelVal e) = ws := by
      induction ws with
      | nil => exact ⟨[], by simp, rfl⟩
      | cons w ws ihl =>
        obtain ⟨v, hv, rfl⟩ := ih w (h w (by simp))
        obtain ⟨vs, hvs, rfl⟩ := ihl fun u hu => h u (by simp [hu])
        exact ⟨v :: vs, by simpa using ⟨hv, hvs⟩, rfl⟩
    obtain ⟨vs, h1, rfl⟩ := this
    exact ⟨.arr vs, by simpa only [Fits] using h1, by simp only [peelVal]⟩
  | m e ih =>
    intro w h
    cases w <;> simp only [peel, Fits] at h
    · exact ⟨.nothing, by simp [Fits], by simp [peelVal]⟩
    · obtain ⟨v, hv, rfl⟩ := ih _ h
      exact ⟨.just v, by simpa only [Fits] using hv, by simp only [peelVal]⟩
  | tuple ts ih =>
    intro w h
    by_cases h1 : ts.length = 1
    · obtain ⟨t, rfl⟩ := List.length_eq_one_iff.1 h1
      rw [peel_one] at h
      obtain ⟨v, hv, rfl⟩ := ih t (by simp) w h
      exact ⟨.tup [v], by simp [Fits, FitsAll, hv], peelVals_one t v⟩
    · rw [peel_many h1] at h
      obtain ⟨ws, rfl, hh⟩ := fits_tup h
      replace h := hh; clear hh
      have : ∃ vs, FitsAll ts vs ∧ peelVals ts vs = ws := by
        clear h1
        induction ts generalizing ws with
        | nil =>
          cases ws with
          | nil => exact ⟨[], by simp [FitsAll], rfl⟩
          | cons _ _ => simp [peels, FitsAll] at h
        | cons t ts ihl =>
          cases ws with
          | nil => simp [peels, FitsAll] at h
          | cons w ws =>
            simp only [peels, FitsAll] at h
            obtain ⟨v, hv, rfl⟩ := ih t (by simp) w h.1
            obtain ⟨vs, hvs, rfl⟩ := ihl (fun u hu => ih u (by simp [hu])) ws h.2
            exact ⟨v :: vs, by simpa only [FitsAll] using ⟨hv, hvs⟩, by simp only [peelVals]⟩
      obtain ⟨vs, hvs, rfl⟩ := this
      exact ⟨.tup vs, by simpa only [Fits] using hvs, peelVal_many (fitsAll_len hvs) h1⟩
  | dict k w ihk ihw =>
    intro z h
    obtain ⟨x, y, rfl, hx, hy⟩ := fits_pair (show Fits (.dict (peel k) (peel w)) z from h)
    obtain ⟨x, hx, rfl⟩ := ihk x hx
    obtain ⟨y, hy, rfl⟩ := ihw y hy
    exact ⟨.tup [x, y], by simp only [Fits]; exact ⟨‹_›, ‹_›⟩, by simp only [peelVal]⟩
  | _ => intro w h; exact ⟨w, h, by cases w <;> rfl⟩

theorem peelVal_inj (t : Ty) : ∀ v v', Fits t v → Fits t v' → peelVal t v = peelVal t v' → v = v' := by
  induction t using Ty.ind with
  | a e ih =>
    intro v v' h h' he
    cases v <;> simp only [Fits] at h
    cases v' <;> simp only [Fits] at h'
    rename_i vs vs'
    simp only [peelVal, Val.arr.injEq] at he ⊢
    induction vs generalizing vs' with
    | nil => cases vs' with
      | nil => rfl
      | cons _ _ => simp at he
    | cons v vs ihl => cases vs' with
      | nil => simp at he
      | cons v' vs' =>
        simp only [List.map_cons, List.cons.injEq] at he ⊢
        exact ⟨ih v v' (h v (by simp)) (h' v' (by simp)) he.1,
          ihl (fun u hu => h u (by simp [hu])) vs' (fun u hu => h' u (by simp [hu])) he.2⟩
  | m e ih =>
    intro v v' h h' he
    cases v <;> simp only [Fits] at h <;> cases v' <;> simp only [Fits] at h' <;> simp [peelVal] at he ⊢
    exact ih _ _ h h' he
  | tuple ts ih =>
    intro v v' h h' he
    obtain ⟨vs, rfl, hh⟩ := fits_tup h
    replace h := hh; clear hh
    obtain ⟨vs', rfl, hh⟩ := fits_tup h'
    replace h' := hh; clear hh
    have : peelVals ts vs = peelVals ts vs' → vs = vs' := by
      clear he
      induction ts generalizing vs vs' with
      | nil => cases vs <;> cases vs' <;> simp [FitsAll] at h h' ⊢
      | cons t ts ihl =>
        cases vs <;> cases vs' <;> simp only [FitsAll] at h h'
        simp only [peelVals, List.cons.injEq]
        rintro ⟨h1, h2⟩
        exact ⟨ih t (by simp) _ _ h.1 h'.1 h1, ihl (fun u hu => ih u (by simp [hu])) _ h.2 _ h'.2 h2⟩
    by_cases h1 : ts.length = 1
    · obtain ⟨t, rfl⟩ := List.length_eq_one_iff.1 h1
      match vs, vs', h, h' with
      | [v], [v'], h, h' =>
        rw [peelVals_one, peelVals_one] at he
        simp only [FitsAll] at h h'
        rw [ih t (by simp) v v' h.1 h'.1 he]
      | [], _, h, _ => simp [FitsAll] at h
      | _ :: _ :: _, _, h, _ => simp [FitsAll] at h
      | _, [], _, h => simp [FitsAll] at h
      | _, _ :: _ :: _, _, h => simp [FitsAll] at h
    · rw [peelVal_many (fitsAll_len h) h1, peelVal_many (fitsAll_len h') h1] at he
      rw [this (Val.tup.inj he)]
  | dict k w ihk ihw =>
    intro v v' h h' he
    obtain ⟨x, y, rfl, hx, hy⟩ := fits_pair h
    obtain ⟨x', y', rfl, hx', hy'⟩ := fits_pair h'
    simp only [peelVal, Val.tup.injEq, List.cons.injEq, and_true] at he
    rw [ihk _ _ hx hx' he.1, ihw _ _ hy hy' he.2]
  | _ => intro v v' _ _ he; cases v <;> cases v' <;> simpa [peelVal] using he

/-! ### Which types `gv!` expands for, and which data is tame -/

theorem acf_tuple (ts : List Ty) : AllCarryFree (.tuple ts) ↔
    (∀ t ∈ ts, AllCarryFree t) ∧ ((size (.tuple ts)).isSome → carryFree 0 1 0 ts) := by
  constructor
  · intro h
    exact ⟨fun t ht c hc => h c (.member hc ht), fun hs => h _ (.refl _) rfl hs⟩
  · rintro ⟨h1, h2⟩ c hc hs hz
    cases hc with
    | refl => exact h2 hz
    | member hc ht => exact h1 _ ht c hc hs hz

theorem acf_dict (k w : Ty) : AllCarryFree (.dict k w) ↔
    (AllCarryFree k ∧ AllCarryFree w) ∧ ((size (.dict k w)).isSome → carryFree 0 1 0 [k, w]) := by
  constructor
  · intro h
    exact ⟨⟨fun c hc => h c (.key hc), fun c hc => h c (.value hc)⟩, fun hs => h _ (.refl _) rfl hs⟩
  · rintro ⟨⟨h1, h2⟩, h3⟩ c hc hs hz
    cases hc with
    | refl => exact h3 hz
    | key hc => exact h1 c hc hs hz
    | value hc => exact h2 c hc hs hz

theorem carryFree_peels (ts : List Ty) : ∀ base best pos,
    carryFree base best pos (peels ts) ↔ carryFree base best pos ts := by
  induction ts with
  | nil => intro _ _ _; rfl
  | cons t ts ih => intro base best pos; simp only [peels, carryFree, align_peel, size_peel, ih]

theorem carryFree_one (t : Ty) : carryFree 0 1 0 [t] := by
  simp only [carryFree]
  split <;> simp

theorem expands_peel (t : Ty) : Expands (peel t) ↔ Expands t := by
  induction t using Ty.ind with
  | a e ih => simpa only [peel, expands_A] using ih
  | m e ih => simpa only [peel, expands_M] using ih
  | tuple ts ih =>
    have ih' : ∀ t ∈ ts, (AllCarryFree (peel t) ↔ AllCarryFree t) := fun t ht => by
      rw [← expands_iff, ← expands_iff, ih t ht]
    rw [expands_iff, expands_iff]
    by_cases h1 : ts.length = 1
    · obtain ⟨t, rfl⟩ := List.length_eq_one_iff.1 h1
      rw [peel_one, ih' t (by simp), acf_tuple]
      simp [carryFree_one]
    · rw [peel_many h1, acf_tuple, acf_tuple, size_tuple_peels, carryFree_peels, peels_eq]
      refine and_congr_left fun _ => ?_
      simp only [List.mem_map, forall_exists_index, and_imp, forall_apply_eq_imp_iff₂]
      exact ⟨fun h t ht => (ih' t ht).1 (h t ht), fun h t ht => (ih' t ht).2 (h t ht)⟩
  | dict k w ihk ihw =>
    rw [expands_iff, expands_iff] at *
    have h1 : size (.dict (peel k) (peel w)) = size (.dict k w) := size_peel (.dict k w)
    have h2 := carryFree_peels [k, w] 0 1 0
    simp only [peels] at h2
    simp only [peel]
    rw [acf_dict, acf_dict, h1, h2, ihk, ihw]
  | _ => rfl

theorem show_peel_le (t : Ty) : (peel t).show.length ≤ t.show.length := by
  induction t using Ty.ind with
  | a e ih => simp only [peel, Ty.show, List.length_cons, List.length_append, List.length_nil]; omega
  | m e ih => simp only [peel, Ty.show, List.length_cons, List.length_append, List.length_nil]; omega
  | tuple ts ih =>
    by_cases h1 : ts.length = 1
    · obtain ⟨t, rfl⟩ := List.length_eq_one_iff.1 h1
      have := ih t (by simp)
      rw [peel_one]
      simp only [Ty.show, Ty.shows, List.length_cons, List.length_append, List.length_nil]
      omega
    · rw [peel_many h1]
      have : (Ty.shows (peels ts)).length ≤ (Ty.shows ts).length := by
        clear h1
        induction ts with
        | nil => exact Nat.le_refl _
        | cons t ts ihl =>
          have h2 := ih t (by simp)
          have h3 := ihl fun u hu => ih u (by simp [hu])
          simp only [peels, Ty.shows, List.length_append]
          omega
      simp only [Ty.show, List.length_cons, List.length_append, List.length_nil]
      omega
  | dict k w ihk ihw =>
    simp only [peel, Ty.show, List.length_cons, List.length_append, List.length_nil]
    omega
  | _ => exact Nat.le_refl _

theorem small_peel {t : Ty} (h : Small t) : Small (peel t) := Nat.lt_of_le_of_lt (show_peel_le t) h

theorem tame_one (R : Rules) (t : Ty) (b : Bytes) : Tame R (.tuple [t]) b ↔ Tame R t b := by
  simp only [Tame, memberChildren_one, TameAll, and_true]
  have h0 : frameCount [t] = 0 := by simp [frameCount]
  simp only [h0, Nat.not_lt_zero, false_implies, implies_true, true_and]
  cases hs : size t with
  | none => simp
  | some n =>
    by_cases hb : b.length = n
    · simp [hb]
    · simp [hb, tame_fixed R t n hs b]

theorem tame_peel (R : Rules) (t : Ty) : ∀ b, Tame R (peel t) b ↔ Tame R t b := by
  induction t using Ty.ind with
  | a e ih =>
    intro b
    simp only [peel, Tame, size_peel, arrChildren_peel, ih]
  | m e ih => intro b; simp only [peel, Tame, maybeChild_peel, ih]
  | tuple ts ih =>
    intro b
    by_cases h1 : ts.length = 1
    · obtain ⟨t, rfl⟩ := List.length_eq_one_iff.1 h1
      rw [peel_one, tame_one, ih t (by simp)]
    · rw [peel_many h1]
      simp only [Tame, frameCount_peels, memberChildren_peels]
      refine and_congr_right fun hz => ?_
      clear hz
      generalize memberChildren R ts b = os
      clear h1
      induction ts generalizing os with
      | nil => cases os <;> simp [peels, TameAll]
      | cons t ts ihl =>
        cases os with
        | nil => simp [peels, TameAll]
        | cons o os => simp only [peels, TameAll, ih t (by simp), ihl fun u hu => ih u (by simp [hu])]
  | dict k w ihk ihw =>
    intro b
    have hm : memberChildren R [peel k, peel w] b = memberChildren R [k, w] b := memberChildren_peels R [k, w] b
    have hf : frameCount [peel k, peel w] = frameCount [k, w] := frameCount_peels [k, w]
    simp only [peel, Tame, hm, hf]
    refine and_congr_right fun _ => ?_
    match memberChildren R [k, w] b, memberChildren_len R [k, w] b with
    | [x, y], _ => simp only [ihk, ihw]
  | _ => intro b; rfl

end GV.Props
