import Verif.Spec.Spot
import Verif.Proofs.RoundTrip
import Verif.Proofs.Reach
/-
Helper lemmas: the references to the children of values in normal form are where the encoder put them.
-/
namespace GV
open Spec

/-! ### Positions -/

theorem laidAt_length (ms : List (Ty × Bytes)) : ∀ pos, (laidAt pos ms).length = ms.length := by
  induction ms with
  | nil => intro _; rfl
  | cons m ms ih => intro pos; obtain ⟨t, b⟩ := m; simp [laidAt, ih]

/-- The pieces are where `laidAt` says. -/
theorem laidAt_sub (ms : List (Ty × Bytes)) : ∀ (pre suf : Bytes) (pos : Nat), pre.length = pos →
    ∀ i (h : i < ms.length) (h' : i < (laidAt pos ms).length),
      pos ≤ (laidAt pos ms)[i] ∧ (laidAt pos ms)[i] + ms[i].2.length ≤ pos + (laid pos ms).length ∧
      Spec.align ms[i].1 ∣ (laidAt pos ms)[i] ∧
      sub (pre ++ laid pos ms ++ suf) (laidAt pos ms)[i] ((laidAt pos ms)[i] + ms[i].2.length) = ms[i].2 := by
  induction ms with
  | nil => intro _ _ _ _ i h; simp at h
  | cons m ms ih =>
    intro pre suf pos hp i h h'
    obtain ⟨t, b⟩ := m
    have hr := le_roundUp (specAlign_isAl t).pos pos
    rw [laid_cons_length]
    cases i with
    | zero =>
      simp only [laidAt, List.getElem_cons_zero]
      refine ⟨hr, by omega, roundUp_dvd _ _, ?_⟩
      have hsplit : pre ++ laid pos ((t, b) :: ms) ++ suf =
          (pre ++ zeros (roundUp pos (Spec.align t) - pos)) ++ b ++
            (laid (roundUp pos (Spec.align t) + b.length) ms ++ suf) := by
        simp [laid]
      rw [hsplit, sub_mid _ _ _ (by simp; omega) rfl]
    | succ i =>
      simp only [laidAt, List.getElem_cons_succ]
      have hsplit2 : pre ++ laid pos ((t, b) :: ms) ++ suf =
          (pre ++ zeros (roundUp pos (Spec.align t) - pos) ++ b) ++
            laid (roundUp pos (Spec.align t) + b.length) ms ++ suf := by
        simp [laid]
      obtain ⟨h1, h2, h3, h4⟩ := ih (pre ++ zeros (roundUp pos (Spec.align t) - pos) ++ b) suf
        (roundUp pos (Spec.align t) + b.length) (by simp; omega) i (by simpa using h)
        (by rw [laidAt_length]; simpa using h)
      rw [hsplit2]
      exact ⟨by omega, by omega, h3, h4⟩

/-- Earlier pieces end before later ones begin. -/
theorem laidAt_order (ms : List (Ty × Bytes)) : ∀ (pos : Nat) i j (hi : i < ms.length) (hi' : i < (laidAt pos ms).length)
    (hj : j < (laidAt pos ms).length), i < j → (laidAt pos ms)[i] + ms[i].2.length ≤ (laidAt pos ms)[j] := by
  induction ms with
  | nil => intro _ i _ h; simp at h
  | cons m ms ih =>
    intro pos i j hi hi' hj hij
    obtain ⟨t, b⟩ := m
    cases j with
    | zero => omega
    | succ j =>
      have hj2 : j < ms.length := by rw [laidAt_length] at hj; simpa using hj
      cases i with
      | zero =>
        simp only [laidAt, List.getElem_cons_zero, List.getElem_cons_succ]
        exact (laidAt_sub ms (List.replicate (roundUp pos (Spec.align t) + b.length) 0) [] _ (by simp) j hj2
          (by rw [laidAt_length]; exact hj2)).1
      | succ i =>
        simp only [laidAt, List.getElem_cons_succ]
        exact ih _ i j (by simpa using hi) (by rw [laidAt_length]; simpa using hi)
          (by rw [laidAt_length]; exact hj2) (by omega)

theorem layEnds_get (ms : List (Ty × Bytes)) : ∀ (pos : Nat) i (hi : i < ms.length) (h1 : i < (layEnds pos ms).length)
    (h2 : i < (laidAt pos ms).length), (layEnds pos ms)[i] = (laidAt pos ms)[i] + ms[i].2.length := by
  induction ms with
  | nil => intro _ i h; simp at h
  | cons m ms ih =>
    intro pos i hi h1 h2
    obtain ⟨t, b⟩ := m
    cases i with
    | zero => simp [layEnds, laidAt]
    | succ i =>
      simp only [layEnds, laidAt, List.getElem_cons_succ]
      exact ih _ i (by simpa using hi) _ _

theorem laidAt_get (ms : List (Ty × Bytes)) : ∀ (pos : Nat) i (hi : i < ms.length) (h2 : i < (laidAt pos ms).length),
    (laidAt pos ms)[i] = roundUp (if i = 0 then pos else (layEnds pos ms).getD (i - 1) 0) (Spec.align ms[i].1) := by
  induction ms with
  | nil => intro _ i h; simp at h
  | cons m ms ih =>
    intro pos i hi h2
    obtain ⟨t, b⟩ := m
    cases i with
    | zero => simp [laidAt]
    | succ i =>
      simp only [layEnds, laidAt, List.getElem_cons_succ]
      rw [ih _ i (by simpa using hi) (by rw [laidAt_length]; simpa using hi)]
      congr 1
      cases i with
      | zero => simp
      | succ i => simp

/-! ### Elements of arrays -/

theorem castBytes_good {t : Ty} {b : Bytes} (h1 : ∀ n, size t = some n → b.length = n) (h2 : badSize t b = false) :
    castBytes t b = b := by
  cases hs : size t with
  | none => exact castBytes_eq hs h2
  | some n => simp [castBytes, hs, h1 n hs]

theorem castBytes_enc {E : Enc} {t : Ty} {v : Val} (h : Fits t v) : castBytes t (enc E t v) = enc E t v :=
  castBytes_good (fun n hn => enc_length E t v n h hn) (badSize_enc h)

theorem fromAligned_enc {c : Cfg} {E : Enc} {t : Ty} {v : Val} {a : Nat} (hx : Expands t) (ha : Spec.align t ∣ a)
    (h : Fits t v) : fromAligned c t ⟨a, enc E t v⟩ = .ok ⟨a, enc E t v⟩ := by
  unfold fromAligned
  rw [tryFromAligned_ok hx ha, if_pos]
  · rfl
  · cases hs : size t with
    | none => exact Or.inr ⟨by simp, badSize_enc h⟩
    | some n => exact Or.inl ⟨castBytes_enc h, by simp⟩

theorem elemAt_exact {c : Cfg} {e : Ty} {s : Slice} {body prev stop : Nat} (hx : Expands e)
    (hn : Spec.size e = none) (ha : Spec.align e ∣ s.addr) (h1 : Spec.roundUp prev (Spec.align e) ≤ stop)
    (h2 : stop ≤ body) (hb : badSize e (Spec.sub s.bytes (Spec.roundUp prev (Spec.align e)) stop) = false) :
    elemAt c e s body prev stop = .ok ⟨s.addr + Spec.roundUp prev (Spec.align e),
      Spec.sub s.bytes (Spec.roundUp prev (Spec.align e)) stop⟩ := by
  unfold elemAt
  have ha' : Spec.align e ∣ s.addr + Spec.roundUp prev (Spec.align e) := Nat.dvd_add ha (roundUp_dvd _ _)
  simp only [if_pos (show _ ∧ _ from ⟨h1, h2⟩)]
  rw [tryFromAligned_ok (s := ⟨s.addr + Spec.roundUp prev (Spec.align e), _⟩) hx ha', if_pos (Or.inr ⟨by simp [hn], hb⟩)]
  rfl

/-- The element of a variable-width array in normal form. -/
theorem arrIndex_enc {c : Cfg} {be : Bool} {e : Ty} {vs : List Val} {a i : Nat} (hx : Expands e)
    (hs : Spec.size e = none) (ha : Spec.align e ∣ a) (hf : ∀ v ∈ vs, Fits e v)
    (hl : (enc (.pdf be) (.A e) (.arr vs)).length < 2 ^ 63) (hi : i < vs.length)
    (h' : i < (laidAt 0 (vs.map fun v => (e, enc (.pdf be) e v))).length) :
    arrIndex c e ⟨a, enc (.pdf be) (.A e) (.arr vs)⟩ i =
      .ok ⟨a + (laidAt 0 (vs.map fun v => (e, enc (.pdf be) e v)))[i], enc (.pdf be) e vs[i]⟩ := by
  let ms := vs.map fun v => (e, enc (.pdf be) e v)
  have hms : (vs.map (enc (.pdf be) e)).map (fun b => (e, b)) = ms := by simp [ms]
  have henc : enc (.pdf be) (.A e) (.arr vs) = laid 0 ms ++ frames (laid 0 ms).length (layEnds 0 ms) := by
    simp only [enc, hs, Option.isSome_none, Bool.false_eq_true, if_false, encArr, hms]
    simp [Enc.pdf, zeros]
  rw [henc] at hl ⊢
  have him : i < ms.length := by simpa [ms] using hi
  have hne : layEnds 0 ms ≠ [] := by
    intro h
    have := layEnds_length ms 0
    rw [h] at this
    simp at this; omega
  have hle : ∀ o ∈ layEnds 0 ms, o ≤ (laid 0 ms).length := fun o ho => by simpa using layEnds_le ho
  have hlast : (layEnds 0 ms).getLast hne = (laid 0 ms).length := by simpa using layEnds_last hne
  have hfr := arrFrame_enc hne hle (by omega) hlast
  have hi2 : i < (layEnds 0 ms).length := by rw [layEnds_length]; exact him
  have hps : prevStop (laid 0 ms ++ frames (laid 0 ms).length (layEnds 0 ms)) i =
      if i = 0 then 0 else (layEnds 0 ms).getD (i - 1) 0 := by
    unfold prevStop; rw [hfr]
  have hat := laidAt_get ms 0 i him h'
  have hend := layEnds_get ms 0 i him hi2 h'
  obtain ⟨_, k2, _, k4⟩ := laidAt_sub ms [] (frames (laid 0 ms).length (layEnds 0 ms)) 0 rfl i him h'
  rw [List.nil_append] at k4
  have hmi : ms[i] = (e, enc (.pdf be) e vs[i]) := by simp [ms]
  rw [hmi] at hat hend k2 k4
  simp only at hat hend k2 k4
  have hlen : (laid 0 ms).length < 2 ^ 63 := by
    have := hl; rw [List.length_append] at this; omega
  rw [arrIndex_ok (s := ⟨a, laid 0 ms ++ frames (laid 0 ms).length (layEnds 0 ms)⟩) ha hl (by rw [hfr]; exact hi2)]
  · simp only [hfr, hps]
    rw [elemAt_exact hx hs ha]
    · rw [← hat, hend, k4]
    · rw [← hat, hend]; omega
    · rw [hend]; omega
    · rw [← hat, hend, k4]; exact badSize_enc (hf _ (List.getElem_mem _))
  · rw [hps]
    split
    · decide
    · rw [List.getD_eq_getElem?_getD]
      cases hg : (layEnds 0 ms)[i - 1]? with
      | none => simp
      | some o => have := hle o (List.mem_of_getElem? hg); simp; omega

/-- An array of fixed-size elements. -/
theorem laid_flatten {e : Ty} {n : Nat} (hd : Spec.align e ∣ n) (bs : List Bytes) : (∀ b ∈ bs, b.length = n) →
    ∀ pos, Spec.align e ∣ pos → laid pos (bs.map fun b => (e, b)) = bs.flatten ∧
      ∀ i (h : i < (laidAt pos (bs.map fun b => (e, b))).length), (laidAt pos (bs.map fun b => (e, b)))[i] = pos + i * n := by
  induction bs with
  | nil => intro _ pos _; exact ⟨rfl, fun i h => absurd h (by simp [laidAt])⟩
  | cons b bs ih =>
    intro hb pos hp
    have hbn := hb b (by simp)
    have hr : roundUp pos (Spec.align e) = pos := roundUp_of_dvd (specAlign_isAl e).pos hp
    obtain ⟨h1, h2⟩ := ih (fun x hx => hb x (by simp [hx])) (pos + n) (Nat.dvd_add hp hd)
    constructor
    · simp only [List.map_cons, laid, hr, hbn, h1]
      simp [zeros]
    · intro i h
      cases i with
      | zero => simp [laidAt, hr]
      | succ i =>
        simp only [List.map_cons, laidAt, List.getElem_cons_succ, hr, hbn] at h ⊢
        rw [h2 i (by simpa [laidAt, hr, hbn] using h), Nat.succ_mul]; omega

/-! ### Members of structures -/

/-- References to byte sequences laid out from `pos` on in a block at `a`. -/
def placed (a : Nat) : Nat → List (Ty × Bytes) → List Slice
  | _, [] => []
  | pos, (t, b) :: ms =>
    ⟨a + roundUp pos (Spec.align t), b⟩ :: placed a (roundUp pos (Spec.align t) + b.length) ms

theorem placed_get (a : Nat) (ms : List (Ty × Bytes)) : ∀ pos i (h : i < ms.length) (h' : i < (laidAt pos ms).length),
    (placed a pos ms)[i]? = some ⟨a + (laidAt pos ms)[i], ms[i].2⟩ := by
  induction ms with
  | nil => intro _ i h; simp at h
  | cons m ms ih =>
    intro pos i h h'
    obtain ⟨t, b⟩ := m
    cases i with
    | zero => simp [placed, laidAt]
    | succ i =>
      simp only [placed, laidAt, List.getElem?_cons_succ, List.getElem_cons_succ]
      exact ih _ i (by simpa using h) _

theorem memberRefs_laid {c : Cfg} {s : Slice} {nfo : Nat} (hl : s.len < 2 ^ 63) (hn : nfo < 2 ^ 50)
    (hw : Spec.offsetWidth s.len * nfo ≤ s.len) (ms : List (Ty × Bytes)) :
    (∀ m ∈ ms, Expands m.1) → (∀ m ∈ ms, Spec.align m.1 ∣ s.addr) →
    (∀ m ∈ ms, (∀ n, size m.1 = some n → m.2.length = n) ∧ badSize m.1 m.2 = false) →
    ∀ (k a b cc f pos : Nat) (pre suf : Bytes), IsAl b → (ms ≠ [] → k + framesLeft (ms.map (·.1)) ≤ nfo) →
      a + cc + 16 * (Ty.shows (ms.map (·.1))).length < 2 ^ 50 →
      (ms ≠ [] → frameBefore s.bytes k = some f) → f < 2 ^ 63 →
      pos = Spec.roundUp (f + a) b + cc → s.bytes = pre ++ laid pos ms ++ suf → pre.length = pos →
      pos + (laid pos ms).length ≤ s.len - Spec.offsetWidth s.len * nfo →
      ((∃ m ∈ ms, size m.1 = none) → pos + (laid pos ms).length = s.len - Spec.offsetWidth s.len * nfo) →
      (∀ (i : Nat) (h : i < (frameEnds pos ms).length), frame s.bytes (k + i) = some (frameEnds pos ms)[i]) →
      memberRefs c s nfo (ms.map (·.1)) (tableLoop ⟨(k : Int) - 1, a, b, cc⟩ (ms.map (·.1))) = .ok (placed s.addr pos ms) := by
  induction ms with
  | nil => intros; rfl
  | cons m ms ih =>
    intro hx ha hg k a b cc f pos pre suf hb hk hsum hf hf63 hpos hbytes hpre hlim hbe hfr
    obtain ⟨t, bt⟩ := m
    have hx' : ∀ m ∈ ms, Expands m.1 := fun u hu => hx u (by simp [hu])
    have ha' : ∀ m ∈ ms, Spec.align m.1 ∣ s.addr := fun u hu => ha u (by simp [hu])
    have hg' : ∀ m ∈ ms, (∀ n, size m.1 = some n → m.2.length = n) ∧ badSize m.1 m.2 = false :=
      fun u hu => hg u (by simp [hu])
    have hxt : Expands t := hx (t, bt) (by simp)
    have hat : Spec.align t ∣ s.addr := ha (t, bt) (by simp)
    obtain ⟨hgt, hbt⟩ := hg (t, bt) (by simp)
    simp only at hgt hbt
    have hk := hk (by simp)
    have hf := hf (by simp)
    have hl' : s.bytes.length < 2 ^ 63 := hl
    rw [laid_cons_length] at hlim hbe
    obtain ⟨a', b', c', hb', hle, hd, hst, hbound, hpos'⟩ := tableStep f t ((k : Int) - 1) (a := a) (c := cc) hb
    simp only [List.map_cons, Ty.shows, List.length_append] at hsum hk ⊢
    have hshow := show_pos t
    have hfl := framesLeft_le (t :: ms.map (·.1))
    have hcalc := calcOffsets_ok (c := c) (t := t) (b := s.bytes) (k := k) (a := a') (bb := b') (cc := c')
      (nfo := nfo) (f := f) (last := (ms.map (·.1)).isEmpty) hl' hb' hd (by omega) hn (by omega)
      (fun n hn => by have := size_bound t n hn; omega) hf hf63 hw
    rw [hpos', ← hpos] at hcalc
    have hr := le_roundUp (specAlign_isAl t).pos pos
    have hsplit : s.bytes = (pre ++ zeros (roundUp pos (Spec.align t) - pos)) ++ bt ++
          (laid (roundUp pos (Spec.align t) + bt.length) ms ++ suf) := by
      rw [hbytes]; simp [laid]
    have hsplit2 : s.bytes = (pre ++ zeros (roundUp pos (Spec.align t) - pos) ++ bt) ++
          laid (roundUp pos (Spec.align t) + bt.length) ms ++ suf := by
      rw [hbytes]; simp [laid]
    have hlen2 : (pre ++ zeros (roundUp pos (Spec.align t) - pos) ++ bt).length =
        roundUp pos (Spec.align t) + bt.length := by simp; omega
    have hbe' : (∃ m ∈ ms, size m.1 = none) → roundUp pos (Spec.align t) + bt.length +
        (laid (roundUp pos (Spec.align t) + bt.length) ms).length = s.len - Spec.offsetWidth s.len * nfo :=
      fun ⟨m, h1, h2⟩ => hbe ⟨m, by simp [h1], h2⟩
    have hsub : Spec.sub s.bytes (roundUp pos (Spec.align t)) (roundUp pos (Spec.align t) + bt.length) = bt := by
      rw [hsplit, sub_mid _ _ _ (by simp; omega) rfl]
    -- the reference to this member
    have hmem : calcOffsets c (alignOf t) s.bytes ⟨(k : Int) - 1, a', b', c'⟩ (sizeOf t) (ms.map (·.1)).isEmpty nfo =
          .ok (some (roundUp pos (Spec.align t), roundUp pos (Spec.align t) + bt.length)) →
        getChildElem c t s ⟨(k : Int) - 1, a', b', c'⟩ (ms.map (·.1)).isEmpty nfo =
          .ok ⟨s.addr + roundUp pos (Spec.align t), bt⟩ := by
      intro hcalc
      unfold getChildElem
      rw [hcalc, Res.bind_ok]
      simp only
      rw [alignOf_eq, window_ok hat (roundUp_dvd _ _) (by omega) (by omega), Res.bind_ok, hsub]
      unfold fromAligned
      rw [tryFromAligned_ok (s := ⟨s.addr + roundUp pos (Spec.align t), bt⟩) hxt (Nat.dvd_add hat (roundUp_dvd _ _)), if_pos]
      · rfl
      · cases hs : size t with
        | none => exact Or.inr ⟨by simp, hbt⟩
        | some n => exact Or.inl ⟨castBytes_good hgt hbt, by simp⟩
    simp only [tableLoop, hst, memberRefs, placed]
    rw [sizeOf_eq] at hmem hcalc ⊢
    cases hs : Spec.size t with
    | some n =>
      have hsb := size_bound t n hs
      have hbn := hgt n hs
      rw [hs] at hmem hcalc
      simp only at hcalc
      rw [if_pos ⟨by omega, by simp only [Slice.len] at hlim; omega⟩, ← hbn] at hcalc
      have hfl : framesLeft (t :: ms.map (·.1)) = framesLeft (ms.map (·.1)) := by simp [framesLeft, hs]
      rw [hfl] at hk
      have hfe : frameEnds pos ((t, bt) :: ms) = frameEnds (roundUp pos (Spec.align t) + bt.length) ms := by
        simp [frameEnds, hs]
      simp only [hfe] at hfr
      have hrs := ih hx' ha' hg' k a' b' (c' + n) f (roundUp pos (Spec.align t) + bt.length) _ suf hb' (fun _ => hk)
        (by omega) (fun _ => hf) hf63 (by rw [← Nat.add_assoc, hpos', ← hpos, hbn]) hsplit2 hlen2 hlim hbe' hfr
      rw [hmem (hbn ▸ hcalc)]
      simp only [hrs, Res.bind_ok, Res.pure_eq]
    | none =>
      rw [hs] at hmem hcalc
      have hki : (k : Int) - 1 + 1 = ((k + 1 : Nat) : Int) - 1 := by omega
      simp only [hki]
      cases ms with
      | nil =>
        have hb0 := hbe ⟨(t, bt), by simp, hs⟩
        simp only [laid, List.length_nil, Nat.add_zero] at hb0
        simp only [List.map_nil, List.isEmpty_nil, if_true] at hcalc hmem ⊢
        rw [show s.bytes.length - Spec.offsetWidth s.bytes.length * nfo = roundUp pos (Spec.align t) + bt.length
          from hb0.symm, if_pos ⟨by omega, by omega⟩] at hcalc
        rw [hmem hcalc]
        simp only [tableLoop, memberRefs, placed, Res.bind_ok, Res.pure_eq]
      | cons m' ms =>
        have hfl : framesLeft (t :: (m' :: ms).map (·.1)) = 1 + framesLeft ((m' :: ms).map (·.1)) := by
          simp [framesLeft, hs]
        rw [hfl] at hk
        have hfe : frameEnds pos ((t, bt) :: m' :: ms) = (roundUp pos (Spec.align t) + bt.length) ::
            frameEnds (roundUp pos (Spec.align t) + bt.length) (m' :: ms) := by
          rw [frameEnds]; simp [hs]
        have h0 := hfr 0 (by rw [hfe]; simp)
        simp only [hfe, List.getElem_cons_zero, Nat.add_zero] at h0
        have hemp : ((m' :: ms).map (·.1)).isEmpty = false := by simp
        rw [hemp] at hcalc hmem ⊢
        rw [h0] at hcalc
        simp only [Bool.false_eq_true, if_false] at hcalc
        rw [if_pos ⟨by omega, by simp only [Slice.len] at hlim; omega⟩] at hcalc
        have hfr' : ∀ (i : Nat) (h : i < (frameEnds (roundUp pos (Spec.align t) + bt.length) (m' :: ms)).length),
            frame s.bytes (k + 1 + i) =
              some (frameEnds (roundUp pos (Spec.align t) + bt.length) (m' :: ms))[i] := by
          intro i h
          have := hfr (i + 1) (by rw [hfe]; simpa using h)
          simp only [hfe, List.getElem_cons_succ] at this
          rw [← this]; congr 1; omega
        have hp1 : Spec.roundUp (roundUp pos (Spec.align t) + bt.length + 0) 1 + 0 = roundUp pos (Spec.align t) + bt.length := by
          simp [Spec.roundUp]
        have hrs := ih hx' ha' hg' (k + 1) 0 1 0 (roundUp pos (Spec.align t) + bt.length)
          (roundUp pos (Spec.align t) + bt.length) _ suf (Or.inl rfl) (fun _ => by omega)
          (by omega) (fun _ => by simp [frameBefore, h0]) (by simp only [Slice.len] at *; omega) hp1.symm hsplit2 hlen2 hlim hbe' hfr'
        rw [hmem hcalc]
        simp only [hrs, Res.bind_ok, Res.pure_eq]

theorem fieldRefs_placed {s : Slice} (ms : List (Ty × Bytes)) : (∀ m ∈ ms, size m.1 = some m.2.length) →
    ∀ (pos : Nat) (pre suf : Bytes), s.bytes = pre ++ laid pos ms ++ suf → pre.length = pos →
      fieldRefs s (Spec.startsFrom pos (ms.map (·.1))) (((ms.map (·.1)).map lay).map (·.1)) = placed s.addr pos ms := by
  induction ms with
  | nil => intros; rfl
  | cons m ms ih =>
    intro hm pos pre suf hb hp
    obtain ⟨t, bt⟩ := m
    have hs : size t = some bt.length := hm (t, bt) (by simp)
    have hr := le_roundUp (specAlign_isAl t).pos pos
    have hsplit : s.bytes = (pre ++ zeros (roundUp pos (Spec.align t) - pos)) ++ bt ++
          (laid (roundUp pos (Spec.align t) + bt.length) ms ++ suf) := by
      rw [hb]; simp [laid]
    have hsplit2 : s.bytes = (pre ++ zeros (roundUp pos (Spec.align t) - pos) ++ bt) ++
          laid (roundUp pos (Spec.align t) + bt.length) ms ++ suf := by
      rw [hb]; simp [laid]
    have hsub : (s.bytes.drop (roundUp pos (Spec.align t))).take bt.length = bt := by
      have : Spec.sub s.bytes (roundUp pos (Spec.align t)) (roundUp pos (Spec.align t) + bt.length) = bt := by
        rw [hsplit, sub_mid _ _ _ (by simp; omega) rfl]
      rw [← this]
      simp [Spec.sub, List.drop_take]
    simp only [List.map_cons, Spec.startsFrom, hs, Option.getD_some, lay, fieldRefs, placed, hsub]
    congr 1
    exact ih (fun m h => hm m (by simp [h])) _ _ suf hsplit2 (by simp; omega)

/-- References to the members of a structure in normal form. -/
theorem tupRefs_laid {c : Cfg} {gv : Ty} {ts : List Ty} {a : Nat} {ms : List (Ty × Bytes)}
    (hgv : Spec.size gv = Spec.size (.tuple ts)) (hx : ∀ t ∈ ts, Expands t)
    {d} (hd : generateTuple gv ts = .ok d) (hsm : (Ty.shows ts).length < 2 ^ 40)
    (ha : Spec.alignMax ts ∣ a) (ht : ms.map (·.1) = ts)
    (hm : ∀ m ∈ ms, (∀ n, size m.1 = some n → m.2.length = n) ∧ badSize m.1 m.2 = false)
    (hl : (encStruct (size (.tuple ts)) ms).length < 2 ^ 63) :
    tupRefs c gv ts ⟨a, encStruct (size (.tuple ts)) ms⟩ = .ok (placed a 0 ms) := by
  have ha' : ∀ t ∈ ts, Spec.align t ∣ a := fun t ht =>
    Nat.dvd_trans ((specAlign_isAl t).dvd (alignMax_isAl ts) (alignMax_ge ht)) ha
  unfold tupRefs
  rw [sizeOf_eq, hgv]
  cases hs : Spec.size (.tuple ts) with
  | some n =>
    obtain ⟨h1, h2, h3⟩ := encStruct_fixed_length ht (fun m h => (hm m h).1) hs
    obtain ⟨e, he, hsz, _⟩ := size_tuple_members hs
    have hlays : rustLayouts ts = .ok (ts.map lay) := rustLayouts_ok fun t ht => by
      obtain ⟨m, hm⟩ := Option.isSome_iff_exists.1 (hsz t ht)
      rw [rustLayout_ok t m hm (hx t ht)]
      simp [lay, hm]
    simp only [fieldOffsets_ok hgv (hgv.trans hs) hx hd, hlays, Res.bind_ok, Res.pure_eq]
    congr 1
    subst ht
    exact fieldRefs_placed (s := ⟨a, encStruct (some n) ms⟩) ms h2 0 [] (zeros (n - (laid 0 ms).length))
      (by simp [encStruct]) rfl
  | none =>
    rw [hs] at hl
    have hnl := shows_length_ge ts
    have hfl := framesLeft_le ts
    simp only
    obtain ⟨cmds, hc⟩ := serLoop_ok (nFrameOffsets ts) ts 0 8 0 0 (by rw [nFrameOffsets_eq]; omega)
    have hp : writeNonFixedSizeStructure ts = .ok ⟨generateTable ts, nFrameOffsets ts, cmds⟩ := by
      simp [writeNonFixedSizeStructure, hc]
    simp only [hp, Res.bind_ok, nFrameOffsets_eq]
    simp only [encStruct] at hl ⊢
    have hle : ∀ o ∈ frameEnds 0 ms, o ≤ (laid 0 ms).length := fun o ho => by simpa using frameEnds_le ho
    have hcount : (frameEnds 0 ms).length = framesLeft ts := by rw [frameEnds_length, ht, frameCount_eq]
    have hfr : ∀ (i : Nat) (h : i < (frameEnds 0 ms).length),
        frame (laid 0 ms ++ frames (laid 0 ms).length (frameEnds 0 ms).reverse) (0 + i) =
          some (frameEnds 0 ms)[i] := fun i h => by rw [Nat.zero_add]; exact frame_frames hle (by omega) h
    have hlen : (laid 0 ms ++ frames (laid 0 ms).length (frameEnds 0 ms).reverse).length =
        (laid 0 ms).length +
          framesLeft ts * frameWidth (laid 0 ms).length (frameEnds 0 ms).reverse.length := by
      rw [List.length_append, frames_length, List.length_reverse, hcount]
    have hW : offsetWidth (laid 0 ms ++ frames (laid 0 ms).length (frameEnds 0 ms).reverse).length * framesLeft ts =
        framesLeft ts * frameWidth (laid 0 ms).length (frameEnds 0 ms).reverse.length := by
      by_cases h0 : framesLeft ts = 0
      · simp [h0]
      · have hne : (frameEnds 0 ms).reverse ≠ [] := by
          intro h; rw [List.reverse_eq_nil_iff] at h; rw [h] at hcount; exact h0 hcount.symm
        have : offsetWidth (laid 0 ms ++ frames (laid 0 ms).length (frameEnds 0 ms).reverse).length =
            frameWidth (laid 0 ms).length (frameEnds 0 ms).reverse.length := by
          rw [List.length_append]; exact frames_total hne
        rw [this, Nat.mul_comm]
    have key := memberRefs_laid (c := c) (nfo := framesLeft ts)
      (s := ⟨a, laid 0 ms ++ frames (laid 0 ms).length (frameEnds 0 ms).reverse⟩) hl (by omega)
      (by simp only [Slice.len]; rw [hW, hlen]; omega) ms
      (fun m h => hx _ (ht ▸ List.mem_map_of_mem h)) (fun m h => ha' _ (ht ▸ List.mem_map_of_mem h)) hm
      0 0 1 0 0 0 [] (frames (laid 0 ms).length (frameEnds 0 ms).reverse) (Or.inl rfl)
      (fun _ => by rw [ht]; omega) (by rw [ht]; omega) (fun _ => rfl) (by omega) (by simp [roundUp]) (by simp) rfl
      (by simp only [Slice.len]; rw [hW, hlen]; omega) (fun _ => by simp only [Slice.len]; rw [hW, hlen]; omega) hfr
    rw [ht] at key
    exact key

end GV
