import Verif.Proofs.EncLen
import Verif.Proofs.Ser
/-
Cutting an encoding into its children gives back the encodings of the children.
-/
namespace GV
open Spec

theorem le_leBytes {w n : Nat} (h : n < 256 ^ w) : le (leBytes w n) = n := by
  induction w generalizing n with
  | zero => simp at h; subst h; rfl
  | succ w ih =>
    have : n / 256 < 256 ^ w := by rw [Nat.div_lt_iff_lt_mul (by decide)]; rw [Nat.pow_succ] at h; exact h
    rw [leBytes, le_cons, ih this]
    simp only [UInt8.toNat_ofNat']
    omega

theorem number_numBytes {be : Bool} {w n : Nat} (h : n < 256 ^ w) : number be (numBytes be w n) = n := by
  unfold number numBytes
  cases be <;> simp [le_leBytes h]

theorem sub_prefix (p b : Bytes) {q lo hi : Nat} (hq : p.length = q) :
    sub (p ++ b) (q + lo) (q + hi) = sub b lo hi := by
  subst hq
  simp [sub, List.take_append, List.drop_append]

theorem sub_suffix (b s : Bytes) {lo hi : Nat} (h : hi ≤ b.length) : sub (b ++ s) lo hi = sub b lo hi := by
  unfold sub
  rw [List.take_append_of_le_length h]

theorem sub_all (b : Bytes) {n : Nat} (h : b.length = n) : sub b 0 n = b := by
  subst h; simp [sub]

/-- The middle of three parts. -/
theorem sub_mid (p b s : Bytes) {q r : Nat} (hq : p.length = q) (hr : q + b.length = r) :
    sub (p ++ b ++ s) q r = b := by
  subst hr
  rw [List.append_assoc]
  have := sub_prefix p (b ++ s) (lo := 0) (hi := b.length) hq
  rw [Nat.add_zero] at this
  rw [this, sub_suffix b s (Nat.le_refl _), sub_all b rfl]

theorem flatten_length {bs : List Bytes} {w : Nat} (h : ∀ b ∈ bs, b.length = w) :
    bs.flatten.length = bs.length * w := by
  induction bs with
  | nil => simp
  | cons b bs ih =>
    rw [List.flatten_cons, List.length_append, h b (by simp), ih fun x hx => h x (by simp [hx]),
      List.length_cons, Nat.succ_mul, Nat.add_comm]

theorem flatten_piece {bs : List Bytes} {w : Nat} (h : ∀ b ∈ bs, b.length = w) :
    ∀ {i : Nat} (hi : i < bs.length), sub bs.flatten (i * w) (i * w + w) = bs[i] := by
  induction bs with
  | nil => intro i hi; simp at hi
  | cons b bs ih =>
    intro i hi
    have hb := h b (by simp)
    rw [List.flatten_cons]
    cases i with
    | zero =>
      simp only [Nat.zero_mul, Nat.zero_add, List.getElem_cons_zero]
      rw [sub_suffix _ _ (by omega), sub_all _ hb]
    | succ i =>
      have h1 : (i + 1) * w = w + i * w := by rw [Nat.succ_mul, Nat.add_comm]
      have h2 : (i + 1) * w + w = w + (i * w + w) := by omega
      rw [h2, h1, sub_prefix _ _ hb, ih (fun x hx => h x (by simp [hx])) (by simpa using hi)]
      simp

theorem chunks_flatten {bs : List Bytes} {n : Nat} (hn : 0 < n) (h : ∀ b ∈ bs, b.length = n) :
    chunks n bs.flatten = bs := by
  unfold chunks
  rw [flatten_length h, Nat.mul_div_cancel _ hn]
  apply List.ext_getElem
  · simp
  · intro i h1 h2
    simp only [List.getElem_map, List.getElem_range]
    exact flatten_piece h h2

theorem frameWidth_isWidth (body n : Nat) : IsWidth (frameWidth body n) := by
  rw [frameWidth_eq]
  unfold IsWidth
  (repeat' split) <;> decide

/-- The width chosen by the writer is the width the container size asks for. -/
theorem frameWidth_exact {body n : Nat} (hn : 0 < n) :
    offsetWidth (body + n * frameWidth body n) = frameWidth body n := by
  rw [frameWidth_eq]
  unfold offsetWidth
  by_cases h1 : body + n ≤ 0xff
  · rw [if_pos h1, if_neg (by omega), if_pos (by omega)]
  · rw [if_neg h1]
    by_cases h2 : body + n * 2 ≤ 0xffff
    · rw [if_pos h2, if_neg (by omega), if_neg (by omega), if_pos (by omega)]
    · rw [if_neg h2]
      by_cases h4 : body + n * 4 ≤ 0xffffffff
      · rw [if_pos h4, if_neg (by omega), if_neg (by omega), if_neg (by omega), if_pos (by omega)]
      · rw [if_neg h4, if_neg (by omega), if_neg (by omega), if_neg (by omega), if_neg (by omega)]

theorem lt_pow_frameWidth {body n : Nat} (hn : 0 < n) (h : body + n * frameWidth body n < 2 ^ 64) :
    body + n * frameWidth body n < 256 ^ frameWidth body n := by
  have hx := frameWidth_exact (body := body) hn
  have h1 : 1 ≤ body + n * frameWidth body n := by
    have := Nat.mul_pos hn (frameWidth_isWidth body n).pos; omega
  generalize body + n * frameWidth body n = m at *
  unfold offsetWidth at hx
  rw [if_neg (by omega)] at hx
  by_cases h1 : m < 256 ^ 1
  · rw [if_pos h1] at hx; rw [← hx]; exact h1
  · rw [if_neg h1] at hx
    by_cases h2 : m < 256 ^ 2
    · rw [if_pos h2] at hx; rw [← hx]; exact h2
    · rw [if_neg h2] at hx
      by_cases h4 : m < 256 ^ 4
      · rw [if_pos h4] at hx; rw [← hx]; exact h4
      · rw [if_neg h4] at hx; rw [← hx]; omega

/-- Reading the `i`-th framing offset gives it back. -/
theorem le_frames {body : Bytes} {offs : List Nat} (hb : ∀ o ∈ offs, o ≤ body.length)
    (hl : (body ++ frames body.length offs).length < 2 ^ 64) {i : Nat} (hi : i < offs.length) :
    le (sub (body ++ frames body.length offs)
      (body.length + i * frameWidth body.length offs.length)
      (body.length + i * frameWidth body.length offs.length + frameWidth body.length offs.length)) =
      offs[i] := by
  rw [List.length_append, frames_length] at hl
  have hw := lt_pow_frameWidth (by omega : 0 < offs.length) hl
  have ho := hb _ (List.getElem_mem hi)
  rw [Nat.add_assoc, sub_prefix _ _ rfl, frames]
  rw [flatten_piece (bs := offs.map (leBytes (frameWidth body.length offs.length)))
    (by intro b hb; obtain ⟨o, _, rfl⟩ := List.mem_map.1 hb; exact leBytes_length _ _) (by simpa using hi)]
  rw [List.getElem_map, le_leBytes (by omega)]

theorem frames_total {body : Nat} {offs : List Nat} (hne : offs ≠ []) :
    offsetWidth (body + (frames body offs).length) = frameWidth body offs.length := by
  rw [frames_length]
  exact frameWidth_exact (List.length_pos_iff.2 hne)

/-- The last framing offset read back. -/
theorem last_frames {body : Bytes} {offs : List Nat} (hne : offs ≠ []) (hb : ∀ o ∈ offs, o ≤ body.length)
    (hl : (body ++ frames body.length offs).length < 2 ^ 64) :
    le ((body ++ frames body.length offs).drop ((body ++ frames body.length offs).length -
      offsetWidth (body ++ frames body.length offs).length)) = offs.getLast hne := by
  have hn := List.length_pos_iff.2 hne
  have h := le_frames hb hl (i := offs.length - 1) (by omega)
  rw [List.getLast_eq_getElem, ← h]
  congr 1
  have hs : body.length + (offs.length - 1) * frameWidth body.length offs.length +
      frameWidth body.length offs.length = (body ++ frames body.length offs).length := by
    rw [List.length_append, frames_length, Nat.add_assoc, ← Nat.succ_mul]
    congr 2; omega
  rw [hs, sub_full]
  congr 1
  have : offsetWidth (body ++ frames body.length offs).length = frameWidth body.length offs.length := by
    rw [List.length_append]; exact frames_total hne
  rw [this, ← hs]
  omega

theorem arrFrame_enc {body : Bytes} {offs : List Nat} (hne : offs ≠ []) (hb : ∀ o ∈ offs, o ≤ body.length)
    (hl : (body ++ frames body.length offs).length < 2 ^ 64) (hlast : offs.getLast hne = body.length) :
    arrFrame (body ++ frames body.length offs) = (body.length, offs) := by
  have hn := List.length_pos_iff.2 hne
  have hwp := (frameWidth_isWidth body.length offs.length).pos
  have hW : offsetWidth (body ++ frames body.length offs).length = frameWidth body.length offs.length := by
    rw [List.length_append]; exact frames_total hne
  have hlf := last_frames hne hb hl
  rw [hW] at hlf
  have hfl : (body ++ frames body.length offs).length - body.length =
      offs.length * frameWidth body.length offs.length := by
    rw [List.length_append, frames_length]; omega
  have hne' : body ++ frames body.length offs ≠ [] := by
    intro h
    have := congrArg List.length h
    rw [List.length_append, frames_length] at this
    have := Nat.mul_pos hn hwp
    simp at *; omega
  unfold arrFrame
  simp only [hlf, hlast, hfl, hW]
  rw [if_neg]
  · rw [Nat.mul_div_cancel _ hwp]
    congr 1
    apply List.ext_getElem
    · simp
    · intro i h1 h2
      simp only [List.getElem_map, List.getElem_range]
      exact le_frames hb hl h2
  · rintro (h | h | h)
    · exact hne' h
    · rw [List.length_append] at h; omega
    · simp at h

theorem arrFrame_padded {body : Bytes} {offs : List Nat} (hne : offs ≠ [])
    (hb : ∀ o ∈ offs, o ≤ body.length)
    (hl : (body ++ frames body.length offs).length < 2 ^ 64) (hlast : offs.getLast hne ≠ body.length) :
    (arrFrame (body ++ frames body.length offs)).2.length ≠ offs.length := by
  have hn := List.length_pos_iff.2 hne
  have hwp := (frameWidth_isWidth body.length offs.length).pos
  have hW : offsetWidth (body ++ frames body.length offs).length = frameWidth body.length offs.length := by
    rw [List.length_append]; exact frames_total hne
  have hlf := last_frames hne hb hl
  rw [hW] at hlf
  have hle := hb _ (List.getLast_mem hne)
  have hfl : (body ++ frames body.length offs).length - offs.getLast hne =
      (body.length - offs.getLast hne) + offs.length * frameWidth body.length offs.length := by
    rw [List.length_append, frames_length]; omega
  unfold arrFrame
  simp only [hlf, hfl, hW]
  split
  · simp only [List.length_nil]; omega
  · rename_i h
    simp only [not_or, Nat.add_mul_mod_self_right, not_not] at h
    simp only [List.length_map, List.length_range]
    rw [Nat.add_mul_div_right _ _ hwp]
    have hpos : 0 < body.length - offs.getLast hne := by omega
    have := Nat.div_pos (Nat.le_of_dvd hpos (Nat.dvd_of_mod_eq_zero h.2.2)) hwp
    omega

theorem layEnds_length (ms : List (Ty × Bytes)) : ∀ pos, (layEnds pos ms).length = ms.length := by
  induction ms with
  | nil => intro _; rfl
  | cons m ms ih => intro pos; simp [layEnds, ih]

theorem layEnds_le {ms : List (Ty × Bytes)} : ∀ {pos o : Nat}, o ∈ layEnds pos ms →
    o ≤ pos + (laid pos ms).length := by
  induction ms with
  | nil => simp [layEnds]
  | cons m ms ih =>
    intro pos o ho
    obtain ⟨t, b⟩ := m
    rw [laid_cons_length]
    simp only [layEnds, List.mem_cons] at ho
    rcases ho with rfl | ho
    · omega
    · exact ih ho

theorem layEnds_last {ms : List (Ty × Bytes)} : ∀ {pos : Nat} (h : layEnds pos ms ≠ []),
    (layEnds pos ms).getLast h = pos + (laid pos ms).length := by
  induction ms with
  | nil => intro pos h; simp [layEnds] at h
  | cons m ms ih =>
    intro pos h
    obtain ⟨t, b⟩ := m
    rw [laid_cons_length]
    cases ms with
    | nil => simp [layEnds, laid]
    | cons m ms =>
      rw [← ih (by simp [layEnds])]
      simp [layEnds]

/-- Cutting at the ends gives back what was laid out. -/
theorem elemsFrom_laid {e : Ty} (ms : List (Ty × Bytes)) : (∀ m ∈ ms, m.1 = e) →
    ∀ (pre suf : Bytes) (pos limit : Nat), pre.length = pos → pos + (laid pos ms).length ≤ limit →
    elemsFrom (pre ++ laid pos ms ++ suf) limit (Spec.align e) pos (layEnds pos ms) =
      ms.map fun m => some m.2 := by
  induction ms with
  | nil => intros; rfl
  | cons m ms ih =>
    intro hm pre suf pos limit hp hlim
    obtain ⟨t, b⟩ := m
    have ht : t = e := hm (t, b) (by simp)
    subst ht
    rw [laid_cons_length] at hlim
    have hr := le_roundUp (specAlign_isAl t).pos pos
    have hsplit : pre ++ laid pos ((t, b) :: ms) ++ suf =
        (pre ++ zeros (roundUp pos (Spec.align t) - pos)) ++ b ++
          (laid (roundUp pos (Spec.align t) + b.length) ms ++ suf) := by
      simp [laid]
    have hsplit2 : pre ++ laid pos ((t, b) :: ms) ++ suf =
        (pre ++ zeros (roundUp pos (Spec.align t) - pos) ++ b) ++
          laid (roundUp pos (Spec.align t) + b.length) ms ++ suf := by
      simp [laid]
    simp only [layEnds, elemsFrom, List.map_cons]
    congr 1
    · rw [place, if_pos ⟨by omega, by omega⟩, hsplit, sub_mid _ _ _ (by simp; omega) rfl]
    · rw [hsplit2]
      exact ih (fun m hm' => hm m (by simp [hm'])) _ _ _ _ (by simp; omega) hlim

/-- Elements of an encoded variable-width array. -/
theorem arrChildren_encArr {R : Rules} {E : Enc} {e : Ty} {bs : List Bytes} (he : size e = none)
    (hl : (encArr E e bs).length < 2 ^ 64)
    (hp : E.padLast = true → Spec.align e ∣ (laid 0 (bs.map fun b => (e, b))).length) :
    arrChildren R e (encArr E e bs) = bs.map some := by
  have hz : zeros (if E.padLast then roundUp (laid 0 (bs.map fun b => (e, b))).length (Spec.align e) -
      (laid 0 (bs.map fun b => (e, b))).length else 0) = [] := by
    split
    · rename_i h
      rw [roundUp_of_dvd (specAlign_isAl e).pos (hp h)]; simp [zeros]
    · rfl
  have henc : encArr E e bs = laid 0 (bs.map fun b => (e, b)) ++
      frames (laid 0 (bs.map fun b => (e, b))).length (layEnds 0 (bs.map fun b => (e, b))) := by
    simp only [encArr, hz, List.append_nil]
  rw [henc] at hl ⊢
  simp only [arrChildren, he]
  cases bs with
  | nil => rfl
  | cons b bs =>
    have hne : layEnds 0 ((b :: bs).map fun b => (e, b)) ≠ [] := by simp [layEnds]
    have hlast := layEnds_last hne
    rw [Nat.zero_add] at hlast
    have hfr := arrFrame_enc hne (fun o ho => by simpa using layEnds_le ho) hl hlast
    rw [hfr]
    simp only
    have := elemsFrom_laid (e := e) ((b :: bs).map fun b => (e, b))
      (List.forall_mem_map.2 fun _ _ => rfl) []
      (frames (laid 0 ((b :: bs).map fun b => (e, b))).length
        (layEnds 0 ((b :: bs).map fun b => (e, b)))) 0
      (if R.disjoint then (laid 0 ((b :: bs).map fun b => (e, b))).length else
        (laid 0 ((b :: bs).map fun b => (e, b)) ++
          frames (laid 0 ((b :: bs).map fun b => (e, b))).length
            (layEnds 0 ((b :: bs).map fun b => (e, b)))).length) rfl
      (by
        split
        · omega
        · rw [List.length_append]; omega)
    rw [List.nil_append] at this
    rw [this]
    simp

/-- With the last element padded the number of elements changes. -/
theorem arrChildren_padded {R : Rules} {E : Enc} {e : Ty} {bs : List Bytes} (he : size e = none)
    (hl : (encArr E e bs).length < 2 ^ 64) (hE : E.padLast = true)
    (hp : ¬ Spec.align e ∣ (laid 0 (bs.map fun b => (e, b))).length) :
    (arrChildren R e (encArr E e bs)).length ≠ bs.length := by
  have hle := le_roundUp (specAlign_isAl e).pos (laid 0 (bs.map fun b => (e, b))).length
  have hlt : (laid 0 (bs.map fun b => (e, b))).length <
      roundUp (laid 0 (bs.map fun b => (e, b))).length (Spec.align e) := by
    rcases Nat.lt_or_ge (laid 0 (bs.map fun b => (e, b))).length
      (roundUp (laid 0 (bs.map fun b => (e, b))).length (Spec.align e)) with h | h
    · exact h
    · exact absurd (Nat.le_antisymm hle h ▸ roundUp_dvd _ _) hp
  have hne : layEnds 0 (bs.map fun b => (e, b)) ≠ [] := by
    cases bs with
    | nil => simp [laid] at hp
    | cons b bs => simp [layEnds]
  have hlast := layEnds_last hne
  have helems : ∀ (b : Bytes) (l al : Nat) (offs : List Nat) (p : Nat),
      (elemsFrom b l al p offs).length = offs.length := by
    intro b l al offs
    induction offs with
    | nil => intro p; rfl
    | cons o offs ih => intro p; simp [elemsFrom, ih]
  have hbl : (laid 0 (bs.map fun b => (e, b)) ++
      zeros (roundUp (laid 0 (bs.map fun b => (e, b))).length (Spec.align e) -
        (laid 0 (bs.map fun b => (e, b))).length)).length =
      roundUp (laid 0 (bs.map fun b => (e, b))).length (Spec.align e) := by
    rw [List.length_append, zeros_length]; omega
  simp only [encArr, hE, if_true] at hl ⊢
  simp only [arrChildren, he, helems]
  have := arrFrame_padded hne (fun o ho => by
    rw [hbl]; have := layEnds_le ho; omega) hl (by rw [hbl]; omega)
  rwa [layEnds_length, List.length_map] at this

theorem frameEnds_le {ms : List (Ty × Bytes)} : ∀ {pos o : Nat}, o ∈ frameEnds pos ms →
    o ≤ pos + (laid pos ms).length := by
  induction ms with
  | nil => simp [frameEnds]
  | cons m ms ih =>
    intro pos o ho
    obtain ⟨t, b⟩ := m
    rw [laid_cons_length]
    simp only [frameEnds, List.mem_append] at ho
    rcases ho with ho | ho
    · split at ho
      · simp only [List.mem_singleton] at ho; omega
      · simp at ho
    · exact ih ho

theorem frameEnds_length (ms : List (Ty × Bytes)) : ∀ pos,
    (frameEnds pos ms).length = frameCount (ms.map (·.1)) := by
  induction ms with
  | nil => intro _; rfl
  | cons m ms ih =>
    intro pos
    obtain ⟨t, b⟩ := m
    simp only [frameEnds, List.length_append, ih]
    cases ms with
    | nil => simp [frameCount]
    | cons m' ms =>
      simp only [frameCount, List.map_cons, List.dropLast_cons₂, List.filter_cons]
      cases h : (size t).isNone <;> simp [h] <;> omega

/-- Cutting a structure gives back what was laid out. -/
theorem membersFrom_laid (ms : List (Ty × Bytes)) :
    (∀ m ∈ ms, ∀ n, size m.1 = some n → m.2.length = n) →
    ∀ (pre suf : Bytes) (pos k limit : Nat) (be : Option Nat), pre.length = pos →
    pos + (laid pos ms).length ≤ limit →
    ((∃ m ∈ ms, size m.1 = none) → be = some (pos + (laid pos ms).length)) →
    (∀ (i : Nat) (h : i < (frameEnds pos ms).length),
      frame (pre ++ laid pos ms ++ suf) (k + i) = some (frameEnds pos ms)[i]) →
    membersFrom (pre ++ laid pos ms ++ suf) limit be (some pos) k (ms.map (·.1)) =
      ms.map fun m => some m.2 := by
  induction ms with
  | nil => intros; rfl
  | cons m ms ih =>
    intro hm pre suf pos k limit be hp hlim hbe hfr
    obtain ⟨t, b⟩ := m
    rw [laid_cons_length] at hlim hbe
    have hr := le_roundUp (specAlign_isAl t).pos pos
    have hsplit : pre ++ laid pos ((t, b) :: ms) ++ suf =
        (pre ++ zeros (roundUp pos (Spec.align t) - pos)) ++ b ++
          (laid (roundUp pos (Spec.align t) + b.length) ms ++ suf) := by
      simp [laid]
    have hsplit2 : pre ++ laid pos ((t, b) :: ms) ++ suf =
        (pre ++ zeros (roundUp pos (Spec.align t) - pos) ++ b) ++
          laid (roundUp pos (Spec.align t) + b.length) ms ++ suf := by
      simp [laid]
    have hplace : place (pre ++ laid pos ((t, b) :: ms) ++ suf) limit (roundUp pos (Spec.align t))
        (roundUp pos (Spec.align t) + b.length) = some b := by
      rw [place, if_pos ⟨by omega, by omega⟩, hsplit, sub_mid _ _ _ (by simp; omega) rfl]
    have hlen : (pre ++ zeros (roundUp pos (Spec.align t) - pos) ++ b).length =
        roundUp pos (Spec.align t) + b.length := by simp; omega
    have hbe' : (∃ m ∈ ms, size m.1 = none) → be = some (roundUp pos (Spec.align t) + b.length +
        (laid (roundUp pos (Spec.align t) + b.length) ms).length) :=
      fun ⟨m, h1, h2⟩ => hbe ⟨m, by simp [h1], h2⟩
    have hm' : ∀ m ∈ ms, ∀ n, size m.1 = some n → m.2.length = n := fun m h => hm m (by simp [h])
    simp only [List.map_cons, membersFrom]
    cases hs : size t with
    | some n =>
      have hbn : b.length = n := hm (t, b) (by simp) n hs
      subst hbn
      simp only [Option.map_some, Option.bind_some, hplace]
      congr 1
      have hfe : frameEnds pos ((t, b) :: ms) = frameEnds (roundUp pos (Spec.align t) + b.length) ms := by
        simp [frameEnds, hs]
      simp only [hfe] at hfr
      rw [hsplit2] at hfr ⊢
      exact ih hm' _ _ _ _ _ _ hlen hlim hbe' hfr
    | none =>
      simp only [Option.map_some, Option.bind_some]
      cases ms with
      | nil =>
        have hb := hbe ⟨(t, b), by simp, hs⟩
        simp only [laid, List.length_nil, Nat.add_zero] at hb
        simp only [List.map_nil, if_true, hb, Option.bind_some, hplace, membersFrom]
      | cons m' ms =>
        have hfe : frameEnds pos ((t, b) :: m' :: ms) = (roundUp pos (Spec.align t) + b.length) ::
            frameEnds (roundUp pos (Spec.align t) + b.length) (m' :: ms) := by
          rw [frameEnds]; simp [hs]
        have h0 := hfr 0 (by rw [hfe]; simp)
        simp only [hfe, List.getElem_cons_zero, Nat.add_zero] at h0
        rw [if_neg (by simp), h0]
        simp only [Option.bind_some, hplace]
        congr 1
        have hfr' : ∀ (i : Nat) (h : i < (frameEnds (roundUp pos (Spec.align t) + b.length) (m' :: ms)).length),
            frame (pre ++ laid pos ((t, b) :: m' :: ms) ++ suf) (k + 1 + i) =
              some (frameEnds (roundUp pos (Spec.align t) + b.length) (m' :: ms))[i] := by
          intro i h
          have := hfr (i + 1) (by rw [hfe]; simpa using h)
          simp only [hfe, List.getElem_cons_succ] at this
          rw [← this]; congr 1; omega
        rw [hsplit2] at hfr' ⊢
        exact ih hm' _ _ _ _ _ _ hlen hlim hbe' hfr'

/-- The framing offsets of an encoded structure, counted from the end. -/
theorem frame_frames {body : Bytes} {offs : List Nat} (hb : ∀ o ∈ offs, o ≤ body.length)
    (hl : (body ++ frames body.length offs.reverse).length < 2 ^ 64) {i : Nat} (hi : i < offs.length) :
    frame (body ++ frames body.length offs.reverse) i = some offs[i] := by
  have hne : offs.reverse ≠ [] := by
    intro h; rw [List.reverse_eq_nil_iff] at h; subst h; simp at hi
  have hW : offsetWidth (body ++ frames body.length offs.reverse).length =
      frameWidth body.length offs.reverse.length := by
    rw [List.length_append]; exact frames_total hne
  have hlen : (body ++ frames body.length offs.reverse).length =
      body.length + offs.length * frameWidth body.length offs.reverse.length := by
    rw [List.length_append, frames_length, List.length_reverse]
  have hmul : (i + 1) * frameWidth body.length offs.reverse.length ≤
      offs.length * frameWidth body.length offs.reverse.length := Nat.mul_le_mul_right _ hi
  have h := le_frames (body := body) (offs := offs.reverse) (by simpa using hb) hl
    (i := offs.length - 1 - i) (by simp; omega)
  unfold frame
  simp only [hW]
  rw [if_pos (by rw [hlen]; omega)]
  congr 1
  rw [List.getElem_reverse] at h
  have hix : offs.length - 1 - (offs.length - 1 - i) = i := by omega
  simp only [hix] at h
  rw [← h]
  have hm2 : (offs.length - 1 - i) * frameWidth body.length offs.reverse.length +
      (i + 1) * frameWidth body.length offs.reverse.length =
      offs.length * frameWidth body.length offs.reverse.length := by
    rw [← Nat.add_mul]; congr 1; omega
  rw [Nat.succ_mul] at hm2 hmul
  rw [Nat.succ_mul, hlen]
  congr 2 <;> omega

/-- Members of an encoded structure. -/
theorem memberChildren_encStruct {R : Rules} {ts : List Ty} {ms : List (Ty × Bytes)}
    (ht : ms.map (·.1) = ts) (hm : ∀ m ∈ ms, ∀ n, size m.1 = some n → m.2.length = n)
    (hl : (encStruct (size (.tuple ts)) ms).length < 2 ^ 64) :
    memberChildren R ts (encStruct (size (.tuple ts)) ms) = ms.map fun m => some m.2 := by
  unfold memberChildren
  cases hs : size (.tuple ts) with
  | some n =>
    obtain ⟨h1, h2, h3⟩ := encStruct_fixed_length ht hm hs
    simp only [h1, if_true]
    have hfe : frameEnds 0 ms = [] := by
      have : ∀ (l : List (Ty × Bytes)), (∀ m ∈ l, size m.1 = some m.2.length) → ∀ pos,
          frameEnds pos l = [] := by
        intro l
        induction l with
        | nil => intros; rfl
        | cons m l ih =>
          intro h pos
          obtain ⟨t, b⟩ := m
          have := h (t, b) (by simp)
          simp only at this
          simp [frameEnds, this, ih fun m hm => h m (by simp [hm])]
      exact this ms h2 0
    have := membersFrom_laid ms hm [] (zeros (n - (laid 0 ms).length)) 0 0 n (some n) rfl (by omega)
      (fun ⟨m, h4, h5⟩ => by rw [h2 m h4] at h5; cases h5)
      (by simp [hfe])
    rw [List.nil_append, ht] at this
    exact this
  | none =>
    rw [hs] at hl
    simp only
    have hle : ∀ o ∈ frameEnds 0 ms, o ≤ (laid 0 ms).length := fun o ho => by simpa using frameEnds_le ho
    have hcount : (frameEnds 0 ms).length = frameCount ts := by rw [frameEnds_length, ht]
    simp only [encStruct] at hl ⊢
    have hfr : ∀ (i : Nat) (h : i < (frameEnds 0 ms).length),
        frame (laid 0 ms ++ frames (laid 0 ms).length (frameEnds 0 ms).reverse) i =
          some (frameEnds 0 ms)[i] := fun i h => frame_frames hle hl h
    have hbe : bodyEnd ts (laid 0 ms ++ frames (laid 0 ms).length (frameEnds 0 ms).reverse) =
        some (laid 0 ms).length := by
      unfold bodyEnd
      have hlen : (laid 0 ms ++ frames (laid 0 ms).length (frameEnds 0 ms).reverse).length =
          (laid 0 ms).length +
            frameCount ts * frameWidth (laid 0 ms).length (frameEnds 0 ms).reverse.length := by
        rw [List.length_append, frames_length, List.length_reverse, hcount]
      by_cases h0 : frameCount ts = 0
      · simp only [h0, Nat.mul_zero, Nat.zero_le, if_true, Nat.sub_zero]
        rw [hlen, h0]; simp
      · have hne : (frameEnds 0 ms).reverse ≠ [] := by
          intro h; rw [List.reverse_eq_nil_iff] at h; rw [h] at hcount; exact h0 hcount.symm
        have hW : offsetWidth (laid 0 ms ++ frames (laid 0 ms).length (frameEnds 0 ms).reverse).length =
            frameWidth (laid 0 ms).length (frameEnds 0 ms).reverse.length := by
          rw [List.length_append]; exact frames_total hne
        simp only [hW]
        rw [hlen, Nat.mul_comm (frameWidth _ _), if_pos (by omega)]
        congr 1; omega
    have key : ∀ limit, (laid 0 ms).length ≤ limit →
        membersFrom (laid 0 ms ++ frames (laid 0 ms).length (frameEnds 0 ms).reverse) limit
          (some (laid 0 ms).length) (some 0) 0 ts = ms.map fun m => some m.2 := by
      intro limit hlim
      have := membersFrom_laid ms hm [] (frames (laid 0 ms).length (frameEnds 0 ms).reverse) 0 0 limit
        (some (laid 0 ms).length) rfl (by omega) (fun _ => by rw [Nat.zero_add])
        (by simpa using hfr)
      rwa [List.nil_append, ht] at this
    rw [hbe]
    split
    · exact key _ (Nat.le_refl _)
    · exact key _ (by simp)

end GV
