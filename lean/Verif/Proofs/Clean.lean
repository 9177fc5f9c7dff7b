import Verif.Spec.Clean
import Verif.Proofs.Inj
/-
Helper lemmas: the bytes recognised by `clean` are the encodings.
-/
namespace GV
open Spec

theorem blank_iff {b : Bytes} : blank b = true ↔ b = zeros b.length := by
  unfold blank zeros
  rw [List.all_eq_true]
  constructor
  · intro h; exact List.eq_replicate_iff.2 ⟨rfl, fun x hx => by simpa using h x hx⟩
  · intro h x hx
    rw [h] at hx
    simpa using (List.mem_replicate.1 hx).2

theorem blank_zeros (n : Nat) : blank (zeros n) = true := by
  rw [blank_iff]; simp

theorem clean_leBytes : ∀ (w : Nat) (b : Bytes), b.length = w → leBytes w (le b) = b := by
  intro w
  induction w with
  | zero => intro b h; rw [List.length_eq_zero_iff.1 h]; rfl
  | succ w ih =>
    intro b h
    cases b with
    | nil => simp at h
    | cons x b =>
      rw [leBytes, le_cons]
      have hx := x.toNat_lt
      rw [show (x.toNat + 256 * le b) / 256 = le b by omega, ih b (by simpa using h)]
      congr 1
      apply UInt8.toNat_inj.1
      simp only [UInt8.toNat_ofNat']
      omega

theorem sub_split (b : Bytes) {i j k : Nat} (h1 : i ≤ j) (h2 : j ≤ k) :
    sub b i k = sub b i j ++ sub b j k := by
  unfold sub
  have h3 : b.take j = (b.take k).take j := by rw [List.take_take, Nat.min_eq_left h2]
  rw [h3]
  generalize b.take k = c
  rw [← List.take_append_drop (j - i) (c.drop i), List.drop_drop, List.drop_take]
  congr 2; omega

theorem sub_len (b : Bytes) {i j : Nat} (h : j ≤ b.length) : (sub b i j).length = j - i := by
  unfold sub; simp; omega

/-- The width chosen by the writer is characterised by `leastWidth`. -/
theorem leastWidth_iff {body n : Nat} (hn : 0 < n) {len : Nat} (hlen : len = body + n * offsetWidth len)
    (hpos : 0 < len) : leastWidth len body n = true ↔ frameWidth body n = offsetWidth len := by
  rw [frameWidth_eq]
  unfold leastWidth
  simp only [List.all_cons, List.all_nil, Bool.and_true, Bool.and_eq_true, Bool.or_eq_true, decide_eq_true_eq]
  have hle : offsetWidth len = 1 ∧ 1 ≤ len ∧ len < 256 ^ 1 ∨ offsetWidth len = 2 ∧ 256 ^ 1 ≤ len ∧ len < 256 ^ 2 ∨
      offsetWidth len = 4 ∧ 256 ^ 2 ≤ len ∧ len < 256 ^ 4 ∨ offsetWidth len = 8 ∧ 256 ^ 4 ≤ len ∨
      offsetWidth len = 0 ∧ len = 0 := by
    unfold offsetWidth; (repeat' split) <;> omega
  rcases hle with ⟨h, h1⟩ | ⟨h, h1⟩ | ⟨h, h1⟩ | ⟨h, h1⟩ | ⟨h, h1⟩ <;> rw [h] at hlen ⊢ <;>
    simp only [Nat.reducePow] at h1 ⊢ <;> (repeat' split) <;> constructor <;> intro hh <;> omega

/-- The bytes after the body are the framing offsets found there. -/
theorem chunks_frames {b : Bytes} {w n s : Nat} (h : s + n * w = b.length) :
    (((List.range n).map fun k => le (sub b (s + k * w) (s + k * w + w))).map (leBytes w)).flatten =
      b.drop s := by
  induction n generalizing s with
  | zero =>
    simp only [Nat.zero_mul, Nat.add_zero] at h
    simp [h]
  | succ n ih =>
    rw [Nat.succ_mul] at h
    have hr : List.range (n + 1) = 0 :: (List.range n).map (· + 1) := by
      rw [List.range_succ_eq_map]
    rw [hr]
    simp only [List.map_cons, List.map_map, List.flatten_cons, Nat.zero_mul, Nat.add_zero]
    have := ih (s := s + w) (by omega)
    have he : ((fun k => le (sub b (s + k * w) (s + k * w + w))) ∘ fun x => x + 1) =
        fun k => le (sub b (s + w + k * w) (s + w + k * w + w)) := by
      funext k
      simp only [Function.comp]
      rw [Nat.succ_mul]
      congr 2 <;> omega
    rw [List.map_map] at this
    rw [he, this, clean_leBytes _ _ (by rw [sub_len _ (by omega)]; omega)]
    have := sub_split b (i := s) (j := s + w) (k := b.length) (by omega) (by omega)
    rw [sub_full, sub_full] at this
    exact this.symm

/-! ## Arrays -/

theorem cleanElems_some {b : Bytes} {e : Ty} {limit : Nat} (hlim : limit ≤ b.length) :
    ∀ {stops : List Nat} {prev : Nat} {bs : List Bytes}, prev ≤ limit →
    cleanElems b limit (Spec.align e) prev stops = some bs →
    layEnds prev (bs.map fun x => (e, x)) = stops ∧
      sub b prev ((prev :: stops).getLast (by simp)) = laid prev (bs.map fun x => (e, x)) ∧
      (prev :: stops).getLast (by simp) ≤ limit := by
  intro stops
  induction stops with
  | nil =>
    intro prev bs hp h
    simp only [cleanElems, Option.some.injEq] at h
    subst h
    simp [layEnds, laid, sub, hp]
  | cons stop stops ih =>
    intro prev bs hp h
    simp only [cleanElems] at h
    split at h
    · rename_i hc
      obtain ⟨h1, h2, h3⟩ := hc
      obtain ⟨bs', h4, rfl⟩ := Option.map_eq_some_iff.1 h
      obtain ⟨g1, g2, g3⟩ := ih h2 h4
      have hr := le_roundUp (specAlign_isAl e).pos prev
      have hlen : (sub b (roundUp prev (Spec.align e)) stop).length = stop - roundUp prev (Spec.align e) :=
        sub_len _ (by omega)
      have hstop : roundUp prev (Spec.align e) + (sub b (roundUp prev (Spec.align e)) stop).length = stop := by
        omega
      have hz := blank_iff.1 h3
      rw [sub_len _ (by omega)] at hz
      have hle : stop ≤ (stop :: stops).getLast (by simp) := by
        cases stops with
        | nil => simp
        | cons s ss =>
          have := layEnds_last (ms := bs'.map fun x => (e, x)) (pos := stop) (by rw [g1]; simp)
          simp only [g1] at this
          rw [List.getLast_cons (by simp), this]; omega
      refine ⟨?_, ?_, ?_⟩
      · simp only [List.map_cons, layEnds, hstop, g1]
      · simp only [List.map_cons, laid, hstop]
        rw [← g2, ← hz, List.getLast_cons (by simp)]
        rw [← sub_split b (by omega) h1, ← sub_split b (by omega) hle]
      · rw [List.getLast_cons (by simp)]; exact g3
    · cases h

theorem cleanElems_laid {e : Ty} (bs : List Bytes) :
    ∀ (pre suf : Bytes) (pos limit : Nat), pre.length = pos →
    pos + (laid pos (bs.map fun x => (e, x))).length ≤ limit →
    cleanElems (pre ++ laid pos (bs.map fun x => (e, x)) ++ suf) limit (Spec.align e) pos
      (layEnds pos (bs.map fun x => (e, x))) = some bs := by
  induction bs with
  | nil => intros; rfl
  | cons b bs ih =>
    intro pre suf pos limit hp hlim
    rw [List.map_cons, laid_cons_length] at hlim
    have hr := le_roundUp (specAlign_isAl e).pos pos
    have hs1 : pre ++ laid pos ((b :: bs).map fun x => (e, x)) ++ suf =
        pre ++ zeros (roundUp pos (Spec.align e) - pos) ++
          (b ++ laid (roundUp pos (Spec.align e) + b.length) (bs.map fun x => (e, x)) ++ suf) := by
      simp [laid]
    have hs2 : pre ++ laid pos ((b :: bs).map fun x => (e, x)) ++ suf =
        (pre ++ zeros (roundUp pos (Spec.align e) - pos)) ++ b ++
          (laid (roundUp pos (Spec.align e) + b.length) (bs.map fun x => (e, x)) ++ suf) := by
      simp [laid]
    have hs3 : pre ++ laid pos ((b :: bs).map fun x => (e, x)) ++ suf =
        (pre ++ zeros (roundUp pos (Spec.align e) - pos) ++ b) ++
          laid (roundUp pos (Spec.align e) + b.length) (bs.map fun x => (e, x)) ++ suf := by
      simp [laid]
    simp only [List.map_cons, layEnds, cleanElems]
    rw [if_pos]
    · have h1 := ih _ suf (roundUp pos (Spec.align e) + b.length) limit
        (show (pre ++ zeros (roundUp pos (Spec.align e) - pos) ++ b).length = _ by simp; omega) hlim
      rw [← hs3] at h1
      rw [List.map_cons] at h1 hs2
      rw [h1, hs2, sub_mid _ _ _ (by simp; omega) rfl]
      rfl
    · refine ⟨by omega, by omega, ?_⟩
      rw [List.map_cons] at hs1
      rw [hs1, sub_mid _ _ _ hp (by simp; omega)]
      exact blank_zeros _

theorem encArr_pdf (be : Bool) (e : Ty) (bs : List Bytes) : encArr (.pdf be) e bs =
    laid 0 (bs.map fun b => (e, b)) ++
      frames (laid 0 (bs.map fun b => (e, b))).length (layEnds 0 (bs.map fun b => (e, b))) := by
  simp [encArr, Enc.pdf, zeros]

/-- Recognising a variable-width array. -/
theorem cleanArr_var {be : Bool} {e : Ty} {b : Bytes} {bs : List Bytes} (he : size e = none)
    (hl : b.length < 2 ^ 64) : cleanArr e b = some bs ↔ encArr (.pdf be) e bs = b := by
  unfold cleanArr
  simp only [he]
  constructor
  · intro h
    split at h
    · rename_i hb
      cases h
      rw [hb, encArr_nil]
    · rename_i hb
      split at h
      · rename_i hc
        obtain ⟨hne, hlw⟩ := hc
        -- the framing offsets
        have hfr : (arrFrame b).1 ≤ b.length ∧
            b.length = (arrFrame b).1 + (arrFrame b).2.length * offsetWidth b.length ∧
            (arrFrame b).2 = (List.range (arrFrame b).2.length).map (fun k =>
              le (sub b ((arrFrame b).1 + k * offsetWidth b.length)
                ((arrFrame b).1 + k * offsetWidth b.length + offsetWidth b.length))) ∧
            (arrFrame b).2.getLast hne = (arrFrame b).1 := by
          have hdef : arrFrame b = if b = [] ∨ le (b.drop (b.length - offsetWidth b.length)) > b.length ∨
              (b.length - le (b.drop (b.length - offsetWidth b.length))) % offsetWidth b.length ≠ 0 then
                (b.length, [])
              else (le (b.drop (b.length - offsetWidth b.length)),
                (List.range ((b.length - le (b.drop (b.length - offsetWidth b.length))) /
                  offsetWidth b.length)).map fun k =>
                    le (sub b (le (b.drop (b.length - offsetWidth b.length)) + k * offsetWidth b.length)
                      (le (b.drop (b.length - offsetWidth b.length)) + k * offsetWidth b.length +
                        offsetWidth b.length))) := rfl
          generalize hL : le (b.drop (b.length - offsetWidth b.length)) = last at hdef
          generalize hw : offsetWidth b.length = w at *
          split at hdef
          · rw [hdef] at hne; exact absurd rfl hne
          · rename_i hc
            simp only [not_or, not_not, gt_iff_lt, Nat.not_lt] at hc
            obtain ⟨_, h2, h3⟩ := hc
            have hmul : (b.length - last) / w * w = b.length - last :=
              Nat.div_mul_cancel (Nat.dvd_of_mod_eq_zero h3)
            simp only [hdef, List.length_map, List.length_range] at hne ⊢
            refine ⟨h2, by omega, trivial, ?_⟩
            have hpos : 0 < (b.length - last) / w := by
              rcases Nat.eq_zero_or_pos ((b.length - last) / w) with h | h
              · rw [h] at hne; simp at hne
              · exact h
            rw [List.getLast_eq_getElem]
            simp only [List.getElem_map, List.getElem_range, List.length_map, List.length_range]
            have : last + ((b.length - last) / w - 1) * w + w = b.length := by
              rw [Nat.add_assoc, ← Nat.succ_mul, Nat.succ_eq_add_one, Nat.sub_add_cancel hpos]
              omega
            rw [this, sub_full, ← hL]
            congr 2
            rw [hL]; omega
        generalize hA : arrFrame b = A at *
        obtain ⟨body, stops⟩ := A
        simp only at *
        obtain ⟨f1, f2, f3, f4⟩ := hfr
        obtain ⟨g1, g2, _⟩ := cleanElems_some (e := e) f1 (Nat.zero_le _) h
        rw [List.getLast_cons hne, f4] at g2
        have hbl : (laid 0 (bs.map fun x => (e, x))).length = body := by
          rw [← g2, sub_len _ f1]; omega
        have hn : 0 < stops.length := List.length_pos_iff.2 hne
        have hw := (leastWidth_iff hn f2 (List.length_pos_iff.2 hb)).1 hlw
        rw [encArr_pdf, g1, hbl, ← g2, frames, hw]
        have hcf := chunks_frames (b := b) (w := offsetWidth b.length) (n := stops.length) (s := body) (by omega)
        rw [← f3] at hcf
        rw [hcf]
        simp [sub]
      · cases h
  · intro h
    subst h
    cases bs with
    | nil => rw [encArr_nil]; simp
    | cons b0 bs =>
      have hpos := encArr_pos (E := .pdf be) (e := e) (bs := b0 :: bs) (by simp)
      rw [if_neg (by intro h; rw [h] at hpos; simp at hpos)]
      rw [encArr_pdf] at hl ⊢
      have hne : layEnds 0 ((b0 :: bs).map fun b => (e, b)) ≠ [] := by simp [layEnds]
      have hlast := layEnds_last hne
      rw [Nat.zero_add] at hlast
      have hfr := arrFrame_enc hne (fun o ho => by simpa using layEnds_le ho) hl hlast
      rw [hfr]
      simp only
      rw [if_pos]
      · have := cleanElems_laid (e := e) (b0 :: bs) [] (frames (laid 0 ((b0 :: bs).map fun b => (e, b))).length
          (layEnds 0 ((b0 :: bs).map fun b => (e, b)))) 0 (laid 0 ((b0 :: bs).map fun b => (e, b))).length rfl
          (by omega)
        rw [List.nil_append] at this
        exact this
      · refine ⟨hne, ?_⟩
        have hW := frames_total (body := (laid 0 ((b0 :: bs).map fun b => (e, b))).length) hne
        rw [leastWidth_iff (List.length_pos_iff.2 hne)]
        · rw [List.length_append]; exact hW.symm
        · rw [List.length_append, hW, frames_length]
        · rwa [encArr_pdf] at hpos

/-! ## Structures -/

theorem cleanMembers_some {b : Bytes} {stop : Nat} {slack : Bool} (hstop : stop ≤ b.length) :
    ∀ {ts : List Ty} {pos k : Nat} {bs : List Bytes}, pos ≤ stop →
    cleanMembers b stop slack pos k ts = some bs →
    bs.length = ts.length ∧ (∀ m ∈ ts.zip bs, ∀ n, size m.1 = some n → m.2.length = n) ∧
      pos + (laid pos (ts.zip bs)).length ≤ stop ∧
      sub b pos (pos + (laid pos (ts.zip bs)).length) = laid pos (ts.zip bs) ∧
      (pos + (laid pos (ts.zip bs)).length = stop ∨
        slack = true ∧ blank (sub b (pos + (laid pos (ts.zip bs)).length) stop) = true) ∧
      ∀ (i : Nat) (h : i < (frameEnds pos (ts.zip bs)).length),
        frame b (k + i) = some (frameEnds pos (ts.zip bs))[i] := by
  intro ts
  induction ts with
  | nil =>
    intro pos k bs hp h
    simp only [cleanMembers] at h
    split at h
    · rename_i hc
      cases h
      simp only [List.zip_nil_left, laid, List.length_nil, Nat.add_zero, frameEnds]
      refine ⟨trivial, by simp, hp, by simp [sub], hc, ?_⟩
      intro i hi; simp at hi
    · cases h
  | cons t ts ih =>
    intro pos k bs hp h
    simp only [cleanMembers] at h
    split at h
    · rename_i hc
      obtain ⟨h1, h2, h3⟩ := hc
      obtain ⟨bs', h4, rfl⟩ := Option.map_eq_some_iff.1 h
      clear h
      generalize he : memberStop b stop ts.isEmpty k (roundUp pos (Spec.align t)) t = e at h1 h2 h4 ⊢
      obtain ⟨g1, g2, g3, g4, g5, g6⟩ := ih h2 h4
      have hr := le_roundUp (specAlign_isAl t).pos pos
      have hlen : (sub b (roundUp pos (Spec.align t)) e).length = e - roundUp pos (Spec.align t) :=
        sub_len _ (by omega)
      have hend : roundUp pos (Spec.align t) + (sub b (roundUp pos (Spec.align t)) e).length = e := by omega
      have hz := blank_iff.1 h3
      rw [sub_len _ (by omega)] at hz
      unfold memberStop at he
      have hll := laid_cons_length pos t (sub b (roundUp pos (Spec.align t)) e) (ts.zip bs')
      rw [hend] at hll
      simp only [List.zip_cons_cons, hll]
      refine ⟨by simp [g1], ?_, g3, ?_, g5, ?_⟩
      · intro m hm n hn
        rcases List.mem_cons.1 hm with rfl | hm
        · simp only at hn
          simp only [hn] at he
          simp only [hlen]; omega
        · exact g2 m hm n hn
      · simp only [laid, hend]
        rw [← g4, ← hz, ← sub_split b hr h1, ← sub_split b (by omega) (by omega), g4]
      · suffices ∀ L, frameEnds pos ((t, sub b (roundUp pos (Spec.align t)) e) :: ts.zip bs') = L →
            ∀ (i : Nat) (h : i < L.length), frame b (k + i) = some L[i] from this _ rfl
        simp only [frameEnds, hend]
        cases hs : size t with
        | some n =>
          rw [if_neg (by simp), List.nil_append]
          rintro L rfl
          simpa only [hs, Option.isSome_some, if_true] using g6
        | none =>
          simp only [hs, Option.isSome_none, Bool.false_eq_true, if_false] at g6 he
          cases ts with
          | nil =>
            rintro L rfl i hi
            simp [frameEnds] at hi
          | cons t' ts =>
            cases bs' with
            | nil => simp at g1
            | cons b' bs' =>
              simp only [List.isEmpty_cons, Bool.false_eq_true, if_false] at he
              have hfr : frame b k = some e := by
                cases hf : frame b k with
                | none => rw [hf] at he; simp at he; omega
                | some x => rw [hf] at he; simpa using he
              rw [if_pos (by simp), List.singleton_append]
              rintro L rfl i hi
              cases i with
              | zero => simpa using hfr
              | succ i =>
                have := g6 i (by simpa using hi)
                simp only [List.getElem_cons_succ, List.zip_cons_cons] at this ⊢
                rw [← this]; congr 1; omega
    · cases h

theorem cleanMembers_laid (ms : List (Ty × Bytes)) :
    (∀ m ∈ ms, ∀ n, size m.1 = some n → m.2.length = n) →
    ∀ (pre suf : Bytes) (pos k stop : Nat) (slack : Bool), pre.length = pos →
    pos + (laid pos ms).length ≤ stop →
    ((∃ m ∈ ms, size m.1 = none) → stop = pos + (laid pos ms).length) →
    (pos + (laid pos ms).length = stop ∨
        slack = true ∧ blank (sub (pre ++ laid pos ms ++ suf) (pos + (laid pos ms).length) stop) = true) →
    (∀ (i : Nat) (h : i < (frameEnds pos ms).length),
      frame (pre ++ laid pos ms ++ suf) (k + i) = some (frameEnds pos ms)[i]) →
    cleanMembers (pre ++ laid pos ms ++ suf) stop slack pos k (ms.map (·.1)) =
      some (ms.map (·.2)) := by
  induction ms with
  | nil =>
    intro _ pre suf pos k stop slack _ _ _ hb _
    simp only [laid, List.length_nil, Nat.add_zero] at hb
    simp only [List.map_nil, cleanMembers, laid]
    rw [if_pos hb]
  | cons m ms ih =>
    intro hm pre suf pos k stop slack hp hlim hbe hend hfr
    obtain ⟨t, b⟩ := m
    rw [laid_cons_length] at hlim hbe hend
    have hr := le_roundUp (specAlign_isAl t).pos pos
    have hs1 : pre ++ laid pos ((t, b) :: ms) ++ suf =
        pre ++ zeros (roundUp pos (Spec.align t) - pos) ++
          (b ++ laid (roundUp pos (Spec.align t) + b.length) ms ++ suf) := by
      simp [laid]
    have hs2 : pre ++ laid pos ((t, b) :: ms) ++ suf =
        (pre ++ zeros (roundUp pos (Spec.align t) - pos)) ++ b ++
          (laid (roundUp pos (Spec.align t) + b.length) ms ++ suf) := by
      simp [laid]
    have hs3 : pre ++ laid pos ((t, b) :: ms) ++ suf =
        (pre ++ zeros (roundUp pos (Spec.align t) - pos) ++ b) ++
          laid (roundUp pos (Spec.align t) + b.length) ms ++ suf := by
      simp [laid]
    have hlen : (pre ++ zeros (roundUp pos (Spec.align t) - pos) ++ b).length =
        roundUp pos (Spec.align t) + b.length := by simp; omega
    have hbe' : (∃ m ∈ ms, size m.1 = none) → stop = (roundUp pos (Spec.align t) + b.length +
        (laid (roundUp pos (Spec.align t) + b.length) ms).length) :=
      fun ⟨m, h1, h2⟩ => hbe ⟨m, by simp [h1], h2⟩
    have hm' : ∀ m ∈ ms, ∀ n, size m.1 = some n → m.2.length = n := fun m h => hm m (by simp [h])
    have he : memberStop (pre ++ laid pos ((t, b) :: ms) ++ suf) stop (ms.map (·.1)).isEmpty k
        (roundUp pos (Spec.align t)) t = roundUp pos (Spec.align t) + b.length := by
      unfold memberStop
      cases hs : size t with
      | some n => simp only; rw [hm (t, b) (by simp) n hs]
      | none =>
        cases ms with
        | nil =>
          have := hbe ⟨(t, b), by simp, hs⟩
          simpa [laid] using this
        | cons m' ms =>
          have hfe : frameEnds pos ((t, b) :: m' :: ms) = (roundUp pos (Spec.align t) + b.length) ::
              frameEnds (roundUp pos (Spec.align t) + b.length) (m' :: ms) := by
            rw [frameEnds]; simp [hs]
          have h0 := hfr 0 (by rw [hfe]; simp)
          simp only [hfe, List.getElem_cons_zero, Nat.add_zero] at h0
          simp only [List.map_cons, List.isEmpty_cons, Bool.false_eq_true, if_false]
          rw [h0]; rfl
    have hfr' : ∀ (i : Nat) (h : i < (frameEnds (roundUp pos (Spec.align t) + b.length) ms).length),
        frame (pre ++ laid pos ((t, b) :: ms) ++ suf)
            ((if (size t).isSome then k else k + 1) + i) =
          some (frameEnds (roundUp pos (Spec.align t) + b.length) ms)[i] := by
      intro i h
      cases hs : size t with
      | some n =>
        have hfe : frameEnds pos ((t, b) :: ms) = frameEnds (roundUp pos (Spec.align t) + b.length) ms := by
          simp [frameEnds, hs]
        have := hfr i (by rw [hfe]; exact h)
        simp only [hfe] at this
        simpa using this
      | none =>
        cases ms with
        | nil => simp [frameEnds] at h
        | cons m' ms =>
          have hfe : frameEnds pos ((t, b) :: m' :: ms) = (roundUp pos (Spec.align t) + b.length) ::
              frameEnds (roundUp pos (Spec.align t) + b.length) (m' :: ms) := by
            rw [frameEnds]; simp [hs]
          have := hfr (i + 1) (by rw [hfe]; simpa using h)
          simp only [hfe, List.getElem_cons_succ] at this
          rw [← this]; simp only [Option.isSome_none, Bool.false_eq_true, if_false]; congr 1; omega
    simp only [List.map_cons, cleanMembers]
    rw [he, if_pos]
    · rw [hs3] at hfr' hend
      have h1 := ih hm' _ suf _ _ stop slack hlen hlim hbe' hend hfr'
      rw [← hs3] at h1
      rw [h1, hs2, sub_mid _ _ _ (by simp; omega) rfl]
      rfl
    · refine ⟨by omega, by omega, ?_⟩
      rw [hs1, sub_mid _ _ _ hp (by simp; omega)]
      exact blank_zeros _

/-- Recognising a structure. -/
theorem cleanStruct_iff {ts : List Ty} {b : Bytes} {bs : List Bytes} (hl : b.length < 2 ^ 64) :
    cleanStruct ts b = some bs ↔ bs.length = ts.length ∧
      (∀ m ∈ ts.zip bs, ∀ n, size m.1 = some n → m.2.length = n) ∧
      encStruct (size (.tuple ts)) (ts.zip bs) = b := by
  unfold cleanStruct
  constructor
  · intro h
    cases hs : size (.tuple ts) with
    | some n =>
      simp only [hs] at h
      split at h
      · rename_i hn
        subst hn
        obtain ⟨g1, g2, g3, g4, g5, _⟩ := cleanMembers_some (Nat.le_refl _) (Nat.zero_le _) h
        refine ⟨g1, g2, ?_⟩
        simp only [Nat.zero_add] at g3 g4 g5
        simp only [encStruct]
        have hz : sub b (laid 0 (ts.zip bs)).length b.length =
            zeros (b.length - (laid 0 (ts.zip bs)).length) := by
          rcases g5 with g5 | ⟨_, g5⟩
          · rw [g5]; simp [sub, zeros]
          · have := blank_iff.1 g5
            rwa [sub_len _ (Nat.le_refl _)] at this
        rw [← hz]
        conv_lhs => lhs; rw [← g4]
        rw [← sub_split b (Nat.zero_le _) g3, sub_all b rfl]
      · cases h
    | none =>
      simp only [hs] at h
      obtain ⟨e, h1, h2⟩ := Option.bind_eq_some_iff.1 h
      have hbd : offsetWidth b.length * frameCount ts ≤ b.length ∧
          e = b.length - offsetWidth b.length * frameCount ts := by
        unfold bodyEnd at h1
        simp only at h1
        split at h1
        · rename_i hc; cases h1; exact ⟨hc, rfl⟩
        · cases h1
      obtain ⟨hb1, rfl⟩ := hbd
      split at h2
      · rename_i hc
        obtain ⟨g1, g2, g3, g4, g5, g6⟩ := cleanMembers_some (by omega) (Nat.zero_le _) h2
        simp only [Nat.zero_add, Bool.false_eq_true, false_and, or_false] at g3 g4 g5 g6
        refine ⟨g1, g2, ?_⟩
        simp only [encStruct]
        have hcount : (frameEnds 0 (ts.zip bs)).length = frameCount ts := by
          rw [frameEnds_length, List.map_fst_zip (by omega)]
        rw [g5] at g4
        rw [g5, ← g4]
        have htl : frames (b.length - offsetWidth b.length * frameCount ts) (frameEnds 0 (ts.zip bs)).reverse =
            b.drop (b.length - offsetWidth b.length * frameCount ts) := by
          by_cases h0 : frameCount ts = 0
          · rw [h0] at hcount
            rw [List.length_eq_zero_iff.1 hcount]
            simp [frames, h0]
          · obtain ⟨hne, hlw⟩ := hc.resolve_left h0
            have hw := (leastWidth_iff (by omega) (by rw [Nat.mul_comm (frameCount ts)]; omega)
              (List.length_pos_iff.2 hne)).1 hlw
            have hcf := chunks_frames (b := b) (w := offsetWidth b.length) (n := frameCount ts)
              (s := b.length - offsetWidth b.length * frameCount ts)
              (by rw [Nat.mul_comm (frameCount ts)]; omega)
            rw [← hcf, frames, List.length_reverse, hcount, hw]
            congr 2
            apply List.ext_getElem
            · simp [hcount]
            · intro i hi1 hi2
              simp only [List.length_reverse, hcount] at hi1
              rw [List.getElem_reverse]
              simp only [hcount, List.getElem_map, List.getElem_range]
              have := g6 (frameCount ts - 1 - i) (by omega)
              unfold frame at this
              simp only at this
              have h3 : frameCount ts - 1 - i + 1 = frameCount ts - i := by omega
              rw [h3] at this
              have h5 : (frameCount ts - 1 - i) * offsetWidth b.length + offsetWidth b.length =
                  (frameCount ts - i) * offsetWidth b.length := by rw [← Nat.succ_mul]; congr 1
              have h6 : (frameCount ts - i) * offsetWidth b.length + i * offsetWidth b.length =
                  offsetWidth b.length * frameCount ts := by
                rw [← Nat.add_mul, Nat.mul_comm]; congr 1; omega
              rw [if_pos (by omega)] at this
              simp only [Option.some.injEq] at this
              rw [← this]
              congr 2 <;> omega
        rw [htl]
        simp [sub]
      · cases h2
  · rintro ⟨g1, g2, rfl⟩
    have ht : (ts.zip bs).map (·.1) = ts := List.map_fst_zip (by omega)
    have hb : (ts.zip bs).map (·.2) = bs := List.map_snd_zip (by omega)
    cases hs : size (.tuple ts) with
    | some n =>
      obtain ⟨h1, h2, h3⟩ := encStruct_fixed_length ht g2 hs
      simp only [h1, if_true]
      have hfe : frameEnds 0 (ts.zip bs) = [] := by
        rw [← List.length_eq_zero_iff, frameEnds_length, ht, frameCount_fixed hs]
      have := cleanMembers_laid (ts.zip bs) g2 [] (zeros (n - (laid 0 (ts.zip bs)).length)) 0 0 n true rfl
        (by omega) (fun ⟨m, h4, h5⟩ => by rw [h2 m h4] at h5; cases h5)
        (.inr ⟨rfl, by
          rw [List.nil_append, Nat.zero_add]
          have := sub_mid (laid 0 (ts.zip bs)) (zeros (n - (laid 0 (ts.zip bs)).length)) [] (r := n) rfl
            (by rw [zeros_length]; omega)
          rw [List.append_nil] at this
          rw [this]; exact blank_zeros _⟩)
        (by simp [hfe])
      rw [List.nil_append, ht, hb] at this
      exact this
    | none =>
      rw [hs] at hl
      simp only
      have hle : ∀ o ∈ frameEnds 0 (ts.zip bs), o ≤ (laid 0 (ts.zip bs)).length :=
        fun o ho => by simpa using frameEnds_le ho
      have hcount : (frameEnds 0 (ts.zip bs)).length = frameCount ts := by rw [frameEnds_length, ht]
      rw [show encStruct none (ts.zip bs) = laid 0 (ts.zip bs) ++
        frames (laid 0 (ts.zip bs)).length (frameEnds 0 (ts.zip bs)).reverse from rfl] at hl ⊢
      have hlen : (laid 0 (ts.zip bs) ++ frames (laid 0 (ts.zip bs)).length (frameEnds 0 (ts.zip bs)).reverse).length =
          (laid 0 (ts.zip bs)).length +
            frameCount ts * frameWidth (laid 0 (ts.zip bs)).length (frameCount ts) := by
        rw [List.length_append, frames_length, List.length_reverse, hcount]
      have hbe : bodyEnd ts (laid 0 (ts.zip bs) ++
          frames (laid 0 (ts.zip bs)).length (frameEnds 0 (ts.zip bs)).reverse) =
            some (laid 0 (ts.zip bs)).length ∧ (frameCount ts = 0 ∨ laid 0 (ts.zip bs) ++
          frames (laid 0 (ts.zip bs)).length (frameEnds 0 (ts.zip bs)).reverse ≠ [] ∧
            leastWidth (laid 0 (ts.zip bs) ++
              frames (laid 0 (ts.zip bs)).length (frameEnds 0 (ts.zip bs)).reverse).length
                (laid 0 (ts.zip bs)).length (frameCount ts) = true) := by
        unfold bodyEnd
        by_cases h0 : frameCount ts = 0
        · simp only [h0, Nat.mul_zero, Nat.zero_le, if_true, Nat.sub_zero, true_or, and_true]
          rw [hlen, h0]; simp
        · have hne : (frameEnds 0 (ts.zip bs)).reverse ≠ [] := by
            intro h; rw [List.reverse_eq_nil_iff] at h; rw [h] at hcount; exact h0 hcount.symm
          have hW : offsetWidth (laid 0 (ts.zip bs) ++
              frames (laid 0 (ts.zip bs)).length (frameEnds 0 (ts.zip bs)).reverse).length =
              frameWidth (laid 0 (ts.zip bs)).length (frameCount ts) := by
            rw [List.length_append, frames_total hne, List.length_reverse, hcount]
          have hp := Nat.mul_pos (Nat.pos_of_ne_zero h0)
            (frameWidth_isWidth (laid 0 (ts.zip bs)).length (frameCount ts)).pos
          refine ⟨?_, .inr ⟨?_, ?_⟩⟩
          · simp only [hW]
            rw [hlen, Nat.mul_comm (frameWidth _ _), if_pos (by omega)]
            congr 1; omega
          · intro h
            rw [h] at hlen
            simp at hlen; omega
          · rw [leastWidth_iff (Nat.pos_of_ne_zero h0) (by rw [hW]; exact hlen) (by rw [hlen]; omega), hW]
      rw [hbe.1, Option.bind_some, if_pos hbe.2]
      have := cleanMembers_laid (ts.zip bs) g2 []
        (frames (laid 0 (ts.zip bs)).length (frameEnds 0 (ts.zip bs)).reverse) 0 0
        (laid 0 (ts.zip bs)).length false rfl (by omega) (fun _ => by omega) (.inl (by omega))
        (by
          intro i hi
          simpa using frame_frames hle hl hi)
      rw [List.nil_append, ht, hb] at this
      exact this

/-! ## Values -/

theorem number_lt (be : Bool) (b : Bytes) : number be b < 256 ^ b.length := by
  unfold number
  have := le_lt (if be then b.reverse else b)
  cases be <;> simpa using this

theorem numBytes_number (be : Bool) (b : Bytes) : numBytes be b.length (number be b) = b := by
  unfold numBytes number
  cases be
  · simp [clean_leBytes]
  · simp only [if_true]
    rw [clean_leBytes _ _ (by simp), List.reverse_reverse]

theorem normal_num {be : Bool} {t : Ty} {w : Nat} {b : Bytes}
    (h1 : ∀ v, Fits t v ↔ ∃ n, v = .num n ∧ n < 256 ^ w)
    (h2 : ∀ n, enc (.pdf be) t (.num n) = numBytes be w n) : b.length = w ↔ Normal be t b := by
  constructor
  · rintro rfl
    exact ⟨.num (number be b), (h1 _).2 ⟨_, rfl, number_lt be b⟩, by rw [h2, numBytes_number]⟩
  · rintro ⟨v, hf, rfl⟩
    obtain ⟨n, rfl, _⟩ := (h1 v).1 hf
    rw [h2, numBytes_length]

theorem clean_text {b : Bytes} : (b.getLast? == some 0 && !b.dropLast.contains 0 && utf8Valid b.dropLast) = true ↔
    ∃ s, Text s ∧ s ++ [0] = b := by
  simp only [Bool.and_eq_true, beq_iff_eq, Bool.not_eq_true', List.contains_eq_mem, decide_eq_false_iff_not]
  constructor
  · rintro ⟨⟨h1, h2⟩, h3⟩
    refine ⟨b.dropLast, ⟨(utf8Valid_iff _).1 h3, h2⟩, ?_⟩
    obtain ⟨hne, h⟩ := List.getLast?_eq_some_iff.1 h1
    subst h; simp
  · rintro ⟨s, ⟨h1, h2⟩, rfl⟩
    simp [h2, (utf8Valid_iff _).2 h1]

theorem zip_snd_mem {α β : Type} : ∀ {l : List α} {m : List β} {y : β}, l.length = m.length → y ∈ m →
    ∃ x, (x, y) ∈ l.zip m := by
  intro l
  induction l with
  | nil => intro m y h hy; cases m <;> simp at h hy
  | cons a l ih =>
    intro m y h hy
    cases m with
    | nil => simp at hy
    | cons b m =>
      rcases List.mem_cons.1 hy with rfl | hy
      · exact ⟨a, by simp⟩
      · obtain ⟨x, hx⟩ := ih (by simpa using h) hy
        exact ⟨x, by simp [hx]⟩

theorem cleanAll_iff {be : Bool} : ∀ {ts : List Ty} {bs : List Bytes}, bs.length = ts.length →
    (∀ t ∈ ts, ∀ b ∈ bs, clean t b = true ↔ Normal be t b) →
    (cleanAll ts bs = true ↔ ∃ vs, FitsAll ts vs ∧ encAll (.pdf be) ts vs = ts.zip bs) := by
  intro ts
  induction ts with
  | nil =>
    intro bs hl _
    cases bs with
    | nil => simp only [cleanAll, true_iff]; exact ⟨[], by simp [FitsAll], by simp [encAll]⟩
    | cons => simp at hl
  | cons t ts ih =>
    intro bs hl hall
    cases bs with
    | nil => simp at hl
    | cons b bs =>
      have h1 := hall t (by simp) b (by simp)
      have h2 := ih (bs := bs) (by simpa using hl) fun u hu c hc => hall u (by simp [hu]) c (by simp [hc])
      simp only [cleanAll, Bool.and_eq_true, h1, h2]
      constructor
      · rintro ⟨⟨v, hf, rfl⟩, vs, hfs, he⟩
        exact ⟨v :: vs, by simp [FitsAll, hf, hfs], by simp [encAll, he]⟩
      · rintro ⟨vs, hfs, he⟩
        cases vs with
        | nil => simp [FitsAll] at hfs
        | cons v vs =>
          simp only [FitsAll] at hfs
          simp only [encAll, List.zip_cons_cons, List.cons.injEq, Prod.mk.injEq, true_and] at he
          exact ⟨⟨v, hfs.1, he.1⟩, vs, hfs.2, he.2⟩

theorem normal_members {be : Bool} {ts : List Ty} {bs : List Bytes}
    (h : ∃ vs, FitsAll ts vs ∧ encAll (.pdf be) ts vs = ts.zip bs) :
    ∀ m ∈ ts.zip bs, ∀ n, size m.1 = some n → m.2.length = n := by
  obtain ⟨vs, hf, he⟩ := h
  intro m hm n hn
  rw [← he] at hm
  obtain ⟨t, _, v, _, hv, rfl⟩ := encAll_mem hf m hm
  exact enc_length _ t v n hv hn

/-- Recognising a structure by its members. -/
theorem clean_struct {be : Bool} {ts : List Ty} {b : Bytes} (hl : b.length < 2 ^ 64)
    (ih : ∀ t ∈ ts, ∀ b : Bytes, b.length < 2 ^ 64 → (clean t b = true ↔ Normal be t b)) :
    (∃ bs, cleanStruct ts b = some bs ∧ cleanAll ts bs = true) ↔
      ∃ vs, FitsAll ts vs ∧ encStruct (size (.tuple ts)) (encAll (.pdf be) ts vs) = b := by
  constructor
  · rintro ⟨bs, h1, h2⟩
    obtain ⟨g1, _, g3⟩ := (cleanStruct_iff hl).1 h1
    have hall : ∀ t ∈ ts, ∀ x ∈ bs, clean t x = true ↔ Normal be t x := by
      intro t ht x hx
      obtain ⟨u, hu⟩ := zip_snd_mem g1.symm hx
      have := mem_encStruct_length (sz := size (.tuple ts)) hu
      rw [g3] at this
      exact ih t ht x (by simp only at this; omega)
    obtain ⟨vs, hf, he⟩ := (cleanAll_iff g1 hall).1 h2
    exact ⟨vs, hf, by rw [he, g3]⟩
  · rintro ⟨vs, hf, rfl⟩
    have hz : encAll (.pdf be) ts vs = ts.zip ((encAll (.pdf be) ts vs).map (·.2)) := by
      conv_rhs => lhs; rw [← encAll_types (E := .pdf be) hf]
      exact (List.zip_of_prod rfl rfl)
    have hlen : ((encAll (.pdf be) ts vs).map (·.2)).length = ts.length := by
      rw [List.length_map, ← List.length_map (f := (·.1)), encAll_types hf]
    refine ⟨(encAll (.pdf be) ts vs).map (·.2), (cleanStruct_iff hl).2 ⟨hlen, ?_, by rw [← hz]⟩, ?_⟩
    · exact normal_members ⟨vs, hf, hz⟩
    · refine (cleanAll_iff hlen ?_).2 ⟨vs, hf, hz⟩
      intro t ht x hx
      obtain ⟨m, hm, rfl⟩ := List.mem_map.1 hx
      exact ih t ht _ (Nat.lt_of_le_of_lt (mem_encStruct_length hm) hl)

theorem choose_vals {be : Bool} {e : Ty} : ∀ {bs : List Bytes}, (∀ x ∈ bs, Normal be e x) →
    ∃ vs : List Val, (∀ v ∈ vs, Fits e v) ∧ vs.map (enc (.pdf be) e) = bs := by
  intro bs
  induction bs with
  | nil => exact fun _ => ⟨[], by simp, rfl⟩
  | cons b bs ih =>
    intro h
    obtain ⟨v, hf, he⟩ := h b (by simp)
    obtain ⟨vs, h1, h2⟩ := ih fun x hx => h x (by simp [hx])
    refine ⟨v :: vs, fun w hw => ?_, by simp [he, h2]⟩
    rcases List.mem_cons.1 hw with rfl | hw
    · exact hf
    · exact h1 w hw

theorem chunks_concat {b : Bytes} {n : Nat} (h : b.length % n = 0) : (chunks n b).flatten = b := by
  have hm : b.length / n * n = b.length := Nat.div_mul_cancel (Nat.dvd_of_mod_eq_zero h)
  have key : ∀ m, m * n ≤ b.length →
      ((List.range m).map fun i => sub b (i * n) (i * n + n)).flatten = sub b 0 (m * n) := by
    intro m
    induction m with
    | zero => simp [sub]
    | succ m ih =>
      intro hle
      rw [Nat.succ_mul] at hle ⊢
      rw [List.range_succ, List.map_append, List.flatten_append, ih (by omega)]
      simp only [List.map_cons, List.map_nil, List.flatten_cons, List.flatten_nil, List.append_nil]
      exact (sub_split b (Nat.zero_le _) (by omega)).symm
  unfold chunks
  rw [key _ (by omega), hm, sub_all b rfl]

theorem clean_iff (be : Bool) (t : Ty) : ∀ b : Bytes, b.length < 2 ^ 64 → (clean t b = true ↔ Normal be t b) := by
  have hstr : ∀ (u : Ty), (∀ b, clean u b = (b.getLast? == some 0 && !b.dropLast.contains 0 &&
      utf8Valid b.dropLast)) → (∀ v, Fits u v ↔ ∃ s, v = .str s ∧ Text s) →
      (∀ s, enc (.pdf be) u (.str s) = s ++ [0]) → ∀ b : Bytes, clean u b = true ↔ Normal be u b := by
    intro u h1 h2 h3 b
    rw [h1, clean_text]
    constructor
    · rintro ⟨s, hs, rfl⟩; exact ⟨.str s, (h2 _).2 ⟨s, rfl, hs⟩, h3 s⟩
    · rintro ⟨v, hf, rfl⟩
      obtain ⟨s, rfl, hs⟩ := (h2 v).1 hf
      exact ⟨s, hs, (h3 s).symm⟩
  induction t using Ty.ind with
  | b =>
    intro b _
    simp only [clean, Bool.or_eq_true, beq_iff_eq]
    constructor
    · rintro (rfl | rfl)
      · exact ⟨.bool false, by simp [Fits], by simp [enc]⟩
      · exact ⟨.bool true, by simp [Fits], by simp [enc]⟩
    · rintro ⟨v, hf, rfl⟩
      cases v with
      | bool x => cases x <;> simp [enc]
      | _ => simp [Fits] at hf
  | s =>
    intro b _
    exact hstr .S (fun _ => by simp only [clean]) (fun v => by cases v <;> simp [Fits]) (fun _ => by simp [enc]) b
  | o =>
    intro b _
    exact hstr .O (fun _ => by simp only [clean]) (fun v => by cases v <;> simp [Fits]) (fun _ => by simp [enc]) b
  | g =>
    intro b _
    exact hstr .G (fun _ => by simp only [clean]) (fun v => by cases v <;> simp [Fits]) (fun _ => by simp [enc]) b
  | v =>
    intro b _
    simp only [clean, List.contains_eq_mem, decide_eq_true_eq]
    constructor
    · intro h
      refine ⟨.variant (variantParts b).1 (variantParts b).2, ?_, ?_⟩
      · simp [Fits, variantParts_noNul]
      · have hb := List.takeWhile_append_dropWhile (p := (· ≠ (0 : UInt8))) (l := b.reverse)
        have hd : ∃ d, b.reverse.dropWhile (· ≠ (0 : UInt8)) = 0 :: d := by
          cases hc : b.reverse.dropWhile (· ≠ (0 : UInt8)) with
          | nil =>
            rw [hc, List.append_nil] at hb
            have hall := List.all_takeWhile (p := (· ≠ (0 : UInt8))) (l := b.reverse)
            rw [hb, List.all_eq_true] at hall
            have := hall 0 (by simpa using h)
            simp at this
          | cons x d =>
            have := List.head_dropWhile_not (· ≠ (0 : UInt8)) (l := b.reverse) (by rw [hc]; simp)
            simp only [hc, List.head_cons] at this
            simp at this
            exact ⟨d, by rw [this]⟩
        obtain ⟨d, hd⟩ := hd
        rw [hd] at hb
        have hv : variantParts b = ((b.reverse.takeWhile (· ≠ 0)).reverse, d.reverse) := by
          unfold variantParts; rw [hd]
        rw [hv]
        simp only [enc]
        have := congrArg List.reverse hb
        simpa using this
    · rintro ⟨v, hf, rfl⟩
      cases v with
      | variant ty d => simp [enc]
      | _ => simp [Fits] at hf
  | a e ih =>
    intro b hl
    simp only [clean]
    cases hs : size e with
    | some n =>
      have hn := (size_pos_dvd e n hs).1
      simp only [cleanArr, hs]
      constructor
      · intro h
        split at h
        · rename_i bs hb
          split at hb
          · rename_i hm
            cases hb
            have hfl : (chunks n b).flatten = b := by
              have hc := chunks_concat (b := b) hm
              exact hc
            rw [List.all_eq_true] at h
            have hx : ∀ x ∈ chunks n b, Normal be e x := by
              intro x hx
              refine (ih x ?_).1 (h x hx)
              have := mem_flatten_length hx
              rw [hfl] at this; omega
            obtain ⟨vs, h1, h2⟩ := choose_vals hx
            refine ⟨.arr vs, by simpa [Fits] using h1, ?_⟩
            simp only [enc, hs, Option.isSome_some, if_true, h2, hfl]
          · cases hb
        · cases h
      · rintro ⟨v, hf, rfl⟩
        cases v with
        | arr vs =>
          simp only [Fits] at hf
          simp only [enc, hs, Option.isSome_some, if_true] at hl ⊢
          have hbn : ∀ b ∈ vs.map (enc (.pdf be) e), b.length = n := by
            intro b hb
            obtain ⟨v, hv, rfl⟩ := List.mem_map.1 hb
            exact enc_length _ e v n (hf v hv) hs
          rw [flatten_length hbn, Nat.mul_mod_left, if_pos rfl, chunks_flatten hn hbn]
          simp only [List.all_map, List.all_eq_true, Function.comp]
          intro v hv
          exact (ih _ (Nat.lt_of_le_of_lt (mem_flatten_length (List.mem_map_of_mem hv)) hl)).2 ⟨v, hf v hv, rfl⟩
        | _ => simp [Fits] at hf
    | none =>
      constructor
      · intro h
        split at h
        · rename_i bs hb
          have hb := (cleanArr_var (be := be) hs hl).1 hb
          rw [List.all_eq_true] at h
          have hx : ∀ x ∈ bs, Normal be e x := by
            intro x hx
            refine (ih x ?_).1 (h x hx)
            have := mem_encArr_length (E := .pdf be) (e := e) hx
            rw [hb] at this; omega
          obtain ⟨vs, h1, h2⟩ := choose_vals hx
          refine ⟨.arr vs, by simpa [Fits] using h1, ?_⟩
          simp only [enc, hs, Option.isSome_none, Bool.false_eq_true, if_false, h2, hb]
        · cases h
      · rintro ⟨v, hf, rfl⟩
        cases v with
        | arr vs =>
          simp only [Fits] at hf
          simp only [enc, hs, Option.isSome_none, Bool.false_eq_true, if_false] at hl ⊢
          rw [(cleanArr_var (be := be) hs hl).2 rfl]
          simp only [List.all_map, List.all_eq_true, Function.comp]
          intro v hv
          exact (ih _ (Nat.lt_of_le_of_lt (mem_encArr_length (List.mem_map_of_mem hv)) hl)).2 ⟨v, hf v hv, rfl⟩
        | _ => simp [Fits] at hf
  | m e ih =>
    intro b hl
    simp only [clean, Bool.or_eq_true, List.isEmpty_iff]
    cases hs : size e with
    | some n =>
      simp only [Bool.and_eq_true, beq_iff_eq, ih b hl]
      constructor
      · rintro (rfl | ⟨_, v, hf, rfl⟩)
        · exact ⟨.nothing, by simp [Fits], by simp [enc]⟩
        · exact ⟨.just v, by simpa [Fits] using hf, by simp [enc, hs]⟩
      · rintro ⟨v, hf, rfl⟩
        cases v with
        | nothing => exact .inl (by simp [enc])
        | just x =>
          have hf : Fits e x := by simpa [Fits] using hf
          refine .inr ?_
          simp only [enc, hs, Option.isSome_some, if_true, List.append_nil]
          exact ⟨enc_length _ e x n hf hs, x, hf, rfl⟩
        | _ => simp [Fits] at hf
    | none =>
      simp only [Bool.and_eq_true, beq_iff_eq]
      constructor
      · rintro (rfl | ⟨h1, h2⟩)
        · exact ⟨.nothing, by simp [Fits], by simp [enc]⟩
        · obtain ⟨b', rfl⟩ := List.getLast?_eq_some_iff.1 h1
          rw [List.dropLast_concat] at h2
          obtain ⟨v, hf, rfl⟩ := (ih b' (by simp at hl; omega)).1 h2
          exact ⟨.just v, by simpa [Fits] using hf, by simp [enc, hs]⟩
      · rintro ⟨v, hf, rfl⟩
        cases v with
        | nothing => exact .inl (by simp [enc])
        | just x =>
          have hf : Fits e x := by simpa [Fits] using hf
          refine .inr ?_
          simp only [enc, hs, Option.isSome_none, Bool.false_eq_true, if_false] at hl ⊢
          rw [List.dropLast_concat]
          exact ⟨by simp, (ih _ (by simp at hl; omega)).2 ⟨x, hf, rfl⟩⟩
        | _ => simp [Fits] at hf
  | tuple ts ih =>
    intro b hl
    have h := clean_struct (be := be) hl ih
    simp only [clean]
    constructor
    · intro hc
      split at hc
      · rename_i bs hb
        obtain ⟨vs, hf, he⟩ := h.1 ⟨bs, hb, hc⟩
        exact ⟨.tup vs, by simpa [Fits] using hf, by simpa [enc] using he⟩
      · cases hc
    · rintro ⟨v, hf, he⟩
      cases v with
      | tup vs =>
        obtain ⟨bs, hb, hc⟩ := h.2 ⟨vs, by simpa [Fits] using hf, by simpa [enc] using he⟩
        rw [hb]; exact hc
      | _ => simp [Fits] at hf
  | dict k w ihk ihw =>
    intro b hl
    have h := clean_struct (be := be) (ts := [k, w]) hl (by
      intro t ht
      simp only [List.mem_cons, List.not_mem_nil, or_false] at ht
      rcases ht with rfl | rfl
      · exact ihk
      · exact ihw)
    simp only [clean]
    constructor
    · intro hc
      split at hc
      · rename_i x y hb
        obtain ⟨vs, hf, he⟩ := h.1 ⟨[x, y], hb, by simpa [cleanAll] using hc⟩
        match vs, hf with
        | [v1, v2], hf =>
          simp only [FitsAll, and_true] at hf
          refine ⟨.tup [v1, v2], by simpa [Fits] using hf, ?_⟩
          rw [← he, ← size_dict_eq]; simp [enc, encAll]
        | [], hf => simp [FitsAll] at hf
        | [_], hf => simp [FitsAll] at hf
        | _ :: _ :: _ :: _, hf => simp [FitsAll] at hf
      · cases hc
    · rintro ⟨v, hf, he⟩
      cases v with
      | tup vs =>
        match vs, hf with
        | [v1, v2], hf =>
          simp only [Fits] at hf
          obtain ⟨bs, hb, hc⟩ := h.2 ⟨[v1, v2], by simpa [FitsAll] using hf, by
            rw [← he, ← size_dict_eq]; simp [enc, encAll]⟩
          rw [hb]
          match bs, hc with
          | [x, y], hc => simpa [cleanAll] using hc
          | [], hc => simp [cleanAll] at hc
          | [_], hc => simp [cleanAll] at hc
          | _ :: _ :: _ :: _, hc => simp [cleanAll] at hc
        | [], hf => simp [Fits] at hf
        | [_], hf => simp [Fits] at hf
        | _ :: _ :: _ :: _, hf => simp [Fits] at hf
      | _ => simp [Fits] at hf
  | _ =>
    intro b _
    simp only [clean, beq_iff_eq]
    exact normal_num (fun v => by cases v <;> simp [Fits]) (fun n => by simp [enc, Enc.pdf])

end GV
