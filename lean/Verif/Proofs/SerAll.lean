import Verif.Proofs.Ser
/-
The serializer of every source writes the encoding of the value the source stands for.
-/
namespace GV
open Spec

variable {σ : Type}

theorem laid_roundUp {e : Ty} {ms : List (Ty × Bytes)} (h : ∀ m ∈ ms, m.1 = e) (hne : ms ≠ [])
    (pos : Nat) : laid pos ms =
      zeros (roundUp pos (Spec.align e) - pos) ++ laid (roundUp pos (Spec.align e)) ms := by
  cases ms with
  | nil => exact absurd rfl hne
  | cons m ms =>
    obtain ⟨t, b⟩ := m
    have ht : t = e := h (t, b) (by simp)
    subst ht
    have := roundUp_of_dvd (specAlign_isAl t).pos (roundUp_dvd pos (Spec.align t))
    simp [laid, this, zeros]

theorem layEnds_roundUp {e : Ty} {ms : List (Ty × Bytes)} (h : ∀ m ∈ ms, m.1 = e) (pos : Nat) :
    layEnds pos ms = layEnds (roundUp pos (Spec.align e)) ms := by
  cases ms with
  | nil => rfl
  | cons m ms =>
    obtain ⟨t, b⟩ := m
    have ht : t = e := h (t, b) (by simp)
    subst ht
    have := roundUp_of_dvd (specAlign_isAl t).pos (roundUp_dvd pos (Spec.align t))
    simp [layEnds, this]

/-- Elements, each followed by padding. -/
theorem laid_padded {e : Ty} (b : Bytes) (ms : List (Ty × Bytes)) (h : ∀ m ∈ ms, m.1 = e) (pos : Nat)
    (hd : Spec.align e ∣ pos) :
    laid pos ((e, b) :: ms) ++ zeros (roundUp (pos + (laid pos ((e, b) :: ms)).length) (Spec.align e) -
        (pos + (laid pos ((e, b) :: ms)).length)) =
      b ++ (zeros (roundUp (pos + b.length) (Spec.align e) - (pos + b.length)) ++
        (laid (roundUp (pos + b.length) (Spec.align e)) ms ++
          zeros (roundUp (roundUp (pos + b.length) (Spec.align e) +
              (laid (roundUp (pos + b.length) (Spec.align e)) ms).length) (Spec.align e) -
            (roundUp (pos + b.length) (Spec.align e) +
              (laid (roundUp (pos + b.length) (Spec.align e)) ms).length)))) ∧
    roundUp (pos + (laid pos ((e, b) :: ms)).length) (Spec.align e) =
      roundUp (roundUp (pos + b.length) (Spec.align e) +
        (laid (roundUp (pos + b.length) (Spec.align e)) ms).length) (Spec.align e) := by
  have hp := (specAlign_isAl e).pos
  have h0 : roundUp pos (Spec.align e) = pos := roundUp_of_dvd hp hd
  rw [laid_cons_length, h0]
  have hu : laid pos ((e, b) :: ms) = b ++ laid (pos + b.length) ms := by simp [laid, h0, zeros]
  rw [hu]
  cases ms with
  | nil =>
    have h1 := roundUp_of_dvd hp (roundUp_dvd (pos + b.length) (Spec.align e))
    simp [laid, h1, zeros]
  | cons m ms =>
    have hle := le_roundUp hp (pos + b.length)
    rw [laid_roundUp h (by simp) (pos + b.length)]
    have hl : pos + b.length + (zeros (roundUp (pos + b.length) (Spec.align e) - (pos + b.length)) ++
        laid (roundUp (pos + b.length) (Spec.align e)) (m :: ms)).length =
        roundUp (pos + b.length) (Spec.align e) +
          (laid (roundUp (pos + b.length) (Spec.align e)) (m :: ms)).length := by
      simp only [List.length_append, zeros_length]; omega
    rw [hl]
    simp

theorem serElems_half {w : Writer σ} {c : Cfg} {e : Ty} {B : Src → Bytes} (xs : List Src) :
    (∀ x ∈ xs, (B x).length < 2 ^ 63 → Half w (HasNul x) (ser w c e x) (B x) (B x).length) →
    ∀ (bw : Nat) (offs : List Nat), Spec.align e ∣ bw →
    roundUp (bw + (laid bw (xs.map fun x => (e, B x))).length) (Spec.align e) < 2 ^ 63 →
    Half w (HasNulAny xs) (serElems w c e bw offs xs)
      (laid bw (xs.map fun x => (e, B x)) ++
        zeros (roundUp (bw + (laid bw (xs.map fun x => (e, B x))).length) (Spec.align e) -
          (bw + (laid bw (xs.map fun x => (e, B x))).length)))
      (roundUp (bw + (laid bw (xs.map fun x => (e, B x))).length) (Spec.align e),
        offs ++ layEnds bw (xs.map fun x => (e, B x))) := by
  have hal := specAlign_isAl e
  induction xs with
  | nil =>
    intro _ bw offs hd _
    have := roundUp_of_dvd hal.pos hd
    rw [serElems]
    exact Half.pure.congr (by simp [HasNulAny]) (by simp [laid, this, zeros])
      (by simp [laid, layEnds, this])
  | cons x xs ih =>
    intro hx bw offs hd hlt
    simp only [List.map_cons] at hlt ⊢
    obtain ⟨h1, h2⟩ := laid_padded (B x) (xs.map fun x => (e, B x)) (by simp) bw hd
    have h0 : roundUp bw (Spec.align e) = bw := roundUp_of_dvd hal.pos hd
    rw [h2] at hlt
    have hle1 := le_roundUp hal.pos (roundUp (bw + (B x).length) (Spec.align e) +
      (laid (roundUp (bw + (B x).length) (Spec.align e)) (xs.map fun x => (e, B x))).length)
    have hle2 := le_roundUp hal.pos (bw + (B x).length)
    have hends : layEnds bw ((e, B x) :: xs.map fun x => (e, B x)) = (bw + (B x).length) ::
        layEnds (roundUp (bw + (B x).length) (Spec.align e)) (xs.map fun x => (e, B x)) := by
      simp only [layEnds, h0]
      rw [layEnds_roundUp (e := e) (by simp)]
    have ih' := ih (fun y hy => hx y (by simp [hy])) (roundUp (bw + (B x).length) (Spec.align e))
      (offs ++ [bw + (B x).length]) (roundUp_dvd _ _) hlt
    rw [h1, h2, hends, serElems]
    refine ((hx x (by simp) (by omega)).bind ?_).congr (Iff.rfl : _ ∨ HasNulAny xs ↔ _) rfl rfl
    refine .lift (uadd_ok (by unfold usizeMod; omega)) ?_
    rw [alignOf_eq]
    refine .lift (alignOffset_ok hal (by
      unfold usizeMod; rcases hal with h | h | h | h <;> rw [h] at * <;> omega)) ?_
    refine .lift (usub_ok hle2) ?_
    refine .lift (x := zeros (roundUp (bw + (B x).length) (Spec.align e) - (bw + (B x).length)))
      (by simp [zeroSlice, padding_ok hal, zeros]) ?_
    refine .write ?_
    refine .lift (x := roundUp (bw + (B x).length) (Spec.align e)) ?_ ?_
    · rw [uadd_ok (by unfold usizeMod; omega)]
      congr 1; omega
    · exact ih'.congr Iff.rfl rfl (by simp)

theorem serFixed_half {w : Writer σ} {c : Cfg} {e : Ty} {B : Src → Bytes} (xs : List Src) :
    (∀ x ∈ xs, (B x).length < 2 ^ 63 → Half w (HasNul x) (ser w c e x) (B x) (B x).length) →
    ∀ bw, bw + ((xs.map B).flatten).length < 2 ^ 63 →
    Half w (HasNulAny xs) (serFixed w c e bw xs) ((xs.map B).flatten)
      (bw + ((xs.map B).flatten).length) := by
  induction xs with
  | nil =>
    intro _ bw _
    rw [serFixed]
    exact Half.pure.congr (by simp [HasNulAny]) (by simp) (by simp)
  | cons x xs ih =>
    intro hx bw hlt
    simp only [List.map_cons, List.flatten_cons, List.length_append] at hlt ⊢
    rw [serFixed]
    refine ((hx x (by simp) (by omega)).bind ?_).congr (Iff.rfl : _ ∨ HasNulAny xs ↔ _) rfl rfl
    refine .lift (uadd_ok (by unfold usizeMod; omega)) ?_
    exact (ih (fun y hy => hx y (by simp [hy])) _ (by omega)).congr Iff.rfl rfl (by omega)

/-- The encoding of what a source stands for, after replacing each `str` with a NUL by `f`. -/
def target (E : Enc) (f : Bytes → Bytes) (t : Ty) (x : Src) : Bytes := enc E t (meaning E t (mend f x))

/-- Members of a structure being serialized. -/
def membersOf (w : Writer σ) (c : Cfg) (E : Enc) (f : Bytes → Bytes) : List Ty → List Src →
    List (Member σ)
  | t :: ts, x :: xs => ⟨t, target E f t x, HasNul x, ser w c t x⟩ :: membersOf w c E f ts xs
  | _, _ => []

theorem membersOf_facts {w : Writer σ} {c : Cfg} {E : Enc} {f : Bytes → Bytes} {ts : List Ty} :
    ∀ {xs : List Src}, AcceptsAll ts xs →
    (membersOf w c E f ts xs).map (·.t) = ts ∧
    (membersOf w c E f ts xs).map (·.m) = serMembers w c ts xs ∧
    pairs (membersOf w c E f ts xs) = encAll E ts (meaningAll E ts (xs.map (mend f))) ∧
    (anyBad (membersOf w c E f ts xs) ↔ HasNulAny xs) ∧
    ∀ m ∈ membersOf w c E f ts xs, ∃ t ∈ ts, ∃ x ∈ xs, Accepts t x ∧
      m = ⟨t, target E f t x, HasNul x, ser w c t x⟩ := by
  induction ts with
  | nil =>
    intro xs h
    cases xs with
    | nil => simp [membersOf, serMembers, pairs, encAll, anyBad, HasNulAny]
    | cons x xs => simp [AcceptsAll] at h
  | cons t ts ih =>
    intro xs h
    cases xs with
    | nil => simp [AcceptsAll] at h
    | cons x xs =>
      simp only [AcceptsAll] at h
      obtain ⟨h1, h2, h3, h4, h5⟩ := ih h.2
      refine ⟨by simp [membersOf, h1], by simp [membersOf, serMembers, h2], ?_, ?_, ?_⟩
      · simp only [membersOf, List.map_cons, meaningAll, encAll, ← h3]; rfl
      · simp only [membersOf, anyBad_cons, h4, HasNulAny]
      · intro m hm
        simp only [membersOf, List.mem_cons] at hm
        rcases hm with rfl | hm
        · exact ⟨t, by simp, x, by simp, h.1, rfl⟩
        · obtain ⟨u, hu, y, hy, ha, he⟩ := h5 m hm
          exact ⟨u, by simp [hu], y, by simp [hy], ha, he⟩

theorem encStruct_mem_length {sz : Option Nat} {ms : List (Ty × Bytes)} {m : Ty × Bytes} (h : m ∈ ms) :
    m.2.length ≤ (encStruct sz ms).length := by
  have := laid_mem_length (pos := 0) m h
  unfold encStruct
  cases sz <;> simp only [List.length_append] <;> omega

/-- What every serializer does. -/
theorem ser_half {w : Writer σ} {c : Cfg} {f : Bytes → Bytes} (hf : ∀ b, Text (f b)) (x : Src) :
    ∀ t, Accepts t x → Expands t → (∀ u ∈ wraps x, Expands u) →
    (target (.crate c.bigEndian) f t x).length < 2 ^ 63 →
    Half w (HasNul x) (ser w c t x) (target (.crate c.bigEndian) f t x)
      (target (.crate c.bigEndian) f t x).length := by
  induction x using Src.ind with
  | num n =>
    intro t ⟨k, hk, hn⟩ _ _ hlt
    have hns : numSize t = some k := by cases t <;> simp [numWidth] at hk <;> simp [numSize, hk]
    have ht : target (.crate c.bigEndian) f t (.num n) = numBytes c.bigEndian k n := by
      cases t <;> simp [numWidth] at hk <;> subst hk <;> rfl
    rw [ht, ser, hns]
    simp only [toNe_eq]
    rw [numBytes_length]
    exact Half.write_end.then_pure.congr (by simp [HasNul]) rfl rfl
  | bool b =>
    intro t h _ _ _
    simp only [Accepts] at h
    subst h
    rw [ser]
    refine Half.write_end.then_pure.congr (by simp [HasNul]) ?_ ?_ <;>
      cases b <;> rfl
  | boolRef b =>
    intro t h _ _ _
    simp only [Accepts] at h
    subst h
    rw [ser]
    by_cases hb : b = 0
    · subst hb
      exact Half.write_end.then_pure.congr (by simp [HasNul]) rfl rfl
    · have hb' : b > 0 := by
        rcases b with ⟨⟨b, hlt⟩⟩
        simp only [gt_iff_lt, UInt8.lt_iff_toNat_lt]
        exact Nat.pos_of_ne_zero fun h0 => hb (UInt8.toNat.inj h0)
      rw [if_pos hb']
      have : target (.crate c.bigEndian) f .B (.boolRef b) = [1] := by
        simp [target, mend, meaning, enc, hb]
      rw [this]
      exact Half.write_end.then_pure.congr (by simp [HasNul]) rfl rfl
  | str b =>
    intro t ⟨h, hu⟩ _ _ hlt
    have hst : isStrTy t = true := by cases t <;> simp [isStr] at h <;> rfl
    have ht : target (.crate c.bigEndian) f t (.str b) =
        (if (0 : UInt8) ∈ b then f b else b) ++ [0] := by
      cases t <;> simp [isStr] at h <;> simp [target, mend, meaning, enc]
    rw [ht] at hlt ⊢
    rw [ser, if_pos hst]
    by_cases hb : (0 : UInt8) ∈ b
    · have : b.contains 0 = true := by simpa using hb
      rw [this]
      exact .inr ⟨by simpa [HasNul] using hb, [], by simp, fun _ => rfl⟩
    · have : b.contains 0 = false := by simpa using hb
      simp only [this, hb, Bool.false_eq_true, if_false] at hlt ⊢
      refine Half.congr (bad := False) ?_ (by simp [HasNul, hb]) rfl rfl
      refine .write ?_
      refine (Half.write (p := [0]) (b := []) ?_)
      simp only [List.length_append] at hlt ⊢
      exact .lift_end (uadd_ok (by unfold usizeMod; simp at hlt ⊢; omega))
  | strRef b =>
    intro t h _ _ hlt
    simp only [Accepts] at h
    have hst : isStrTy t = true := by cases t <;> simp [isStr] at h <;> rfl
    have ht : target (.crate c.bigEndian) f t (.strRef b) = toStr b ++ [0] := by
      rw [text_eq false]
      cases t <;> simp [isStr] at h <;> simp [target, mend, meaning, enc]
    rw [ht] at hlt ⊢
    rw [ser, if_pos hst]
    refine Half.congr (bad := False) ?_ (by simp [HasNul]) rfl rfl
    refine .write ?_
    refine (Half.write (p := [0]) (b := []) ?_)
    simp only [List.length_append] at hlt ⊢
    exact .lift_end (uadd_ok (by unfold usizeMod; simp at hlt ⊢; omega))
  | variantRef addr b =>
    intro t h _ _ hlt
    simp only [Accepts] at h
    obtain ⟨rfl, h8⟩ := h
    have ht : target (.crate c.bigEndian) f .V (.variantRef addr b) =
        (variantParts b).2 ++ ([0] ++ (variantParts b).1) := by
      simp [target, mend, meaning, enc]
    rw [ht] at hlt ⊢
    obtain ⟨d, hs, _, hd, _⟩ := split_ok (c := c) (s := ⟨addr, b⟩) h8
    simp only at hs hd
    rw [ser]
    refine Half.congr (bad := False) ?_ (by simp [HasNul]) rfl rfl
    refine .lift hs ?_
    simp only [Slice.len, hd]
    simp only [List.length_append, List.length_cons, List.length_nil] at hlt
    refine .write ?_
    refine .write ?_
    refine (Half.write (b := []) ?_).congr Iff.rfl (by simp) rfl
    refine .lift (uadd_ok (by unfold usizeMod; omega)) ?_
    refine (Half.lift_end (uadd_ok (by unfold usizeMod; omega))).congr Iff.rfl rfl ?_
    simp only [List.length_append, List.length_cons, List.length_nil]; omega
  | wrap u x ih =>
    intro t h _ hw hlt
    simp only [Accepts] at h
    obtain ⟨rfl, ha⟩ := h
    have ht : target (.crate c.bigEndian) f .V (.wrap u x) =
        target (.crate c.bigEndian) f u x ++ ([0] ++ u.show) := by
      simp [target, mend, meaning, enc]
    rw [ht] at hlt ⊢
    simp only [List.length_append, List.length_cons, List.length_nil] at hlt
    have ih' := ih u ha (hw u (by simp [wraps])) (fun v hv => hw v (by simp [wraps, hv])) (by omega)
    rw [ser]
    refine (ih'.bind (bad' := False) ?_).congr (by simp [HasNul]) rfl rfl
    refine .write ?_
    refine (Half.write (b := []) ?_).congr Iff.rfl (by simp) rfl
    refine .lift (uadd_ok (by unfold usizeMod; omega)) ?_
    refine (Half.lift_end (uadd_ok (by unfold usizeMod; omega))).congr Iff.rfl rfl ?_
    simp only [List.length_append, List.length_cons, List.length_nil]; omega
  | seq xs ih =>
    intro t h hx hw hlt
    cases t with
    | A e =>
      simp only [Accepts, acceptsEach_iff] at h
      have hIH : ∀ x ∈ xs, (target (.crate c.bigEndian) f e x).length < 2 ^ 63 →
          Half w (HasNul x) (ser w c e x) (target (.crate c.bigEndian) f e x)
            (target (.crate c.bigEndian) f e x).length := fun x hxm hl =>
        ih x hxm e (h x hxm) (expands_A.1 hx)
          (fun u hu => hw u (by simp only [wraps]; exact mem_wrapsAll.2 ⟨x, hxm, hu⟩)) hl
      have hmap : (meaningEach (.crate c.bigEndian) e (mendAll f xs)).map
          (enc (.crate c.bigEndian) e) = xs.map (target (.crate c.bigEndian) f e) := by
        simp [meaningEach_eq, mendAll_eq, target]
      rw [ser]
      simp only [sizeOf_eq]
      have ht : target (.crate c.bigEndian) f (.A e) (.seq xs) =
          if (size e).isSome then (xs.map (target (.crate c.bigEndian) f e)).flatten
          else encArr (.crate c.bigEndian) e (xs.map (target (.crate c.bigEndian) f e)) := by
        simp only [target, mend, meaning, enc, hmap]
      rw [ht] at hlt ⊢
      cases hs : size e with
      | some n =>
        simp only [hs, Option.isSome_some, if_true] at hlt ⊢
        exact (serFixed_half xs hIH 0 (by omega)).congr (by simp [HasNul]) rfl (by omega)
      | none =>
        simp only [hs, Option.isSome_none, Bool.false_eq_true, if_false] at hlt ⊢
        have hal := specAlign_isAl e
        have hle := le_roundUp hal.pos
          (laid 0 (xs.map fun x => (e, target (.crate c.bigEndian) f e x))).length
        have harr : encArr (.crate c.bigEndian) e (xs.map (target (.crate c.bigEndian) f e)) =
            (laid 0 (xs.map fun x => (e, target (.crate c.bigEndian) f e x)) ++
              zeros (roundUp (laid 0 (xs.map fun x => (e, target (.crate c.bigEndian) f e x))).length
                (Spec.align e) -
                (laid 0 (xs.map fun x => (e, target (.crate c.bigEndian) f e x))).length)) ++
            frames (roundUp (laid 0 (xs.map fun x => (e, target (.crate c.bigEndian) f e x))).length
              (Spec.align e))
              (layEnds 0 (xs.map fun x => (e, target (.crate c.bigEndian) f e x))) := by
          have h1 : (xs.map (target (.crate c.bigEndian) f e)).map (fun b => (e, b)) =
              xs.map fun x => (e, target (.crate c.bigEndian) f e x) := by simp
          have h2 : (Enc.crate c.bigEndian).padLast = true := rfl
          simp only [encArr, h1, h2, if_true, List.length_append, zeros_length]
          rw [Nat.add_sub_cancel' hle]
        rw [harr] at hlt ⊢
        simp only [List.length_append, zeros_length, Nat.add_sub_cancel' hle] at hlt ⊢
        have hel := serElems_half xs hIH 0 [] (Nat.dvd_zero _) (by rw [Nat.zero_add]; omega)
        simp only [Nat.zero_add, List.nil_append] at hel
        refine (hel.bind (bad' := False) ?_).congr (by simp [HasNul]) rfl rfl
        exact writeOffsets_half (by simp only; omega)
    | _ => simp [Accepts] at h
  | nothing =>
    intro t h _ _ _
    cases t with
    | M e =>
      rw [ser]
      exact Half.pure.congr (by simp [HasNul]) (by simp [target, mend, meaning, enc])
        (by simp [target, mend, meaning, enc])
    | _ => simp [Accepts] at h
  | just x ih =>
    intro t h hx hw hlt
    cases t with
    | M e =>
      simp only [Accepts] at h
      have ht : target (.crate c.bigEndian) f (.M e) (.just x) =
          target (.crate c.bigEndian) f e x ++ (if (size e).isSome then [] else [0]) := by
        simp [target, mend, meaning, enc]
      rw [ht] at hlt ⊢
      simp only [List.length_append] at hlt ⊢
      have ih' := ih e h (expands_M.1 hx) (fun v hv => hw v (by simpa [wraps] using hv)) (by omega)
      rw [ser]
      simp only [sizeOf_eq]
      cases hs : size e with
      | some n =>
        simp only [Option.isSome_some, if_true]
        exact ih'.congr (by simp [HasNul]) (by simp) (by simp)
      | none =>
        simp only [hs, Option.isSome_none, Bool.false_eq_true, if_false, List.length_cons,
          List.length_nil] at hlt ⊢
        refine (ih'.bind (bad' := False) ?_).congr (by simp [HasNul]) rfl rfl
        refine (Half.write (p := [0]) (b := []) ?_)
        exact .lift_end (uadd_ok (by unfold usizeMod; omega))
    | _ => simp [Accepts] at h
  | iter xs ih =>
    intro t h hx hw hlt
    cases t with
    | M e =>
      simp only [Accepts, acceptsEach_iff] at h
      have hse : GV.sizeOf e = none := (sizeOf_eq e).trans h.1
      cases xs with
      | nil =>
        have hz : ser w c (.M e) (.iter []) = pure 0 := by rw [ser]; simp only [hse]
        rw [hz]
        exact Half.pure.congr (by simp [HasNul]) (by simp [target, mend, mendAll, meaning, enc])
          (by simp [target, mend, mendAll, meaning, enc])
      | cons x xs =>
        have ht : target (.crate c.bigEndian) f (.M e) (.iter (x :: xs)) =
            target (.crate c.bigEndian) f e x ++ [0] := by
          simp [target, mend, mendAll, meaning, enc, h.1]
        rw [ht] at hlt ⊢
        simp only [List.length_append, List.length_cons, List.length_nil] at hlt ⊢
        have ih' := ih x (by simp) e (h.2 x (by simp)) (expands_M.1 hx)
          (fun v hv => hw v (by simp [wraps, wrapsAll, hv])) (by omega)
        have hz : ser w c (.M e) (.iter (x :: xs)) = (do
            let len ← ser w c e x
            WM.write w [0]
            WM.lift (uadd c len 1)) := by rw [ser]; simp only [hse]
        rw [hz]
        refine (ih'.bind (bad' := False) ?_).congr (by simp [HasNul]) rfl rfl
        refine (Half.write (p := [0]) (b := []) ?_)
        exact .lift_end (uadd_ok (by unfold usizeMod; omega))
    | _ => simp [Accepts] at h
  | tup xs ih =>
    intro t h hx hw hlt
    have key : ∀ (gv : Ty) (ts : List Ty), AcceptsAll ts xs → size gv = size (.tuple ts) →
        Expands gv → (∀ t ∈ ts, Expands t) → (∃ d, generateTuple gv ts = .ok d) →
        (encStruct (size gv) (encAll (.crate c.bigEndian) ts
          (meaningAll (.crate c.bigEndian) ts (xs.map (mend f))))).length < 2 ^ 63 →
        Half w (HasNulAny xs) (serStruct w c gv ts (serMembers w c ts xs))
          (encStruct (size gv) (encAll (.crate c.bigEndian) ts
            (meaningAll (.crate c.bigEndian) ts (xs.map (mend f)))))
          (encStruct (size gv) (encAll (.crate c.bigEndian) ts
            (meaningAll (.crate c.bigEndian) ts (xs.map (mend f))))).length := by
      intro gv ts ha hgv hxg hxt hd hl
      obtain ⟨d, hd⟩ := hd
      obtain ⟨h1, h2, h3, h4, h5⟩ := membersOf_facts (w := w) (c := c) (E := .crate c.bigEndian)
        (f := f) ha
      rw [← h3] at hl ⊢
      have hgood : ∀ m ∈ membersOf w c (.crate c.bigEndian) f ts xs, m.Good w := by
        intro m hm
        have hml : m.b.length < 2 ^ 63 := Nat.lt_of_le_of_lt
          (encStruct_mem_length (m := (m.t, m.b)) (List.mem_map.2 ⟨m, hm, rfl⟩)) hl
        obtain ⟨t, ht, x, hxm, ha, rfl⟩ := h5 m hm
        refine ⟨ih x hxm t ha (hxt t ht) (fun u hu => hw u (by
          simp only [wraps]; exact mem_wrapsAll.2 ⟨x, hxm, hu⟩)) hml, ?_⟩
        intro n hn
        exact enc_length _ t _ n (fits_meaning _ _ t (accepts_mend hf x t ha) (noNul_mend hf x)) hn
      have := serStruct_half (w := w) (c := c) (gv := gv) (L := membersOf w c (.crate c.bigEndian) f ts xs)
        (by rw [h1]; exact hgv) hxg (d := d) (by rw [h1]; exact hd) hgood hl
      rw [h1, h2] at this
      exact this.congr h4 rfl rfl
    cases t with
    | tuple ts =>
      simp only [Accepts] at h
      obtain ⟨hxt, hd⟩ := expands_tuple.1 hx
      have ht : target (.crate c.bigEndian) f (.tuple ts) (.tup xs) =
          encStruct (size (.tuple ts)) (encAll (.crate c.bigEndian) ts
            (meaningAll (.crate c.bigEndian) ts (xs.map (mend f)))) := by
        simp [target, mend, mendAll_eq, meaning, enc]
      rw [ht] at hlt ⊢
      rw [ser]
      exact (key (.tuple ts) ts h rfl hx hxt hd hlt).congr (by simp [HasNul]) rfl rfl
    | dict k v =>
      simp only [Accepts] at h
      obtain ⟨⟨hk, hv⟩, hd⟩ := expands_dict.1 hx
      have ht : target (.crate c.bigEndian) f (.dict k v) (.tup xs) =
          encStruct (size (.dict k v)) (encAll (.crate c.bigEndian) [k, v]
            (meaningAll (.crate c.bigEndian) [k, v] (xs.map (mend f)))) := by
        match xs, h with
        | [x, y], _ => simp [target, mend, mendAll, meaning, enc, meaningAll, encAll]
        | [], h => simp [AcceptsAll] at h
        | [_], h => simp [AcceptsAll] at h
        | _ :: _ :: _ :: _, h => simp [AcceptsAll] at h
      rw [ht] at hlt ⊢
      rw [ser]
      exact (key (.dict k v) [k, v] h (size_dict_eq k v) hx (by simp [hk, hv]) hd hlt).congr
        (by simp [HasNul]) rfl rfl
    | _ => simp [Accepts] at h

end GV
