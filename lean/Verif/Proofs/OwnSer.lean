import Verif.Spec.Part
import Verif.Proofs.SerAll
/-
Serializers put together from parts of the user's.
-/
namespace GV
open Spec

variable {σ α β : Type}

/-! ### The contract, as traces -/

theorem tr_writeEach (w : Writer σ) (ws : List Bytes) : Tr w (writeEach w ws) ws (.ok ()) := by
  induction ws with
  | nil => exact Tr.pure w ()
  | cons b bs ih => exact (Tr.write w b).bind ih

theorem tr_unique {w : Writer σ} {m m' : WM σ α} {ws : List Bytes} {r : Out α} (h : Tr w m ws r)
    (h' : Tr w m' ws r) : m = m' := by
  funext s
  rw [h s, h' s]

theorem writes_iff {w : Writer σ} {m : WM σ Nat} {b : Bytes} :
    Writes w m b ↔ ∃ ws, ws.flatten = b ∧ Tr w m ws (.ok b.length) := by
  have key : ∀ ws, Tr w (do writeEach w ws; pure b.length) ws (.ok b.length) := fun ws => by
    simpa using Tr.bind (f := fun _ => Pure.pure b.length) (tr_writeEach w ws) (Tr.pure w b.length)
  constructor
  · rintro ⟨ws, h, rfl⟩; exact ⟨ws, h, key ws⟩
  · rintro ⟨ws, h, ht⟩; exact ⟨ws, h, tr_unique ht (key ws)⟩

theorem refuses_iff {w : Writer σ} {m : WM σ Nat} {b : Bytes} :
    Refuses w m b ↔ ∃ ws, ws.flatten <+: b ∧ Tr w m ws .badInput := by
  have key : ∀ ws, Tr w (do writeEach w ws; WM.invalid : WM σ Nat) ws .badInput := fun ws => by
    have h : Tr w (WM.invalid : WM σ Nat) [] .badInput := fun _ => rfl
    simpa using Tr.bind (f := fun _ => WM.invalid) (tr_writeEach w ws) h
  constructor
  · rintro ⟨ws, h, rfl⟩; exact ⟨ws, h, key ws⟩
  · rintro ⟨ws, h, ht⟩; exact ⟨ws, h, tr_unique ht (key ws)⟩

theorem keeps_iff {w : Writer σ} {bad : Prop} {m : WM σ Nat} {b : Bytes} :
    Keeps w bad m b ↔ Half w bad m b b.length := by
  unfold Keeps Half
  rw [writes_iff, refuses_iff]

/-! ### The crate's impls on sources are these -/

theorem serFixed_eq (w : Writer σ) (c : Cfg) (e : Ty) (xs : List Src) :
    ∀ bw, serFixed w c e bw xs = fixedLoop w c bw (xs.map (ser w c e)) := by
  induction xs with
  | nil => intro bw; rw [serFixed]; rfl
  | cons x xs ih => intro bw; rw [serFixed]; simp only [List.map_cons, fixedLoop, ih]

theorem serElems_eq (w : Writer σ) (c : Cfg) (e : Ty) (xs : List Src) :
    ∀ bw offs, serElems w c e bw offs xs = elemLoop w c e bw offs (xs.map (ser w c e)) := by
  induction xs with
  | nil => intro bw offs; rw [serElems]; rfl
  | cons x xs ih => intro bw offs; rw [serElems]; simp only [List.map_cons, elemLoop, ih]

/-! ### Loops -/

theorem fixedLoop_half {w : Writer σ} {c : Cfg} (L : List (Member σ)) :
    (∀ x ∈ L, Half w x.bad x.m x.b x.b.length) →
    ∀ bw, bw + ((L.map (·.b)).flatten).length < 2 ^ 63 →
    Half w (anyBad L) (fixedLoop w c bw (L.map (·.m))) ((L.map (·.b)).flatten)
      (bw + ((L.map (·.b)).flatten).length) := by
  induction L with
  | nil =>
    intro _ bw _
    exact Half.pure.congr (by simp [anyBad]) (by simp) (by simp)
  | cons x L ih =>
    intro hx bw hlt
    simp only [List.map_cons, List.flatten_cons, List.length_append] at hlt ⊢
    rw [fixedLoop]
    refine ((hx x (by simp)).bind ?_).congr anyBad_cons.symm rfl rfl
    refine .lift (uadd_ok (by unfold usizeMod; omega)) ?_
    exact (ih (fun y hy => hx y (by simp [hy])) _ (by omega)).congr Iff.rfl rfl (by omega)

theorem elemLoop_half {w : Writer σ} {c : Cfg} {e : Ty} (L : List (Member σ)) :
    (∀ x ∈ L, Half w x.bad x.m x.b x.b.length) →
    ∀ (bw : Nat) (offs : List Nat), Spec.align e ∣ bw →
    roundUp (bw + (laid bw (L.map fun x => (e, x.b))).length) (Spec.align e) < 2 ^ 63 →
    Half w (anyBad L) (elemLoop w c e bw offs (L.map (·.m)))
      (laid bw (L.map fun x => (e, x.b)) ++
        zeros (roundUp (bw + (laid bw (L.map fun x => (e, x.b))).length) (Spec.align e) -
          (bw + (laid bw (L.map fun x => (e, x.b))).length)))
      (roundUp (bw + (laid bw (L.map fun x => (e, x.b))).length) (Spec.align e),
        offs ++ layEnds bw (L.map fun x => (e, x.b))) := by
  have hal := specAlign_isAl e
  induction L with
  | nil =>
    intro _ bw offs hd _
    have := roundUp_of_dvd hal.pos hd
    exact Half.pure.congr (by simp [anyBad]) (by simp [laid, this, zeros])
      (by simp [laid, layEnds, this])
  | cons x L ih =>
    intro hx bw offs hd hlt
    simp only [List.map_cons] at hlt ⊢
    obtain ⟨h1, h2⟩ := laid_padded x.b (L.map fun x => (e, x.b)) (by simp) bw hd
    have h0 : roundUp bw (Spec.align e) = bw := roundUp_of_dvd hal.pos hd
    rw [h2] at hlt
    have hle1 := le_roundUp hal.pos (roundUp (bw + x.b.length) (Spec.align e) +
      (laid (roundUp (bw + x.b.length) (Spec.align e)) (L.map fun x => (e, x.b))).length)
    have hle2 := le_roundUp hal.pos (bw + x.b.length)
    have hends : layEnds bw ((e, x.b) :: L.map fun x => (e, x.b)) = (bw + x.b.length) ::
        layEnds (roundUp (bw + x.b.length) (Spec.align e)) (L.map fun x => (e, x.b)) := by
      simp only [layEnds, h0]
      rw [layEnds_roundUp (e := e) (by simp)]
    have ih' := ih (fun y hy => hx y (by simp [hy])) (roundUp (bw + x.b.length) (Spec.align e))
      (offs ++ [bw + x.b.length]) (roundUp_dvd _ _) hlt
    rw [h1, h2, hends, elemLoop]
    refine ((hx x (by simp)).bind ?_).congr anyBad_cons.symm rfl rfl
    refine .lift (uadd_ok (by unfold usizeMod; omega)) ?_
    rw [alignOf_eq]
    refine .lift (alignOffset_ok hal (by
      unfold usizeMod; rcases hal with h | h | h | h <;> rw [h] at * <;> omega)) ?_
    refine .lift (usub_ok hle2) ?_
    refine .lift (x := zeros (roundUp (bw + x.b.length) (Spec.align e) - (bw + x.b.length)))
      (by simp [zeroSlice, padding_ok hal, zeros]) ?_
    refine .write ?_
    refine .lift (x := roundUp (bw + x.b.length) (Spec.align e)) ?_ ?_
    · rw [uadd_ok (by unfold usizeMod; omega)]
      congr 1; omega
    · exact ih'.congr Iff.rfl rfl (by simp)

/-! ### Containers -/

/-- The bytes of an array with these elements. -/
def arrBytes (c : Cfg) (e : Ty) (bs : List Bytes) : Bytes :=
  if (size e).isSome then bs.flatten else encArr (.crate c.bigEndian) e bs

theorem arrOf_half {w : Writer σ} {c : Cfg} {e : Ty} (L : List (Member σ))
    (hx : ∀ x ∈ L, Half w x.bad x.m x.b x.b.length)
    (hlt : (arrBytes c e (L.map (·.b))).length < 2 ^ 63) :
    Half w (anyBad L) (arrOf w c e (L.map (·.m))) (arrBytes c e (L.map (·.b)))
      (arrBytes c e (L.map (·.b))).length := by
  unfold arrOf
  rw [sizeOf_eq]
  unfold arrBytes at hlt ⊢
  cases hs : size e with
  | some n =>
    simp only [hs, Option.isSome_some, if_true] at hlt ⊢
    exact (fixedLoop_half L hx 0 (by omega)).congr Iff.rfl rfl (by omega)
  | none =>
    simp only [hs, Option.isSome_none, Bool.false_eq_true, if_false] at hlt ⊢
    have hal := specAlign_isAl e
    have hle := le_roundUp hal.pos (laid 0 (L.map fun x => (e, x.b))).length
    have harr : encArr (.crate c.bigEndian) e (L.map (·.b)) =
        (laid 0 (L.map fun x => (e, x.b)) ++
          zeros (roundUp (laid 0 (L.map fun x => (e, x.b))).length (Spec.align e) -
            (laid 0 (L.map fun x => (e, x.b))).length)) ++
        frames (roundUp (laid 0 (L.map fun x => (e, x.b))).length (Spec.align e))
          (layEnds 0 (L.map fun x => (e, x.b))) := by
      have h1 : (L.map (·.b)).map (fun b => (e, b)) = L.map fun x => (e, x.b) := by simp
      have h2 : (Enc.crate c.bigEndian).padLast = true := rfl
      simp only [encArr, h1, h2, if_true, List.length_append, zeros_length]
      rw [Nat.add_sub_cancel' hle]
    rw [harr] at hlt ⊢
    simp only [List.length_append, zeros_length, Nat.add_sub_cancel' hle] at hlt ⊢
    have hel := elemLoop_half (c := c) (e := e) L hx 0 [] (Nat.dvd_zero _) (by rw [Nat.zero_add]; omega)
    simp only [Nat.zero_add, List.nil_append] at hel
    refine (hel.bind (bad' := False) ?_).congr (by simp) rfl rfl
    exact writeOffsets_half (by simp only; omega)

theorem wrapOf_half {w : Writer σ} {c : Cfg} {u : Ty} {bad : Prop} {m : WM σ Nat} {b : Bytes}
    (h : Half w bad m b b.length) (hlt : (b ++ [0] ++ u.show).length < 2 ^ 63) :
    Half w bad (wrapOf w c u m) (b ++ [0] ++ u.show) (b ++ [0] ++ u.show).length := by
  simp only [List.length_append, List.length_cons, List.length_nil] at hlt
  refine (h.bind (b' := [0] ++ u.show) (bad' := False) ?_).congr (by simp) (by simp) rfl
  refine .write ?_
  refine (Half.write (b := []) ?_).congr Iff.rfl (by simp) rfl
  refine .lift (uadd_ok (by unfold usizeMod; omega)) ?_
  refine (Half.lift_end (uadd_ok (by unfold usizeMod; omega))).congr Iff.rfl rfl ?_
  simp only [List.length_append, List.length_cons, List.length_nil]

theorem maybeOf_half {w : Writer σ} {c : Cfg} {e : Ty} {bad : Prop} {m : WM σ Nat} {b : Bytes}
    (h : Half w bad m b b.length)
    (hlt : (b ++ (if (size e).isSome then [] else [0])).length < 2 ^ 63) :
    Half w bad (maybeOf w c e (some m)) (b ++ (if (size e).isSome then [] else [0]))
      (b ++ (if (size e).isSome then [] else [0])).length := by
  unfold maybeOf
  rw [sizeOf_eq]
  cases hs : size e with
  | some n => exact h.congr Iff.rfl (by simp) (by simp)
  | none =>
    simp only [hs, Option.isSome_none, Bool.false_eq_true, if_false, List.length_append,
      List.length_cons, List.length_nil] at hlt ⊢
    refine (h.bind (bad' := False) ?_).congr (by simp) rfl rfl
    refine (Half.write (p := [0]) (b := []) ?_)
    exact .lift_end (uadd_ok (by unfold usizeMod; omega))

/-! ### Serializers built from parts -/

/-- A part with its bytes. -/
def partMember (c : Cfg) (p : Part σ) : Member σ :=
  ⟨p.t, enc (.crate c.bigEndian) p.t p.v, p.bad, p.m⟩

theorem fitsAll_parts {ps : List (Part σ)} (h : ∀ p ∈ ps, Fits p.t p.v) :
    FitsAll (ps.map (·.t)) (ps.map (·.v)) := by
  induction ps with
  | nil => trivial
  | cons p ps ih => exact ⟨h p (by simp), ih fun q hq => h q (by simp [hq])⟩

theorem built_fits {w : Writer σ} {c : Cfg} {p : Part σ} (h : Built w c p) : Fits p.t p.v := by
  induction h with
  | own p hf => exact hf
  | wrap p _ _ => exact show_noNul p.t
  | nothing e => simp [Fits]
  | just p _ ih => simpa [Fits] using ih
  | arr e ps he _ ih =>
    simp only [Fits, List.mem_map]
    rintro v ⟨p, hp, rfl⟩
    have := ih p hp
    rw [he p hp] at this
    exact this
  | tup ps _ _ ih => simpa [Fits] using fitsAll_parts ih
  | dict k v _ _ _ ihk ihv => exact ⟨ihk, ihv⟩

theorem arrBytes_mem {c : Cfg} {e : Ty} {bs : List Bytes} {b : Bytes} (h : b ∈ bs) :
    b.length ≤ (arrBytes c e bs).length := by
  unfold arrBytes
  split
  · exact (List.sublist_flatten_of_mem h).length_le
  · have := laid_mem_length (pos := 0) (ms := bs.map fun b => (e, b)) (e, b)
      (List.mem_map.2 ⟨b, h, rfl⟩)
    simp only at this
    simp only [encArr, List.length_append]
    omega

theorem pairs_parts {c : Cfg} (ps : List (Part σ)) : pairs (ps.map (partMember c)) =
    encAll (.crate c.bigEndian) (ps.map (·.t)) (ps.map (·.v)) := by
  induction ps with
  | nil => rfl
  | cons p ps ih =>
    simp only [List.map_cons, encAll, ← ih]
    rfl

theorem anyBad_parts {c : Cfg} (ps : List (Part σ)) :
    anyBad (ps.map (partMember c)) ↔ ∃ p ∈ ps, p.bad := by
  simp [anyBad, partMember]

theorem built_half {w : Writer σ} {c : Cfg} {p : Part σ} (h : Built w c p) :
    (enc (.crate c.bigEndian) p.t p.v).length < 2 ^ 63 →
    Half w p.bad p.m (enc (.crate c.bigEndian) p.t p.v) (enc (.crate c.bigEndian) p.t p.v).length := by
  induction h with
  | own p _ hk => exact fun _ => keeps_iff.1 hk
  | wrap p _ ih =>
    intro hlt
    simp only [enc] at hlt ⊢
    exact wrapOf_half (ih (by
      simp only [List.length_append] at hlt
      omega)) hlt
  | nothing e => intro _; exact Half.pure.congr Iff.rfl (by simp [enc]) (by simp [enc])
  | just p _ ih =>
    intro hlt
    simp only [enc] at hlt ⊢
    exact maybeOf_half (ih (by
      simp only [List.length_append] at hlt
      omega)) hlt
  | arr e ps he hb ih =>
    intro hlt
    have hE : enc (.crate c.bigEndian) (.A e) (.arr (ps.map (·.v))) =
        arrBytes c e ((ps.map (partMember c)).map (·.b)) := by
      have : (ps.map (·.v)).map (enc (.crate c.bigEndian) e) = (ps.map (partMember c)).map (·.b) := by
        simp only [List.map_map]
        refine List.map_congr_left fun p hp => ?_
        simp [partMember, he p hp]
      simp only [enc, this, arrBytes]
    simp only [hE] at hlt ⊢
    have := arrOf_half (w := w) (c := c) (e := e) (ps.map (partMember c)) (by
      intro x hx
      obtain ⟨p, hp, rfl⟩ := List.mem_map.1 hx
      refine ih p hp (Nat.lt_of_le_of_lt (arrBytes_mem (c := c) (e := e) ?_) hlt)
      exact List.mem_map.2 ⟨_, List.mem_map.2 ⟨p, hp, rfl⟩, rfl⟩) hlt
    refine (this.congr (anyBad_parts ps) rfl rfl : Half _ _ _ _ _) |> fun h => ?_
    simpa [Function.comp_def, partMember] using h
  | tup ps hx hb ih =>
    intro hlt
    obtain ⟨_, d, hd⟩ := expands_tuple.1 hx
    simp only [enc, ← pairs_parts] at hlt ⊢
    have ht : (ps.map (partMember c)).map (·.t) = ps.map (·.t) := by simp [partMember, Function.comp_def]
    have hm : (ps.map (partMember c)).map (·.m) = ps.map (·.m) := by simp [partMember, Function.comp_def]
    have := serStruct_half (w := w) (c := c) (gv := .tuple (ps.map (·.t))) (L := ps.map (partMember c))
      (by rw [ht]) hx (d := d) (by rw [ht]; exact hd) (by
        intro x hxm
        obtain ⟨p, hp, rfl⟩ := List.mem_map.1 hxm
        refine ⟨ih p hp (Nat.lt_of_le_of_lt (encStruct_mem_length
          (m := (p.t, enc (.crate c.bigEndian) p.t p.v)) ?_) hlt), ?_⟩
        · exact List.mem_map.2 ⟨partMember c p, hxm, rfl⟩
        · exact fun n hn => enc_length _ _ _ n (built_fits (hb p hp)) hn) hlt
    rw [ht, hm] at this
    exact this.congr (anyBad_parts ps) rfl rfl
  | dict k v hx hk hv ihk ihv =>
    intro hlt
    obtain ⟨_, d, hd⟩ := expands_dict.1 hx
    simp only [enc] at hlt ⊢
    have := serStruct_half (w := w) (c := c) (gv := .dict k.t v.t) (L := [partMember c k, partMember c v])
      (size_dict_eq k.t v.t) hx (d := d) hd (by
        intro x hxm
        simp only [List.mem_cons, List.not_mem_nil, or_false] at hxm
        rcases hxm with rfl | rfl
        · exact ⟨ihk (Nat.lt_of_le_of_lt (encStruct_mem_length
            (m := (k.t, enc (.crate c.bigEndian) k.t k.v)) (by simp)) hlt),
            fun n hn => enc_length _ _ _ n (built_fits hk) hn⟩
        · exact ⟨ihv (Nat.lt_of_le_of_lt (encStruct_mem_length
            (m := (v.t, enc (.crate c.bigEndian) v.t v.v)) (by simp)) hlt),
            fun n hn => enc_length _ _ _ n (built_fits hv) hn⟩) hlt
    exact this.congr (by simp [anyBad, partMember]) rfl rfl

end GV
