import Verif.Model.Ser
import Verif.Proofs.EncLen
/-
`serialize` returns `InvalidInput` only for a `str` with a NUL.
-/
namespace GV.Props
open GV Spec WM

variable {σ α β : Type}

/-- Never returns `InvalidInput`. -/
def NoBad (m : WM σ α) : Prop := ∀ s, (m s).2 ≠ .badInput

theorem noBad_pure (a : α) : NoBad (pure a : WM σ α) := fun _ h => by cases h

theorem noBad_bind {m : WM σ α} {f : α → WM σ β} (hm : NoBad m) (hf : ∀ a, NoBad (f a)) : NoBad (m >>= f) := by
  intro s h
  show False
  change (WM.bind m f s).2 = _ at h
  unfold WM.bind at h
  have h1 := hm s
  generalize m s = r at h h1
  obtain ⟨s', o⟩ := r
  cases o with
  | ok a => exact hf a s' h
  | io e => cases h
  | badInput => exact h1 rfl
  | panic e => cases h

theorem noBad_lift (r : Res α) : NoBad (lift r : WM σ α) := by
  intro s h
  cases r <;> cases h

theorem noBad_illTyped : NoBad (illTyped : WM σ α) := fun _ h => by cases h

theorem noBad_write (w : Writer σ) (b : Bytes) : NoBad (write w b) := by
  intro s h
  unfold write at h
  split at h <;> cases h

theorem noBad_writePadding (w : Writer σ) (c al off) : NoBad (writePadding w c al off) :=
  noBad_bind (noBad_lift _) fun _ => noBad_bind (noBad_lift _) fun _ => noBad_bind (noBad_lift _) fun _ =>
    noBad_bind (noBad_write _ _) fun _ => noBad_pure _

theorem noBad_offsetLoop (w : Writer σ) (k) : ∀ os, NoBad (offsetLoop w k os)
  | [] => noBad_pure _
  | _ :: os => noBad_bind (noBad_write _ _) fun _ => noBad_offsetLoop w k os

theorem noBad_ite {p : Prop} [Decidable p] {m n : WM σ α} (hm : NoBad m) (hn : NoBad n) :
    NoBad (if p then m else n) := by
  split <;> assumption

theorem noBad_writeOffsets (w : Writer σ) (c bw offs) : NoBad (writeOffsets w c bw offs) := by
  refine noBad_bind (noBad_lift _) fun _ => noBad_ite
    (noBad_bind (noBad_offsetLoop _ _ _) fun _ => noBad_pure _) ?_
  refine noBad_bind (noBad_lift _) fun _ => noBad_bind (noBad_lift _) fun _ => noBad_ite
    (noBad_bind (noBad_offsetLoop _ _ _) fun _ => noBad_pure _) ?_
  refine noBad_bind (noBad_lift _) fun _ => noBad_bind (noBad_lift _) fun _ => noBad_ite
    (noBad_bind (noBad_offsetLoop _ _ _) fun _ => noBad_pure _) ?_
  exact noBad_bind (noBad_lift _) fun _ => noBad_bind (noBad_lift _) fun _ =>
    noBad_bind (noBad_offsetLoop _ _ _) fun _ => noBad_pure _

theorem noBad_runCmds (w : Writer σ) (c) {ms : List (WM σ Nat)} (hm : ∀ m ∈ ms, NoBad m) :
    ∀ cs off fr, NoBad (runCmds w c ms cs off fr) := by
  intro cs
  induction cs with
  | nil => intro off fr; exact noBad_pure _
  | cons x cs ih =>
    intro off fr
    cases x with
    | zeros n => exact noBad_bind (noBad_write _ _) fun _ => ih _ _
    | addOff n => exact noBad_bind (noBad_lift _) fun _ => ih _ _
    | writePadding al =>
      exact noBad_bind (noBad_writePadding _ _ _ _) fun _ => noBad_bind (noBad_lift _) fun _ => ih _ _
    | child k =>
      simp only [runCmds]
      split
      · rename_i m h
        exact noBad_bind (hm m (List.mem_of_getElem? h)) fun _ => ih _ _
      · exact noBad_illTyped
    | childOff k =>
      simp only [runCmds]
      split
      · rename_i m h
        exact noBad_bind (hm m (List.mem_of_getElem? h)) fun _ => noBad_bind (noBad_lift _) fun _ => ih _ _
      · exact noBad_illTyped
    | setFrame k => exact noBad_ite (ih _ _) (noBad_lift _)

theorem noBad_serStruct (w : Writer σ) (c gv ts) {ms : List (WM σ Nat)} (hm : ∀ m ∈ ms, NoBad m) :
    NoBad (serStruct w c gv ts ms) := by
  refine noBad_bind (noBad_lift _) fun d => ?_
  split
  · exact noBad_bind (noBad_runCmds w c hm _ _ _) fun _ => noBad_bind (noBad_lift _) fun _ => noBad_pure _
  · exact noBad_bind (noBad_runCmds w c hm _ _ _) fun _ => noBad_writeOffsets _ _ _ _

theorem noBad_serFixed (w : Writer σ) (c e) {xs : List Src} (hx : ∀ x ∈ xs, NoBad (ser w c e x)) :
    ∀ bw, NoBad (serFixed w c e bw xs) := by
  induction xs with
  | nil => intro bw; simp only [serFixed]; exact noBad_pure _
  | cons x xs ih =>
    intro bw
    simp only [serFixed]
    exact noBad_bind (hx x (by simp)) fun _ => noBad_bind (noBad_lift _) fun _ =>
      ih (fun y hy => hx y (by simp [hy])) _

theorem noBad_serElems (w : Writer σ) (c e) {xs : List Src} (hx : ∀ x ∈ xs, NoBad (ser w c e x)) :
    ∀ bw offs, NoBad (serElems w c e bw offs xs) := by
  induction xs with
  | nil => intro bw offs; simp only [serElems]; exact noBad_pure _
  | cons x xs ih =>
    intro bw offs
    simp only [serElems]
    exact noBad_bind (hx x (by simp)) fun _ => noBad_bind (noBad_lift _) fun _ =>
      noBad_bind (noBad_lift _) fun _ => noBad_bind (noBad_lift _) fun _ => noBad_bind (noBad_lift _) fun _ =>
      noBad_bind (noBad_write _ _) fun _ => noBad_bind (noBad_lift _) fun _ =>
      ih (fun y hy => hx y (by simp [hy])) _ _

theorem noBad_serMembers (w : Writer σ) (c) : ∀ {ts : List Ty} {xs : List Src},
    (∀ x ∈ xs, ∀ t, NoBad (ser w c t x)) → ∀ m ∈ serMembers w c ts xs, NoBad m := by
  intro ts
  induction ts with
  | nil => intro xs _ m hm; simp [serMembers] at hm
  | cons t ts ih =>
    intro xs hx m hm
    cases xs with
    | nil => simp [serMembers] at hm
    | cons x xs =>
      simp only [serMembers, List.mem_cons] at hm
      rcases hm with rfl | hm
      · exact hx x (by simp) t
      · exact ih (fun y hy => hx y (by simp [hy])) m hm

theorem noBad_ser (w : Writer σ) (c : Cfg) (x : Src) : ∀ t, ¬ HasNul x → NoBad (ser w c t x) := by
  induction x using Src.ind with
  | num n =>
    intro t _
    simp only [ser]
    split
    · exact noBad_bind (noBad_write _ _) fun _ => noBad_pure _
    · exact noBad_illTyped
  | bool b =>
    intro t _
    simp only [ser]
    split
    · exact noBad_bind (noBad_write _ _) fun _ => noBad_pure _
    · exact noBad_illTyped
  | boolRef b =>
    intro t _
    simp only [ser]
    split
    · exact noBad_bind (noBad_write _ _) fun _ => noBad_pure _
    · exact noBad_illTyped
  | str b =>
    intro t hn
    simp only [HasNul] at hn
    simp only [ser]
    rw [if_neg (show ¬ b.contains 0 = true by simpa using hn)]
    exact noBad_ite (noBad_bind (noBad_write _ _) fun _ => noBad_bind (noBad_write _ _) fun _ => noBad_lift _)
      noBad_illTyped
  | strRef d =>
    intro t _
    simp only [ser]
    exact noBad_ite (noBad_bind (noBad_write _ _) fun _ => noBad_bind (noBad_write _ _) fun _ => noBad_lift _)
      noBad_illTyped
  | variantRef a d =>
    intro t _
    simp only [ser]
    split
    · exact noBad_bind (noBad_lift _) fun _ => noBad_bind (noBad_write _ _) fun _ =>
        noBad_bind (noBad_write _ _) fun _ => noBad_bind (noBad_write _ _) fun _ =>
        noBad_bind (noBad_lift _) fun _ => noBad_lift _
    · exact noBad_illTyped
  | wrap u x ih =>
    intro t hn
    simp only [HasNul] at hn
    simp only [ser]
    split
    · exact noBad_bind (ih u hn) fun _ => noBad_bind (noBad_write _ _) fun _ =>
        noBad_bind (noBad_write _ _) fun _ => noBad_bind (noBad_lift _) fun _ => noBad_lift _
    · exact noBad_illTyped
  | seq xs ih =>
    intro t hn
    simp only [HasNul, hasNulAny_iff, not_exists, not_and] at hn
    simp only [ser]
    split
    · split
      · exact noBad_serFixed w c _ (fun x hx => ih x hx _ (hn x hx)) _
      · exact noBad_bind (noBad_serElems w c _ (fun x hx => ih x hx _ (hn x hx)) _ _) fun _ =>
          noBad_writeOffsets _ _ _ _
    · exact noBad_illTyped
  | nothing =>
    intro t _
    simp only [ser]
    split
    · exact noBad_pure _
    · exact noBad_illTyped
  | just x ih =>
    intro t hn
    simp only [HasNul] at hn
    simp only [ser]
    split
    · split
      · exact ih _ hn
      · exact noBad_bind (ih _ hn) fun _ => noBad_bind (noBad_write _ _) fun _ => noBad_lift _
    · exact noBad_illTyped
  | iter xs ih =>
    intro t hn
    cases t with
    | M e =>
      cases xs with
      | nil =>
        simp only [ser]
        split
        · exact noBad_illTyped
        · exact noBad_pure _
      | cons x xs =>
        simp only [HasNul] at hn
        simp only [ser]
        split
        · exact noBad_illTyped
        · exact noBad_bind (ih x (by simp) _ hn) fun _ => noBad_bind (noBad_write _ _) fun _ => noBad_lift _
    | _ => cases xs <;> simp only [ser] <;> exact noBad_illTyped
  | tup xs ih =>
    intro t hn
    simp only [HasNul, hasNulAny_iff, not_exists, not_and] at hn
    simp only [ser]
    split
    · exact noBad_serStruct w c _ _ (noBad_serMembers w c fun x hx t => ih x hx t (hn x hx))
    · exact noBad_serStruct w c _ _ (noBad_serMembers w c fun x hx t => ih x hx t (hn x hx))
    · exact noBad_illTyped

end GV.Props
