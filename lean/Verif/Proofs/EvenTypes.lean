import Verif.Props.C39_C44
import Verif.Proofs.Bare
/-
In which types every array has items of even size.
-/
namespace GV.Props
open GV Spec

theorem fitsAll_dflts {ts : List Ty} (h : ∀ t ∈ ts, Fits t (dflt t)) : FitsAll ts (dflts ts) := by
  induction ts with
  | nil => simp [dflts, FitsAll]
  | cons t ts ih => simp only [dflts, FitsAll]; exact ⟨h t (by simp), ih fun u hu => h u (by simp [hu])⟩

theorem fits_dflt (t : Ty) : Fits t (dflt t) := by
  induction t using Ty.ind with
  | tuple ts ih => simp only [dflt, Fits]; exact fitsAll_dflts ih
  | dict k v ihk ihv => simp only [dflt, Fits]; exact ⟨ihk, ihv⟩
  | s => simp only [dflt, Fits]; exact ⟨⟨[], by simp, rfl⟩, by simp⟩
  | o => simp only [dflt, Fits]; exact ⟨⟨[], by simp, rfl⟩, by simp⟩
  | g => simp only [dflt, Fits]; exact ⟨⟨[], by simp, rfl⟩, by simp⟩
  | _ => simp [dflt, Fits]

theorem evenEndsAll_of {E : Enc} {ts : List Ty} : ∀ {vs : List Val}, FitsAll ts vs →
    (∀ t ∈ ts, ∀ v, Fits t v → EvenEnds E t v) → EvenEndsAll E ts vs := by
  induction ts with
  | nil => intro vs _ _; cases vs <;> simp [EvenEndsAll]
  | cons t ts ih =>
    intro vs hf hall
    cases vs with
    | nil => simp [EvenEndsAll]
    | cons v vs =>
      simp only [FitsAll] at hf
      simp only [EvenEndsAll]
      exact ⟨hall t (by simp) v hf.1, ih hf.2 fun u hu => hall u (by simp [hu])⟩

/-- If the items of all arrays of variable-size items are even, then so are the ends of all arrays. -/
theorem evenEnds_of {E : Enc} (t : Ty) : (∀ e, Component (.A e) t → size e = none → ∀ v, Fits e v →
    Spec.align e ∣ (enc E e v).length) → ∀ v, Fits t v → EvenEnds E t v := by
  induction t using Ty.ind with
  | a e ih =>
    intro h v hf
    cases v with
    | arr vs =>
      simp only [Fits] at hf
      simp only [EvenEnds]
      refine ⟨fun v hv => ih (fun u hu => h u (.array hu)) v (hf v hv), fun hs => ?_⟩
      apply laid_tidy _ _ _ (Nat.dvd_zero _)
      intro m hm
      obtain ⟨v, hv, rfl⟩ := List.mem_map.1 hm
      exact ⟨rfl, h e (.refl _) (by simpa using hs) v (hf v hv)⟩
    | _ => simp [Fits] at hf
  | m e ih =>
    intro h v hf
    cases v with
    | just x => simp only [Fits] at hf; simp only [EvenEnds]; exact ih (fun u hu => h u (.maybe hu)) x hf
    | nothing => simp [EvenEnds]
    | _ => simp [Fits] at hf
  | tuple ts ih =>
    intro h v hf
    cases v with
    | tup vs =>
      simp only [Fits] at hf
      simp only [EvenEnds]
      exact evenEndsAll_of hf fun t ht => ih t ht fun u hu => h u (.member hu ht)
    | _ => simp [Fits] at hf
  | dict k w ihk ihw =>
    intro h v hf
    cases v with
    | tup us =>
      match us, hf with
      | [x, y], hf =>
        simp only [Fits] at hf
        simp only [EvenEnds]
        exact ⟨ihk (fun u hu => h u (.key hu)) x hf.1, ihw (fun u hu => h u (.value hu)) y hf.2⟩
      | [], hf => simp [Fits] at hf
      | [_], hf => simp [Fits] at hf
      | _ :: _ :: _ :: _, hf => simp [Fits] at hf
    | _ => simp [Fits] at hf
  | _ => intro _ v hf; cases v <;> simp [Fits] at hf <;> simp [EvenEnds]

theorem uneven_member {E : Enc} {t : Ty} {v : Val} (hf : Fits t v) (hv : ¬ EvenEnds E t v) : ∀ {ts : List Ty}, t ∈ ts →
    ∃ vs, FitsAll ts vs ∧ ¬ EvenEndsAll E ts vs := by
  intro ts
  induction ts with
  | nil => simp
  | cons u ts ih =>
    intro hm
    by_cases hu : u = t
    · subst hu
      exact ⟨v :: dflts ts, by simp only [FitsAll]; exact ⟨hf, fitsAll_dflts fun t _ => fits_dflt t⟩,
        by simp only [EvenEndsAll]; exact fun h => hv h.1⟩
    · have hm' : t ∈ ts := by
        rcases List.mem_cons.1 hm with h | h
        · exact absurd h.symm hu
        · exact h
      obtain ⟨vs, h1, h2⟩ := ih hm'
      exact ⟨dflt u :: vs, by simp only [FitsAll]; exact ⟨fits_dflt u, h1⟩,
        by simp only [EvenEndsAll]; exact fun h => h2 h.2⟩

/-- If an array in the type can have an item that is not, then some value of the type has an array with an end
    that is not. -/
theorem uneven_of {E : Enc} {e t : Ty} {u : Val} (hc : Component (.A e) t) (hs : size e = none) (hf : Fits e u)
    (hu : ¬ Spec.align e ∣ (enc E e u).length) : ∃ v, Fits t v ∧ ¬ EvenEnds E t v := by
  induction hc with
  | refl =>
    refine ⟨.arr [u], by simpa [Fits] using hf, fun h => hu ?_⟩
    simp only [EvenEnds] at h
    have := h.2 (by simp [hs])
    simpa [laid, roundUp_of_dvd (specAlign_isAl e).pos (Nat.dvd_zero _)] using this
  | array _ ih =>
    obtain ⟨v, h1, h2⟩ := ih
    exact ⟨.arr [v], by simpa [Fits] using h1, fun h => h2 (by simp only [EvenEnds] at h; exact h.1 v (by simp))⟩
  | maybe _ ih =>
    obtain ⟨v, h1, h2⟩ := ih
    exact ⟨.just v, by simpa [Fits] using h1, fun h => h2 (by simpa [EvenEnds] using h)⟩
  | member _ hm ih =>
    obtain ⟨v, h1, h2⟩ := ih
    obtain ⟨vs, g1, g2⟩ := uneven_member h1 h2 hm
    exact ⟨.tup vs, by simpa [Fits] using g1, fun h => g2 (by simpa [EvenEnds] using h)⟩
  | @key k w _ ih =>
    obtain ⟨v, h1, h2⟩ := ih
    exact ⟨.tup [v, dflt w], by simpa [Fits] using ⟨h1, fits_dflt w⟩,
      fun h => h2 (by simp only [EvenEnds] at h; exact h.1)⟩
  | @value k w _ ih =>
    obtain ⟨v, h1, h2⟩ := ih
    exact ⟨.tup [dflt k, v], by simpa [Fits] using ⟨fits_dflt k, h1⟩,
      fun h => h2 (by simp only [EvenEnds] at h; exact h.2)⟩

end GV.Props
