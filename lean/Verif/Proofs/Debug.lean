import Verif.Model.Debug
import Verif.Proofs.Children
/-
Printing a reference prints the value that reading it gives.
-/
namespace GV
open Spec

theorem commas_eq (x : Bytes) : ∀ xs : List Bytes, commas (x :: xs) = x ++ moreEntries xs := by
  intro xs
  induction xs generalizing x with
  | nil => simp [commas, moreEntries]
  | cons y ys ih => simp [commas, moreEntries, ih]

theorem debugList_eq (xs : List Bytes) : debugList xs = brackets xs := by
  cases xs with
  | nil => rfl
  | cons x xs => simp [debugList, brackets, commas_eq]

theorem debugTuple_eq (xs : List Bytes) : debugTuple xs = parens xs := by
  match xs with
  | [] => rfl
  | [x] => simp [debugTuple, parens, moreEntries]
  | x :: y :: xs => simp [debugTuple, parens, commas_eq]

theorem lossyDebug_eq (P : CoreFmt) (b : Bytes) : lossyDebug P b = printType P b := by
  unfold lossyDebug printType
  cases P.alloc <;> cases utf8Valid b <;> simp

/-- Printing a reference succeeds exactly if reading it does, and prints the value. -/
def PrintOk (P : CoreFmt) (c : Cfg) (t : Ty) : Prop := ∀ s b,
  debug P c t s = .ok b ↔ ∃ v, view c t s = .ok v ∧ b = print P t v

theorem traverse_print {P : CoreFmt} {c : Cfg} {e : Ty} (ih : PrintOk P c e) : ∀ (rs : List Slice) (xs : List Bytes),
    Res.traverse (debug P c e) rs = .ok xs ↔
      ∃ vs, Res.traverse (view c e) rs = .ok vs ∧ xs = vs.map (print P e) := by
  intro rs
  induction rs with
  | nil => intro xs; simp only [Res.traverse]; constructor
           · intro h; cases h; exact ⟨[], rfl, rfl⟩
           · rintro ⟨vs, h, rfl⟩; cases h; rfl
  | cons r rs ihr =>
    intro xs
    simp only [Res.traverse, Res.bind_eq_ok]
    constructor
    · rintro ⟨b, h1, bs, h2, h3⟩
      cases h3
      obtain ⟨v, hv, rfl⟩ := (ih r b).1 h1
      obtain ⟨vs, hvs, rfl⟩ := (ihr bs).1 h2
      exact ⟨v :: vs, ⟨v, hv, vs, hvs, rfl⟩, rfl⟩
    · rintro ⟨_, ⟨v, hv, vs, hvs, h⟩, rfl⟩
      cases h
      exact ⟨_, (ih r _).2 ⟨v, hv, rfl⟩, _, (ihr _).2 ⟨vs, hvs, rfl⟩, rfl⟩

theorem debugLoop_iff {P : CoreFmt} {c : Cfg} {e : Ty} (ih : PrintOk P c e) (fuel : Nat) : ∀ (it : ArrIter) (x : Bytes),
    debugLoop c e (debug P c e) fuel it = .ok x ↔ ∃ rs vs, collectIter c e fuel it = .ok rs ∧
      Res.traverse (view c e) rs = .ok vs ∧ x = ((vs.map (print P e)).map (· ++ [44, 32])).flatten := by
  induction fuel with
  | zero => intro it x; simp [debugLoop, collectIter]
  | succ fuel ihf =>
    intro it x
    simp only [debugLoop, collectIter]
    cases hn : iterNext c e it with
    | fail f => simp
    | ok p =>
      obtain ⟨o, it'⟩ := p
      cases o with
      | none =>
        simp only [Res.bind_ok, Res.pure_eq]
        constructor
        · intro h; cases h; exact ⟨[], [], rfl, rfl, rfl⟩
        · rintro ⟨rs, vs, h1, h2, rfl⟩; cases h1; cases h2; rfl
      | some r =>
        simp only [Res.bind_ok, Res.bind_eq_ok]
        constructor
        · rintro ⟨b, h1, y, h2, h3⟩
          cases h3
          obtain ⟨v, hv, rfl⟩ := (ih r b).1 h1
          obtain ⟨rs, vs, hrs, hvs, rfl⟩ := (ihf it' y).1 h2
          refine ⟨r :: rs, v :: vs, ⟨rs, hrs, rfl⟩, ?_, by simp⟩
          simp only [Res.traverse, hv, hvs, Res.bind_ok, Res.pure_eq]
        · rintro ⟨_, vs', ⟨rs, hrs, h⟩, h2, rfl⟩
          cases h
          simp only [Res.traverse, Res.bind_eq_ok] at h2
          obtain ⟨v, hv, vs, hvs, h⟩ := h2
          cases h
          exact ⟨_, (ih r _).2 ⟨v, hv, rfl⟩, _, (ihf it' _).2 ⟨rs, vs, hrs, hvs, rfl⟩, by simp⟩

theorem debugAll_iff {P : CoreFmt} {c : Cfg} (ts : List Ty) : (∀ t ∈ ts, PrintOk P c t) → ∀ (rs : List Slice) (xs : List Bytes),
    debugAll P c ts rs = .ok xs ↔ ∃ vs, viewAll c ts rs = .ok vs ∧ xs = printAll P ts vs := by
  induction ts with
  | nil =>
    intro _ rs xs
    cases rs with
    | nil =>
      simp only [debugAll, viewAll]
      constructor
      · intro h; cases h; exact ⟨[], rfl, rfl⟩
      · rintro ⟨vs, h, rfl⟩; cases h; rfl
    | cons r rs => simp [debugAll, viewAll]
  | cons t ts iht =>
    intro ih rs xs
    cases rs with
    | nil => simp [debugAll, viewAll]
    | cons r rs =>
      have ih1 := ih t (by simp)
      have ih2 := iht (fun u hu => ih u (by simp [hu])) rs
      simp only [debugAll, viewAll, Res.bind_eq_ok]
      constructor
      · rintro ⟨b, h1, bs, h2, h3⟩
        cases h3
        obtain ⟨v, hv, rfl⟩ := (ih1 r b).1 h1
        obtain ⟨vs, hvs, rfl⟩ := (ih2 bs).1 h2
        exact ⟨v :: vs, ⟨v, hv, vs, hvs, rfl⟩, by simp [printAll]⟩
      · rintro ⟨_, ⟨v, hv, vs, hvs, h⟩, rfl⟩
        cases h
        exact ⟨_, (ih1 r _).2 ⟨v, hv, rfl⟩, _, (ih2 _).2 ⟨vs, hvs, rfl⟩, by simp [printAll]⟩

theorem print_leaf {P : CoreFmt} {c : Cfg} {t : Ty} {f : Bytes → Val} {g : Bytes → Bytes}
    (hv : ∀ s, view c t s = .ok (f s.bytes)) (hd : ∀ s, debug P c t s = .ok (g s.bytes))
    (h : ∀ b, g b = print P t (f b)) : PrintOk P c t := by
  intro s b
  rw [hv, hd]
  constructor
  · intro h1; cases h1; exact ⟨_, rfl, h _⟩
  · rintro ⟨v, h1, rfl⟩; cases h1; rw [h]

theorem debug_iff (P : CoreFmt) (c : Cfg) (t : Ty) : PrintOk P c t := by
  induction t using Ty.ind with
  | b => exact print_leaf (f := fun b => .bool (toBool b)) (g := fun b => if toBool b then [116, 114, 117, 101] else [102, 97, 108, 115, 101]) (fun _ => rfl) (fun _ => rfl) fun b => by simp [print]
  | y => exact print_leaf (f := fun b => .num (fromNe c b)) (g := fun b => P.num .Y (fromNe c b)) (fun _ => rfl) (fun _ => rfl) fun b => by simp [print]
  | n => exact print_leaf (f := fun b => .num (fromNe c b)) (g := fun b => P.num .N (fromNe c b)) (fun _ => rfl) (fun _ => rfl) fun b => by simp [print]
  | q => exact print_leaf (f := fun b => .num (fromNe c b)) (g := fun b => P.num .Q (fromNe c b)) (fun _ => rfl) (fun _ => rfl) fun b => by simp [print]
  | i => exact print_leaf (f := fun b => .num (fromNe c b)) (g := fun b => P.num .I (fromNe c b)) (fun _ => rfl) (fun _ => rfl) fun b => by simp [print]
  | u => exact print_leaf (f := fun b => .num (fromNe c b)) (g := fun b => P.num .U (fromNe c b)) (fun _ => rfl) (fun _ => rfl) fun b => by simp [print]
  | x => exact print_leaf (f := fun b => .num (fromNe c b)) (g := fun b => P.num .X (fromNe c b)) (fun _ => rfl) (fun _ => rfl) fun b => by simp [print]
  | t => exact print_leaf (f := fun b => .num (fromNe c b)) (g := fun b => P.num .T (fromNe c b)) (fun _ => rfl) (fun _ => rfl) fun b => by simp [print]
  | d => exact print_leaf (f := fun b => .num (fromNe c b)) (g := fun b => P.num .D (fromNe c b)) (fun _ => rfl) (fun _ => rfl) fun b => by simp [print]
  | s => exact print_leaf (f := fun b => .str (toStr b)) (g := fun b => P.str (toStr b)) (fun _ => rfl) (fun _ => rfl) fun b => by simp [print]
  | o => exact print_leaf (f := fun b => .str (toStr b)) (g := fun b => P.str (toStr b)) (fun _ => rfl) (fun _ => rfl) fun b => by simp [print]
  | g => exact print_leaf (f := fun b => .str (toStr b)) (g := fun b => P.str (toStr b)) (fun _ => rfl) (fun _ => rfl) fun b => by simp [print]
  | v =>
    intro s b
    simp only [debug, view, Res.bind_eq_ok]
    constructor
    · rintro ⟨⟨ty, d⟩, h1, h2⟩
      cases h2
      exact ⟨_, ⟨(ty, d), h1, rfl⟩, by simp [print, lossyDebug_eq, debugList_eq]⟩
    · rintro ⟨_, ⟨⟨ty, d⟩, h1, h2⟩, rfl⟩
      cases h2
      exact ⟨(ty, d), h1, by simp [print, lossyDebug_eq, debugList_eq]⟩
  | a e ih =>
    intro s b
    simp only [debug, view, arrRefs, sizeOf_eq]
    cases hs : Spec.size e with
    | some n =>
      simp only [Res.bind_eq_ok]
      constructor
      · rintro ⟨⟨n, _⟩, h1, xs, h2, h3⟩
        cases h3
        obtain ⟨vs, hvs, rfl⟩ := (traverse_print ih _ _).1 h2
        exact ⟨_, ⟨_, ⟨_, h1, rfl⟩, vs, hvs, rfl⟩, by simp [print, hs, debugList_eq]⟩
      · rintro ⟨_, ⟨_, ⟨⟨n, _⟩, h1, h2⟩, vs, hvs, h3⟩, rfl⟩
        cases h2; cases h3
        exact ⟨_, h1, _, (traverse_print ih _ _).2 ⟨vs, hvs, rfl⟩, by simp [print, hs, debugList_eq]⟩
    | none =>
      simp only [Res.bind_eq_ok]
      constructor
      · rintro ⟨it, h1, x, h2, h3⟩
        cases h3
        obtain ⟨rs, vs, hrs, hvs, rfl⟩ := (debugLoop_iff ih _ _ _).1 h2
        exact ⟨_, ⟨rs, ⟨it, h1, hrs⟩, vs, hvs, rfl⟩, by simp [print, hs, looseBrackets]⟩
      · rintro ⟨_, ⟨rs, ⟨it, h1, hrs⟩, vs, hvs, h3⟩, rfl⟩
        cases h3
        exact ⟨it, h1, _, (debugLoop_iff ih _ _ _).2 ⟨rs, vs, hrs, hvs, rfl⟩, by simp [print, hs, looseBrackets]⟩
  | m e ih =>
    intro s b
    simp only [debug, view, Res.bind_eq_ok]
    constructor
    · rintro ⟨o, h1, h2⟩
      cases o with
      | none => cases h2; exact ⟨_, ⟨none, h1, rfl⟩, by simp [print]⟩
      | some r =>
        obtain ⟨x, h3, h2⟩ := Res.bind_eq_ok.1 h2
        cases h2
        obtain ⟨v, hv, rfl⟩ := (ih r x).1 h3
        exact ⟨.just v, ⟨some r, h1, by simp [hv]⟩, by simp [print]⟩
    · rintro ⟨_, ⟨o, h1, h2⟩, rfl⟩
      cases o with
      | none => cases h2; exact ⟨none, h1, by simp [print]⟩
      | some r =>
        obtain ⟨v, hv, h2⟩ := Res.bind_eq_ok.1 h2
        cases h2
        exact ⟨some r, h1, by simp [(ih r _).2 ⟨v, hv, rfl⟩, print]⟩
  | tuple ts ih =>
    intro s b
    simp only [debug, view, Res.bind_eq_ok]
    constructor
    · rintro ⟨rs, h1, xs, h2, h3⟩
      cases h3
      obtain ⟨vs, hvs, rfl⟩ := (debugAll_iff ts ih _ _).1 h2
      exact ⟨_, ⟨rs, h1, vs, hvs, rfl⟩, by simp [print, debugTuple_eq]⟩
    · rintro ⟨_, ⟨rs, h1, vs, hvs, h3⟩, rfl⟩
      cases h3
      exact ⟨rs, h1, _, (debugAll_iff ts ih _ _).2 ⟨vs, hvs, rfl⟩, by simp [print, debugTuple_eq]⟩
  | dict k v ihk ihv =>
    intro s b
    simp only [debug, view]
    cases tupRefs c (.dict k v) [k, v] s with
    | fail f => simp
    | ok rs =>
      match rs with
      | [] | [_] | _ :: _ :: _ :: _ => simp
      | [rk, rv] =>
        simp only [Res.bind_ok, Res.bind_eq_ok]
        constructor
        · rintro ⟨x, hx, y, hy, h3⟩
          cases h3
          obtain ⟨a, ha, rfl⟩ := (ihk rk x).1 hx
          obtain ⟨d, hd, rfl⟩ := (ihv rv y).1 hy
          exact ⟨_, ⟨a, ha, d, hd, rfl⟩, by simp [print, debugTuple_eq]⟩
        · rintro ⟨_, ⟨a, ha, d, hd, h3⟩, rfl⟩
          cases h3
          exact ⟨_, (ihk rk _).2 ⟨a, ha, rfl⟩, _, (ihv rv _).2 ⟨d, hd, rfl⟩, by simp [print, debugTuple_eq]⟩

end GV
