import Verif.Proofs.Tree
import Verif.Proofs.SerRun
import Verif.Proofs.Inj
import Verif.Spec.Bare
/-
Sources for given values.
-/
namespace GV.Props
open GV Spec

mutual
/-- A source made of Rust's own values for a value. -/
def bareOf : Tree → Src
  | .bool b => .bool b
  | .num n => .num n
  | .str b => .str b
  | .variant u x => .wrap u (bareOf x)
  | .arr xs => .seq (bareOfAll xs)
  | .nothing => .nothing
  | .just x => .just (bareOf x)
  | .tup xs => .tup (bareOfAll xs)
/-- The same for several. -/
def bareOfAll : List Tree → List Src
  | [] => []
  | x :: xs => bareOf x :: bareOfAll xs
end

theorem bareOfAll_eq (xs : List Tree) : bareOfAll xs = xs.map bareOf := by
  induction xs with
  | nil => rfl
  | cons x xs ih => simp [bareOfAll, ih]

theorem bareAll_iff {xs : List Src} : BareAll xs ↔ ∀ x ∈ xs, Bare x := by
  induction xs with
  | nil => simp [BareAll]
  | cons x xs ih => simp [BareAll, ih]

theorem wrapOnly_of_bare (x : Src) : Bare x → WrapOnly x := by
  induction x using Src.ind with
  | wrap u x ih => intro h; simp only [Bare] at h; simp only [WrapOnly]; exact ih h
  | just x ih => intro h; simp only [Bare] at h; simp only [WrapOnly]; exact ih h
  | seq xs ih =>
    intro h
    simp only [Bare, bareAll_iff] at h
    simp only [WrapOnly, wrapOnlyAll_iff]
    exact fun x hx => ih x hx (h x hx)
  | tup xs ih =>
    intro h
    simp only [Bare, bareAll_iff] at h
    simp only [WrapOnly, wrapOnlyAll_iff]
    exact fun x hx => ih x hx (h x hx)
  | _ => simp [Bare, WrapOnly]

theorem bareOf_good (T : Tree) : ∀ t, T.Fits t → Accepts t (bareOf T) ∧ ¬ HasNul (bareOf T) ∧ Bare (bareOf T) ∧
    sourceTree t (bareOf T) = T ∧ wraps (bareOf T) = T.types := by
  have hAll : ∀ xs : List Tree, (∀ T ∈ xs, ∀ t, T.Fits t → Accepts t (bareOf T) ∧ ¬ HasNul (bareOf T) ∧
      Bare (bareOf T) ∧ sourceTree t (bareOf T) = T ∧ wraps (bareOf T) = T.types) →
      ∀ ts, Tree.FitsAll ts xs → AcceptsAll ts (bareOfAll xs) ∧ ¬ HasNulAny (bareOfAll xs) ∧ BareAll (bareOfAll xs) ∧
        sourceTreeAll ts (bareOfAll xs) = xs ∧ wrapsAll (bareOfAll xs) = Tree.typesAll xs := by
    intro xs
    induction xs with
    | nil =>
      intro _ ts h
      cases ts with
      | nil => simp [bareOfAll, AcceptsAll, HasNulAny, BareAll, sourceTreeAll, wrapsAll, Tree.typesAll]
      | cons t ts => simp [Tree.FitsAll] at h
    | cons x xs ih =>
      intro hx ts h
      cases ts with
      | nil => simp [Tree.FitsAll] at h
      | cons t ts =>
        simp only [Tree.FitsAll] at h
        obtain ⟨a1, a2, a3, a4, a5⟩ := hx x (by simp) t h.1
        obtain ⟨b1, b2, b3, b4, b5⟩ := ih (fun y hy => hx y (by simp [hy])) ts h.2
        simp [bareOfAll, AcceptsAll, HasNulAny, BareAll, sourceTreeAll, wrapsAll, Tree.typesAll, a1, a2, a3, a4, a5, b1,
          b2, b3, b4, b5]
  have hEach : ∀ xs : List Tree, (∀ T ∈ xs, ∀ t, T.Fits t → Accepts t (bareOf T) ∧ ¬ HasNul (bareOf T) ∧
      Bare (bareOf T) ∧ sourceTree t (bareOf T) = T ∧ wraps (bareOf T) = T.types) →
      ∀ e, Tree.FitsEach e xs → AcceptsEach e (bareOfAll xs) ∧ ¬ HasNulAny (bareOfAll xs) ∧ BareAll (bareOfAll xs) ∧
        sourceTreeEach e (bareOfAll xs) = xs ∧ wrapsAll (bareOfAll xs) = Tree.typesAll xs := by
    intro xs
    induction xs with
    | nil => intro _ e h; simp [bareOfAll, AcceptsEach, HasNulAny, BareAll, sourceTreeEach, wrapsAll, Tree.typesAll]
    | cons x xs ih =>
      intro hx e h
      simp only [Tree.FitsEach] at h
      obtain ⟨a1, a2, a3, a4, a5⟩ := hx x (by simp) e h.1
      obtain ⟨b1, b2, b3, b4, b5⟩ := ih (fun y hy => hx y (by simp [hy])) e h.2
      simp [bareOfAll, AcceptsEach, HasNulAny, BareAll, sourceTreeEach, wrapsAll, Tree.typesAll, a1, a2, a3, a4, a5, b1,
        b2, b3, b4, b5]
  induction T using Tree.ind with
  | bool b => intro t h; simpa [bareOf, Accepts, HasNul, Bare, sourceTree, wraps, Tree.types, Tree.Fits] using h
  | num n => intro t h; simpa [bareOf, Accepts, HasNul, Bare, sourceTree, wraps, Tree.types, Tree.Fits] using h
  | str b =>
    intro t h
    simp only [Tree.Fits, Text] at h
    simp [bareOf, Accepts, HasNul, Bare, sourceTree, wraps, Tree.types, h]
  | variant u x ih =>
    intro t h
    simp only [Tree.Fits] at h
    obtain ⟨a1, a2, a3, a4, a5⟩ := ih u h.2
    simp [bareOf, Accepts, HasNul, Bare, sourceTree, wraps, Tree.types, h.1, a1, a2, a3, a4, a5]
  | arr xs ih =>
    intro t h
    cases t <;> simp only [Tree.Fits] at h
    obtain ⟨a1, a2, a3, a4, a5⟩ := hEach xs ih _ h
    simp [bareOf, Accepts, HasNul, Bare, sourceTree, wraps, Tree.types, a1, a2, a3, a4, a5]
  | nothing =>
    intro t h
    cases t <;> simp only [Tree.Fits] at h
    simp [bareOf, Accepts, HasNul, Bare, sourceTree, wraps, Tree.types]
  | just x ih =>
    intro t h
    cases t <;> simp only [Tree.Fits] at h
    obtain ⟨a1, a2, a3, a4, a5⟩ := ih _ h
    simp [bareOf, Accepts, HasNul, Bare, sourceTree, wraps, Tree.types, a1, a2, a3, a4, a5]
  | tup xs ih =>
    intro t h
    cases t <;> simp only [Tree.Fits] at h
    · obtain ⟨a1, a2, a3, a4, a5⟩ := hAll xs ih _ h
      simp [bareOf, Accepts, HasNul, Bare, sourceTree, wraps, Tree.types, a1, a2, a3, a4, a5]
    · obtain ⟨a1, a2, a3, a4, a5⟩ := hAll xs ih _ h
      simp [bareOf, Accepts, HasNul, Bare, sourceTree, wraps, Tree.types, a1, a2, a3, a4, a5]

mutual
/-- A source for any value; a variant is taken from where it is in memory. -/
def sourceOf : Val → Src
  | .bool b => .bool b
  | .num n => .num n
  | .str b => .str b
  | .variant ty d => .variantRef 0 (d ++ 0 :: ty)
  | .arr xs => .seq (sourceOfAll xs)
  | .nothing => .nothing
  | .just x => .just (sourceOf x)
  | .tup xs => .tup (sourceOfAll xs)
/-- The same for several. -/
def sourceOfAll : List Val → List Src
  | [] => []
  | x :: xs => sourceOf x :: sourceOfAll xs
end

theorem sourceOf_good (E : Enc) (v : Val) : ∀ t, Fits t v → Accepts t (sourceOf v) ∧ ¬ HasNul (sourceOf v) ∧
    meaning E t (sourceOf v) = v ∧ wraps (sourceOf v) = [] := by
  have hAll : ∀ xs : List Val, (∀ v ∈ xs, ∀ t, Fits t v → Accepts t (sourceOf v) ∧ ¬ HasNul (sourceOf v) ∧
      meaning E t (sourceOf v) = v ∧ wraps (sourceOf v) = []) → ∀ ts, FitsAll ts xs →
      AcceptsAll ts (sourceOfAll xs) ∧ ¬ HasNulAny (sourceOfAll xs) ∧ meaningAll E ts (sourceOfAll xs) = xs ∧
        wrapsAll (sourceOfAll xs) = [] := by
    intro xs
    induction xs with
    | nil =>
      intro _ ts h
      cases ts with
      | nil => simp [sourceOfAll, AcceptsAll, HasNulAny, meaningAll, wrapsAll]
      | cons t ts => simp [FitsAll] at h
    | cons x xs ih =>
      intro hx ts h
      cases ts with
      | nil => simp [FitsAll] at h
      | cons t ts =>
        simp only [FitsAll] at h
        obtain ⟨a1, a2, a3, a4⟩ := hx x (by simp) t h.1
        obtain ⟨b1, b2, b3, b4⟩ := ih (fun y hy => hx y (by simp [hy])) ts h.2
        simp [sourceOfAll, AcceptsAll, HasNulAny, meaningAll, wrapsAll, a1, a2, a3, a4, b1, b2, b3, b4]
  have hEach : ∀ xs : List Val, (∀ v ∈ xs, ∀ t, Fits t v → Accepts t (sourceOf v) ∧ ¬ HasNul (sourceOf v) ∧
      meaning E t (sourceOf v) = v ∧ wraps (sourceOf v) = []) → ∀ e, (∀ v ∈ xs, Fits e v) →
      AcceptsEach e (sourceOfAll xs) ∧ ¬ HasNulAny (sourceOfAll xs) ∧ meaningEach E e (sourceOfAll xs) = xs ∧
        wrapsAll (sourceOfAll xs) = [] := by
    intro xs
    induction xs with
    | nil => intro _ e _; simp [sourceOfAll, AcceptsEach, HasNulAny, meaningEach, wrapsAll]
    | cons x xs ih =>
      intro hx e h
      obtain ⟨a1, a2, a3, a4⟩ := hx x (by simp) e (h x (by simp))
      obtain ⟨b1, b2, b3, b4⟩ := ih (fun y hy => hx y (by simp [hy])) e fun y hy => h y (by simp [hy])
      simp [sourceOfAll, AcceptsEach, HasNulAny, meaningEach, wrapsAll, a1, a2, a3, a4, b1, b2, b3, b4]
  induction v using Val.ind with
  | bool b => intro t h; cases t <;> simp [Fits] at h; simp [sourceOf, Accepts, HasNul, meaning, wraps]
  | num n =>
    intro t h
    cases t <;> simp only [Fits] at h <;> simpa [sourceOf, Accepts, HasNul, meaning, wraps, numWidth] using h
  | str b =>
    intro t h
    cases t <;> simp only [Fits, Text] at h <;> simp [sourceOf, Accepts, HasNul, meaning, wraps, isStr, h]
  | variant ty d =>
    intro t h
    cases t <;> simp only [Fits] at h
    simp [sourceOf, Accepts, HasNul, meaning, wraps, variantParts_append h]
  | arr xs ih =>
    intro t h
    cases t <;> simp only [Fits] at h
    obtain ⟨a1, a2, a3, a4⟩ := hEach xs ih _ h
    simp [sourceOf, Accepts, HasNul, meaning, wraps, a1, a2, a3, a4]
  | nothing => intro t h; cases t <;> simp only [Fits] at h; simp [sourceOf, Accepts, HasNul, meaning, wraps]
  | just x ih =>
    intro t h
    cases t <;> simp only [Fits] at h
    obtain ⟨a1, a2, a3, a4⟩ := ih _ h
    simp [sourceOf, Accepts, HasNul, meaning, wraps, a1, a2, a3, a4]
  | tup xs ih =>
    intro t h
    cases t with
    | tuple ts =>
      simp only [Fits] at h
      obtain ⟨a1, a2, a3, a4⟩ := hAll xs ih _ h
      simp [sourceOf, Accepts, HasNul, meaning, wraps, a1, a2, a3, a4]
    | dict k w =>
      have h' : FitsAll [k, w] xs := by
        match xs, h with
        | [x, y], h => simpa [Fits, FitsAll] using h
        | [], h => simp [Fits] at h
        | [_], h => simp [Fits] at h
        | _ :: _ :: _ :: _, h => simp [Fits] at h
      obtain ⟨a1, a2, a3, a4⟩ := hAll xs ih _ h'
      simp [sourceOf, Accepts, HasNul, meaning, wraps, a1, a2, a3, a4]
    | _ => simp [Fits] at h

end GV.Props
