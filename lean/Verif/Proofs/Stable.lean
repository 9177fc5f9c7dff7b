import Verif.Proofs.Sessions
/-
Helper lemmas: what a step of a program does to what the program holds already.
-/
namespace GV
open Spec (Op Obs)

/-- A call adds to what is held and changes nothing, but for the iterator that `next` is called on. -/
def Adds (op : Op) (hs : List Held) (r : Res (Obs × List Held)) : Prop :=
  ∀ o hs', r = .ok (o, hs') → ∃ base new, hs' = base ++ new ∧
    (base = hs ∨ ∃ h y, op = .next h ∧ base = hs.set h y ∧ ∀ t s, hs[h]? ≠ some (.ref t s))

theorem Adds.bind {op : Op} {hs : List Held} {α : Type} {r : Res α} {k : α → Res (Obs × List Held)}
    (hk : ∀ a, Adds op hs (k a)) : Adds op hs (r >>= k) := by
  intro o hs' h
  obtain ⟨a, _, h⟩ := Res.bind_eq_ok.1 h
  exact hk a o hs' h

theorem Adds.push {op : Op} {hs : List Held} (o : Obs) (new : List Held) : Adds op hs (.ok (o, hs ++ new)) := by
  rintro o' hs' ⟨⟩
  exact ⟨hs, new, rfl, Or.inl rfl⟩

theorem Adds.same {op : Op} {hs : List Held} (o : Obs) : Adds op hs (.ok (o, hs)) := by
  rintro o' hs' ⟨⟩
  exact ⟨hs, [], (List.append_nil _).symm, Or.inl rfl⟩

theorem Adds.option {op : Op} {hs : List Held} (t : Ty) (r : Option Slice) : Adds op hs (.ok (gotOption hs t r)) := by
  cases r
  · exact .same _
  · exact .push _ _

theorem Adds.next {hs : List Held} {h : Nat} {y : Held} (hn : ∀ t s, hs[h]? ≠ some (.ref t s)) (o : Obs) (new : List Held) :
    Adds (.next h) hs (.ok (o, hs.set h y ++ new)) := by
  rintro o' hs' ⟨⟩
  exact ⟨_, new, rfl, Or.inr ⟨h, y, rfl, rfl, hn⟩⟩

theorem call_adds {c : Cfg} {P : CoreFmt} {p : Places} {hs : List Held} (op : Op) :
    Adds op hs (callStep c P p hs op) := by
  cases op <;> simp only [callStep]
  case next h =>
    split
    · rename_i e it hx
      refine .bind fun a => ?_
      obtain ⟨o, it'⟩ := a
      have hn : ∀ t s, hs[h]? ≠ some (.ref t s) := by rw [hx]; simp
      cases o with
      | none => simpa [gotOption] using Adds.next (y := .iter e it') hn .none []
      | some r => exact Adds.next hn _ _
    · rename_i e r rs hx
      exact Adds.next (by rw [hx]; simp) _ _
    · exact .same _
    · exact .same _
  all_goals
    repeat' split
    all_goals first
      | exact .same _
      | exact .bind fun _ => .same _
      | exact .bind fun _ => .push _ _
      | exact .bind fun _ => .option _ _
      | exact .bind fun _ => .bind fun _ => .same _
      | exact .bind fun _ => .bind fun _ => .push _ _

variable {α β : Type}

theorem kill_getElem {i j k : Nat} {x : β} {l : List (Option (Nat × β))} (h : l[j]? = some (some (k, x))) :
    (kill i l)[j]? = some (if k = i then none else some (k, x)) := by
  simp [kill, h]

theorem prune_getElem {cells : List (Option α)} {j k : Nat} {x : β} {l : List (Option (Nat × β))}
    (h : l[j]? = some (some (k, x))) :
    (∃ y, cells[k]? = some (some y)) ∧ (prune cells l)[j]? = some (some (k, x)) ∨
    (¬ ∃ y, cells[k]? = some (some y)) ∧ (prune cells l)[j]? = some none := by
  by_cases hy : ∃ y, cells[k]? = some (some y)
  · obtain ⟨y, hy⟩ := hy
    exact Or.inl ⟨⟨y, hy⟩, by simp [prune, h, hy]⟩
  · refine Or.inr ⟨hy, ?_⟩
    simp only [prune, List.getElem?_map, h, Option.map_some]
    split
    · rename_i hh; exact absurd ⟨_, hh⟩ hy
    · rfl

theorem rehold_getElem {o : Nat} : ∀ {l : List (Option (Nat × β))} {hs : List β} {j k : Nat} {x y : β},
    l[j]? = some (some (k, x)) → hs[j]? = some y → (rehold o l hs)[j]? = some (some (k, y))
  | some _ :: l, _ :: hs, 0, k, x, y, h1, h2 => by
    simp only [List.getElem?_cons_zero, Option.some.injEq] at h1 h2
    subst h1 h2
    simp [rehold]
  | none :: l, _ :: hs, 0, k, x, y, h1, _ => by simp at h1
  | some _ :: l, _ :: hs, j + 1, k, x, y, h1, h2 => by
    simp only [List.getElem?_cons_succ] at h1 h2
    simpa [rehold] using rehold_getElem h1 h2
  | none :: l, _ :: hs, j + 1, k, x, y, h1, h2 => by
    simp only [List.getElem?_cons_succ] at h1 h2
    simpa [rehold] using rehold_getElem h1 h2
  | [], _, _, _, _, _, h1, _ => by simp at h1
  | _ :: _, [], _, _, _, _, _, h2 => by simp at h2

end GV
