import Verif.Proofs.Layout
/-
C03: alignment of types.  C04: size of types.
-/
namespace GV.Props
open GV Spec

/-- C03: `align_of` is the alignment the specification assigns. -/
theorem c03_align_eq_spec (t : Ty) : alignOf t = Spec.align t := alignOf_eq t

/-- C03: every alignment is 1, 2, 4 or 8. -/
theorem c03_align_range (t : Ty) :
    alignOf t = 1 ∨ alignOf t = 2 ∨ alignOf t = 4 ∨ alignOf t = 8 := alignOf_isAl t

/-- C03: a container's alignment is a multiple of that of everything nested in it, so an address
    aligned for the container is aligned for each component. -/
theorem c03_component_aligned {c t : Ty} (h : Component c t) (addr : Nat) (ha : alignOf t ∣ addr) :
    alignOf c ∣ addr := by
  rw [alignOf_eq] at *
  exact Nat.dvd_trans (component_align h) ha

/-- C03: the alignment is attained: it is 1 or that of some basic type inside. -/
theorem c03_align_attained (t : Ty) : alignOf t = 1 ∨
    ∃ c, Component c t ∧ Spec.isStruct c = false ∧ (∀ e, c ≠ .A e) ∧ (∀ e, c ≠ .M e) ∧
      alignOf c = alignOf t := by
  simp only [alignOf_eq]
  induction t using Ty.ind with
  | a e ih =>
    rcases ih with h | ⟨c, hc, h⟩
    · exact .inl (by simpa [Spec.align] using h)
    · exact .inr ⟨c, .array hc, by simpa [Spec.align] using h⟩
  | m e ih =>
    rcases ih with h | ⟨c, hc, h⟩
    · exact .inl (by simpa [Spec.align] using h)
    · exact .inr ⟨c, .maybe hc, by simpa [Spec.align] using h⟩
  | tuple ts ih =>
    have hex : Spec.alignMax ts = 1 ∨ ∃ u ∈ ts, Spec.align u = Spec.alignMax ts := by
      clear ih
      induction ts with
      | nil => exact .inl rfl
      | cons u us ih =>
        simp only [Spec.alignMax]
        rcases Nat.le_total (Spec.align u) (Spec.alignMax us) with hle | hle
        · rw [Nat.max_eq_right hle]
          rcases ih with h | ⟨w, hw, h⟩
          · exact .inl h
          · exact .inr ⟨w, by simp [hw], h⟩
        · rw [Nat.max_eq_left hle]
          exact .inr ⟨u, by simp, rfl⟩
    simp only [Spec.align]
    rcases hex with h | ⟨u, hu, h⟩
    · exact .inl h
    · rcases ih u hu with h' | ⟨c, hc, h1, h2, h3, h4⟩
      · exact .inl (by rw [← h, h'])
      · exact .inr ⟨c, .member hc hu, h1, h2, h3, by rw [h4, h]⟩
  | dict k v ihk ihv =>
    simp only [Spec.align]
    rcases Nat.le_total (Spec.align k) (Spec.align v) with hle | hle
    · rw [Nat.max_eq_right hle]
      rcases ihv with h | ⟨c, hc, h⟩
      · exact .inl h
      · exact .inr ⟨c, .value hc, h⟩
    · rw [Nat.max_eq_left hle]
      rcases ihk with h | ⟨c, hc, h⟩
      · exact .inl h
      · exact .inr ⟨c, .key hc, h⟩
  | _ => exact .inr ⟨_, .refl _, rfl, by simp, by simp, rfl⟩

/-- C04: `size_of` is the size (or lack of one) the specification assigns. -/
theorem c04_size_eq_spec (t : Ty) : sizeOf t = Spec.size t := sizeOf_eq t

/-- C04: a fixed size is never zero and is a multiple of the alignment, so elements of an array are
    all aligned. -/
theorem c04_size_pos_dvd (t : Ty) (n : Nat) (h : sizeOf t = some n) : 0 < n ∧ alignOf t ∣ n :=
  ⟨sizeOf_pos h, sizeOf_dvd h⟩

/-- C04: dictionary entries are laid out as two-member structures. -/
theorem c04_dict_as_tuple (k v : Ty) :
    sizeOf (.dict k v) = sizeOf (.tuple [k, v]) ∧ alignOf (.dict k v) = alignOf (.tuple [k, v]) := by
  rw [sizeOf_eq, sizeOf_eq, alignOf_eq, alignOf_eq]
  exact ⟨size_dict_eq k v, align_dict_eq k v⟩

/-- A type is fixed-size by the rules of section 2.4: basic types except strings; structures and
    dictionary entries of fixed-size members. -/
inductive Fixed : Ty → Prop
  | b : Fixed .B | y : Fixed .Y | n : Fixed .N | q : Fixed .Q | i : Fixed .I | u : Fixed .U
  | x : Fixed .X | t : Fixed .T | d : Fixed .D
  | tuple {ts} : (∀ t ∈ ts, Fixed t) → Fixed (.tuple ts)
  | dict {k v} : Fixed k → Fixed v → Fixed (.dict k v)

theorem endAfter_isSome_iff (ts : List Ty) : ∀ pos,
    (Spec.endAfter pos ts).isSome ↔ ∀ t ∈ ts, (Spec.size t).isSome := by
  induction ts with
  | nil => intro pos; simp [Spec.endAfter]
  | cons t ts ih =>
    intro pos
    simp only [Spec.endAfter, List.forall_mem_cons]
    cases h : Spec.size t with
    | none => simp
    | some n => simp [ih]

/-- C04: exactly the fixed-size types have a size. -/
theorem c04_size_isSome_iff (t : Ty) : (sizeOf t).isSome ↔ Fixed t := by
  rw [sizeOf_eq]
  induction t using Ty.ind with
  | tuple ts ih =>
    have h1 : (Spec.size (.tuple ts)).isSome ↔ (Spec.endAfter 0 ts).isSome := by
      simp only [Spec.size]; cases Spec.endAfter 0 ts <;> simp
    rw [h1, endAfter_isSome_iff]
    constructor
    · intro h; exact .tuple fun t ht => (ih t ht).1 (h t ht)
    · rintro (_ | _); rename_i h; exact fun t ht => (ih t ht).2 (h t ht)
  | dict k v ihk ihv =>
    have h1 : (Spec.size (.dict k v)).isSome ↔ (Spec.size k).isSome ∧ (Spec.size v).isSome := by
      simp only [Spec.size]; cases Spec.size k <;> cases Spec.size v <;> simp
    rw [h1]
    constructor
    · rintro ⟨a, b⟩; exact .dict (ihk.1 a) (ihv.1 b)
    · intro h; cases h with | dict a b => exact ⟨ihk.2 a, ihv.2 b⟩
  | a e _ => simp only [Spec.size]; constructor <;> intro h <;> cases h
  | m e _ => simp only [Spec.size]; constructor <;> intro h <;> cases h
  | s => constructor <;> intro h <;> cases h
  | o => constructor <;> intro h <;> cases h
  | g => constructor <;> intro h <;> cases h
  | v => constructor <;> intro h <;> cases h
  | _ => exact ⟨fun _ => by constructor, fun _ => rfl⟩

-- Non-vacuity: `(yi)` has size 8, `(yiy)` 12 with alignment 4; `()` one byte; `(ys)` none.
example : sizeOf (.tuple [.Y, .I]) = some 8 ∧ sizeOf (.tuple [.Y, .I, .Y]) = some 12
    ∧ alignOf (.tuple [.Y, .I, .Y]) = 4 ∧ sizeOf (.tuple []) = some 1
    ∧ sizeOf (.tuple [.Y, .S]) = none ∧ sizeOf (.dict .Y .X) = some 16 := by decide
example : Component .X (.A (.dict .S (.M .X))) ∧ alignOf (.A (.dict .S (.M .X))) ∣ 24 :=
  ⟨.array (.value (.maybe (.refl _))), by decide⟩

end GV.Props
