import Verif.Model.Layout
import Verif.Spec.Layout
/- Helper lemmas about `align`, `alignOf`, `sizeOf` and the addressing table. -/
namespace GV

/-- the four GVariant alignments -/
def IsAl (a : Nat) : Prop := a = 1 ∨ a = 2 ∨ a = 4 ∨ a = 8

theorem andNot_pow (x k : Nat) : andNot x (2 ^ k - 1) = x / 2 ^ k * 2 ^ k := by
  apply Nat.eq_of_testBit_eq
  intro i
  rw [andNot_testBit, Nat.testBit_two_pow_sub_one, Nat.testBit_mul_two_pow, Nat.testBit_div_two_pow]
  by_cases h : k ≤ i
  · simp [h, Nat.not_lt.2 h]
  · simp [h, Nat.lt_of_not_le h]

theorem andNot_al {al : Nat} (h : IsAl al) (x : Nat) : andNot x (al - 1) = x / al * al := by
  rcases h with rfl | rfl | rfl | rfl
  · exact andNot_pow x 0
  · exact andNot_pow x 1
  · exact andNot_pow x 2
  · exact andNot_pow x 3

theorem align_eq {al : Nat} (h : IsAl al) (off : Nat) : align off al = Spec.roundUp off al := by
  rw [align, andNot_al h, Spec.roundUp]

theorem IsAl.max {a b : Nat} (ha : IsAl a) (hb : IsAl b) : IsAl (max a b) := by
  rcases Nat.le_total a b with h | h
  · rw [Nat.max_eq_right h]; exact hb
  · rw [Nat.max_eq_left h]; exact ha

theorem IsAl.pos {a : Nat} (ha : IsAl a) : 0 < a := by
  rcases ha with rfl | rfl | rfl | rfl <;> omega

theorem IsAl.dvd {a b : Nat} (ha : IsAl a) (hb : IsAl b) (h : a ≤ b) : a ∣ b := by
  rcases ha with rfl | rfl | rfl | rfl <;> rcases hb with rfl | rfl | rfl | rfl <;> omega

/-! ### roundUp facts -/

theorem roundUp_dvd (n al : Nat) : al ∣ Spec.roundUp n al := ⟨_, Nat.mul_comm _ _⟩

theorem le_roundUp {al : Nat} (h : 0 < al) (n : Nat) : n ≤ Spec.roundUp n al := by
  unfold Spec.roundUp
  have h1 := Nat.div_add_mod (n + al - 1) al
  have h2 := Nat.mod_lt (n + al - 1) h
  rw [Nat.mul_comm] at h1
  omega

theorem roundUp_lt {al : Nat} (h : 0 < al) (n : Nat) : Spec.roundUp n al < n + al := by
  unfold Spec.roundUp
  have h1 := Nat.div_mul_le_self (n + al - 1) al
  omega

theorem roundUp_le_of_dvd {al n m : Nat} (h : 0 < al) (hd : al ∣ m) (hm : n ≤ m) :
    Spec.roundUp n al ≤ m := by
  obtain ⟨k, rfl⟩ := hd
  have h1 := roundUp_lt h n
  obtain ⟨j, hj⟩ := roundUp_dvd n al
  rw [hj] at h1 ⊢
  apply Nat.mul_le_mul_left
  have : al * j < al * (k + 1) := by rw [Nat.mul_add]; omega
  have := Nat.lt_of_mul_lt_mul_left this
  omega

theorem roundUp_of_dvd {al n : Nat} (h : 0 < al) (hd : al ∣ n) : Spec.roundUp n al = n :=
  Nat.le_antisymm (roundUp_le_of_dvd h hd (Nat.le_refl _)) (le_roundUp h n)

theorem roundUp_mono {al n m : Nat} (h : 0 < al) (hm : n ≤ m) :
    Spec.roundUp n al ≤ Spec.roundUp m al :=
  roundUp_le_of_dvd h (roundUp_dvd _ _) (Nat.le_trans hm (le_roundUp h m))

theorem roundUp_add_dvd {al n m : Nat} (h : 0 < al) (hd : al ∣ n) :
    Spec.roundUp (n + m) al = n + Spec.roundUp m al := by
  apply Nat.le_antisymm
  · apply roundUp_le_of_dvd h (Nat.dvd_add hd (roundUp_dvd _ _))
    have := le_roundUp h m; omega
  · obtain ⟨k, hk⟩ := hd
    have hd2 : al ∣ Spec.roundUp (n + m) al - n :=
      Nat.dvd_sub (roundUp_dvd _ _) ⟨k, hk⟩
    have h1 := le_roundUp h (n + m)
    have := roundUp_le_of_dvd (n := m) h hd2 (by omega)
    omega

theorem roundUp_roundUp {a b n : Nat} (ha : 0 < a) (hb : 0 < b) (hd : a ∣ b) :
    Spec.roundUp (Spec.roundUp n a) b = Spec.roundUp n b := by
  apply Nat.le_antisymm
  · apply roundUp_le_of_dvd hb (roundUp_dvd _ _)
    exact roundUp_le_of_dvd ha (Nat.dvd_trans hd (roundUp_dvd _ _)) (le_roundUp hb n)
  · exact roundUp_mono hb (le_roundUp ha n)

/-! ### alignment and size of types -/

theorem alignMax_eq_foldr (ts : List Ty) :
    Spec.alignMax ts = (ts.map Spec.align).foldr max 1 := by
  induction ts with
  | nil => rfl
  | cons t ts ih => simp [Spec.alignMax, ih]

theorem specAlign_isAl (t : Ty) : IsAl (Spec.align t) := by
  induction t using Ty.ind with
  | a e ih => simpa [Spec.align] using ih
  | m e ih => simpa [Spec.align] using ih
  | tuple ts ih =>
    simp only [Spec.align]
    induction ts with
    | nil => simp [Spec.alignMax, IsAl]
    | cons t ts ihl =>
      simp only [Spec.alignMax]
      exact (ih t (by simp)).max (ihl fun e he => ih e (by simp [he]))
  | dict k v ihk ihv => simp only [Spec.align]; exact ihk.max ihv
  | _ => simp [Spec.align, IsAl]

theorem alignMax_isAl (ts : List Ty) : IsAl (Spec.alignMax ts) := by
  have := specAlign_isAl (.tuple ts)
  simpa [Spec.align] using this

theorem max?_getD_eq (l : List Nat) (h : ∀ x ∈ l, 1 ≤ x) :
    (l.max?).getD 1 = l.foldr max 1 := by
  cases l with
  | nil => rfl
  | cons a l =>
    rw [List.max?_cons]
    have ha := h a (by simp)
    have hl : ∀ x ∈ l, 1 ≤ x := fun x hx => h x (by simp [hx])
    clear h
    have key : ∀ (l : List Nat), (∀ x ∈ l, 1 ≤ x) →
        (l.max? = none ∧ l.foldr max 1 = 1) ∨ l.max? = some (l.foldr max 1) := by
      intro l
      induction l with
      | nil => intro _; left; simp
      | cons b l ih =>
        intro hl
        right
        rw [List.max?_cons]
        rcases ih (fun x hx => hl x (by simp [hx])) with ⟨h1, h2⟩ | h1
        · have := hl b (by simp)
          simp [h1, h2, Option.elim]; omega
        · simp [h1, Option.elim]
    rcases key l hl with ⟨h1, h2⟩ | h1
    · simp [h1, h2, Option.elim]; omega
    · simp [h1, Option.elim]

theorem alignOf_eq (t : Ty) : alignOf t = Spec.align t := by
  induction t using Ty.ind with
  | a e ih => simpa [Spec.align, alignOf] using ih
  | m e ih => simpa [Spec.align, alignOf] using ih
  | tuple ts ih =>
    simp only [Spec.align, alignOf]
    have : alignOfs ts = ts.map Spec.align := by
      induction ts with
      | nil => rfl
      | cons t ts ihl =>
        simp [alignOfs, ih t (by simp), ihl fun e he => ih e (by simp [he])]
    rw [this, max?_getD_eq, alignMax_eq_foldr]
    intro x hx
    simp at hx
    obtain ⟨t, _, rfl⟩ := hx
    exact (specAlign_isAl t).pos
  | dict k v ihk ihv => simp [Spec.align, alignOf, ihk, ihv]
  | _ => rfl

theorem alignOf_isAl (t : Ty) : IsAl (alignOf t) := alignOf_eq t ▸ specAlign_isAl t

theorem alignOf_pos (t : Ty) : 0 < alignOf t := (alignOf_isAl t).pos

theorem sizeOf_eq (t : Ty) : sizeOf t = Spec.size t := by
  induction t using Ty.ind with
  | tuple ts ih =>
    have key : ∀ us, (∀ e ∈ us, e ∈ ts) → ∀ pos, sizeLoop pos us = Spec.endAfter pos us := by
      intro us
      induction us with
      | nil => intro _ pos; simp [sizeLoop, Spec.endAfter]
      | cons t us ihu =>
        intro hs pos
        simp only [sizeLoop, Spec.endAfter, ih t (hs t (by simp))]
        cases Spec.size t with
        | none => rfl
        | some n =>
          simp only [alignOf_eq, align_eq (specAlign_isAl t)]
          exact ihu (fun e he => hs e (by simp [he])) _
    simp only [sizeOf, Spec.size, key ts (fun _ h => h) 0]
    cases ts with
    | nil => simp [Spec.endAfter]
    | cons t ts =>
      simp only [List.isEmpty_cons, Bool.false_eq_true, if_false]
      cases Spec.endAfter 0 (t :: ts) with
      | none => rfl
      | some e =>
        simp [alignOf_eq, Spec.align, align_eq (alignMax_isAl _)]
  | dict k v ihk ihv =>
    simp only [sizeOf, Spec.size, ihk, ihv]
    cases Spec.size k <;> cases Spec.size v <;>
      simp [alignOf_eq, Spec.align, align_eq (specAlign_isAl _),
        align_eq ((specAlign_isAl k).max (specAlign_isAl v))]
  | _ => rfl

theorem endAfter_ge {pos e : Nat} {ts : List Ty} (h : Spec.endAfter pos ts = some e) : pos ≤ e := by
  induction ts generalizing pos with
  | nil => simp [Spec.endAfter] at h; omega
  | cons t ts ih =>
    simp only [Spec.endAfter] at h
    split at h
    · simp at h
    · have := ih h
      have := le_roundUp (specAlign_isAl t).pos pos
      omega

theorem size_pos_dvd (t : Ty) : ∀ n, Spec.size t = some n → 0 < n ∧ Spec.align t ∣ n := by
  induction t using Ty.ind with
  | tuple ts ih =>
    intro n h
    simp only [Spec.size] at h
    split at h
    · simp at h
    · rename_i e he
      cases ts with
      | nil => simp at h; subst h; simp [Spec.align, Spec.alignMax]
      | cons t ts =>
        simp at h
        subst h
        simp only [Spec.align]
        refine ⟨?_, roundUp_dvd _ _⟩
        simp only [Spec.endAfter] at he
        split at he
        · simp at he
        · rename_i m hm
          have h1 := (ih t (by simp) m hm).1
          have h2 := endAfter_ge he
          have h3 := le_roundUp (alignMax_isAl (t :: ts)).pos e
          omega
  | dict k v ihk ihv =>
    intro n h
    simp only [Spec.size] at h
    split at h
    · rename_i a b ha hb
      simp at h
      subst h
      simp only [Spec.align]
      refine ⟨?_, roundUp_dvd _ _⟩
      have h1 := (ihv b hb).1
      have h3 := le_roundUp ((specAlign_isAl k).max (specAlign_isAl v)).pos
        (Spec.roundUp a (Spec.align v) + b)
      omega
    · simp at h
  | _ => intro n h; simp [Spec.size] at h <;> subst h <;> simp [Spec.align]

theorem sizeOf_pos {t : Ty} {n : Nat} (h : sizeOf t = some n) : 0 < n :=
  (size_pos_dvd t n (sizeOf_eq t ▸ h)).1

theorem sizeOf_dvd {t : Ty} {n : Nat} (h : sizeOf t = some n) : alignOf t ∣ n :=
  alignOf_eq t ▸ (size_pos_dvd t n (sizeOf_eq t ▸ h)).2

theorem size_dict_eq (k v : Ty) : Spec.size (.dict k v) = Spec.size (.tuple [k, v]) := by
  simp only [Spec.size, Spec.endAfter]
  cases Spec.size k with
  | none => rfl
  | some m =>
    cases Spec.size v with
    | none => rfl
    | some n =>
      have h1 : Spec.align v ≤ max (Spec.align k) (Spec.align v) := Nat.le_max_right _ _
      have h2 := (specAlign_isAl v).pos
      simp [Spec.alignMax, roundUp_of_dvd (specAlign_isAl k).pos (Nat.dvd_zero _),
        Nat.max_eq_left h2]

theorem align_dict_eq (k v : Ty) : Spec.align (.dict k v) = Spec.align (.tuple [k, v]) := by
  have h2 := (specAlign_isAl v).pos
  simp [Spec.align, Spec.alignMax, Nat.max_eq_left h2]

theorem alignMax_ge {t : Ty} {ts : List Ty} (h : t ∈ ts) : Spec.align t ≤ Spec.alignMax ts := by
  induction ts with
  | nil => simp at h
  | cons u ts ih =>
    simp only [Spec.alignMax]
    rcases List.mem_cons.1 h with rfl | h
    · exact Nat.le_max_left _ _
    · exact Nat.le_trans (ih h) (Nat.le_max_right _ _)

theorem component_align {c t : Ty} (h : Spec.Component c t) : Spec.align c ∣ Spec.align t := by
  induction h with
  | refl => exact Nat.dvd_refl _
  | array _ ih => simpa [Spec.align] using ih
  | maybe _ ih => simpa [Spec.align] using ih
  | @member t ts _ hm ih =>
    exact Nat.dvd_trans ih
      ((specAlign_isAl t).dvd (specAlign_isAl (.tuple ts)) (by simpa [Spec.align] using alignMax_ge hm))
  | @key k v _ ih =>
    exact Nat.dvd_trans ih ((specAlign_isAl k).dvd (specAlign_isAl (.dict k v))
      (by simp only [Spec.align]; exact Nat.le_max_left _ _))
  | @value k v _ ih =>
    exact Nat.dvd_trans ih ((specAlign_isAl _).dvd (specAlign_isAl (.dict _ _))
      (by simp only [Spec.align]; exact Nat.le_max_right _ _))

end GV
