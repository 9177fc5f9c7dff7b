import Verif.Model.TypeParser
import Verif.Spec.Grammar
/- Helper lemmas for C01, C02. -/
namespace GV
open Spec

theorem show_ne_nil (t : Ty) : 0 < t.show.length := by
  cases t <;> simp [Ty.show]

theorem shows_append (ts us : List Ty) : Ty.shows (ts ++ us) = Ty.shows ts ++ Ty.shows us := by
  induction ts with
  | nil => simp [Ty.shows]
  | cons t ts ih => simp [Ty.shows, ih]

/-- the first byte of a printed type is never a closing bracket -/
theorem show_head (t : Ty) : ∃ c tl, t.show = c :: tl ∧ c ≠ 41 := by
  cases t <;> simp [Ty.show]

theorem parse_complete (t : Ty) : ∀ (f : Nat) (c : UInt8) (it rest : Bytes),
    t.show.length ≤ f → c :: it = t.show ++ rest → parseOneTypeSpec f c it = some (t, rest) := by
  induction t using Ty.ind with
  | a e ih =>
    intro f c it rest hf h
    obtain ⟨c', tl, hs, _⟩ := show_head e
    simp [Ty.show] at hf h
    obtain ⟨rfl, rfl⟩ := h
    obtain ⟨f, rfl⟩ : ∃ g, f = g + 1 := ⟨f - 1, by omega⟩
    have := ih f c' (tl ++ rest) rest (by omega) (by simp [hs])
    simp [parseOneTypeSpec, hs, this]
  | m e ih =>
    intro f c it rest hf h
    obtain ⟨c', tl, hs, _⟩ := show_head e
    simp [Ty.show] at hf h
    obtain ⟨rfl, rfl⟩ := h
    obtain ⟨f, rfl⟩ : ∃ g, f = g + 1 := ⟨f - 1, by omega⟩
    have := ih f c' (tl ++ rest) rest (by omega) (by simp [hs])
    simp [parseOneTypeSpec, hs, this]
  | tuple ts ih =>
    intro f c it rest hf h
    have key : ∀ (us : List Ty), (∀ e ∈ us, e ∈ ts) → ∀ g, (Ty.shows us).length + 1 ≤ g →
        parseMembers g (Ty.shows us ++ 41 :: rest) = some (us, rest) := by
      intro us
      induction us with
      | nil =>
        intro _ g hg
        obtain ⟨g, rfl⟩ : ∃ k, g = k + 1 := ⟨g - 1, by omega⟩
        simp [Ty.shows, parseMembers]
      | cons e us ihu =>
        intro hsub g hg
        obtain ⟨c', tl, hs, hc'⟩ := show_head e
        simp [Ty.shows] at hg
        have hpos := show_ne_nil e
        obtain ⟨g, rfl⟩ : ∃ k, g = k + 1 := ⟨g - 1, by omega⟩
        have h1 := ih e (hsub e (by simp)) g c' (tl ++ (Ty.shows us ++ 41 :: rest))
          (Ty.shows us ++ 41 :: rest) (by omega) (by simp [hs])
        have h2 := ihu (fun x hx => hsub x (by simp [hx])) g (by omega)
        simp [Ty.shows, hs, parseMembers, hc', h1, h2]
    simp [Ty.show] at hf h
    obtain ⟨rfl, rfl⟩ := h
    obtain ⟨f, rfl⟩ : ∃ g, f = g + 1 := ⟨f - 1, by omega⟩
    simp [parseOneTypeSpec, key ts (fun _ h => h) f (by omega)]
  | dict k v ihk ihv =>
    intro f c it rest hf h
    obtain ⟨c1, tl1, hs1, _⟩ := show_head k
    obtain ⟨c2, tl2, hs2, _⟩ := show_head v
    simp [Ty.show] at hf h
    obtain ⟨rfl, rfl⟩ := h
    obtain ⟨f, rfl⟩ : ∃ g, f = g + 1 := ⟨f - 1, by omega⟩
    have h1 := ihk f c1 (tl1 ++ (c2 :: tl2 ++ 125 :: rest)) (c2 :: tl2 ++ 125 :: rest)
      (by omega) (by simp [hs1])
    have h2 := ihv f c2 (tl2 ++ 125 :: rest) (125 :: rest) (by omega) (by simp [hs2])
    simp only [List.cons_append] at h1 h2
    simp [parseOneTypeSpec, hs1, hs2, h1, h2]
  | _ =>
    intro f c it rest hf h
    simp [Ty.show] at hf h
    obtain ⟨rfl, rfl⟩ := h
    obtain ⟨f, rfl⟩ : ∃ g, f = g + 1 := ⟨f - 1, by omega⟩
    simp [parseOneTypeSpec]

theorem parse_sound : ∀ f : Nat,
    (∀ c it t rest, parseOneTypeSpec f c it = some (t, rest) → c :: it = t.show ++ rest) ∧
    (∀ it ts rest, parseMembers f it = some (ts, rest) → it = Ty.shows ts ++ 41 :: rest) := by
  intro f
  induction f with
  | zero => simp [parseOneTypeSpec, parseMembers]
  | succ f ih =>
    obtain ⟨ih1, ih2⟩ := ih
    constructor
    · intro c it t rest h
      unfold parseOneTypeSpec at h
      split at h
      all_goals first
        | (simp at h; obtain ⟨rfl, rfl⟩ := h; simp [Ty.show]; done)
        | skip
      · split at h
        · simp at h
        · split at h
          · rename_i heq; simp at h; obtain ⟨rfl, rfl⟩ := h
            simp [Ty.show, ih1 _ _ _ _ heq]
          · simp at h
      · split at h
        · simp at h
        · split at h
          · rename_i heq; simp at h; obtain ⟨rfl, rfl⟩ := h
            simp [Ty.show, ih1 _ _ _ _ heq]
          · simp at h
      · split at h
        · rename_i heq; simp at h; obtain ⟨rfl, rfl⟩ := h
          simp [Ty.show, ih2 _ _ _ heq]
        · simp at h
      · split at h
        · simp at h
        · split at h
          · simp at h
          · rename_i heq1
            split at h
            · simp at h
            · split at h
              · simp at h
              · rename_i heq2
                split at h
                · simp at h; obtain ⟨rfl, rfl⟩ := h
                  simp [Ty.show, ih1 _ _ _ _ heq1, ih1 _ _ _ _ heq2]
                · simp at h
      · simp at h
    · intro it ts rest h
      cases it with
      | nil => simp [parseMembers] at h
      | cons c it =>
        simp only [parseMembers] at h
        split at h
        · rename_i hc; simp at h; obtain ⟨rfl, rfl⟩ := h; simp [Ty.shows, hc]
        · split at h
          · simp at h
          · rename_i heq1
            split at h
            · simp at h
            · rename_i heq2
              simp at h; obtain ⟨rfl, rfl⟩ := h
              simp [Ty.shows, ih1 _ _ _ _ heq1, ih2 _ _ _ heq2]

theorem one_eq_some_iff (s : Bytes) (t : Ty) : one s = some t ↔ s = t.show := by
  constructor
  · intro h
    unfold one at h
    split at h
    · simp at h
    · split at h
      · rename_i heq
        simp at h
        have := (parse_sound _).1 _ _ _ _ heq
        simp at this; rw [this, h]
      · simp at h
  · rintro rfl
    obtain ⟨c, tl, hs, _⟩ := show_head t
    unfold one
    rw [hs]
    have := parse_complete t (t.show.length + 1) c tl [] (by omega) (by simp [hs])
    rw [hs] at this
    simp only [this]

mutual
theorem derives_show : ∀ (s : Bytes) (t : Ty), Derives s t → s = t.show := by
  intro s t h
  cases h with
  | array h => simp [Ty.show, derives_show _ _ h, ch]
  | maybe h => simp [Ty.show, derives_show _ _ h, ch]
  | struct h => simp [Ty.show, derivesAll_shows _ _ h, ch]
  | dictEntry h h' => simp [Ty.show, derives_show _ _ h, derives_show _ _ h', ch]
  | _ => simp [Ty.show, ch]
theorem derivesAll_shows : ∀ (s : Bytes) (ts : List Ty), DerivesAll s ts → s = Ty.shows ts := by
  intro s ts h
  cases h with
  | nil => simp [Ty.shows]
  | cons h h' => simp [Ty.shows, derives_show _ _ h, derivesAll_shows _ _ h']
end

theorem show_derives (t : Ty) : Derives t.show t := by
  induction t using Ty.ind with
  | b => exact .bool
  | y => exact .byte
  | n => exact .int16
  | q => exact .uint16
  | i => exact .int32
  | u => exact .uint32
  | x => exact .int64
  | t => exact .uint64
  | d => exact .double
  | s => exact .string
  | o => exact .objectPath
  | g => exact .signature
  | v => exact .variant
  | a e ih => exact .array ih
  | m e ih => exact .maybe ih
  | tuple ts ih =>
    have : DerivesAll (Ty.shows ts) ts := by
      induction ts with
      | nil => exact .nil
      | cons t ts ihl =>
        exact .cons (ih t (by simp)) (ihl fun e he => ih e (by simp [he]))
    exact .struct this
  | dict k v ihk ihv => exact .dictEntry ihk ihv

end GV
