import Verif.Proofs.EvenTypes
import Verif.Proofs.Rust
/-
C98: every value can be serialized.  Also, for C40, which types always survive the round trip.
-/
namespace GV.Props
open GV Spec

/-! ### C98 -/

/-- Every value of every type, variants within it holding values of any types, can be written from Rust's own
    values alone, without any GVariant data to start from. -/
theorem c98_bare (c : Cfg) (t : Ty) (v : Tree) (hx : Expands t) (hu : ∀ u ∈ v.types, Expands u) (hf : v.Fits t)
    (hl : (v.enc (.crate c.bigEndian) t).length < 2 ^ 63) :
    ∃ x, Bare x ∧ Serializable t x ∧ sourceTree t x = v ∧
      serializeToVec c t x = .ok (v.enc (.crate c.bigEndian) t) := by
  obtain ⟨h1, h2, h3, h4, h5⟩ := bareOf_good v t hf
  have hs : Serializable t (bareOf v) := ⟨h1, hx, by rw [h5]; exact hu⟩
  have hb : bytesOf c t (bareOf v) = v.enc (.crate c.bigEndian) t := by
    show enc _ t _ = enc _ t _
    rw [← sourceTree_flat _ _ _ (wrapOnly_of_bare _ h3), h4]
  exact ⟨bareOf v, h3, hs, h4, by rw [← hb]; exact vec_good hs h2 (by rw [hb]; exact hl)⟩

/-- Values whose variants have type strings that are none, or data that does not belong to them, can be written too,
    from references to such variants. -/
theorem c98_any (c : Cfg) (t : Ty) (v : Val) (hx : Expands t) (hf : Fits t v)
    (hl : (enc (.crate c.bigEndian) t v).length < 2 ^ 63) :
    ∃ x, Serializable t x ∧ ¬ HasNul x ∧ meaning (.crate c.bigEndian) t x = v ∧
      serializeToVec c t x = .ok (enc (.crate c.bigEndian) t v) := by
  obtain ⟨h1, h2, h3, h4⟩ := sourceOf_good (.crate c.bigEndian) v t hf
  have hs : Serializable t (sourceOf v) := ⟨h1, hx, by simp [h4]⟩
  have hb : bytesOf c t (sourceOf v) = enc (.crate c.bigEndian) t v := by rw [bytesOf, h3]
  exact ⟨sourceOf v, hs, h2, h3, by rw [← hb]; exact vec_good hs h2 (by rw [hb]; exact hl)⟩

/-- So the byte sequences that serializing can give are just the crate's encodings of values. -/
theorem c98_range (c : Cfg) (t : Ty) (b : Bytes) (hx : Expands t) (hl : b.length < 2 ^ 63) :
    (∃ x, Serializable t x ∧ ¬ HasNul x ∧ (bytesOf c t x).length < 2 ^ 63 ∧ serializeToVec c t x = .ok b) ↔
      ∃ v, Fits t v ∧ enc (.crate c.bigEndian) t v = b := by
  constructor
  · rintro ⟨x, h1, h2, h3, h4⟩
    rw [vec_good h1 h2 h3] at h4
    exact ⟨_, bytesOf_fits (c := c) h1 h2, Res.ok.inj h4⟩
  · rintro ⟨v, hf, rfl⟩
    obtain ⟨x, h1, h2, h3, h4⟩ := c98_any c t v hx hf hl
    exact ⟨x, h1, h2, by rw [bytesOf, h3]; exact hl, h4⟩

/-- All normal forms of the specification are among them, but for those of values with an array whose last element does
    not end at a multiple of its alignment. -/
theorem c98_normal (c : Cfg) (t : Ty) (b : Bytes) (hx : Expands t) (hl : b.length < 2 ^ 63)
    (hn : Normal c.bigEndian t b) (he : EvenEnds (.crate c.bigEndian) t (dec (.pdf c.bigEndian) t b)) :
    ∃ x, Serializable t x ∧ ¬ HasNul x ∧ serializeToVec c t x = .ok b := by
  obtain ⟨v, hf, rfl⟩ := hn
  rw [(trip (R := .pdf c.bigEndian) (E := .pdf c.bigEndian) rfl t v hf (by omega)).1.2 (fun h => by cases h)] at he
  have hb := enc_even _ t v he
  obtain ⟨x, h1, h2, _, h4⟩ := c98_any c t v hx hf (by rw [hb]; exact hl)
  exact ⟨x, h1, h2, by rw [h4, hb]⟩

/-- `(sv)` holding a variant that holds an array of two maybes. -/
example : let v : Tree := .tup [.str [104, 105], .variant (.A (.M .Y)) (.arr [.just (.num 7), .nothing])]
    v.Fits (.tuple [.S, .V]) ∧ Expands (.tuple [.S, .V]) ∧ (∀ u ∈ v.types, Expands u) ∧
      v.enc (.crate false) (.tuple [.S, .V]) = [104, 105, 0, 0, 0, 0, 0, 0, 7, 1, 1, 0, 97, 109, 121, 3] ∧
      bareOf v = .tup [.str [104, 105], .wrap (.A (.M .Y)) (.seq [.just (.num 7), .nothing])] ∧
      serializeToVec dbg (.tuple [.S, .V]) (bareOf v) =
        .ok [104, 105, 0, 0, 0, 0, 0, 0, 7, 1, 1, 0, 97, 109, 121, 3] :=
  ⟨by simp [Tree.Fits, Tree.FitsAll, Tree.FitsEach, isStr, numWidth, Text]; exact ⟨[104, 105], by simp [Scalar], rfl⟩,
    by decide, by simp [Tree.types, Tree.typesAll]; decide, by decide, rfl, rfl⟩

/-- A variant with the type string `?!`. -/
example : Fits .V (.variant [63, 33] [5]) ∧
    serializeToVec dbg .V (sourceOf (.variant [63, 33] [5])) = .ok [5, 0, 63, 33] := ⟨by simp [Fits], rfl⟩

/-! ### C40 -/

/-- For C40: no value of a type needs padding after a last element, so that all of them survive the round trip, exactly
    if for all arrays of variable-size items in it the items always have a size that is a multiple of their alignment.
    Missing: other types, for which it is false. -/
theorem c40_exact_types_partial (c : Cfg) (t : Ty) (hx : Expands t) :
    (∀ x, Serializable t x → ¬ HasNul x → EvenEnds (.crate c.bigEndian) t (meaning (.crate c.bigEndian) t x)) ↔
      ∀ e, Component (.A e) t → size e = none → ∀ y, Serializable e y → ¬ HasNul y →
        Spec.align e ∣ (bytesOf c e y).length := by
  constructor
  · intro h e hc hs y hy hn
    by_cases hd : Spec.align e ∣ (bytesOf c e y).length
    · exact hd
    obtain ⟨v, h1, h2⟩ := uneven_of (E := .crate c.bigEndian) hc hs (bytesOf_fits (c := c) hy hn) hd
    obtain ⟨g1, g2, g3, g4⟩ := sourceOf_good (.crate c.bigEndian) v t h1
    have := h (sourceOf v) ⟨g1, hx, by simp [g4]⟩ g2
    rw [g3] at this
    exact absurd this h2
  · intro h x hs hn
    refine evenEnds_of t ?_ _ (bytesOf_fits (c := c) hs hn)
    intro e hc hsz v hf
    obtain ⟨g1, g2, g3, g4⟩ := sourceOf_good (.crate c.bigEndian) v e hf
    have hxe : Expands e := expands_A.1 (comp_expands hc hx)
    have := h e hc hsz (sourceOf v) ⟨g1, hxe, by simp [g4]⟩ g2
    rwa [bytesOf, g3] at this

/-- `a(ayayq)` always survives, as there are two framing offsets, of the same width; `a(ayq)` does not. -/
example : let t : Ty := .tuple [.A .Y, .A .Y, .Q]; let u : Ty := .tuple [.A .Y, .Q]
    Expands (.A t) ∧ Expands (.A u) ∧ ¬ tidyArrays (.A t) = true ∧
      (∀ e, Component (.A e) (.A t) → size e = none → ∀ y, Serializable e y → ¬ HasNul y →
        Spec.align e ∣ (bytesOf dbg e y).length) ∧
      ¬ Spec.align u ∣ (bytesOf dbg u (.tup [.seq [.num 1], .num 5])).length := by
  refine ⟨by decide, by decide, by decide, ?_, by decide⟩
  intro e hc hs y hy hn
  have hf := bytesOf_fits (c := dbg) hy hn
  rw [bytesOf]
  generalize meaning _ e y = v at hf
  cases hc with
  | refl =>
    cases v with
    | tup vs =>
      match vs, hf with
      | [a, b, d], hf =>
        simp only [Fits, FitsAll] at hf
        have hd := enc_length (.crate false) .Q d 2 hf.2.2.1 (by decide)
        have h2 : ∀ n, 2 ∣ roundUp n 2 := fun n => by unfold roundUp; omega
        have hq : Spec.align .Q = 2 := by decide
        have hsz : size (.tuple [.A .Y, .A .Y, .Q]) = none := by decide
        have hal : Spec.align (.tuple [.A .Y, .A .Y, .Q]) = 2 := by decide
        have hy : size (.A .Y) = none := by decide
        have hq2 : size .Q = some 2 := by decide
        simp only [enc, hsz, encStruct, encAll, hal, List.length_append, frames_length, List.length_reverse]
        refine Nat.dvd_add ?_ (Nat.dvd_mul_right_of_dvd ?_ _)
        · rw [← Nat.zero_add (laid 0 _).length, laid_cons_length, laid_cons_length, laid_cons_length, hq,
            show dbg.bigEndian = false from rfl, hd]
          simp only [laid, List.length_nil, Nat.add_zero]
          exact Nat.dvd_add (h2 _) (by decide)
        · simp [frameEnds, hy, hq2]
      | [], hf => simp [Fits, FitsAll] at hf
      | [_], hf => simp [Fits, FitsAll] at hf
      | [_, _], hf => simp [Fits, FitsAll] at hf
      | _ :: _ :: _ :: _ :: _, hf => simp [Fits, FitsAll] at hf
    | _ => simp [Fits] at hf
  | array h =>
    cases h with
    | member h hm =>
      simp at hm
      rcases hm with rfl | rfl
      · cases h with
        | refl => simp [size] at hs
        | array h => cases h
      · cases h

end GV.Props
