import Verif.Proofs.Single
import Verif.Props.C39_C44
/-
C99: structures of one member.

`peel t` is `t` with all structures of one member replaced by that member, `peelVal t v` the same for a value.
`Expands t`: `gv!` accepts `t`.  `Small t`: its type string has less than 2^40 characters.
-/
namespace GV.Props
open GV Spec

/-! ### C99 -/

/-- `gv!` accepts a type exactly if it accepts it without structures of one member, and the alignment and size that
    the macro works out are the same. -/
theorem c99_layout (t : Ty) :
    (Expands (peel t) ↔ Expands t) ∧ alignOf (peel t) = alignOf t ∧ GV.sizeOf (peel t) = GV.sizeOf t :=
  ⟨expands_peel t, by rw [alignOf_eq, alignOf_eq, align_peel], by rw [sizeOf_eq, sizeOf_eq, size_peel]⟩

/-- Values of the one type correspond to values of the other, one to one. -/
theorem c99_values (t : Ty) (w : Val) (h : Fits (peel t) w) :
    ∃ v, (Fits t v ∧ peelVal t v = w) ∧ ∀ v', Fits t v' ∧ peelVal t v' = w → v' = v := by
  obtain ⟨v, hv, rfl⟩ := peel_onto t w h
  exact ⟨v, ⟨hv, rfl⟩, fun v' h' => peelVal_inj t v' v h'.1 hv h'.2⟩

/-- Corresponding values are serialized to the same bytes, whatever Rust values they are serialized from. -/
theorem c99_write (c : Cfg) (t : Ty) (x y : Src) (hx : Serializable t x) (hy : Serializable (peel t) y)
    (hnx : ¬ HasNul x) (hny : ¬ HasNul y) (hl : (bytesOf c t x).length < 2 ^ 63)
    (h : meaning (.crate c.bigEndian) (peel t) y = peelVal t (meaning (.crate c.bigEndian) t x)) :
    serializeToVec c (peel t) y = serializeToVec c t x := by
  have hb : bytesOf c (peel t) y = bytesOf c t x := by
    rw [bytesOf, bytesOf, h]
    exact enc_peel _ t _ (bytesOf_fits (c := c) hx hnx)
  rw [vec_good hx hnx hl, vec_good hy hny (by rw [hb]; exact hl), hb]

/-- Normal forms are the same. -/
theorem c99_normal (be : Bool) (t : Ty) (b : Bytes) : Normal be (peel t) b ↔ Normal be t b := by
  constructor
  · rintro ⟨w, hw, rfl⟩
    obtain ⟨v, hv, rfl⟩ := peel_onto t w hw
    exact ⟨v, hv, (enc_peel _ t v hv).symm⟩
  · rintro ⟨v, hv, rfl⟩
    exact ⟨peelVal t v, fits_peel t v hv, enc_peel _ t v hv⟩

/-- The same bytes, in normal form or not, read as corresponding values: always if the type without structures of one
    member can be read; and if only the other can, then reading panics at `unwrap` (see C33). -/
theorem c99_read (c : Cfg) (t : Ty) (s : Slice) (hx : Expands t) (hsm : Small t) (ha : Spec.align t ∣ s.addr)
    (hl : s.len < 2 ^ 63) (hw : s.len < 2 ^ 32 ∨ Tame (.crate c.bigEndian) t s.bytes) :
    (∀ w, readAs c (peel t) s = .ok w → ∃ v, readAs c t s = .ok v ∧ peelVal t v = w) ∧
    (∀ v, readAs c t s = .ok v → readAs c (peel t) s = .ok (peelVal t v) ∨ readAs c (peel t) s = .fail .unwrap) := by
  have ht : Tame (.crate c.bigEndian) t s.bytes := hw.elim (tame_small _ _ _) id
  have h1 := readAs_tame hx hsm ha (fun _ => hl) ht
  have h2 := readAs_tame ((expands_peel t).2 hx) (small_peel hsm) (by rw [align_peel]; exact ha) (fun _ => hl)
    ((tame_peel _ t _).2 ht)
  have h3 := ragged_peel (.crate c.bigEndian) t s.bytes
  rw [dec_peel] at h2
  constructor
  · intro w hw
    rw [h2] at hw
    split at hw
    · cases hw
    · rename_i hr
      cases hw
      exact ⟨_, by rw [h1, if_neg fun h => hr (h3 h)], rfl⟩
  · intro v hv
    rw [h1] at hv
    split at hv
    · cases hv
    · cases hv
      rw [h2]
      split
      · exact Or.inr rfl
      · exact Or.inl rfl

/-- Structures of one member are not superfluous: an array of numbers that has an impossible size is empty in a
    structure and makes reading panic by itself. -/
theorem c99_differ : ∃ (t : Ty) (s : Slice) (v : Val), Expands t ∧ readAs dbg t s = .ok v ∧
    readAs dbg (peel t) s = .fail .unwrap :=
  ⟨.M (.tuple [.A .I]), ⟨64, [1, 2, 3, 0]⟩, .just (.tup [.arr []]), by decide, by rfl, by rfl⟩

/-- `a((s)(u))` and `a(su)`: one array of one element, read as both. -/
example : peel (.A (.tuple [.tuple [.S], .tuple [.U]])) = .A (.tuple [.S, .U]) ∧
    peelVal (.A (.tuple [.tuple [.S], .tuple [.U]])) (.arr [.tup [.tup [.str [97]], .tup [.num 7]]]) =
      .arr [.tup [.str [97], .num 7]] ∧
    readAs dbg (.A (.tuple [.tuple [.S], .tuple [.U]])) ⟨64, [97, 0, 0, 0, 7, 0, 0, 0, 2, 9]⟩ =
      .ok (.arr [.tup [.tup [.str [97]], .tup [.num 7]]]) ∧
    readAs dbg (.A (.tuple [.S, .U])) ⟨64, [97, 0, 0, 0, 7, 0, 0, 0, 2, 9]⟩ = .ok (.arr [.tup [.str [97], .num 7]]) :=
  ⟨by rfl, by rfl, by rfl, by rfl⟩

/-- Structures in structures in structures, and serializing both. -/
example : peel (.tuple [.tuple [.tuple [.Y, .S]]]) = .tuple [.Y, .S] ∧ peel (.tuple [.tuple []]) = .tuple [] ∧
    serializeToVec dbg (.tuple [.tuple [.tuple [.Y, .S]]]) (.tup [.tup [.tup [.num 5, .str [104]]]]) = .ok [5, 104, 0] ∧
    serializeToVec dbg (.tuple [.Y, .S]) (.tup [.num 5, .str [104]]) = .ok [5, 104, 0] :=
  ⟨by rfl, by rfl, by rfl, by rfl⟩

/-- `c99_write` at that source. -/
example : serializeToVec dbg (.tuple [.Y, .S]) (.tup [.num 5, .str [104]]) =
    serializeToVec dbg (.tuple [.tuple [.tuple [.Y, .S]]]) (.tup [.tup [.tup [.num 5, .str [104]]]]) :=
  c99_write dbg (.tuple [.tuple [.tuple [.Y, .S]]]) (.tup [.tup [.tup [.num 5, .str [104]]]]) (.tup [.num 5, .str [104]])
    ⟨by simp [Accepts, AcceptsAll]; exact ⟨⟨1, rfl, by decide⟩, rfl, (utf8Valid_iff _).1 (by decide)⟩, by decide, by intro u hu; simp [wraps, wrapsAll] at hu⟩
    ⟨by simp [Accepts, AcceptsAll, peel, peels]; exact ⟨⟨1, rfl, by decide⟩, rfl, (utf8Valid_iff _).1 (by decide)⟩, by decide, by intro u hu; simp [wraps, wrapsAll] at hu⟩
    (by simp [HasNul, HasNulAny]) (by simp [HasNul, HasNulAny]) (by decide) (by rfl)

end GV.Props
