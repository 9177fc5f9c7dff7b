import Verif.Proofs.Parts
/-
C75: the parts of data in normal form are themselves in normal form, lie where the layout puts them, and
do not overlap.
-/
namespace GV.Props
open GV Spec

/-- The normal form of a value in a variant, found by reading. -/
def takeNormal (c : Cfg) (u : Ty) (d : Bytes) : Option Val :=
  if Expands u ∧ Small u ∧ d.length < 2 ^ 63 then
    match readAs c u ⟨0, d⟩ with
    | .ok w => if enc (.pdf c.bigEndian) u w = d then some w else none
    | .fail _ => none
  else none

/-- Going to a part of data in normal form: no panic, and the reference is exactly the normal form of the
    part, at the place that the layout gives it.  Into variants too, where `rd` finds normal form. -/
theorem c75_part (c : Cfg) (rd : Ty → Bytes → Option Val) (hrd : ReadsNormal c.bigEndian rd) (t : Ty) (v : Val)
    (addr : Nat) (p : List Step) (u : Ty) (w : Val) (hx : Expands t) (hsm : Small t) (ha : Spec.align t ∣ addr)
    (hf : Fits t v) (hl : (enc (.pdf c.bigEndian) t v).length < 2 ^ 63) (hp : Proper p)
    (h : follow rd t v p = some (u, w)) :
    Fits u w ∧ ∃ o, spot (.pdf c.bigEndian) rd t v p = some o ∧
      walkFrom c t ⟨addr, enc (.pdf c.bigEndian) t v⟩ p = .ok (some (u, ⟨addr + o, enc (.pdf c.bigEndian) u w⟩)) ∧
      o + (enc (.pdf c.bigEndian) u w).length ≤ (enc (.pdf c.bigEndian) t v).length ∧
      sub (enc (.pdf c.bigEndian) t v) o (o + (enc (.pdf c.bigEndian) u w).length) = enc (.pdf c.bigEndian) u w := by
  obtain ⟨o, h1, h2, _⟩ := walk_spot hrd p t v u w addr hp hx hsm ha hf hl h
  obtain ⟨h3, o', h4, h5, h6⟩ := spot_sub hrd p t v u w hf h
  rw [h1] at h4; cases h4
  refine ⟨h3, o, h1, ?_, h5, h6⟩
  unfold walkFrom
  rw [fromAligned_enc hx ha hf, Res.bind_ok, h2]

/-- An array of two structures of a text and a variant. -/
def listed : Val := .arr [.tup [.str [97], .variant [115] [104, 105, 0]],
  .tup [.str [98, 99], .variant [97, 121] [7, 8]]]

example : enc (.pdf false) (.A (.tuple [.S, .V])) listed =
    [97, 0, 0, 0, 0, 0, 0, 0, 104, 105, 0, 0, 115, 2, 0, 0, 98, 99, 0, 0, 0, 0, 0, 0, 7, 8, 0, 97, 121, 3, 14, 30] := by
  decide

-- the second entry, its text, its variant, and what that holds
example : walkFrom dbg (.A (.tuple [.S, .V])) ⟨64, enc (.pdf false) (.A (.tuple [.S, .V])) listed⟩ [.elem 1] =
    .ok (some (.tuple [.S, .V], ⟨80, [98, 99, 0, 0, 0, 0, 0, 0, 7, 8, 0, 97, 121, 3]⟩)) := by rfl
example : spot (.pdf false) (takeNormal dbg) (.A (.tuple [.S, .V])) listed [.elem 1, .member 1, .inside (.A .Y)] =
    some 24 := by rfl
example : walkFrom dbg (.A (.tuple [.S, .V])) ⟨64, enc (.pdf false) (.A (.tuple [.S, .V])) listed⟩
    [.elem 1, .member 1, .inside (.A .Y)] = .ok (some (.A .Y, ⟨88, [7, 8]⟩)) := by rfl
example : Fits (.A (.tuple [.S, .V])) listed := by
  simp [listed, Fits, FitsAll, Text, ← utf8Valid_iff]
  decide

/-- Reading finds the normal form in variants, all of it and nothing else. -/
theorem c75_variants (c : Cfg) : ReadsNormal c.bigEndian (takeNormal c) ∧
    ∀ u w, Expands u → Small u → Fits u w → (enc (.pdf c.bigEndian) u w).length < 2 ^ 63 →
      takeNormal c u (enc (.pdf c.bigEndian) u w) = some w := by
  constructor
  · intro u d w h
    unfold takeNormal at h
    split at h
    · rename_i hc
      split at h
      · rename_i w' hr
        split at h
        · rename_i he
          cases h
          exact ⟨readAs_fits (s := ⟨0, d⟩) hc.1 hc.2.1 (Nat.dvd_zero _) hc.2.2 hr, he⟩
        · cases h
      · cases h
    · cases h
  · intro u w hx hsm hf hl
    unfold takeNormal
    rw [if_pos ⟨hx, hsm, hl⟩, (c54_read c u w 0 hx hsm (Nat.dvd_zero _) hf hl).1]
    simp

example : takeNormal dbg .S [104, 105, 0] = some (.str [104, 105]) := by rfl
-- without the terminating zero it can be read, but is not in normal form
example : takeNormal dbg .S [104, 105] = none := by rfl

/-- Whatever part of data in normal form a program goes to (not looking into variants), it finds normal
    form, and finds it in the data. -/
theorem c75_normal (c : Cfg) (t : Ty) (s : Slice) (p : List Step) (u : Ty) (r : Slice) (hx : Expands t)
    (hsm : Small t) (ha : Spec.align t ∣ s.addr) (hl : s.len < 2 ^ 63) (hn : Normal c.bigEndian t s.bytes)
    (hp : ∀ u, Step.inside u ∉ p) (hi : SmallIndices c p) (h : walkFrom c t s p = .ok (some (u, r))) :
    Normal c.bigEndian u r.bytes ∧ PartOf s r := by
  obtain ⟨addr, b⟩ := s
  obtain ⟨v, hf, rfl⟩ := hn
  have hr := (c54_read c t v addr hx hsm ha hf hl).1
  have hp' : Proper p := fun u hu => absurd hu (hp u)
  unfold readAs at hr
  obtain ⟨r', h1, h2⟩ := Res.bind_eq_ok.1 hr
  obtain ⟨r'', h1', hg⟩ := cast_good (c := c) (t := t) (s := ⟨addr, enc (.pdf c.bigEndian) t v⟩) hx hsm ha hl
  rw [h1] at h1'; cases h1'
  have h' := h
  unfold walkFrom at h'
  rw [h1, Res.bind_ok] at h'
  rcases walk_only p t r' v u r hp' hi hg h2 h' with ⟨w, h3, _⟩ | ⟨q, u', rest, d, h3, _⟩
  · rw [follow_same (rd' := fun _ _ => none) p hp] at h3
    obtain ⟨k1, o, _, k3, k4, k5⟩ := c75_part c (fun _ _ => none) (fun _ _ _ h => by cases h) t v addr p u w hx hsm ha
      hf hl hp' h3
    rw [h] at k3
    cases k3
    refine ⟨⟨w, k1, rfl⟩, o, _, Nat.le_add_right _ _, k4, rfl, ?_⟩
    simp only
    rw [← k5, k5]
    conv_lhs => rw [← k5]
    simp [Spec.sub, List.drop_take]
  · exact absurd (by rw [h3]; simp) (hp u')

-- without normal form it need not be so: in this `(sys)` whose framing offset is too large the middle byte
-- is not in the data
example : walkFrom dbg (.tuple [.S, .Y, .S]) ⟨64, [97, 0, 7, 98, 0, 2]⟩ [.member 1] = .ok (some (.Y, ⟨66, [7]⟩)) := by rfl
example : walkFrom dbg (.tuple [.S, .Y, .S]) ⟨64, [97, 0, 7, 98, 0, 9]⟩ [.member 1] = .ok (some (.Y, ⟨3, [0]⟩)) := by rfl

/-- Different parts of data in normal form do not share a byte: if neither of two paths leads through
    the end of the other, one of the references ends before the other begins. -/
theorem c75_apart (c : Cfg) (rd : Ty → Bytes → Option Val) (hrd : ReadsNormal c.bigEndian rd) (t : Ty) (v : Val)
    (addr : Nat) (p q : List Step) (u u' : Ty) (w w' : Val) (hx : Expands t) (hsm : Small t)
    (ha : Spec.align t ∣ addr) (hf : Fits t v) (hl : (enc (.pdf c.bigEndian) t v).length < 2 ^ 63)
    (hp : Proper p) (hq : Proper q) (h : follow rd t v p = some (u, w)) (h' : follow rd t v q = some (u', w'))
    (hpq : Parting p q) :
    ∃ r r', walkFrom c t ⟨addr, enc (.pdf c.bigEndian) t v⟩ p = .ok (some (u, r)) ∧
      walkFrom c t ⟨addr, enc (.pdf c.bigEndian) t v⟩ q = .ok (some (u', r')) ∧
      (r.addr + r.bytes.length ≤ r'.addr ∨ r'.addr + r'.bytes.length ≤ r.addr) := by
  obtain ⟨_, o, h1, h2, _⟩ := c75_part c rd hrd t v addr p u w hx hsm ha hf hl hp h
  obtain ⟨_, o', h1', h2', _⟩ := c75_part c rd hrd t v addr q u' w' hx hsm ha hf hl hq h'
  refine ⟨_, _, h2, h2', ?_⟩
  have := spot_apart hrd hf h h' h1 h1' hpq
  simp only
  omega

example : Parting [.elem 0, .member 1] [.elem 1] := ⟨[], .elem 0, .elem 1, _, _, rfl, rfl, by decide⟩
example : Parting [.elem 0, .member 1] [.elem 0, .member 0, .content] :=
  ⟨[.elem 0], .member 1, .member 0, _, _, rfl, rfl, by decide⟩
-- in other data two elements can share bytes: the framing offsets of this `aay` are 3, 1 and 3
example : walkFrom dbg (.A (.A .Y)) ⟨64, [7, 8, 9, 3, 1, 3]⟩ [.elem 0] = .ok (some (.A .Y, ⟨64, [7, 8, 9]⟩)) := by rfl
example : walkFrom dbg (.A (.A .Y)) ⟨64, [7, 8, 9, 3, 1, 3]⟩ [.elem 2] = .ok (some (.A .Y, ⟨65, [8, 9]⟩)) := by rfl

-- the two texts in `listed`
example : ∃ r r', walkFrom dbg (.A (.tuple [.S, .V])) ⟨64, enc (.pdf false) (.A (.tuple [.S, .V])) listed⟩
      [.elem 0, .member 0] = .ok (some (.S, r)) ∧
    walkFrom dbg (.A (.tuple [.S, .V])) ⟨64, enc (.pdf false) (.A (.tuple [.S, .V])) listed⟩
      [.elem 1, .member 0] = .ok (some (.S, r')) ∧
    (r.addr + r.bytes.length ≤ r'.addr ∨ r'.addr + r'.bytes.length ≤ r.addr) :=
  c75_apart dbg (takeNormal dbg) (c75_variants dbg).1 (.A (.tuple [.S, .V])) listed 64 _ _ .S .S (.str [97])
    (.str [98, 99]) (by decide) (by decide) (by decide) (by
      simp [listed, Fits, FitsAll, Text, ← utf8Valid_iff]
      decide) (by decide) (by intro u h; simp at h) (by intro u h; simp at h) rfl rfl
    ⟨[], .elem 0, .elem 1, _, _, rfl, rfl, by decide⟩

/-- Within what the crate serialized (where that is the normal form, see C41) each part is what the crate
    serializes for the part alone. -/
theorem c75_written (c : Cfg) (t : Ty) (x : Src) (addr : Nat) (p : List Step) (u : Ty) (w : Val)
    (h : Serializable t x) (hn : ¬ HasNul x) (hsm : Small t) (ha : Spec.align t ∣ addr)
    (hl : (bytesOf c t x).length < 2 ^ 63)
    (he : EvenEnds (.crate c.bigEndian) t (meaning (.crate c.bigEndian) t x))
    (hp : ∀ u, Step.inside u ∉ p)
    (hw : follow (fun _ _ => none) t (meaning (.crate c.bigEndian) t x) p = some (u, w)) :
    ∃ b r, serializeToVec c t x = .ok b ∧ walkFrom c t ⟨addr, b⟩ p = .ok (some (u, r)) ∧ PartOf ⟨addr, b⟩ r ∧
      ∀ y, Serializable u y → ¬ HasNul y → meaning (.crate c.bigEndian) u y = w → serializeToVec c u y = .ok r.bytes := by
  have hf := bytesOf_fits (c := c) h hn
  have hb : bytesOf c t x = enc (.pdf c.bigEndian) t (meaning (.crate c.bigEndian) t x) := enc_even _ t _ he
  have hl' := hl
  rw [hb] at hl'
  obtain ⟨k1, o, _, k3, k4, k5⟩ := c75_part c (fun _ _ => none) (fun _ _ _ h => by cases h) t _ addr p u w h.ex hsm ha
    hf hl' (fun u hu => absurd hu (hp u)) hw
  refine ⟨_, _, vec_good h hn (by omega), by rw [hb]; exact k3, ⟨o, _, Nat.le_add_right _ _, by rw [hb]; exact k4, rfl, ?_⟩, ?_⟩
  · simp only [hb]
    conv_lhs => rw [← k5]
    simp [Spec.sub, List.drop_take]
  · intro y hy hny hm
    have hby : bytesOf c u y = enc (.pdf c.bigEndian) u w := by
      unfold bytesOf
      rw [hm]
      exact enc_even _ u w (evenEnds_follow p hp t _ u w hf he hw)
    rw [vec_good hy hny (by rw [hby]; omega), hby]

example : serializeToVec dbg (.A (.tuple [.S, .A .Y])) (.seq [.tup [.str [97], .seq [.num 7]], .tup [.str [], .seq []]]) =
      .ok [97, 0, 7, 2, 0, 1, 4, 6] ∧
    walkFrom dbg (.A (.tuple [.S, .A .Y])) ⟨64, [97, 0, 7, 2, 0, 1, 4, 6]⟩ [.elem 0] =
      .ok (some (.tuple [.S, .A .Y], ⟨64, [97, 0, 7, 2]⟩)) ∧
    serializeToVec dbg (.tuple [.S, .A .Y]) (.tup [.str [97], .seq [.num 7]]) = .ok [97, 0, 7, 2] := ⟨rfl, rfl, rfl⟩

end GV.Props
