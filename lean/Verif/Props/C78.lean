import Verif.Proofs.Tree
import Verif.Props.C39_C44
/-
C78: values in which variants hold values, to any depth: normal form, reading, writing.
-/
namespace GV.Props
open GV Spec

/-- A dictionary `a{sv}` with a number under "n" and, under "l", a variant holding an array of variants. -/
def settings : Tree := .arr [.tup [.str [110], .variant .U (.num 7)],
  .tup [.str [108], .variant (.A .V) (.arr [.variant .S (.str [104, 105]), .variant .V (.variant .Y (.num 9))])]]

def settingsBytes : Bytes :=
  [110, 0, 0, 0, 0, 0, 0, 0, 7, 0, 0, 0, 0, 117, 2, 0,
   108, 0, 0, 0, 0, 0, 0, 0, 104, 105, 0, 0, 115, 0, 0, 0, 9, 0, 121, 0, 118, 5, 13, 0, 97, 118, 2, 15, 43]

example : settings.enc (.pdf false) (.A (.dict .S .V)) = settingsBytes := by decide +kernel
theorem settings_fits : settings.Fits (.A (.dict .S .V)) := by
  simp [settings, Tree.Fits, Tree.FitsEach, Tree.FitsAll, Text, numWidth, isStr, ← utf8Valid_iff]
  decide

/-- Going to any part, through any number of variants: no panic, and the reference is exactly the normal form
    of the part, lies in the data, and shows the part. -/
theorem c78_part (c : Cfg) (t : Ty) (x : Tree) (addr : Nat) (p : List Step) (u : Ty) (y : Tree) (hx : Expands t)
    (hsm : Small t) (ha : Spec.align t ∣ addr) (hf : x.Fits t) (hl : (x.enc (.pdf c.bigEndian) t).length < 2 ^ 63)
    (hp : Proper p) (h : x.follow t p = some (u, y)) :
    ∃ o, walkFrom c t ⟨addr, x.enc (.pdf c.bigEndian) t⟩ p = .ok (some (u, ⟨addr + o, y.enc (.pdf c.bigEndian) u⟩)) ∧
      o + (y.enc (.pdf c.bigEndian) u).length ≤ (x.enc (.pdf c.bigEndian) t).length ∧
      sub (x.enc (.pdf c.bigEndian) t) o (o + (y.enc (.pdf c.bigEndian) u).length) = y.enc (.pdf c.bigEndian) u ∧
      view c u ⟨addr + o, y.enc (.pdf c.bigEndian) u⟩ = .ok (y.flat (.pdf c.bigEndian)) := by
  have hff := flat_fits (.pdf c.bigEndian) x t hf
  have h1 := follow_flat (c75_variants c).2 p t u x y hp hf hl h
  obtain ⟨_, o, _, k2, k3, k4⟩ := c75_part c (takeNormal c) (c75_variants c).1 t _ addr p u _ hx hsm ha hff hl hp h1.2
  have hop : Opens c.bigEndian (readOut c) := by
    intro u w hx hsm hf hl
    unfold readOut
    rw [(c54_read c u w 0 hx hsm (Nat.dvd_zero _) hf hl).1]
  have h2 := follow_flat hop p t u x y hp hf hl h
  obtain ⟨r, k5, k6⟩ := c72_part c t ⟨addr, x.enc (.pdf c.bigEndian) t⟩ _ p u _ hx hsm ha hl hp
    (c54_read c t _ addr hx hsm ha hff hl).1 h2.2
  refine ⟨o, k2, k3, k4, ?_⟩
  have k2' : walkFrom c t ⟨addr, x.enc (.pdf c.bigEndian) t⟩ p =
      .ok (some (u, ⟨addr + o, y.enc (.pdf c.bigEndian) u⟩)) := k2
  rw [k5] at k2'
  cases k2'
  exact k6

-- the innermost byte, four variants deep
example : settings.follow (.A (.dict .S .V)) [.elem 1, .member 1, .inside (.A .V), .elem 1, .inside .V, .inside .Y] =
    some (.Y, .num 9) := by rfl
example : walkFrom dbg (.A (.dict .S .V)) ⟨64, settingsBytes⟩
    [.elem 1, .member 1, .inside (.A .V), .elem 1, .inside .V, .inside .Y] = .ok (some (.Y, ⟨96, [9]⟩)) := by rfl

/-- And a program finds nothing else: if going along a path gives a reference, the path leads to a part of the
    value, of which the reference is the normal form.  (A build without overflow checks may find something at
    huge indices, see C31.) -/
theorem c78_only (c : Cfg) (t : Ty) (x : Tree) (addr : Nat) (p : List Step) (u : Ty) (r : Slice) (hx : Expands t)
    (hsm : Small t) (ha : Spec.align t ∣ addr) (hf : x.Fits t) (hl : (x.enc (.pdf c.bigEndian) t).length < 2 ^ 63)
    (hp : Proper p) (hi : SmallIndices c p)
    (h : walkFrom c t ⟨addr, x.enc (.pdf c.bigEndian) t⟩ p = .ok (some (u, r))) :
    ∃ y, x.follow t p = some (u, y) ∧ y.Fits u ∧ r.bytes = y.enc (.pdf c.bigEndian) u := by
  have hff := flat_fits (.pdf c.bigEndian) x t hf
  have hop : Opens c.bigEndian (readOut c) := by
    intro u w hx hsm hf hl
    unfold readOut
    rw [(c54_read c u w 0 hx hsm (Nat.dvd_zero _) hf hl).1]
  rcases c72_only c t ⟨addr, x.enc (.pdf c.bigEndian) t⟩ _ p u r hx hsm ha hl hp hi
    (c54_read c t _ addr hx hsm ha hff hl).1 h with ⟨w, h1, _⟩ | ⟨q, u', rest, d, rfl, h2, h3⟩
  · obtain ⟨y, hy, rfl⟩ := flat_follow hop p t u x w hp hf hl h1
    obtain ⟨o, k1, _⟩ := c78_part c t x addr p u y hx hsm ha hf hl hp hy
    rw [h] at k1
    cases k1
    exact ⟨y, hy, (follow_flat hop p t u x y hp hf hl hy).1, rfl⟩
  · have hq : Proper q := fun u hu => hp u (by simp [hu])
    obtain ⟨y, hy, he⟩ := flat_follow hop q t _ x _ hq hf hl h2
    have hyf := (follow_flat hop q t _ x y hq hf hl hy).1
    have k2 : (y.enc (.pdf c.bigEndian) .V).length ≤ (x.enc (.pdf c.bigEndian) t).length := by
      obtain ⟨o, _, k2, _⟩ := c78_part c t x addr q _ y hx hsm ha hf hl hq hy
      omega
    cases y <;> simp only [Tree.Fits, Tree.flat, Val.variant.injEq, reduceCtorEq] at hyf he
    rename_i u'' z
    have := c01_show_injective _ _ he.1
    subst this
    have hpu := hp u' (by simp)
    have hzl : (z.enc (.pdf c.bigEndian) u').length < 2 ^ 63 := by
      have := child_length (be := c.bigEndian) (x := .variant u' z) (t := .V) (s := .inside u') (u := u') (y := z)
        (by simp [Tree.Fits, hyf.2]) (by simp [Tree.child])
      omega
    rw [he.2, hop u' _ hpu.1 hpu.2 (flat_fits _ z _ hyf.2) hzl] at h3
    cases h3

example : walkFrom dbg (.A (.dict .S .V)) ⟨64, settingsBytes⟩ [.elem 0, .member 1, .inside .S] = .ok none := by rfl

/-- Reading the data and then, again and again, the data of the variants found, with the types they name, gives
    back the whole value. -/
theorem c78_read (c : Cfg) (t : Ty) (x : Tree) (addr : Nat) (hx : Expands t) (hsm : Small t)
    (ha : Spec.align t ∣ addr) (hf : x.Fits t) (hu : ∀ u ∈ x.types, Expands u ∧ Small u)
    (hl : (x.enc (.pdf c.bigEndian) t).length < 2 ^ 63) :
    ∃ v, readAs c t ⟨addr, x.enc (.pdf c.bigEndian) t⟩ = .ok v ∧
      treeTo (readOut c) (x.enc (.pdf c.bigEndian) t).length v = some x := by
  refine ⟨_, (c54_read c t _ addr hx hsm ha (flat_fits _ x t hf) hl).1, ?_⟩
  refine treeTo_flat (P := fun u => Expands u ∧ Small u) ?_ x t _ hf hu hl (Nat.le_refl _)
  intro u w hu hf hl
  unfold readOut
  rw [(c54_read c u w 0 hu.1 hu.2 (Nat.dvd_zero _) hf hl).1]

example : ∀ u ∈ settings.types, Expands u ∧ Small u := by
  simp only [settings, Tree.types, Tree.typesAll]; decide
example : ∃ v, readAs dbg (.A (.dict .S .V)) ⟨64, settings.enc (.pdf false) (.A (.dict .S .V))⟩ = .ok v ∧
    treeTo (readOut dbg) (settings.enc (.pdf false) (.A (.dict .S .V))).length v = some settings :=
  c78_read dbg (.A (.dict .S .V)) settings 64 (by decide) (by decide) (by decide) settings_fits
    (by simp only [settings, Tree.types, Tree.typesAll]; decide) (by decide +kernel)

/-- The check of the bytes that also looks into variants accepts exactly the encodings of such values. -/
theorem c78_recognise (be : Bool) (t : Ty) (b : Bytes) (hl : b.length < 2 ^ 63) :
    cleanDeep be t b = true ↔ DeepNormal be t b :=
  cleanTo_iff be _ t b hl (by omega)

-- a variant that is in normal form itself but holds a string that does not end with a zero byte, or whose type
-- string is none
example : cleanDeep false (.A (.dict .S .V)) settingsBytes = true ∧ clean .V [104, 0, 115] = true ∧
    cleanDeep false .V [104, 0, 115] = false ∧ cleanDeep false .V [104, 0, 0, 115] = true ∧
    clean .V [7, 0, 121, 121] = true ∧ cleanDeep false .V [7, 0, 121, 121] = false := by decide +kernel

/-- Different values have different encodings. -/
theorem c78_unique (be : Bool) (t : Ty) (x y : Tree) (hx : x.Fits t) (hy : y.Fits t)
    (hl : (x.enc (.pdf be) t).length < 2 ^ 63) (h : x.enc (.pdf be) t = y.enc (.pdf be) t) : x = y :=
  treeEnc_inj hx hy hl h

example : (Tree.variant .Y (.num 5)).enc (.pdf false) .V ≠ (Tree.variant (.A .Y) (.arr [.num 5])).enc (.pdf false) .V := by
  decide

/-- What is written for a value with `VariantWrap`s inside is, if no array ends with a padded element, the
    normal form of that value to any depth; and it is read back, variants and all. -/
theorem c78_written (c : Cfg) (t : Ty) (x : Src) (h : Serializable t x) (hn : ¬ HasNul x) (hpl : WrapOnly x)
    (hl : Bounded c t x) (he : EvenEnds (.crate c.bigEndian) t (meaning (.crate c.bigEndian) t x))
    (hw : EvenWraps (.crate c.bigEndian) x) :
    ∃ b, serializeToVec c t x = .ok b ∧ (sourceTree t x).Fits t ∧ b = (sourceTree t x).enc (.pdf c.bigEndian) t ∧
      cleanDeep c.bigEndian t b = true ∧
      ∀ addr, Small t → Spec.align t ∣ addr → (∀ u ∈ wraps x, Small u) →
        ∃ v, readAs c t ⟨addr, b⟩ = .ok v ∧ treeTo (readOut c) b.length v = some (sourceTree t x) := by
  have hb := c41_deep_partial c t x h hn hl he hw
  have hf := sourceTree_fits x t h.acc hpl hn
  have hbl : ((sourceTree t x).enc (.pdf c.bigEndian) t).length < 2 ^ 63 := by
    rw [bounded_iff hn] at hl
    have := vec_good h hn hl
    rw [hb] at this
    unfold Tree.enc
    rw [sourceTree_flat _ x t hpl, Res.ok.inj this]
    exact hl
  have hE : enc (.pdf c.bigEndian) t (meaning (.pdf c.bigEndian) t x) = (sourceTree t x).enc (.pdf c.bigEndian) t := by
    unfold Tree.enc
    rw [sourceTree_flat _ x t hpl]
  rw [hE] at hb
  exact ⟨_, hb, hf, rfl, (c78_recognise _ t _ hbl).2 ⟨_, hf, rfl⟩,
    fun addr hsm ha hu => c78_read c t _ addr h.ex hsm ha hf (fun u hm =>
      ⟨h.inner u (sourceTree_types x t u hm), hu u (sourceTree_types x t u hm)⟩) hbl⟩

/-- The same dictionary from Rust values; its last entry ends at a multiple of eight. -/
def given : Src := .seq [.tup [.str [110], .wrap .U (.num 7)],
  .tup [.str [108], .wrap (.A .Y) (.seq [.num 1, .num 2, .num 3, .num 4])]]

example : serializeToVec dbg (.A (.dict .S .V)) given = .ok
    [110, 0, 0, 0, 0, 0, 0, 0, 7, 0, 0, 0, 0, 117, 2, 0,
     108, 0, 0, 0, 0, 0, 0, 0, 1, 2, 3, 4, 0, 97, 121, 2, 15, 32] := by rfl
example : EvenEnds (.crate false) (.A (.dict .S .V)) (meaning (.crate false) (.A (.dict .S .V)) given) ∧
    EvenWraps (.crate false) given ∧ WrapOnly given := by
  refine ⟨?_, ?_, ?_⟩
  · simp [given, EvenEnds, meaning, meaningEach, meaningAll, Spec.align, size, enc, laid, numBytes, leBytes, zeros,
      Ty.show, Enc.crate, roundUp, encStruct, frames, frameEnds, frameWidth, offsetWidth]
  · simp [given, EvenWraps, EvenWrapsAll, EvenEnds, meaning, meaningEach, Spec.align, size]
  · simp [given, WrapOnly, WrapOnlyAll]

end GV.Props
