import Verif.Proofs.TameEnc
import Verif.Proofs.Reser
import Verif.Proofs.Inj
import Verif.Proofs.Roles
import Verif.Proofs.Eq
import Verif.Props.C10_C19
/-
C43, C45, C46: serializing what was read; booleans; padding.
-/
namespace GV.Props
open GV Spec

/-! ### C43 -/

/-- Reading any bytes and serializing what was read gives bytes that read as the same value; doing it
    again changes nothing. -/
def C43_full : Prop := ∀ (c : Cfg) (t : Ty) (s : Slice) (v : Val), Expands t → Small t → Spec.align t ∣ s.addr →
  s.len < 2 ^ 63 → readAs c t s = .ok v → (enc (.crate c.bigEndian) t v).length < 2 ^ 63 →
  ∃ b, reserialize c t s = .ok b ∧ readAs c t ⟨s.addr, b⟩ = .ok v ∧ reserialize c t ⟨s.addr, b⟩ = .ok b

/-- `a(si)` with one element, in normal form, grows to four elements, and again when repeated. -/
theorem c43_full_false : ¬ C43_full := by
  intro h
  obtain ⟨b, h1, h2, _⟩ := h dbg (.A (.tuple [.S, .I])) ⟨64, [104, 105, 0, 0, 254, 255, 255, 255, 3, 9]⟩
    (.arr [.tup [.str [104, 105], .num 4294967294]]) (by decide) (by decide) (by decide) (by decide) rfl (by decide)
  rw [show reserialize dbg (.A (.tuple [.S, .I])) ⟨64, [104, 105, 0, 0, 254, 255, 255, 255, 3, 9]⟩ =
    .ok [104, 105, 0, 0, 254, 255, 255, 255, 3, 0, 0, 0, 9] from rfl] at h1
  cases h1
  rw [show readAs dbg (.A (.tuple [.S, .I])) ⟨64, [104, 105, 0, 0, 254, 255, 255, 255, 3, 0, 0, 0, 9]⟩ =
    .ok (.arr [.tup [.str [], .num 0], .tup [.str [], .num 0], .tup [.str [], .num 0],
      .tup [.str [104, 105], .num 4294967294]]) from rfl] at h2
  cases h2

/-- The same in a release build: 10 bytes become 13, then 52. -/
example : (reserialize rel (.A (.tuple [.S, .I])) ⟨64, [104, 105, 0, 0, 254, 255, 255, 255, 3, 9]⟩ >>= fun b =>
      reserialize rel (.A (.tuple [.S, .I])) ⟨64, b⟩ >>= fun b' => .ok (b.length, b'.length)) = .ok (13, 52) := by
  decide +kernel

/-- What is written is the encoding of the value that was read, whatever bytes it was read from, wherever
    they are and however malformed; and it is equal for two inputs exactly if they read as equal values. -/
theorem c43_depends_on_value (c : Cfg) (t : Ty) (s s' : Slice) (v v' : Val) (hx : Expands t) (hsm : Small t)
    (ha : Spec.align t ∣ s.addr) (ha' : Spec.align t ∣ s'.addr) (hl : s.len < 2 ^ 63) (hl' : s'.len < 2 ^ 63)
    (h : readAs c t s = .ok v) (h' : readAs c t s' = .ok v')
    (hle : (enc (.crate c.bigEndian) t v).length < 2 ^ 63)
    (hle' : (enc (.crate c.bigEndian) t v').length < 2 ^ 63) :
    reserialize c t s = .ok (enc (.crate c.bigEndian) t v) ∧
      (reserialize c t s = reserialize c t s' ↔ v = v') := by
  obtain ⟨h1, hf⟩ := reserialize_ok hx hsm ha hl h hle
  obtain ⟨h2, hf'⟩ := reserialize_ok hx hsm ha' hl' h' hle'
  refine ⟨h1, ?_⟩
  rw [h1, h2]
  constructor
  · intro he
    exact enc_inj _ t v v' hf hf' (by omega) (Res.ok.inj he)
  · rintro rfl; rfl

/-- `(si)` with a default string, and two malformed spellings of it: no room for the offset, and an
    offset beyond the end. -/
example : reserialize dbg (.tuple [.S, .I]) ⟨64, []⟩ = .ok [0, 0, 0, 0, 0, 0, 0, 0, 1] ∧
    reserialize dbg (.tuple [.S, .I]) ⟨64, [0, 0, 0, 0, 0, 0, 0, 0, 200]⟩ = .ok [0, 0, 0, 0, 0, 0, 0, 0, 1] ∧
    readAs dbg (.tuple [.S, .I]) ⟨64, []⟩ = .ok (.tup [.str [], .num 0]) := ⟨rfl, rfl, rfl⟩

/-- The result reads as the same value exactly if no array in it needs padding after its last element,
    and then doing it again changes nothing.  Missing: other values, for which it is false. -/
theorem c43_stable_partial (c : Cfg) (t : Ty) (s : Slice) (v : Val) (hx : Expands t) (hsm : Small t)
    (ha : Spec.align t ∣ s.addr) (hl : s.len < 2 ^ 63) (h : readAs c t s = .ok v)
    (hle : (enc (.crate c.bigEndian) t v).length < 2 ^ 63) :
    ∃ b, reserialize c t s = .ok b ∧
      (readAs c t ⟨s.addr, b⟩ = .ok v ↔ EvenEnds (.crate c.bigEndian) t v) ∧
      (EvenEnds (.crate c.bigEndian) t v → reserialize c t ⟨s.addr, b⟩ = .ok b) := by
  obtain ⟨h1, hf⟩ := reserialize_ok hx hsm ha hl h (by omega)
  have htr := trip (R := .crate c.bigEndian) (E := .crate c.bigEndian) rfl t v hf (by omega)
  have hiff : readAs c t ⟨s.addr, enc (.crate c.bigEndian) t v⟩ = .ok v ↔ EvenEnds (.crate c.bigEndian) t v := by
    rw [readAs_tame (s := ⟨s.addr, enc (.crate c.bigEndian) t v⟩) hx hsm ha (fun _ => hle) (tame_enc t v hf hle)]
    constructor
    · intro hr
      split at hr
      · cases hr
      · exact htr.1.1 (Res.ok.inj hr) rfl
    · intro he
      rw [if_neg]
      · exact congrArg _ (htr.1.2 fun _ => he)
      · show ¬ ragged (.crate c.bigEndian) t (enc (.crate c.bigEndian) t _) = true
        rw [htr.2 fun _ => he]; simp
  refine ⟨_, h1, hiff, fun he => ?_⟩
  exact (reserialize_ok (s := ⟨s.addr, enc (.crate c.bigEndian) t v⟩) hx hsm ha
    (show (enc (.crate c.bigEndian) t v).length < 2 ^ 63 by omega) (hiff.2 he) (by omega)).1

/-- A malformed `(ybas)` (boolean 7, unterminated string). -/
example : reserialize dbg (.tuple [.Y, .B, .A .S]) ⟨64, [5, 7, 97, 0, 98, 2, 3]⟩ = .ok [5, 1, 97, 0, 0, 2, 3] ∧
    reserialize dbg (.tuple [.Y, .B, .A .S]) ⟨64, [5, 1, 97, 0, 0, 2, 3]⟩ = .ok [5, 1, 97, 0, 0, 2, 3] := by
  decide +kernel

/-! ### C45 -/

/-- Every non-zero byte reads as true; anything but one byte reads as false. -/
theorem c45_read (c : Cfg) (addr : Nat) (b : Bytes) :
    readAs c .B ⟨addr, b⟩ = .ok (.bool (decide (b.length = 1 ∧ b ≠ [0]))) := by
  rw [readAs_ok' (s := ⟨addr, b⟩) (by decide) (by decide) (by simp [Spec.align]) (fun h => by cases h)]
  rw [if_neg (by simp [ragged])]
  match b with
  | [] => rfl
  | [x] => simp [dec]
  | _ :: _ :: _ => simp [dec]

/-- Booleans are serialized as exactly 0 or 1. -/
theorem c45_written (c : Cfg) (b : Bool) (x : UInt8) :
    serializeToVec c .B (.bool b) = .ok [if b then 1 else 0] ∧
    serializeToVec c .B (.boolRef x) = .ok [if x = 0 then 0 else 1] := by
  constructor
  · cases b <;> rfl
  · by_cases hx : x = 0
    · subst hx; rfl
    · have h1 : x > 0 := by
        rw [gt_iff_lt, UInt8.lt_iff_toNat_lt]
        have : x.toNat ≠ 0 := fun h => hx (UInt8.toNat_inj.1 h)
        simp; omega
      rw [if_neg hx]
      simp only [serializeToVec, serialize, ser, if_pos h1]
      rfl

mutual
/-- Replace every `&Bool` in a source by the `&bool` it reads as. -/
def plainBools : Src → Src
  | .boolRef x => .bool (x ≠ 0)
  | .wrap t x => .wrap t (plainBools x)
  | .seq xs => .seq (plainBoolsAll xs)
  | .just x => .just (plainBools x)
  | .iter xs => .iter (plainBoolsAll xs)
  | .tup xs => .tup (plainBoolsAll xs)
  | x => x
/-- The same for several. -/
def plainBoolsAll : List Src → List Src
  | [] => []
  | x :: xs => plainBools x :: plainBoolsAll xs
end

theorem plainBoolsAll_eq (xs : List Src) : plainBoolsAll xs = xs.map plainBools := by
  induction xs with
  | nil => rfl
  | cons x xs ih => simp [plainBoolsAll, ih]

/-- Wherever a `&Bool` is in a container, it is serialized like the boolean it reads as: all calls to the
    writer and the result are the same, also if the writer fails. -/
theorem c45_containers {σ : Type} (w : Writer σ) (c : Cfg) (x : Src) : ∀ t,
    ser w c t (plainBools x) = ser w c t x := by
  have hpos : ∀ y : UInt8, (y > 0) ↔ y ≠ 0 := by
    intro y
    rw [gt_iff_lt, UInt8.lt_iff_toNat_lt]
    have : y.toNat ≠ 0 ↔ y ≠ 0 := not_congr ⟨fun h => UInt8.toNat_inj.1 h, fun h => by rw [h]; rfl⟩
    rw [← this]
    simp; omega
  induction x using Src.ind with
  | boolRef y => intro t; simp only [plainBools, ser, hpos]; simp
  | wrap u x ih => intro t; simp only [plainBools, ser, ih]
  | just x ih => intro t; simp only [plainBools, ser, ih]
  | seq xs ih =>
    intro t
    simp only [plainBools, plainBoolsAll_eq, ser]
    split
    · rename_i e
      split
      · generalize 0 = n
        induction xs generalizing n with
        | nil => rfl
        | cons x xs ihx =>
          simp only [List.map_cons, serFixed, ih x (by simp), ihx fun y hy => ih y (by simp [hy])]
      · have : ∀ (n : Nat) (l : List Nat), serElems w c e n l (xs.map plainBools) = serElems w c e n l xs := by
          induction xs with
          | nil => intro n l; rfl
          | cons x xs ihx =>
            intro n l
            simp only [List.map_cons, serElems, ih x (by simp), ihx fun y hy => ih y (by simp [hy])]
        rw [this]
    · rfl
  | iter xs ih =>
    intro t
    cases xs with
    | nil => rfl
    | cons x xs =>
      simp only [plainBools, plainBoolsAll]
      rw [ser.eq_def, ser.eq_def w c t (.iter (x :: xs))]
      simp only [ih x (by simp)]
  | tup xs ih =>
    intro t
    have : ∀ ts, serMembers w c ts (xs.map plainBools) = serMembers w c ts xs := by
      induction xs with
      | nil => intro ts; rfl
      | cons x xs ihx =>
        intro ts
        cases ts with
        | nil => rfl
        | cons u ts => simp only [List.map_cons, serMembers, ih x (by simp), ihx fun y hy => ih y (by simp [hy])]
    simp only [plainBools, plainBoolsAll_eq, ser, this]
  | _ => intro t; rfl

/-- Equality of `Bool`s is equality of booleans. -/
theorem c45_equal (c : Cfg) (a a' : Nat) (x y : UInt8) :
    eqAs c .B ⟨a, [x]⟩ ⟨a', [y]⟩ = .ok (decide (x = 0 ↔ y = 0)) := by
  obtain ⟨z, h1, h2⟩ := eqAs_ok (c := c) (t := .B) (a := ⟨a, [x]⟩) (b := ⟨a', [y]⟩) (by decide) (by decide)
    (by simp [Spec.align]) (by simp [Spec.align]) (by simp [Slice.len]) (by simp [Slice.len]) (c45_read c a [x]) (c45_read c a' [y])
  rw [h1, Res.ok.injEq, Bool.eq_iff_iff, h2]
  simp only [Same, Val.bool.injEq, decide_eq_true_eq]
  by_cases hx : x = 0 <;> by_cases hy : y = 0 <;> simp [hx, hy]

/-- Bytes 0, 1, 2 and 255 in a `(bab)`: read, compared with their canonical form, and re-serialized. -/
example : readAs dbg (.tuple [.B, .A .B]) ⟨64, [255, 0, 1, 2]⟩ =
      .ok (.tup [.bool true, .arr [.bool false, .bool true, .bool true]]) ∧
    eqAs dbg (.tuple [.B, .A .B]) ⟨64, [255, 0, 1, 2]⟩ ⟨64, [1, 0, 1, 1]⟩ = .ok true ∧
    reserialize dbg (.tuple [.B, .A .B]) ⟨64, [255, 0, 1, 2]⟩ = .ok [1, 0, 1, 1] := ⟨rfl, rfl, rfl⟩

/-! ### C46 -/

/-- Data of a fixed-size type reads as the same value exactly if its bytes mean the same in their roles:
    padding never matters, of a boolean only whether it is zero, and every other byte does. -/
theorem c46_value (c : Cfg) (t : Ty) (n a a' : Nat) (b b' : Bytes) (hx : Expands t) (hsm : Small t)
    (hs : size t = some n) (ha : Spec.align t ∣ a) (ha' : Spec.align t ∣ a') (hb : b.length = n)
    (hb' : b'.length = n) :
    (∃ v, readAs c t ⟨a, b⟩ = .ok v) ∧
    (readAs c t ⟨a, b⟩ = readAs c t ⟨a', b'⟩ ↔ SameBytes (roles t) b b') := by
  have h1 : ∀ (a : Nat) (b : Bytes), Spec.align t ∣ a →
      readAs c t ⟨a, b⟩ = .ok (dec (.crate c.bigEndian) t b) := by
    intro a b ha
    rw [readAs_ok' (s := ⟨a, b⟩) hx hsm ha (fun h => by rw [hs] at h; cases h),
      if_neg (by simp [(dec_fixed _ t n hs b).2])]
  rw [h1 a b ha, h1 a' b' ha', Res.ok.injEq, dec_same _ t n hs b b' hb hb', sameBytes_iff (by omega)]
  exact ⟨⟨_, rfl⟩, Iff.rfl⟩

/-- Then they are also re-serialized to the same bytes (and only then). -/
theorem c46_reserialized (c : Cfg) (t : Ty) (n a a' : Nat) (b b' : Bytes) (hx : Expands t) (hsm : Small t)
    (hs : size t = some n) (ha : Spec.align t ∣ a) (ha' : Spec.align t ∣ a') (hb : b.length = n)
    (hb' : b'.length = n) :
    (∃ d, reserialize c t ⟨a, b⟩ = .ok d ∧ d.length = n) ∧
    (reserialize c t ⟨a, b⟩ = reserialize c t ⟨a', b'⟩ ↔ SameBytes (roles t) b b') := by
  have hn : n < 2 ^ 63 := by have := size_bound t n hs; unfold Small at hsm; omega
  obtain ⟨⟨v, hv⟩, hiff⟩ := c46_value c t n a a' b b' hx hsm hs ha ha' hb hb'
  obtain ⟨⟨v', hv'⟩, _⟩ := c46_value c t n a' a b' b hx hsm hs ha' ha hb' hb
  have hl : (⟨a, b⟩ : Slice).len < 2 ^ 63 := by show b.length < _; omega
  have hl' : (⟨a', b'⟩ : Slice).len < 2 ^ 63 := by show b'.length < _; omega
  have hf := readAs_fits hx hsm ha hl hv
  have hf' := readAs_fits hx hsm ha' hl' hv'
  have hle := enc_length (.crate c.bigEndian) t v n hf hs
  have hle' := enc_length (.crate c.bigEndian) t v' n hf' hs
  obtain ⟨h1, h2⟩ := c43_depends_on_value c t ⟨a, b⟩ ⟨a', b'⟩ v v' hx hsm ha ha' hl hl' hv hv' (by omega) (by omega)
  refine ⟨⟨_, h1, hle⟩, ?_⟩
  rw [h2, ← hiff, hv, hv', Res.ok.injEq]

/-- Then they compare equal, and if there are no doubles inside, only then. -/
theorem c46_equal (c : Cfg) (t : Ty) (n a a' : Nat) (b b' : Bytes) (hx : Expands t) (hsm : Small t)
    (hs : size t = some n) (ha : Spec.align t ∣ a) (ha' : Spec.align t ∣ a') (hb : b.length = n)
    (hb' : b'.length = n) :
    ∃ x, eqAs c t ⟨a, b⟩ ⟨a', b'⟩ = .ok x ∧ (¬ Component .D t → (x = true ↔ SameBytes (roles t) b b')) := by
  have hn : n < 2 ^ 63 := by have := size_bound t n hs; unfold Small at hsm; omega
  obtain ⟨⟨v, hv⟩, hiff⟩ := c46_value c t n a a' b b' hx hsm hs ha ha' hb hb'
  obtain ⟨⟨v', hv'⟩, _⟩ := c46_value c t n a' a b' b hx hsm hs ha' ha hb' hb
  have hl : (⟨a, b⟩ : Slice).len < 2 ^ 63 := by show b.length < _; omega
  have hl' : (⟨a', b'⟩ : Slice).len < 2 ^ 63 := by show b'.length < _; omega
  obtain ⟨x, h1, h2⟩ := eqAs_ok hx hsm ha ha' hl hl' hv hv'
  refine ⟨x, h1, fun hd => ?_⟩
  rw [h2, ← hiff, hv, hv', Res.ok.injEq]
  exact same_eq t hd v v' (readAs_fits hx hsm ha hl hv) (readAs_fits hx hsm ha' hl' hv')

/-- Padding never influences comparison, with doubles inside or not. -/
theorem c46_equal_padding (c : Cfg) (t : Ty) (n a₁ a₂ a₃ a₄ : Nat) (b₁ b₂ b₃ b₄ : Bytes) (hx : Expands t)
    (hsm : Small t) (hs : size t = some n) (h₁ : Spec.align t ∣ a₁) (h₂ : Spec.align t ∣ a₂)
    (h₃ : Spec.align t ∣ a₃) (h₄ : Spec.align t ∣ a₄) (l₁ : b₁.length = n) (l₂ : b₂.length = n)
    (l₃ : b₃.length = n) (l₄ : b₄.length = n) (h13 : SameBytes (roles t) b₁ b₃) (h24 : SameBytes (roles t) b₂ b₄) :
    eqAs c t ⟨a₁, b₁⟩ ⟨a₂, b₂⟩ = eqAs c t ⟨a₃, b₃⟩ ⟨a₄, b₄⟩ := by
  have hn : n < 2 ^ 63 := by have := size_bound t n hs; unfold Small at hsm; omega
  obtain ⟨⟨v, hv⟩, h13'⟩ := c46_value c t n a₁ a₃ b₁ b₃ hx hsm hs h₁ h₃ l₁ l₃
  obtain ⟨⟨w, hw⟩, h24'⟩ := c46_value c t n a₂ a₄ b₂ b₄ hx hsm hs h₂ h₄ l₂ l₄
  have hlen : ∀ (a : Nat) (b : Bytes), b.length = n → (⟨a, b⟩ : Slice).len < 2 ^ 63 := by
    intro a b h; show b.length < _; omega
  obtain ⟨x, e1, e2⟩ := eqAs_ok hx hsm h₁ h₂ (hlen _ _ l₁) (hlen _ _ l₂) hv hw
  obtain ⟨y, f1, f2⟩ := eqAs_ok hx hsm h₃ h₄ (hlen _ _ l₃) (hlen _ _ l₄) ((h13'.2 h13).symm.trans hv)
    ((h24'.2 h24).symm.trans hw)
  rw [e1, f1, Res.ok.injEq, Bool.eq_iff_iff, e2, f2]

/-- `(y(bi)q)`: 16 bytes, 8 of them padding. -/
example : roles (.tuple [.Y, .tuple [.B, .I], .Q]) =
      .data :: .pad :: .pad :: .pad :: .truth :: .pad :: .pad :: .pad :: .data :: .data :: .data :: .data ::
        .data :: .data :: .pad :: .pad :: [] ∧
    eqAs dbg (.tuple [.Y, .tuple [.B, .I], .Q]) ⟨64, [1, 9, 9, 9, 2, 9, 9, 9, 3, 0, 0, 0, 4, 0, 9, 9]⟩
      ⟨128, [1, 0, 0, 0, 1, 0, 0, 0, 3, 0, 0, 0, 4, 0, 0, 0]⟩ = .ok true ∧
    reserialize dbg (.tuple [.Y, .tuple [.B, .I], .Q]) ⟨64, [1, 9, 9, 9, 2, 9, 9, 9, 3, 0, 0, 0, 4, 0, 9, 9]⟩ =
      .ok [1, 0, 0, 0, 1, 0, 0, 0, 3, 0, 0, 0, 4, 0, 0, 0] := by
  decide +kernel

end GV.Props
