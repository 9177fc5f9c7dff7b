import Verif.Spec.Normal
import Verif.Proofs.TameEnc
import Verif.Proofs.Reser
import Verif.Proofs.Inj
import Verif.Proofs.Eq
import Verif.Props.C26_C29
import Verif.Props.C10_C19
import Verif.Proofs.Fuzz
import Verif.Proofs.Visits
/-
C54, C55, C56: data in normal form; the fuzz target; the size of re-serialized data.
-/
namespace GV.Props
open GV Spec

/-! ### C54 -/

/-- The encoding of a value of any type is read without panic as that value, both by the crate and by
    the letter of the specification, wherever it is. -/
theorem c54_read (c : Cfg) (t : Ty) (v : Val) (addr : Nat) (hx : Expands t) (hsm : Small t)
    (ha : Spec.align t ∣ addr) (hf : Fits t v) (hl : (enc (.pdf c.bigEndian) t v).length < 2 ^ 63) :
    readAs c t ⟨addr, enc (.pdf c.bigEndian) t v⟩ = .ok v ∧
      dec (.pdf c.bigEndian) t (enc (.pdf c.bigEndian) t v) = v := by
  have h1 := trip (R := .crate c.bigEndian) (E := .pdf c.bigEndian) rfl t v hf (by omega)
  have h2 := trip (R := .pdf c.bigEndian) (E := .pdf c.bigEndian) rfl t v hf (by omega)
  have hp : (Enc.pdf c.bigEndian).padLast = true → EvenEnds (.pdf c.bigEndian) t v := fun h => by cases h
  refine ⟨?_, h2.1.2 hp⟩
  rw [readAs_tame (s := ⟨addr, enc (.pdf c.bigEndian) t v⟩) hx hsm ha (fun _ => hl) (tame_enc t v hf hl)]
  rw [if_neg]
  · exact congrArg _ (h1.1.2 hp)
  · show ¬ ragged (.crate c.bigEndian) t (enc (.pdf c.bigEndian) t v) = true
    rw [h1.2 hp]; simp

/-- On data in normal form the crate and the specification agree; the value is one of the type, and no
    other value has this normal form. -/
theorem c54_agree (c : Cfg) (t : Ty) (s : Slice) (hx : Expands t) (hsm : Small t)
    (ha : Spec.align t ∣ s.addr) (hl : s.len < 2 ^ 63) (hn : Normal c.bigEndian t s.bytes) :
    readAs c t s = .ok (dec (.pdf c.bigEndian) t s.bytes) ∧ Fits t (dec (.pdf c.bigEndian) t s.bytes) ∧
      ∀ v, Fits t v ∧ enc (.pdf c.bigEndian) t v = s.bytes ↔ v = dec (.pdf c.bigEndian) t s.bytes := by
  obtain ⟨addr, b⟩ := s
  obtain ⟨v, hf, rfl⟩ := hn
  have hl : (enc (.pdf c.bigEndian) t v).length < 2 ^ 63 := hl
  obtain ⟨h1, h2⟩ := c54_read c t v addr hx hsm ha hf hl
  simp only [h2]
  refine ⟨h1, hf, fun w => ⟨fun ⟨hw, he⟩ => ?_, by rintro rfl; exact ⟨hf, rfl⟩⟩⟩
  exact (enc_inj _ t v w hf hw (by omega) he.symm).symm

/-- Whether data is in normal form can be found out by reading it: exactly if what the crate reads
    encodes to the same bytes. -/
theorem c54_recognise (c : Cfg) (t : Ty) (s : Slice) (hx : Expands t) (hsm : Small t)
    (ha : Spec.align t ∣ s.addr) (hl : s.len < 2 ^ 63) :
    Normal c.bigEndian t s.bytes ↔ ∃ v, readAs c t s = .ok v ∧ enc (.pdf c.bigEndian) t v = s.bytes := by
  constructor
  · intro hn
    obtain ⟨h1, h2, h3⟩ := c54_agree c t s hx hsm ha hl hn
    exact ⟨_, h1, ((h3 _).2 rfl).2⟩
  · rintro ⟨v, h1, h2⟩
    exact ⟨v, readAs_fits hx hsm ha hl h1, h2⟩

/-- A variant holding the normal form of a value of type `u`: asking it for type `u` gives a reference
    that reads as that value. -/
theorem c54_variant (c : Cfg) (u : Ty) (v : Val) (addr : Nat) (hx : Expands u) (hsm : Small u)
    (ha : 8 ∣ addr) (hf : Fits u v) (hl : (enc (.pdf c.bigEndian) u v).length < 2 ^ 63) :
    ∃ r, variantGet c u ⟨addr, enc (.pdf c.bigEndian) .V (.variant u.show (enc (.pdf c.bigEndian) u v))⟩ =
        .ok (some r) ∧ view c u r = .ok v := by
  have hd : Spec.align u ∣ addr := by
    rcases (specAlign_isAl u).cases with h | h | h | h <;> rw [h] <;> omega
  obtain ⟨h1, _⟩ := c54_read c u v addr hx hsm hd hf hl
  have hsp : split c ⟨addr, enc (.pdf c.bigEndian) .V (.variant u.show (enc (.pdf c.bigEndian) u v))⟩ =
      .ok (u.show, ⟨addr, enc (.pdf c.bigEndian) u v⟩) := by
    obtain ⟨ty, d, g1, _, g3, _⟩ := c27_split c
      ⟨addr, enc (.pdf c.bigEndian) .V (.variant u.show (enc (.pdf c.bigEndian) u v))⟩ (.inr ha)
    obtain ⟨rfl, rfl⟩ := g3 (enc (.pdf c.bigEndian) u v) u.show (by simp [enc]) (show_noNul u)
    exact g1
  unfold readAs at h1
  rw [Res.bind_eq_ok] at h1
  obtain ⟨r, h2, h3⟩ := h1
  refine ⟨r, ?_, h3⟩
  unfold variantGet
  rw [hsp]
  simp [h2]

/-- The last example of section 2.5.3 of the specification in its corrected form (tests/test.rs): `a(si)` with
    the elements `("hi", -2)` and `("bye", -1)`. -/
example : enc (.pdf false) (.A (.tuple [.S, .I])) (.arr [.tup [.str [104, 105], .num 4294967294],
      .tup [.str [98, 121, 101], .num 4294967295]]) =
      [104, 105, 0, 0, 254, 255, 255, 255, 3, 0, 0, 0, 98, 121, 101, 0, 255, 255, 255, 255, 4, 9, 21] ∧
    readAs dbg (.A (.tuple [.S, .I]))
      ⟨64, [104, 105, 0, 0, 254, 255, 255, 255, 3, 0, 0, 0, 98, 121, 101, 0, 255, 255, 255, 255, 4, 9, 21]⟩ =
      .ok (.arr [.tup [.str [104, 105], .num 4294967294], .tup [.str [98, 121, 101], .num 4294967295]]) :=
  ⟨rfl, rfl⟩

/-! ### C55 -/

/-- No assertion of the fuzz target fails (and nothing else panics), whatever the data, wherever memory
    is allocated, if GLib recognises normal forms. -/
def C55_full : Prop :=
  ∀ (c : Cfg) (a : Alloc) (g : Ty → Bytes → Bool) (d : Slice), a.Valid → d.len < 2 ^ 28 →
    (∀ t b, g t b = true ↔ Normal c.bigEndian t b) → fuzzTarget c a g d = .ok ()

/-- What holds: they hold exactly on data whose length is a positive multiple of 4.  Missing: other
    data. -/
theorem c55_exact_partial (c : Cfg) (a : Alloc) (g : Ty → Bytes → Bool) (d : Slice) (ha : a.Valid)
    (hl : d.len < 2 ^ 28) (hg : ∀ t b, g t b = true ↔ Normal c.bigEndian t b) :
    fuzzTarget c a g d = .ok () ↔ d.bytes ≠ [] ∧ 4 ∣ d.len := by
  obtain ⟨w, r, h1, h2, h3, h4, _⟩ := c15_copy_to_align_partial c a 8 d (by simp [IsAl]) ha
    (Nat.le_of_lt (Nat.lt_trans hl (by decide)))
  have hlr : r.len = d.len := by show r.bytes.length = d.bytes.length; rw [h3]
  unfold fuzzTarget
  simp only [h1, h2, Res.bind_ok]
  constructor
  · intro h
    obtain ⟨_, h, _⟩ := Res.bind_eq_ok.1 h
    refine Classical.byContradiction fun hn => ?_
    refine fuzz_ai (c := c) (a := a) (g := g) (s := r) ?_ (hlr ▸ hl) (by rw [h3, hlr]; exact hn)
      ((testAll_iff _).1 h _ (by decide))
    by_cases hb : d.bytes = []
    · exact .inr (h3.trans hb)
    · exact .inl (h4 hb)
  · intro h
    have h' : testAll c a g r fuzzTypes = .ok () := (testAll_iff _).2 fun t ht =>
      fuzz_each ha ht (h4 h.1) (hlr ▸ hl) (hg t) fun _ => by rw [h3, hlr]; exact h
    rw [h']
    exact fuzzStruct_ok ha (h4 h.1) (hlr ▸ hl) (hg _)

/-- Only the type `ai` is to blame: on aligned data of any length `test_cmp` passes for the other twenty types, and
    `fuzz_struct` does. -/
theorem c55_other_types_partial (c : Cfg) (a : Alloc) (g : Ty → Bytes → Bool) (s : Slice) (ha : a.Valid)
    (hs : 8 ∣ s.addr) (hl : s.len < 2 ^ 28) (hg : ∀ t b, g t b = true ↔ Normal c.bigEndian t b) :
    (∀ t ∈ fuzzTypes, t ≠ .A .I → testCmp c a g t s = .ok ()) ∧ fuzzStruct c a g s = .ok () :=
  ⟨fun t ht hi => fuzz_each ha ht hs hl (hg t) fun h => absurd h hi, fuzzStruct_ok ha hs hl (hg _)⟩

/-- Nothing passes by accident, whatever GLib says: if `test_cmp` passes for a type, then the re-serialized bytes,
    copied to an aligned place and cast, compare equal to the original (doubles are not compared); and if GLib takes
    the data for normal form, the re-serialized bytes are the data, or something that GLib takes for normal form if
    the type is `aay` and the data between 256 and 511 bytes.  If `fuzz_struct` passes, the re-serialized bytes are
    what GLib takes for normal form and compare equal. -/
theorem c55_meaning (c : Cfg) (a : Alloc) (g : Ty → Bytes → Bool) (s : Slice) :
    (∀ t, testCmp c a g t s = .ok () → ∃ b, reserialize c t s = .ok b ∧
      (t ≠ .D → ∃ r v w, realign c a (alignOf t) b = .ok r ∧ fromAligned c t s = .ok v ∧
        fromAligned c t r = .ok w ∧ veq c t w v = .ok true) ∧
      (g t s.bytes = true →
        b = s.bytes ∨ t = .A (.A .Y) ∧ 256 ≤ s.len ∧ s.len < 512 ∧ g t b = true)) ∧
    (fuzzStruct c a g s = .ok () → ∃ b r v w, reserialize c fuzzTuple s = .ok b ∧ g fuzzTuple b = true ∧
      realign c a 8 b = .ok r ∧ fromAligned c fuzzTuple s = .ok v ∧ fromAligned c fuzzTuple r = .ok w ∧
      veq c fuzzTuple w v = .ok true) := by
  have hcheck : ∀ {x : Bool} {u}, check x = .ok u → x = true := by
    intro x u h
    unfold check at h
    split at h
    · assumption
    · cases h
  constructor
  · intro t h
    unfold testCmp at h
    obtain ⟨v, h1, h⟩ := Res.bind_eq_ok.1 h
    obtain ⟨x, h2, h⟩ := Res.bind_eq_ok.1 h
    obtain ⟨b, h3, h⟩ := Res.bind_eq_ok.1 h
    obtain ⟨rs, h4, h⟩ := Res.bind_eq_ok.1 h
    refine ⟨b, by simp only [reserialize, h1, h2, h3, Res.bind_ok], ?_⟩
    have hD : t ≠ .D ↔ t.show ≠ [100] := by
      constructor
      · intro h h'; exact h (c01_show_injective _ _ h')
      · rintro h rfl; exact h rfl
    have last : (if g t s.bytes = true then
        if (decide (s.len ≥ 256) && decide (s.len < 512) && t.show == [97, 97, 121]) = true then check (g t b)
        else check (b == s.bytes) else pure ()) = .ok () →
        g t s.bytes = true → b = s.bytes ∨ t = .A (.A .Y) ∧ 256 ≤ s.len ∧ s.len < 512 ∧ g t b = true := by
      intro h hg
      rw [if_pos hg] at h
      split at h
      · rename_i hc
        simp only [Bool.and_eq_true, decide_eq_true_eq, beq_iff_eq] at hc
        exact Or.inr ⟨c01_show_injective _ _ hc.2, hc.1.1, hc.1.2, hcheck h⟩
      · exact Or.inl (by simpa using hcheck h)
    by_cases hd : t.show ≠ [100]
    · rw [if_pos hd] at h
      obtain ⟨w, h5, h⟩ := Res.bind_eq_ok.1 h
      obtain ⟨e, h6, h⟩ := Res.bind_eq_ok.1 h
      obtain ⟨_, h7, h⟩ := Res.bind_eq_ok.1 h
      obtain ⟨_, _, h⟩ := Res.bind_eq_ok.1 h
      exact ⟨fun _ => ⟨rs, v, w, h4, h1, h5, by rw [h6, hcheck h7]⟩, last h⟩
    · rw [if_neg hd] at h
      obtain ⟨_, _, h⟩ := Res.bind_eq_ok.1 h
      exact ⟨fun h => absurd (hD.1 h) hd, last h⟩
  · intro h
    unfold fuzzStruct at h
    obtain ⟨v, h1, h⟩ := Res.bind_eq_ok.1 h
    obtain ⟨x, h2, h⟩ := Res.bind_eq_ok.1 h
    obtain ⟨b, h3, h⟩ := Res.bind_eq_ok.1 h
    obtain ⟨rs, h4, h⟩ := Res.bind_eq_ok.1 h
    obtain ⟨_, h5, h⟩ := Res.bind_eq_ok.1 h
    obtain ⟨w, h6, h⟩ := Res.bind_eq_ok.1 h
    obtain ⟨e, h7, h⟩ := Res.bind_eq_ok.1 h
    exact ⟨b, rs, v, w, by simp only [reserialize, h1, h2, h3, Res.bind_ok], hcheck h5, h4, h1, h6,
      by rw [h7, hcheck h]⟩

theorem sameElems_meaning {c : Cfg} {e : Ty} {s : Slice} : ∀ {rs : List Slice} {k : Nat},
    sameElems c e s k rs = .ok () → ∀ i (h : i < rs.length), ∃ r, arrIndex c e s (k + i) = .ok r ∧
      veq c e rs[i] r = .ok true
  | [], _, _ => fun i h => absurd h (by simp)
  | r :: rs, k, hs => by
    simp only [sameElems] at hs
    obtain ⟨q, h1, hs⟩ := Res.bind_eq_ok.1 hs
    obtain ⟨x, h2, hs⟩ := Res.bind_eq_ok.1 hs
    obtain ⟨_, h3, hs⟩ := Res.bind_eq_ok.1 hs
    intro i hi
    cases i with
    | zero =>
      refine ⟨q, h1, ?_⟩
      unfold check at h3
      split at h3
      · rename_i hx; rw [hx] at h2; exact h2
      · cases h3
    | succ i =>
      obtain ⟨r', h4, h5⟩ := sameElems_meaning hs i (by simpa using hi)
      exact ⟨r', by rw [show k + (i + 1) = k + 1 + i by omega]; exact h4, h5⟩

/-- Nor do the checks made while comparing with GLib's values: where they pass, a string that GLib takes for normal
    form is shown unchanged, and an array of variable-size elements has as many elements by `len` as by iterating,
    indexing giving equal ones. -/
theorem c55_self (c : Cfg) (n : Bool) (t : Ty) (r : Slice) (h : selfCheck c n t r = .ok ()) :
    (isStr t = true → n = true → toStr r.bytes = asBytesNC r.bytes) ∧
    ∀ e, t = .A e → Spec.size e = none → ∃ rs, arrRefs c e r = .ok rs ∧ arrLen c r = .ok rs.length ∧
      ∀ i (h : i < rs.length), ∃ q, arrIndex c e r i = .ok q ∧ veq c e rs[i] q = .ok true := by
  have hcheck : ∀ {x : Bool} {u}, check x = .ok u → x = true := by
    intro x u h
    unfold check at h
    split at h
    · assumption
    · cases h
  constructor
  · intro hs hn
    subst hn
    cases t <;> simp only [isStr, Bool.false_eq_true] at hs <;>
      · simp only [selfCheck] at h
        simpa using hcheck h
  · rintro e rfl hs
    simp only [selfCheck, sizeOf_eq, hs] at h
    obtain ⟨rs, h1, h⟩ := Res.bind_eq_ok.1 h
    obtain ⟨k, h2, h⟩ := Res.bind_eq_ok.1 h
    obtain ⟨_, h3, h⟩ := Res.bind_eq_ok.1 h
    have hk : k = rs.length := by simpa using hcheck h3
    refine ⟨rs, h1, by rw [h2, hk], fun i hi => ?_⟩
    have := sameElems_meaning h i hi
    rwa [Nat.zero_add] at this

example : selfCheck dbg true (.A .S) ⟨64, [97, 0, 98, 0, 2, 4]⟩ = .ok () := rfl

/-- A string without its NUL is not in normal form; if GLib said it were, the target would fail. -/
example : testCmp dbg oddAlloc (fun _ _ => true) .S ⟨64, [97]⟩ = .fail .explicit ∧
    testCmp dbg oddAlloc (fun _ _ => false) .S ⟨64, [97]⟩ = .ok () := ⟨rfl, rfl⟩

/-- False: on one byte the array of no `i32` is serialized to an empty vec.  -/
theorem c55_full_false : ¬ C55_full := by
  classical
  intro h
  have := (c55_exact_partial dbg oddAlloc (fun t b => decide (Normal false t b)) ⟨64, [1]⟩ oddAlloc_valid
    (by decide) (fun t b => by simp [dbg])).1
    (h dbg oddAlloc (fun t b => decide (Normal false t b)) ⟨64, [1]⟩ oddAlloc_valid (by decide)
      (fun t b => by simp [dbg]))
  revert this
  decide

/-- The failure on one byte, with debug assertions and without (whatever GLib says). -/
example : testCmp dbg oddAlloc (fun _ _ => false) (.A .I) ⟨64, [1]⟩ = .fail .debugAssert ∧
    testCmp rel oddAlloc (fun _ _ => false) (.A .I) ⟨64, [1]⟩ = .fail .ub := ⟨rfl, rfl⟩

/-- Eight bytes on which they hold: an allocator, data at an odd address, and what GLib should say. -/
example : oddAlloc.Valid ∧ (Slice.mk 13 [1, 2, 3, 4, 5, 6, 7, 0]).bytes ≠ [] ∧
    4 ∣ (Slice.mk 13 [1, 2, 3, 4, 5, 6, 7, 0]).len ∧
    ∃ g : Ty → Bytes → Bool, ∀ t b, g t b = true ↔ Normal dbg.bigEndian t b := by
  classical
  exact ⟨oddAlloc_valid, by decide, by decide, fun t b => decide (Normal dbg.bigEndian t b), fun t b => by simp⟩

/-! ### C56 -/

/-- Re-serializing what was read from `n` bytes takes at most `coeff t * (n + 1) ^ degree t` bytes. -/
theorem c56_bound (c : Cfg) (t : Ty) (s : Slice) (v : Val) (hx : Expands t) (hsm : Small t)
    (ha : Spec.align t ∣ s.addr) (hl : s.len < 2 ^ 32) (hv : readAs c t s = .ok v)
    (hp : coeff t * (s.len + 1) ^ degree t < 2 ^ 63) :
    ∃ b, reserialize c t s = .ok b ∧ b.length ≤ coeff t * (s.len + 1) ^ degree t := by
  have h := readAs_ok' (c := c) hx hsm ha (fun _ => hl)
  rw [hv] at h
  have hd : v = dec (.crate c.bigEndian) t s.bytes := by
    split at h
    · cases h
    · exact Res.ok.inj h
  have hb : (enc (.crate c.bigEndian) t v).length ≤ coeff t * (s.len + 1) ^ degree t := by
    rw [hd]
    exact Nat.le_trans ((blow_enc (.crate c.bigEndian) c.bigEndian t).1 s.bytes) (blow_poly t s.len)
  exact ⟨_, (reserialize_ok hx hsm ha (by omega) hv (by omega)).1, hb⟩

/-- It does become larger than the data: for any `m` and `k` there is data of at most `m + 1 + 16 * k` bytes for
    an array of strings that re-serializes to at least `k * (m + 1)` bytes, because the elements may
    overlap. -/
theorem c56_overlap (c : Cfg) (m k addr : Nat) (hl : m + 1 + 16 * k < 2 ^ 28) :
    ∃ d b : Bytes, d.length ≤ m + 1 + 16 * k ∧ reserialize c (.A .S) ⟨addr, d⟩ = .ok b ∧
      k * (m + 1) ≤ b.length := by
  have hx : Expands (.A .S) := by decide
  have hsm : Small (.A .S) := by decide
  have hlen : (Slice.mk addr (overlap m k)).len ≤ m + 1 + 16 * k := overlap_length m k
  have ha : Spec.align (.A .S) ∣ (Slice.mk addr (overlap m k)).addr := by simp [Spec.align]
  have ht : (.A .S) ∈ fuzzTypes := by decide
  have hv : readAs c (.A .S) ⟨addr, overlap m k⟩ = .ok (dec (.crate c.bigEndian) (.A .S) (overlap m k)) := by
    rw [readAs_ok' hx hsm ha (fun _ => by omega), fuzz_ragged ht]
    simp
  have he := fuzz_len (c := c) ht (b := overlap m k) (Nat.lt_of_le_of_lt hlen hl)
  exact ⟨overlap m k, enc (.crate c.bigEndian) (.A .S) (dec (.crate c.bigEndian) (.A .S) (overlap m k)), hlen, (reserialize_ok hx hsm ha (by omega) hv (by omega)).1,
    overlap_enc (.crate c.bigEndian) c.bigEndian m k (by omega)⟩

/-- Nor can the exponent be lowered: for arrays nested `d` deep it is `d + 1`, and there is data of at most
    `m + 1 + 16 * k * d` bytes that re-serializes to at least `k ^ d * (m + 1)`. -/
theorem c56_attained (c : Cfg) (m k d addr : Nat) (hl : m + 1 + 16 * k * d < 2 ^ 32) (hd : d < 2 ^ 39)
    (hp : coeff (nest d) * (m + 2 + 16 * k * d) ^ (d + 1) < 2 ^ 63) :
    ∃ a b : Bytes, a.length ≤ m + 1 + 16 * k * d ∧ degree (nest d) = d + 1 ∧
      reserialize c (nest d) ⟨addr, a⟩ = .ok b ∧ k ^ d * (m + 1) ≤ b.length := by
  have h1 := pile_length m k d
  have hx := nest_expands d
  have hsm : Small (nest d) := by unfold Small; rw [nest_show]; omega
  have ha : Spec.align (nest d) ∣ (Slice.mk addr (pile m k d)).addr := by rw [nest_align]; exact Nat.one_dvd _
  have hlen : (Slice.mk addr (pile m k d)).len = (pile m k d).length := rfl
  have hv : readAs c (nest d) ⟨addr, pile m k d⟩ = .ok (dec (.crate c.bigEndian) (nest d) (pile m k d)) := by
    rw [readAs_ok' hx hsm ha (fun _ => by omega), nest_ragged]
    simp
  have hb : coeff (nest d) * ((pile m k d).length + 1) ^ degree (nest d) < 2 ^ 63 := by
    refine Nat.lt_of_le_of_lt (Nat.mul_le_mul_left _ ?_) hp
    rw [nest_degree]
    exact Nat.pow_le_pow_left (by omega) _
  have he := Nat.le_trans ((blow_enc (.crate c.bigEndian) c.bigEndian (nest d)).1 (pile m k d))
    (blow_poly (nest d) (pile m k d).length)
  exact ⟨_, _, h1, nest_degree d, (reserialize_ok hx hsm ha (by omega) hv (by omega)).1,
    pile_enc _ _ m k d (by omega)⟩

/-- The hypotheses for three levels, a hundred elements each: a hundred million bytes from 4900. -/
example : 99 + 1 + 16 * 100 * 3 < 2 ^ 32 ∧ coeff (nest 3) * (99 + 2 + 16 * 100 * 3) ^ (3 + 1) < 2 ^ 63 ∧
    100 ^ 3 * (99 + 1) = 100000000 := by decide

example : degree (.A .S) = 2 ∧ coeff (.A .S) = 23 ∧ degree (.A (.tuple [.S, .A .I])) = 2 := by decide

/-- Four strings `"xyz"` in twelve bytes. -/
example : reserialize dbg (.A .S) ⟨64, [120, 121, 122, 0, 0, 4, 0, 4, 0, 4, 0, 4]⟩ =
    .ok [0, 120, 121, 122, 0, 0, 120, 121, 122, 0, 0, 120, 121, 122, 0, 0, 120, 121, 122, 0,
      1, 5, 6, 10, 11, 15, 16, 20] := by decide +kernel

end GV.Props
