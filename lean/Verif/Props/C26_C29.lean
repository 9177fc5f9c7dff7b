import Verif.Model.Eq
import Verif.Proofs.BadInput
import Verif.Props.C27_C32
import Verif.Props.C39_C44
/-
C26, C28, C29: strings with NUL; wrapped variants; variant equality and re-serialization.
-/
namespace GV.Props
open GV Spec

variable {σ : Type}

/-! ### C26 -/

mutual
/-- All strings in a value, in order. -/
def texts : Val → List Bytes
  | .str b => [b]
  | .arr vs | .tup vs => textsAll vs
  | .just v => texts v
  | _ => []
/-- The same for several. -/
def textsAll : List Val → List Bytes
  | [] => []
  | v :: vs => texts v ++ textsAll vs
end

/-- Serializing anything that contains a string with NUL fails, and anything else that is serialized
    reads back with the same strings. -/
def C26_full : Prop := ∀ (c : Cfg) (t : Ty) (x : Src) (addr : Nat), Serializable t x → Small t →
  Spec.align t ∣ addr → Bounded c t x →
  (HasNul x → ∀ (w : Writer Unit) n, (serialize w c t x ()).2 ≠ .ok n) ∧
  ∀ b v, serializeToVec c t x = .ok b → readAs c t ⟨addr, b⟩ = .ok v →
    texts v = texts (meaning (.crate c.bigEndian) t x)

/-- The `a(si)` of `("hi", -2)` reads back with four strings. -/
theorem c26_full_false : ¬ C26_full := by
  intro h
  have := (h dbg (.A (.tuple [.S, .I])) (.seq [.tup [.str [104, 105], .num 4294967294]]) 64
    ⟨by simp [Accepts, AcceptsEach, AcceptsAll, isStr, numWidth]; exact ⟨[104, 105], by simp [Scalar], rfl⟩,
      by decide, by simp [wraps, wrapsAll]⟩ (by decide) (by decide) (by show (13 : Nat) < _; decide)).2
    [104, 105, 0, 0, 254, 255, 255, 255, 3, 0, 0, 0, 9]
    (.arr [.tup [.str [], .num 0], .tup [.str [], .num 0], .tup [.str [], .num 0],
      .tup [.str [104, 105], .num 4294967294]]) rfl rfl
  simp [meaning, meaningEach, meaningAll, texts, textsAll] at this

/-- A `str` with NUL alone: the writer is not called at all. -/
theorem c26_nothing_written (w : Writer σ) (c : Cfg) (t : Ty) (b : Bytes) (st : σ) (ht : isStr t = true)
    (hb : (0 : UInt8) ∈ b) : serialize w c t (.str b) st = (⟨st, []⟩, .badInput) := by
  have h1 : isStrTy t = true := by cases t <;> simp [isStr] at ht <;> rfl
  have h2 : b.contains 0 = true := by simpa using hb
  simp only [serialize, ser, h1, h2, if_true]
  rfl

/-- A `str` with NUL anywhere: `serialize` returns an error, `InvalidInput` unless the writer fails
    before; what is handed to the writer does not depend on the string, as it is a prefix of the
    encoding with whatever string in its place. -/
theorem c26_error (w : Writer σ) (c : Cfg) (t : Ty) (x : Src) (st : σ) (h : Serializable t x)
    (hn : HasNul x) :
    (Bounded c t x → (serialize w c t x st).2 = .badInput ∨ ∃ e, (serialize w c t x st).2 = .io e) ∧
    ∀ f : Bytes → Bytes, (∀ b, Text (f b)) → (bytesOf c t (mend f x)).length < 2 ^ 63 →
      ((serialize (logged w) c t x (st, [])).1.st.2.map (·.1)).flatten <+: bytesOf c t (mend f x) := by
  refine ⟨fun hl => ?_, fun f hf hl => (c42_prefix w c t x st h f hf hl).1⟩
  rcases c39_outcome w c t x st h hl with h1 | h1 | h1
  · exact .inr h1
  · exact .inl h1.2
  · exact absurd hn h1.1

/-- Conversely `InvalidInput` is returned for nothing else, whatever is serialized and however large: what goes
    wrong otherwise is an error of the writer or a panic. -/
theorem c26_only_nul (w : Writer σ) (c : Cfg) (t : Ty) (x : Src) (st : σ)
    (h : (serialize w c t x st).2 = .badInput) : HasNul x :=
  Classical.byContradiction fun hn => noBad_ser w c x t hn _ h

/-- Without NUL, an unaligned variant panics. -/
example : ¬ HasNul (.variantRef 1 [7, 0, 121]) ∧
    (serialize vecWriter dbg .V (.variantRef 1 [7, 0, 121]) ()).2 = .panic .debugAssert := ⟨by simp [HasNul], rfl⟩

/-- `serialize_to_vec` panics then. -/
theorem c26_vec_panics (c : Cfg) (t : Ty) (x : Src) (h : Serializable t x) (hn : HasNul x)
    (hl : Bounded c t x) : serializeToVec c t x = .fail .unwrap :=
  vec_bad h hn (fun _ => text_nil) hl

/-- `("a\0", "b")`: nothing of the first string is written, nor anything after it. -/
example : HasNul (.tup [.num 7, .str [97, 0], .str [98]]) ∧
    serialize vecWriter dbg (.tuple [.Y, .S, .S]) (.tup [.num 7, .str [97, 0], .str [98]]) () =
      (⟨(), [7]⟩, .badInput) :=
  ⟨by simp [HasNul, HasNulAny], rfl⟩

/-- A string alone reads back as itself. -/
theorem c26_reads_back (c : Cfg) (t : Ty) (b : Bytes) (addr : Nat) (ht : isStr t = true) (hb : Text b)
    (hl : b.length < 2 ^ 63 - 1) :
    serializeToVec c t (.str b) = .ok (b ++ [0]) ∧ readAs c t ⟨addr, b ++ [0]⟩ = .ok (.str b) := by
  have hx : Serializable t (.str b) :=
    ⟨by simp only [Accepts]; exact ⟨ht, hb.1⟩, by cases t <;> simp [isStr] at ht <;> exact ⟨_, rfl⟩,
      by simp [wraps]⟩
  have hn : ¬ HasNul (.str b) := by simp only [HasNul]; exact hb.2
  have he : bytesOf c t (.str b) = b ++ [0] := by
    cases t <;> simp [isStr] at ht <;> simp [bytesOf, meaning, enc]
  refine ⟨?_, ?_⟩
  · rw [vec_good hx hn (by rw [he]; simp; omega), he]
  · have htt := toStr_text hb
    cases t <;> simp [isStr] at ht <;>
      simp [readAs, fromAligned, tryFromAligned, sizeOf, view, htt]

/-- A `Str` that was read, serialized, reads back as the text it holds. -/
theorem c26_str_reads_back (c : Cfg) (t : Ty) (d : Bytes) (addr : Nat) (ht : isStr t = true)
    (hl : d.length < 2 ^ 63 - 1) :
    ∃ b, serializeToVec c t (.strRef d) = .ok b ∧ readAs c t ⟨addr, b⟩ = .ok (.str (toStr d)) ∧
      readAs c t ⟨addr, d⟩ = .ok (.str (toStr d)) := by
  have h1 := toStr_is_text d
  have hle : (toStr d).length ≤ d.length := toStr_length_le d
  refine ⟨toStr d ++ [0], ?_, ?_, ?_⟩
  · have hx : Serializable t (.strRef d) :=
      ⟨by simp only [Accepts]; exact ht, by cases t <;> simp [isStr] at ht <;> exact ⟨_, rfl⟩,
        by simp [wraps]⟩
    have he : bytesOf c t (.strRef d) = toStr d ++ [0] := by
      cases t <;> simp [isStr] at ht <;> simp [bytesOf, meaning, enc, text_eq false]
    rw [vec_good hx (by simp [HasNul]) (by rw [he]; simp; omega), he]
  · exact (c26_reads_back c t _ addr ht h1 (by omega)).2
  · cases t <;> simp [isStr] at ht <;> simp [readAs, fromAligned, tryFromAligned, sizeOf, view]

/-- In containers: all strings read back, wherever they are, if no array needs padding after its last
    element.  Missing: arrays that do. -/
theorem c26_containers_partial (c : Cfg) (t : Ty) (x : Src) (addr : Nat) (h : Serializable t x)
    (hn : ¬ HasNul x) (hsm : Small t) (ha : Spec.align t ∣ addr) (hl : (bytesOf c t x).length < 2 ^ 63)
    (he : EvenEnds (.crate c.bigEndian) t (meaning (.crate c.bigEndian) t x)) :
    ∃ b v, serializeToVec c t x = .ok b ∧ readAs c t ⟨addr, b⟩ = .ok v ∧
      texts v = texts (meaning (.crate c.bigEndian) t x) := by
  obtain ⟨b, h1, h2⟩ := c40_round_trip_partial c t x addr h hn hsm ha hl
  exact ⟨b, _, h1, h2.2 he, rfl⟩

/-- "é" in an `as`. -/
example : (serializeToVec dbg (.A .S) (.seq [.str [0xc3, 0xa9], .str []]) >>= fun b =>
      readAs dbg (.A .S) ⟨64, b⟩) = .ok (.arr [.str [0xc3, 0xa9], .str []]) ∧ Text [0xc3, 0xa9] :=
  ⟨rfl, ⟨[0xe9], by simp [Scalar], rfl⟩, by decide⟩

/-! ### C28 -/

/-- Wrapping as type `u` and getting type `u` is casting what `x` alone serializes to; every other type
    gives `None`. -/
theorem c28_wrap (c : Cfg) (u : Ty) (x : Src) (h : Serializable .V (.wrap u x)) (hn : ¬ HasNul x)
    (hl : Bounded c .V (.wrap u x)) :
    ∃ b p, serializeToVec c .V (.wrap u x) = .ok b ∧ serializeToVec c u x = .ok p ∧
      ∀ addr, 8 ∣ addr → variantGet c u ⟨addr, b⟩ = (fromAligned c u ⟨addr, p⟩ >>= fun r => .ok (some r)) ∧
        ∀ u', u' ≠ u → variantGet c u' ⟨addr, b⟩ = .ok none := by
  rw [bounded_iff (by simpa [HasNul] using hn)] at hl
  have hacc := h.acc
  simp only [Accepts, true_and] at hacc
  have hx : Serializable u x := ⟨hacc, h.inner u (by simp [wraps]), fun u' hu => h.inner u' (by simp [wraps, hu])⟩
  have he : bytesOf c .V (.wrap u x) = bytesOf c u x ++ 0 :: u.show := by
    simp [bytesOf, meaning, enc]
  refine ⟨_, _, vec_good h (by simpa [HasNul] using hn) hl, vec_good hx hn (by
    rw [he, List.length_append] at hl; omega), ?_⟩
  intro addr ha
  have hsp : split c ⟨addr, bytesOf c .V (.wrap u x)⟩ = .ok (u.show, ⟨addr, bytesOf c u x⟩) := by
    obtain ⟨ty, d, h1, _, h3, _⟩ := c27_split c ⟨addr, bytesOf c .V (.wrap u x)⟩ (.inr ha)
    obtain ⟨rfl, rfl⟩ := h3 (bytesOf c u x) u.show he (show_noNul u)
    exact h1
  refine ⟨?_, fun u' hu => ?_⟩
  · unfold variantGet
    rw [hsp]
    simp
  · unfold variantGet
    rw [hsp]
    simp only [Res.bind_ok]
    rw [if_neg fun h => hu (c01_show_injective _ _ h).symm]
    rfl

/-- `x` wrapped in `n` further variants. -/
def nested (n : Nat) (x : Src) : Src := match n with
  | 0 => x
  | n + 1 => .wrap .V (nested n x)

/-- `get(gv!("v"))`, `n` times. -/
def unnest (c : Cfg) : Nat → Slice → Res (Option Slice)
  | 0, s => .ok (some s)
  | n + 1, s => variantGet c .V s >>= fun o => match o with
    | some r => unnest c n r
    | none => .ok none

/-- At any depth: getting the inner variants one by one, then the value. -/
theorem c28_nested (c : Cfg) (n : Nat) (u : Ty) (x : Src) (h : Serializable .V (.wrap u x)) (hn : ¬ HasNul x)
    (hl : Bounded c .V (nested n (.wrap u x))) :
    ∃ b p, serializeToVec c .V (nested n (.wrap u x)) = .ok b ∧ serializeToVec c .V (.wrap u x) = .ok p ∧
      ∀ addr, 8 ∣ addr → unnest c n ⟨addr, b⟩ = .ok (some ⟨addr, p⟩) := by
  have hnn : ∀ n, ¬ HasNul (nested n (.wrap u x)) := by
    intro n
    induction n with
    | zero => simpa [nested, HasNul] using hn
    | succ n ih => simpa [nested, HasNul] using ih
  have hsz : ∀ n, Serializable .V (nested n (.wrap u x)) := by
    intro n
    induction n with
    | zero => exact h
    | succ n ih =>
      refine ⟨by simp only [nested, Accepts, true_and]; exact ih.acc, by decide, ?_⟩
      intro v hv
      simp only [nested, wraps, List.mem_cons] at hv
      rcases hv with rfl | hv
      · exact by decide
      · exact ih.inner v hv
  induction n with
  | zero =>
    rw [bounded_iff (hnn 0)] at hl
    exact ⟨_, _, vec_good h (hnn 0) hl, vec_good h (hnn 0) hl, fun _ _ => rfl⟩
  | succ n ih =>
    obtain ⟨b, p, h1, h2, h3⟩ := c28_wrap c .V (nested n (.wrap u x)) (hsz (n + 1)) (hnn n) hl
    have hl' : Bounded c .V (nested n (.wrap u x)) := by
      rw [bounded_iff (hnn (n + 1))] at hl
      rw [bounded_iff (hnn n)]
      simp only [nested, bytesOf, meaning, enc, List.length_append] at hl
      unfold bytesOf
      omega
    obtain ⟨b', p', g1, g2, g3⟩ := ih hl'
    refine ⟨b, p', h1, g2, ?_⟩
    intro addr ha
    have : b' = p := by rw [h2] at g1; exact (Res.ok.inj g1).symm
    subst this
    unfold unnest
    rw [(h3 addr ha).1]
    exact g3 addr ha

/-- The payload may contain NULs and look like a type: `[0, 'i']` as `ay`. -/
example : (serializeToVec dbg .V (nested 2 (.wrap (.A .Y) (.seq [.num 0, .num 105]))) >>= fun b =>
      unnest dbg 2 ⟨64, b⟩ >>= fun o => match o with
        | some s => variantGet dbg (.A .Y) s
        | none => .fail .explicit) = .ok (some ⟨64, [0, 105]⟩) ∧
    Serializable .V (.wrap (.A .Y) (.seq [.num 0, .num 105])) :=
  ⟨rfl, by simp [Accepts, AcceptsEach, numWidth], by decide, by simp [wraps, wrapsAll]; decide⟩

/-! ### C29 -/

/-- References to variants: 8-aligned. -/
theorem variantEq_ok {c : Cfg} {a b : Slice} (ha : 8 ∣ a.addr) (hb : 8 ∣ b.addr) :
    variantEq c a b = .ok (decide (variantParts a.bytes = variantParts b.bytes)) := by
  obtain ⟨d, h1, _, h2, _⟩ := split_ok (c := c) (s := a) ha
  obtain ⟨d', g1, _, g2, _⟩ := split_ok (c := c) (s := b) hb
  unfold variantEq
  rw [h1, g1]
  simp only [Res.bind_ok, Res.pure_eq, h2, g2, Res.ok.injEq]
  rw [Bool.eq_iff_iff]
  simp [Prod.ext_iff]

/-- Variant equality never panics and is an equivalence relation. -/
theorem c29_equivalence (c : Cfg) :
    (∀ a : Slice, 8 ∣ a.addr → variantEq c a a = .ok true) ∧
    (∀ a b : Slice, 8 ∣ a.addr → 8 ∣ b.addr → variantEq c a b = variantEq c b a ∧ ∃ r, variantEq c a b = .ok r) ∧
    (∀ a b d : Slice, 8 ∣ a.addr → 8 ∣ b.addr → 8 ∣ d.addr → variantEq c a b = .ok true →
      variantEq c b d = .ok true → variantEq c a d = .ok true) := by
  refine ⟨fun a ha => ?_, fun a b ha hb => ⟨?_, ?_⟩, fun a b d ha hb hd h1 h2 => ?_⟩
  · rw [variantEq_ok ha ha]; simp
  · rw [variantEq_ok ha hb, variantEq_ok hb ha]; simp [eq_comm]
  · exact ⟨_, variantEq_ok ha hb⟩
  · rw [variantEq_ok ha hb] at h1
    rw [variantEq_ok hb hd] at h2
    rw [variantEq_ok ha hd]
    simp at h1 h2 ⊢
    rw [h1, h2]

/-- Equal variants are those with the same type string and data; so `get` gives equal results. -/
theorem c29_meaning (c : Cfg) (a b : Slice) (ha : 8 ∣ a.addr) (hb : 8 ∣ b.addr) :
    variantEq c a b = .ok true ↔ view c .V a = view c .V b := by
  obtain ⟨d, h1, _, h2, _⟩ := split_ok (c := c) (s := a) ha
  obtain ⟨d', g1, _, g2, _⟩ := split_ok (c := c) (s := b) hb
  rw [variantEq_ok ha hb]
  simp only [view, h1, g1, Res.bind_ok, Res.pure_eq, h2, g2, Res.ok.injEq, decide_eq_true_eq,
    Val.variant.injEq, Prod.ext_iff]

/-- Serializing a variant read from any bytes succeeds, and the result reads back as an equal variant,
    at any address; if the bytes contain a NUL they are reproduced. -/
theorem c29_reserialize (c : Cfg) (a : Slice) (ha : 8 ∣ a.addr) (hl : a.len < 2 ^ 63) :
    ∃ b, serializeToVec c .V (.variantRef a.addr a.bytes) = .ok b ∧
      (∀ addr, 8 ∣ addr → variantEq c a ⟨addr, b⟩ = .ok true) ∧
      ((0 : UInt8) ∈ a.bytes → b = a.bytes) := by
  have he : bytesOf c .V (.variantRef a.addr a.bytes) =
      (variantParts a.bytes).2 ++ 0 :: (variantParts a.bytes).1 := by
    simp [bytesOf, meaning, enc]
  have hnul : (0 : UInt8) ∈ a.bytes → bytesOf c .V (.variantRef a.addr a.bytes) = a.bytes := by
    intro h
    obtain ⟨i, hi⟩ : ∃ i, memrchr0 a.bytes = some i := by
      cases hm : memrchr0 a.bytes with
      | none => exact absurd h (memrchr0_none.1 hm)
      | some i => exact ⟨i, rfl⟩
    obtain ⟨x, y, h1, _, h3⟩ := memrchr0_some hi
    rw [he, h1, variantParts_append h3]
  have hlen : (bytesOf c .V (.variantRef a.addr a.bytes)).length < 2 ^ 63 := by
    by_cases h : (0 : UInt8) ∈ a.bytes
    · rw [hnul h]; exact hl
    · rw [he, variantParts_none h]; decide
  refine ⟨_, vec_good ⟨by simp only [Accepts]; exact ⟨trivial, ha⟩, by decide, by simp [wraps]⟩ (by simp [HasNul]) hlen,
    fun addr h8 => ?_, hnul⟩
  rw [variantEq_ok ha h8, he, variantParts_append (variantParts_noNul _)]
  simp

/-- Data without NUL is the variant of type `()`. -/
example : serializeToVec dbg .V (.variantRef 16 [7, 1]) = .ok [0, 40, 41] ∧
    variantEq dbg ⟨16, [7, 1]⟩ ⟨64, [0, 40, 41]⟩ = .ok true ∧
    variantEq dbg ⟨16, [7, 0, 121]⟩ ⟨64, [7, 0, 98]⟩ = .ok false := ⟨rfl, rfl, rfl⟩

end GV.Props
