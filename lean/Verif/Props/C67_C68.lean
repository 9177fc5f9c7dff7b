import Verif.Proofs.Back
import Verif.Props.C39_C44
import Verif.Props.C43_C46
import Verif.Spec.Normal
/-
C67: what comes back after writing and reading, for every value.
C68: exchange of data with implementations that follow the specification.
-/
namespace GV.Props
open GV Spec

/-- Encodings by the crate's rules are read without panic, as `back`. -/
theorem readAs_enc {c : Cfg} {E : Enc} (hE : E.bigEndian = c.bigEndian) {t : Ty} {v : Val} {addr : Nat}
    (hx : Expands t) (hsm : Small t) (ha : Spec.align t ∣ addr) (hf : Fits t v)
    (hl : (enc E t v).length < 2 ^ 63) :
    readAs c t ⟨addr, enc E t v⟩ = .ok (back E t v) := by
  have hb := back_enc (R := .crate c.bigEndian) (E := E) hE.symm t v hf (by omega)
  rw [readAs_tame (s := ⟨addr, enc E t v⟩) hx hsm ha (fun _ => hl) (tame_enc t v hf hl), if_neg]
  · exact congrArg _ hb.1
  · show ¬ ragged (.crate c.bigEndian) t (enc E t v) = true
    rw [hb.2]; simp

/-! ### C67 -/

/-- Whatever is serialized, reading it back does not panic, at any aligned address, and gives the value
    serialized but for arrays whose last element needs padding: those come back as `Spec.back` says. -/
theorem c67_read_back (c : Cfg) (t : Ty) (x : Src) (addr : Nat) (h : Serializable t x)
    (hn : ¬ HasNul x) (hsm : Small t) (ha : Spec.align t ∣ addr) (hl : (bytesOf c t x).length < 2 ^ 63) :
    ∃ b, serializeToVec c t x = .ok b ∧
      readAs c t ⟨addr, b⟩ = .ok (back (.crate c.bigEndian) t (meaning (.crate c.bigEndian) t x)) :=
  ⟨_, vec_good h hn (by omega), readAs_enc rfl h.ex hsm ha (bytesOf_fits h hn) hl⟩

/-- The value itself comes back exactly if no array needs such padding. -/
theorem c67_same (be : Bool) (t : Ty) (v : Val) (hf : Fits t v) (hl : (enc (.crate be) t v).length < 2 ^ 63) :
    back (.crate be) t v = v ↔ EvenEnds (.crate be) t v := by
  have h1 := trip (R := .crate be) (E := .crate be) rfl t v hf (by omega)
  rw [← (back_enc (R := .crate be) (E := .crate be) rfl t v hf (by omega)).1, h1.1]
  exact ⟨fun h => h rfl, fun h _ => h⟩

/-- In particular an array of 256 bytes or more whose elements need alignment and whose last element ends at an
    odd position comes back empty: all its elements are lost. -/
theorem c67_lost (c : Cfg) (e : Ty) (xs : List Src) (addr : Nat) (h : Serializable (.A e) (.seq xs))
    (hn : ¬ HasNul (.seq xs)) (hsm : Small (.A e)) (ha : Spec.align e ∣ addr)
    (hl : (bytesOf c (.A e) (.seq xs)).length < 2 ^ 63) (hs : size e = none) (h2 : 2 ∣ Spec.align e)
    (hbig : 256 ≤ (bytesOf c (.A e) (.seq xs)).length)
    (hodd : (laid 0 (xs.map fun x => (e, bytesOf c e x))).length % 2 = 1) :
    ∃ b, serializeToVec c (.A e) (.seq xs) = .ok b ∧ readAs c (.A e) ⟨addr, b⟩ = .ok (.arr []) := by
  obtain ⟨b, h1, h3⟩ := c67_read_back c (.A e) (.seq xs) addr h hn hsm (by simpa [Spec.align] using ha) hl
  refine ⟨b, h1, ?_⟩
  rw [h3]
  simp only [bytesOf, meaning, meaningEach_eq] at hbig hl ⊢
  simp only [enc, hs, Option.isSome_none, Bool.false_eq_true, if_false] at hbig
  simp only [back, hs, Option.isSome_none, Bool.false_eq_true, if_false]
  simp only [List.map_map] at hbig ⊢
  have hbs : xs.map (fun x => (e, bytesOf c e x)) =
      (xs.map (enc (.crate c.bigEndian) e ∘ meaning (.crate c.bigEndian) e)).map fun b => (e, b) := by
    simp [bytesOf]
  rw [hbs] at hodd
  generalize xs.map (enc (.crate c.bigEndian) e ∘ meaning (.crate c.bigEndian) e) = bs at *
  have hle := le_roundUp (specAlign_isAl e).pos (laid 0 (bs.map fun b => (e, b))).length
  have heven : 2 ∣ roundUp (laid 0 (bs.map fun b => (e, b))).length (Spec.align e) :=
    Nat.dvd_trans h2 (roundUp_dvd _ _)
  have hpad : endPad (.crate c.bigEndian) e bs % 2 = 1 := by
    simp only [endPad, Enc.crate, if_true]
    omega
  have hne : bs ≠ [] := by rintro rfl; simp [laid] at hodd
  have hlen : (encArr (.crate c.bigEndian) e bs).length =
      ((laid 0 (bs.map fun b => (e, b))).length + endPad (.crate c.bigEndian) e bs) +
        bs.length * endWidth (.crate c.bigEndian) e bs := by
    have : encArr (.crate c.bigEndian) e bs =
        (laid 0 (bs.map fun b => (e, b)) ++ zeros (endPad (.crate c.bigEndian) e bs)) ++
        frames (laid 0 (bs.map fun b => (e, b)) ++ zeros (endPad (.crate c.bigEndian) e bs)).length
        (layEnds 0 (bs.map fun b => (e, b))) := rfl
    rw [this, List.length_append, frames_length, layEnds_length, List.length_map, List.length_append,
      zeros_length]
    rfl
  have hw : endWidth (.crate c.bigEndian) e bs % 2 = 0 := by
    have hx := frameWidth_exact (body := (laid 0 (bs.map fun b => (e, b))).length + endPad (.crate c.bigEndian) e bs)
      (List.length_pos_iff.2 hne)
    have hx : offsetWidth (encArr (.crate c.bigEndian) e bs).length = endWidth (.crate c.bigEndian) e bs := by
      rw [hlen]; exact hx
    rw [← hx]
    unfold offsetWidth
    rw [if_neg (by omega), if_neg (by omega)]
    split <;> [rfl; split <;> rfl]
  have hp : endPad (.crate c.bigEndian) e bs % endWidth (.crate c.bigEndian) e bs ≠ 0 := by
    intro h0
    have := Nat.dvd_trans (Nat.dvd_of_mod_eq_zero hw) (Nat.dvd_of_mod_eq_zero h0)
    omega
  rw [if_pos hp]

/-- An `a(is)` of one element with a string of 252, 254, 256 or any other even number of letters comes back
    empty. -/
example (n : Nat) (h1 : 252 ≤ n) (h2 : n % 2 = 0) (h3 : n < 2 ^ 62) :
    (serializeToVec dbg (.A (.tuple [.I, .S])) (.seq [.tup [.num 5, .str (List.replicate n 97)]]) >>=
      fun b => readAs dbg (.A (.tuple [.I, .S])) ⟨64, b⟩) = .ok (.arr []) := by
  have h : Serializable (.A (.tuple [.I, .S])) (.seq [.tup [.num 5, .str (List.replicate n 97)]]) :=
    ⟨by simp only [Accepts, AcceptsEach, AcceptsAll, isStr, numWidth]
        exact ⟨⟨by decide, ⟨trivial, (text_replicate n).1⟩, trivial⟩, trivial⟩, by decide,
      by simp [wraps, wrapsAll]⟩
  have hz : (bytesOf dbg (.tuple [.I, .S]) (.tup [.num 5, .str (List.replicate n 97)])).length = n + 5 := by
    simp [bytesOf, meaning, meaningAll, enc, encAll, encStruct, size, endAfter, laid, numBytes_length, zeros,
      Spec.align, roundUp, frames, frameEnds]
    omega
  have hr := le_roundUp (al := 4) (by decide) (n + 5)
  have hr' : roundUp (n + 5) 4 ≤ n + 8 := by unfold roundUp; omega
  have hy : (bytesOf dbg (.A (.tuple [.I, .S])) (.seq [.tup [.num 5, .str (List.replicate n 97)]])).length =
      roundUp (n + 5) 4 + frameWidth (roundUp (n + 5) 4) 1 := by
    have e0 : roundUp 0 4 = 0 := rfl
    have e : bytesOf dbg (.A (.tuple [.I, .S])) (.seq [.tup [.num 5, .str (List.replicate n 97)]]) =
      encArr (.crate false) (.tuple [.I, .S])
        [bytesOf dbg (.tuple [.I, .S]) (.tup [.num 5, .str (List.replicate n 97)])] := by
      simp [bytesOf, meaning, meaningEach, enc, size, endAfter, dbg]
    rw [e]
    generalize bytesOf dbg (.tuple [.I, .S]) (.tup [.num 5, .str (List.replicate n 97)]) = d at hz
    simp [encArr, laid, Enc.crate, Spec.align, Spec.alignMax, layEnds, frames_length, hz, e0]
    rw [show n + 5 + (roundUp (n + 5) 4 - (n + 5)) = roundUp (n + 5) 4 by omega]
    omega
  have hw := frameWidth_isWidth (roundUp (n + 5) 4) 1
  have hw : frameWidth (roundUp (n + 5) 4) 1 ≤ 8 := by rcases hw with h | h | h | h <;> omega
  have hw2 : 0 < frameWidth (roundUp (n + 5) 4) 1 := (frameWidth_isWidth _ _).pos
  obtain ⟨b, g1, g2⟩ := c67_lost dbg (.tuple [.I, .S]) [.tup [.num 5, .str (List.replicate n 97)]] 64 h
    (by simp [HasNul, HasNulAny]) (by decide) (by decide) (by rw [hy]; omega) (by decide) (by decide)
    (by rw [hy]; omega) (by simp [laid, hz, Spec.align, Spec.alignMax, roundUp, zeros]; omega)
  rw [g1, Res.bind_ok, g2]

/-- An `a(si)` of one element comes back as four; an `av` of three bytes as six. -/
example : back (.crate false) (.A (.tuple [.S, .I])) (.arr [.tup [.str [104, 105], .num 5]]) =
      .arr [.tup [.str [], .num 0], .tup [.str [], .num 0], .tup [.str [], .num 0], .tup [.str [104, 105], .num 5]] ∧
    back (.crate false) (.A .V) (.arr [.variant [121] [7]]) =
      .arr (List.replicate 5 (.variant [40, 41] []) ++ [.variant [121] [7]]) := ⟨rfl, rfl⟩

/-- Read what is there and write it again, `n` times, each time at another place. -/
def rounds (c : Cfg) (t : Ty) (place : Nat → Nat) : Nat → Bytes → Res Bytes
  | 0, b => .ok b
  | n + 1, b => do
    let b ← reserialize c t ⟨place (n + 1), b⟩
    rounds c t place n b

/-- Any number of rounds of reading and writing, starting from any data whatever: the value after them is
    determined by the value read at first. -/
theorem c67_rounds (c : Cfg) (t : Ty) (place : Nat → Nat) (n : Nat) (hx : Expands t) (hsm : Small t)
    (ha : ∀ k, Spec.align t ∣ place k) : ∀ (b : Bytes) (v : Val), b.length < 2 ^ 63 →
    readAs c t ⟨place (n + 1), b⟩ = .ok v →
    (∀ k ≤ n, (enc (.crate c.bigEndian) t (backN (.crate c.bigEndian) t k v)).length < 2 ^ 63) →
    ∃ b', rounds c t place (n + 1) b = .ok b' ∧
      b' = enc (.crate c.bigEndian) t (backN (.crate c.bigEndian) t n v) ∧
      readAs c t ⟨place 0, b'⟩ = .ok (backN (.crate c.bigEndian) t (n + 1) v) := by
  induction n with
  | zero =>
    intro b v hb hr hl
    have h0 := hl 0 (Nat.le_refl _)
    simp only [backN] at h0
    obtain ⟨h1, hf⟩ := reserialize_ok (s := ⟨place 1, b⟩) hx hsm (ha 1) hb hr h0
    refine ⟨_, ?_, rfl, readAs_enc rfl hx hsm (ha 0) hf h0⟩
    simp only [rounds, h1, Res.bind_ok, backN]
  | succ n ih =>
    intro b v hb hr hl
    have h0 := hl 0 (Nat.zero_le _)
    simp only [backN] at h0
    obtain ⟨h1, hf⟩ := reserialize_ok (s := ⟨place (n + 2), b⟩) hx hsm (ha _) hb hr h0
    obtain ⟨b', h2, h3, h4⟩ := ih _ (back (.crate c.bigEndian) t v) h0
      (readAs_enc rfl hx hsm (ha _) hf h0) (fun k hk => hl (k + 1) (by omega))
    refine ⟨b', ?_, h3, h4⟩
    rw [rounds, h1, Res.bind_ok]
    exact h2

/-- An `a(si)` of two elements, in normal form: it grows with each round until, after eight, everything
    is lost. -/
example : ∀ p ∈ [23, 26, 65, 104, 143, 182, 221, 280, 0].zipIdx,
    (rounds dbg (.A (.tuple [.S, .I])) (fun _ => 64) p.2
      [104, 105, 0, 0, 5, 0, 0, 0, 3, 0, 0, 0, 104, 105, 0, 0, 6, 0, 0, 0, 3, 9, 21] >>= fun b => .ok b.length) =
    .ok p.1 := by
  decide +kernel

/-! ### C68 -/

/-- Data written by a conforming implementation is read as the value it stands for, and writing that again
    gives the same bytes exactly if no array in it ends with an element that would be padded. -/
theorem c68_theirs (c : Cfg) (t : Ty) (s : Slice) (v : Val) (hx : Expands t) (hsm : Small t)
    (ha : Spec.align t ∣ s.addr) (hf : Fits t v) (hs : s.bytes = enc (.pdf c.bigEndian) t v)
    (hl : s.len < 2 ^ 63) (hle : (enc (.crate c.bigEndian) t v).length < 2 ^ 63) :
    readAs c t s = .ok v ∧ (reserialize c t s = .ok s.bytes ↔ EvenEnds (.crate c.bigEndian) t v) := by
  have hl' : (enc (.pdf c.bigEndian) t v).length < 2 ^ 63 := by rw [← hs]; exact hl
  have h1 := trip (R := .crate c.bigEndian) (E := .pdf c.bigEndian) rfl t v hf (by omega)
  have h2 := back_enc (R := .crate c.bigEndian) (E := .pdf c.bigEndian) rfl t v hf (by omega)
  have hv : back (.pdf c.bigEndian) t v = v := h2.1.symm.trans (h1.1.2 fun h => by cases h)
  have hr : readAs c t s = .ok v := by
    have := readAs_enc (c := c) (E := .pdf c.bigEndian) (v := v) rfl hx hsm ha hf hl'
    rw [hv, ← hs] at this
    exact this
  refine ⟨hr, ?_⟩
  rw [(reserialize_ok hx hsm ha hl hr hle).1, hs]
  constructor
  · intro he
    have h3 := trip (R := .crate c.bigEndian) (E := .crate c.bigEndian) rfl t v hf (by omega)
    refine h3.1.1 ?_ rfl
    rw [Res.ok.inj he]
    exact h1.1.2 fun h => by cases h
  · intro he
    exact congrArg _ (enc_even _ t v he)

/-- What the crate writes is read by a conforming implementation in the same way as by the crate itself, and
    as the value that was written exactly if no array in it ends with an element that was padded. -/
theorem c68_ours (c : Cfg) (t : Ty) (x : Src) (addr : Nat) (h : Serializable t x)
    (hn : ¬ HasNul x) (hsm : Small t) (ha : Spec.align t ∣ addr) (hl : (bytesOf c t x).length < 2 ^ 63) :
    ∃ b, serializeToVec c t x = .ok b ∧ readAs c t ⟨addr, b⟩ = .ok (dec (.pdf c.bigEndian) t b) ∧
      (dec (.pdf c.bigEndian) t b = meaning (.crate c.bigEndian) t x ↔
        EvenEnds (.crate c.bigEndian) t (meaning (.crate c.bigEndian) t x)) := by
  have hf := bytesOf_fits (c := c) h hn
  refine ⟨_, vec_good h hn (by omega), ?_, ?_⟩
  · rw [show bytesOf c t x = enc (.crate c.bigEndian) t (meaning (.crate c.bigEndian) t x) from rfl] at hl ⊢
    rw [readAs_enc rfl h.ex hsm ha hf hl, (back_enc (R := .pdf c.bigEndian) rfl t _ hf (by omega)).1]
  · have h1 := trip (R := .pdf c.bigEndian) (E := .crate c.bigEndian) rfl t _ hf
      (show (bytesOf c t x).length < 2 ^ 64 by omega)
    exact h1.1.trans ⟨fun h => h rfl, fun h _ => h⟩

/-- For types whose arrays have elements of fixed size, without alignment, or whose size is always a multiple of
    the alignment (they end in an array or maybe of fixed-size items, see `tidy`), the exchange is faithful both ways: bytes of any normal form survive re-serialization
    and the crate's own bytes are read as what was written. -/
theorem c68_types (c : Cfg) (t : Ty) (hx : Expands t) (hsm : Small t) (ht : tidyArrays t = true) (addr : Nat)
    (ha : Spec.align t ∣ addr) :
    (∀ b, b.length < 2 ^ 63 → Normal c.bigEndian t b → reserialize c t ⟨addr, b⟩ = .ok b) ∧
    (∀ x, Serializable t x → ¬ HasNul x → (bytesOf c t x).length < 2 ^ 63 →
      ∃ b, serializeToVec c t x = .ok b ∧ Normal c.bigEndian t b ∧
        dec (.pdf c.bigEndian) t b = meaning (.crate c.bigEndian) t x) := by
  constructor
  · rintro b hl ⟨v, hf, rfl⟩
    have he := evenEnds_tidy (E := .crate c.bigEndian) t v ht hf
    exact (c68_theirs c t ⟨addr, _⟩ v hx hsm ha hf rfl hl (by rw [enc_even _ t v he]; exact hl)).2.2 he
  · intro x h hn hl
    have hf := bytesOf_fits (c := c) h hn
    have he := evenEnds_tidy (E := .crate c.bigEndian) t _ ht hf
    obtain ⟨b, h1, _, h3⟩ := c68_ours c t x addr h hn hsm ha hl
    refine ⟨b, h1, ⟨_, hf, ?_⟩, h3.2 he⟩
    rw [vec_good h hn (by omega)] at h1
    rw [← Res.ok.inj h1]
    exact (enc_even _ t _ he).symm

/-- Normal forms of `a(si)`, `(saas)` and `ami`: one changes, two stay. -/
example : reserialize dbg (.A (.tuple [.S, .I])) ⟨64, [104, 0, 0, 0, 5, 0, 0, 0, 2, 9]⟩ =
      .ok [104, 0, 0, 0, 5, 0, 0, 0, 2, 0, 0, 0, 9] ∧
    enc (.pdf false) (.A (.tuple [.S, .I])) (.arr [.tup [.str [104], .num 5]]) = [104, 0, 0, 0, 5, 0, 0, 0, 2, 9] ∧
    reserialize dbg (.tuple [.S, .A (.A .S)]) ⟨64, [104, 0, 105, 0, 2, 3, 2]⟩ = .ok [104, 0, 105, 0, 2, 3, 2] ∧
    enc (.pdf false) (.tuple [.S, .A (.A .S)]) (.tup [.str [104], .arr [.arr [.str [105]]]]) =
      [104, 0, 105, 0, 2, 3, 2] ∧ tidyArrays (.tuple [.S, .A (.A .S)]) = true ∧
    reserialize dbg (.A (.M .I)) ⟨64, [5, 0, 0, 0, 4, 4]⟩ = .ok [5, 0, 0, 0, 4, 4] :=
  ⟨by decide +kernel, rfl, by decide +kernel, rfl, by decide, by decide +kernel⟩

end GV.Props
