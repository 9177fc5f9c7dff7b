import Verif.Proofs.Stream
import Verif.Props.C19_C48
import Verif.Props.C67_C68
/-
C69: serializing to and deserializing from streams, call by call.
-/
namespace GV.Props
open GV Spec

variable {σ τ : Type}

/-! ### Writing -/

/-- However little the writer takes at a time, and however often it is interrupted: what it has taken is a
    prefix of the encoding (with strings containing NUL replaced by anything); it is never called again after
    it failed, and then `serialize` returns its error; and if it never fails, `serialize` returns no error of
    its own making, the count returned is that of the bytes taken, and these are the whole encoding. -/
theorem c69_write (d : Dev σ) (c : Cfg) (t : Ty) (x : Src) (st : σ) (h : Serializable t x)
    (f : Bytes → Bytes) (hf : ∀ b, Text (f b)) (hl : (bytesOf c t (mend f x)).length < 2 ^ 63) :
    let r := serialize d.recording.writer c t x (st, [])
    let log := r.1.st.2
    taken log <+: bytesOf c t (mend f x) ∧
    (((∀ m ∈ log, failing m = none) ∧
        (HasNul x ∧ r.2 = .badInput ∨ ¬ HasNul x ∧ r.2 = .ok (taken log).length ∧ taken log = bytesOf c t x)) ∨
     ∃ ok m e, log = ok ++ [m] ∧ (∀ m ∈ ok, failing m = none) ∧ failing m = some e ∧ r.2 = .io e) := by
  intro r log
  rcases ser_half (w := d.recording.writer) (c := c) hf x t h.acc h.ex h.inner hl with
    ⟨hn, ws, h1, ht⟩ | ⟨hn, ws, h1, ht⟩
  · have hm : bytesOf c t (mend f x) = bytesOf c t x := by unfold bytesOf; rw [mend_meaning x hn t]
    replace h1 : ws.flatten = bytesOf c t (mend f x) := h1
    have hr : r = _ := ht ⟨(st, []), []⟩
    obtain ⟨l, p, g1, g2, g3, g4, g5⟩ := runAll_recording d ws ⟨(st, []), []⟩
    rcases hrun : runAll d.recording.writer ws ⟨(st, []), []⟩ with ⟨s', _ | e⟩
    · rw [hrun] at hr g1 g2 g5
      simp only [List.nil_append] at g1 g2 g5
      have hlog : log = l := by show r.1.st.2 = l; rw [hr]; exact g1
      refine ⟨by rw [hlog, g3, ← h1]; exact g4, .inl ⟨by rw [hlog]; exact g5.1, .inr ⟨hn, ?_, ?_⟩⟩⟩
      · rw [hr, hlog, g3, g5.2, h1]; rfl
      · rw [hlog, g3, g5.2, h1, hm]
    · rw [hrun] at hr g1 g2 g5
      simp only [List.nil_append] at g1 g2 g5
      have hlog : log = l := by show r.1.st.2 = l; rw [hr]; exact g1
      obtain ⟨ok, m, g6, g7, g8⟩ := g5
      refine ⟨by rw [hlog, g3, ← h1]; exact g4, .inr ⟨ok, m, e, by rw [hlog, g6], g7, g8, by rw [hr]⟩⟩
  · replace h1 : ws.flatten <+: bytesOf c t (mend f x) := h1
    have hr : r = _ := ht ⟨(st, []), []⟩
    obtain ⟨l, p, g1, g2, g3, g4, g5⟩ := runAll_recording d ws ⟨(st, []), []⟩
    rcases hrun : runAll d.recording.writer ws ⟨(st, []), []⟩ with ⟨s', _ | e⟩
    · rw [hrun] at hr g1 g2 g5
      simp only [List.nil_append] at g1 g2 g5
      have hlog : log = l := by show r.1.st.2 = l; rw [hr]; exact g1
      exact ⟨by rw [hlog, g3]; exact g4.trans h1, .inl ⟨by rw [hlog]; exact g5.1, .inl ⟨hn, by rw [hr]⟩⟩⟩
    · rw [hrun] at hr g1 g2 g5
      simp only [List.nil_append] at g1 g2 g5
      have hlog : log = l := by show r.1.st.2 = l; rw [hr]; exact g1
      obtain ⟨ok, m, g6, g7, g8⟩ := g5
      exact ⟨by rw [hlog, g3]; exact g4.trans h1, .inr ⟨ok, m, e, by rw [hlog, g6], g7, g8, by rw [hr]⟩⟩

/-- A writer that takes one byte per call, is interrupted before each, and fails after `n` bytes: the state is
    the number of bytes it will take and whether it will be interrupted next. -/
def drip : Dev (Nat × Bool) where
  write s b := if s.2 then ((s.1, false), .interrupted)
    else if s.1 = 0 then (s, .error 7) else ((s.1 - 1, true), .took (min 1 b.length))
  patience s _ := if s.2 then 1 else 0
  calms s b s' h := by
    by_cases h1 : s.2 = true
    · simp only [h1, if_true, Prod.mk.injEq, and_true] at h ⊢; rw [← h]; simp
    · by_cases h2 : s.1 = 0 <;> simp [h1, h2] at h
  within s b s' n h := by
    by_cases h1 : s.2 = true
    · simp [h1] at h
    · by_cases h2 : s.1 = 0 <;> simp [h1, h2] at h; omega

/-- A string is written in pieces of one byte each; or with room for two bytes only. -/
example :
    let r := serialize drip.recording.writer dbg .S (.str [104, 105]) ((9, true), [])
    r.1.st.2 = [([104, 105], .interrupted), ([104, 105], .took 1), ([105], .interrupted), ([105], .took 1),
        ([0], .interrupted), ([0], .took 1)] ∧ r.2 = .ok 3 := by
  have h1 : drip.recording.writer.writeAll ((9, true), []) [104, 105] =
      (((7, true), [([104, 105], .interrupted), ([104, 105], .took 1), ([105], .interrupted), ([105], .took 1)]),
        none) := by
    show drip.recording.writeAll _ _ = _
    rw [writeAll_interrupted (by decide) rfl, writeAll_took (n := 0) (by decide) rfl,
      writeAll_interrupted (by decide) rfl, writeAll_took (n := 0) (by decide) rfl]
    simp [writeAll_nil, drip]
  have h2 : ∀ l, drip.recording.writer.writeAll ((7, true), l) [0] =
      (((6, true), l ++ [([0], .interrupted), ([0], .took 1)]), none) := by
    intro l
    show drip.recording.writeAll _ _ = _
    rw [writeAll_interrupted (by decide) rfl, writeAll_took (n := 0) (by decide) rfl]
    simp [writeAll_nil, drip]
  simp [serialize, ser, isStrTy, bind, WM.bind, WM.write, h1, h2, WM.lift, uadd, usizeMod]

example :
    let r := serialize drip.recording.writer dbg .S (.str [104, 105, 106]) ((2, true), [])
    r.1.st.2 = [([104, 105, 106], .interrupted), ([104, 105, 106], .took 1), ([105, 106], .interrupted),
        ([105, 106], .took 1), ([106], .interrupted), ([106], .error 7)] ∧ r.2 = .io 7 := by
  have h1 : drip.recording.writer.writeAll ((2, true), []) [104, 105, 106] =
      (((0, false), [([104, 105, 106], .interrupted), ([104, 105, 106], .took 1), ([105, 106], .interrupted),
        ([105, 106], .took 1), ([106], .interrupted), ([106], .error 7)]), some (2, 7)) := by
    show drip.recording.writeAll _ _ = _
    rw [writeAll_interrupted (by decide) rfl, writeAll_took (n := 0) (by decide) rfl,
      writeAll_interrupted (by decide) rfl, writeAll_took (n := 0) (by decide) rfl,
      writeAll_interrupted (by decide) rfl, writeAll_error (by decide) rfl]
    rfl
  simp [serialize, ser, isStrTy, bind, WM.bind, WM.write, h1]

/-- A writer that takes something each time is given everything, if no string contains NUL. -/
theorem c69_takes (d : Dev σ) (c : Cfg) (t : Ty) (x : Src) (st : σ) (h : Serializable t x) (hn : ¬ HasNul x)
    (hl : (bytesOf c t x).length < 2 ^ 63) (hd : TakesAll d) :
    let r := serialize d.recording.writer c t x (st, [])
    r.2 = .ok (bytesOf c t x).length ∧ taken r.1.st.2 = bytesOf c t x := by
  intro r
  obtain ⟨_, h2⟩ := c69_write d c t x st h (fun _ => []) (fun _ => text_nil) ((bounded_iff hn).2 hl)
  rcases h2 with ⟨_, ⟨h2, _⟩ | ⟨_, h2, h3⟩⟩ | ⟨_, _, e, _, _, _, h2⟩
  · exact absurd h2 hn
  · exact ⟨by rw [← h3]; exact h2, h3⟩
  · exfalso
    obtain ⟨ws, _, ht⟩ := ser_good (w := d.recording.writer) h hn hl
    have hr : r = _ := ht ⟨(st, []), []⟩
    have hno : ∀ (ws : List Bytes) s, (runAll d.recording.writer ws s).2 = none := by
      intro ws
      induction ws with
      | nil => intro s; rfl
      | cons b ws ih =>
        intro s
        have hd' : TakesAll d.recording := fun s b hb => hd s.1 b hb
        have := writeAll_takesAll hd' s.st b
        simp only [runAll, Dev.writer]
        rcases hq : d.recording.writeAll s.st b with ⟨st', _ | ⟨k, e⟩⟩
        · exact ih _
        · rw [hq] at this; cases this
    rcases hrun : runAll d.recording.writer ws ⟨(st, []), []⟩ with ⟨s', _ | e⟩
    · rw [hrun] at hr
      replace h2 : r.2 = _ := h2
      rw [hr] at h2; cases h2
    · have := hno ws ⟨(st, []), []⟩
      rw [hrun] at this; cases this

/-- A writer that takes one byte per call and is interrupted before each. -/
def dribble : Dev Bool where
  write s b := if s then (false, .interrupted) else (true, .took (min 1 b.length))
  patience s _ := if s then 1 else 0
  calms s b s' h := by cases s <;> simp at h ⊢; rw [h]
  within s b s' n h := by cases s <;> simp at h; omega

theorem dribble_takes : TakesAll dribble := by
  intro s b hb
  have := List.length_pos_iff.2 hb
  cases s <;> simp [dribble]
  exact hb

/-- An `a(yv)` byte by byte. -/
example : taken (serialize dribble.recording.writer dbg (.A (.tuple [.Y, .V])) srcAYV (true, [])).1.st.2 =
    [3, 0, 0, 0, 0, 0, 0, 0, 2, 1, 0, 0, 0, 105, 0, 0,
      4, 0, 0, 0, 0, 0, 0, 0, 104, 105, 0, 0, 115, 0, 0, 0, 14, 29] :=
  (c69_takes dribble dbg _ srcAYV true srcAYV_ok (by simp [srcAYV, HasNul, HasNulAny]) (by decide +kernel)
    dribble_takes).2

/-- Into a slice of `k` bytes: success exactly if the encoding fits, leaving the rest of the slice; otherwise
    an error of kind `WriteZero`, and the slice is filled with the start of the encoding. -/
theorem c69_slice (c : Cfg) (t : Ty) (x : Src) (k : Nat) (h : Serializable t x) (hn : ¬ HasNul x)
    (hl : (bytesOf c t x).length < 2 ^ 63) :
    serialize Dev.slice.writer c t x k =
      if (bytesOf c t x).length ≤ k then
        (⟨k - (bytesOf c t x).length, bytesOf c t x⟩, .ok (bytesOf c t x).length)
      else (⟨0, (bytesOf c t x).take k⟩, .io writeZero) := by
  obtain ⟨ws, h1, ht⟩ := ser_good (w := Dev.slice.writer) h hn hl
  unfold serialize
  rw [ht, runAll_slice, h1]
  by_cases hk : (bytesOf c t x).length ≤ k <;> simp [hk]

/-- An `a(yv)` of 34 bytes into 34 and into 20. -/
example : serialize Dev.slice.writer dbg (.A (.tuple [.Y, .V])) srcAYV 34 =
      (⟨0, [3, 0, 0, 0, 0, 0, 0, 0, 2, 1, 0, 0, 0, 105, 0, 0,
        4, 0, 0, 0, 0, 0, 0, 0, 104, 105, 0, 0, 115, 0, 0, 0, 14, 29]⟩, .ok 34) ∧
    serialize Dev.slice.writer dbg (.A (.tuple [.Y, .V])) srcAYV 20 =
      (⟨0, [3, 0, 0, 0, 0, 0, 0, 0, 2, 1, 0, 0, 0, 105, 0, 0, 4, 0, 0, 0]⟩, .io 0) := by
  have hb : bytesOf dbg (.A (.tuple [.Y, .V])) srcAYV = [3, 0, 0, 0, 0, 0, 0, 0, 2, 1, 0, 0, 0, 105, 0, 0,
        4, 0, 0, 0, 0, 0, 0, 0, 104, 105, 0, 0, 115, 0, 0, 0, 14, 29] := rfl
  have hn : ¬ HasNul srcAYV := by simp [srcAYV, HasNul, HasNulAny]
  constructor <;> rw [c69_slice _ _ _ _ srcAYV_ok hn (by rw [hb]; simp), hb] <;> rfl

/-! ### Reading -/

/-- However little the reader gives at a time, and however often it is interrupted, `deserialize` reads what a
    cast of all the bytes at an aligned place reads (except for no bytes at all and types that ask for arrays
    of aligned items, as in C37), or returns an error that the reader returned; and it is no error if the
    reader never fails. -/
theorem c69_read (c : Cfg) (p : Places) (t : Ty) (d : Feed σ) (content : σ → Bytes) (f : Filling) (s : σ)
    (hx : Expands t) (hsm : Small t) (hd : Delivers d content) (hr : ∀ b, 0 < f.room b)
    (hp : p.vecs.Valid) (hpa : Spec.align t ∣ p.addr)
    (hv : RVec.Valid ⟨(f.place (content s)).1, (f.place (content s)).2, content s⟩)
    (h : content s ≠ [] ∨ Spec.emptySafe 1 t = true) :
    (deserialize c p t d f s = .ok (readAs c t ⟨0, content s⟩) ∨
      ∃ e s' n, deserialize c p t d f s = .error e ∧ (d.read s' n).2 = .error e) ∧
    (NeverFails d → deserialize c p t d f s = .ok (readAs c t ⟨0, content s⟩)) := by
  have key : deserialize c p t d f s = .ok (readAs c t ⟨0, content s⟩) ∨
      ∃ e s' n, deserialize c p t d f s = .error e ∧ (d.read s' n).2 = .error e := by
    rcases readToEnd_content hd hr s [] with h1 | ⟨e, s', n, h1, h2⟩
    · left
      unfold deserialize
      rw [h1]
      simp only [List.nil_append]
      congr 1
      obtain ⟨b, _, hi, hb⟩ := alignVec_ok (c := c) hp hv
      exact (c37_agree_partial c p t ⟨0, content s⟩ ⟨0, content s⟩ _ ⟨b⟩ hx hsm hp hpa (Nat.dvd_zero _) hv.2.2 rfl rfl
        hv hi hb h).2.1
    · right
      refine ⟨e, s', n, ?_, h2⟩
      unfold deserialize
      rw [h1]
  refine ⟨key, fun hnf => ?_⟩
  rcases key with h1 | ⟨e, s', n, _, h2⟩
  · exact h1
  · exact absurd h2 (hnf s' n e)

/-- A reader that gives one byte per call and is interrupted before each. -/
def sip : Feed (Bytes × Bool) where
  read s n := if s.2 then ((s.1, false), .interrupted)
    else ((s.1.drop (min n 1), true), .data (s.1.take (min n 1)))
  patience s := 2 * s.1.length + if s.2 then 1 else 0
  calms s n s' h := by
    by_cases h1 : s.2 = true
    · simp only [h1, if_true, Prod.mk.injEq, and_true] at h ⊢; rw [← h]; simp
    · simp [h1] at h
  ends s n s' b h hb := by
    by_cases h1 : s.2 = true
    · simp [h1] at h
    · simp only [h1, Bool.false_eq_true, if_false, Prod.mk.injEq, Gave.data.injEq] at h
      obtain ⟨rfl, rfl⟩ := h
      have h2 : s.1.length ≠ 0 := by
        intro h0; rw [List.length_eq_zero_iff.1 h0] at hb; simp at hb
      have h3 : min n 1 ≠ 0 := by intro h0; rw [h0] at hb; simp at hb
      simp only [List.length_drop, h1]
      simp; omega

theorem sip_delivers : Delivers sip (·.1) := by
  intro s n hn
  have hm : min n 1 = 1 := by omega
  by_cases h1 : s.2 = true
  · simp [sip, h1]
  · simp only [sip, h1, Bool.false_eq_true, if_false, hm]
    refine ⟨(List.take_append_drop 1 s.1).symm, fun h => ?_⟩
    rcases hs : s.1 with _ | ⟨a, l⟩
    · rfl
    · rw [hs] at h; simp at h

theorem sip_neverFails : NeverFails sip := by
  intro s n e
  by_cases h1 : s.2 = true <;> simp [sip, h1]

/-- Any `(si)` from such a reader, into buffers of 32 bytes at odd places. -/
example (b : Bytes) (hb : b.length ≤ 2 ^ 62) (hne : b ≠ []) :
    deserialize dbg ⟨oddAlloc, fun _ => 0, 4096⟩ (.tuple [.S, .I]) sip ⟨fun _ => 32, fun b => (1000003, b.length)⟩ (b, true) =
      .ok (readAs dbg (.tuple [.S, .I]) ⟨0, b⟩) :=
  (c69_read dbg ⟨oddAlloc, fun _ => 0, 4096⟩ _ sip (·.1) ⟨fun _ => 32, fun b => (1000003, b.length)⟩ (b, true)
    (by decide) (by decide) sip_delivers (by simp) (by unfold Alloc.Valid; simp [oddAlloc, usizeMod]; omega) (by decide)
    (by refine ⟨Nat.le_refl _, ?_, hb⟩; simp only [usizeMod]; omega) (.inl hne)).2 sip_neverFails

/-! ### Both -/

/-- Through a pipe: if serializing to some writer succeeds, and what the writer took is then delivered by some
    reader, whatever the pieces in which bytes are taken and given, then `deserialize` does not fail and gives
    back what was written, as far as C67 says (`Spec.back`); and exactly what was written if no array in it
    ends with an element that is padded. -/
theorem c69_pipe (d : Dev σ) (fd : Feed τ) (content : τ → Bytes) (f : Filling) (p : Places) (c : Cfg) (t : Ty)
    (x : Src) (st : σ) (s : τ) (n : Nat) (h : Serializable t x) (hsm : Small t)
    (hl : Bounded c t x) (hw : (serialize d.recording.writer c t x (st, [])).2 = .ok n)
    (hd : Delivers fd content) (hnf : NeverFails fd) (hr : ∀ b, 0 < f.room b)
    (hs : content s = taken (serialize d.recording.writer c t x (st, [])).1.st.2)
    (hp : p.vecs.Valid) (hpa : Spec.align t ∣ p.addr)
    (hv : RVec.Valid ⟨(f.place (content s)).1, (f.place (content s)).2, content s⟩)
    (he : content s ≠ [] ∨ Spec.emptySafe 1 t = true) :
    n = (content s).length ∧
    deserialize c p t fd f s = .ok (.ok (back (.crate c.bigEndian) t (meaning (.crate c.bigEndian) t x))) ∧
    (EvenEnds (.crate c.bigEndian) t (meaning (.crate c.bigEndian) t x) →
      deserialize c p t fd f s = .ok (.ok (meaning (.crate c.bigEndian) t x))) := by
  obtain ⟨_, h2⟩ := c69_write d c t x st h (fun _ => []) (fun _ => text_nil) hl
  rcases h2 with ⟨_, ⟨_, h2⟩ | ⟨hn, h2, h3⟩⟩ | ⟨_, _, _, _, _, _, h2⟩
  · rw [hw] at h2; cases h2
  · have hb := (bounded_iff hn).1 hl
    rw [← hs] at h2 h3
    rw [hw] at h2
    have hrd := (c69_read c p t fd content f s h.ex hsm hd hr hp hpa hv he).2 hnf
    have hre := readAs_enc (c := c) (E := .crate c.bigEndian) (addr := 0) rfl h.ex hsm (Nat.dvd_zero _)
      (bytesOf_fits (c := c) h hn) hb
    replace hre : readAs c t ⟨0, bytesOf c t x⟩ = _ := hre
    rw [h3, hre] at hrd
    refine ⟨by injection h2, hrd, fun hev => ?_⟩
    rw [hrd, (c67_same _ t _ (bytesOf_fits h hn) hb).2 hev]
  · rw [hw] at h2; cases h2

/-- A `(sas)` byte by byte through writer and reader. -/
example :
    let x := Src.tup [.str [104, 105], .seq [.str [97], .str [98, 99]]]
    let r := serialize dribble.recording.writer dbg (.tuple [.S, .A .S]) x (true, [])
    r.2 = .ok 11 ∧
    deserialize dbg ⟨oddAlloc, fun _ => 0, 4096⟩ (.tuple [.S, .A .S]) sip ⟨fun _ => 32, fun b => (1000003, b.length)⟩
        (taken r.1.st.2, true) =
      .ok (.ok (.tup [.str [104, 105], .arr [.str [97], .str [98, 99]]])) := by
  intro x r
  have hx : Serializable (.tuple [.S, .A .S]) x :=
    ⟨by simp only [x, Accepts, AcceptsEach, AcceptsAll, isStr]
        exact ⟨⟨trivial, [104, 105], by simp [Scalar], rfl⟩, ⟨⟨trivial, [97], by simp [Scalar], rfl⟩,
          ⟨trivial, [98, 99], by simp [Scalar], rfl⟩, trivial⟩, trivial⟩,
      by decide, by simp [x, wraps, wrapsAll]⟩
  have hn : ¬ HasNul x := by simp [x, HasNul, HasNulAny]
  have hb : bytesOf dbg (.tuple [.S, .A .S]) x = [104, 105, 0, 97, 0, 98, 99, 0, 2, 5, 3] := rfl
  have hl : (bytesOf dbg (.tuple [.S, .A .S]) x).length < 2 ^ 63 := by rw [hb]; decide
  obtain ⟨h1, h2⟩ := c69_takes dribble dbg _ x true hx hn hl dribble_takes
  rw [hb] at h1 h2
  have h3 := c69_pipe dribble sip (·.1) ⟨fun _ => 32, fun b => (1000003, b.length)⟩ ⟨oddAlloc, fun _ => 0, 4096⟩ dbg
    (.tuple [.S, .A .S]) x true (taken r.1.st.2, true) 11 hx (by decide) ((bounded_iff hn).2 hl) h1 sip_delivers
    sip_neverFails (by simp) rfl (by unfold Alloc.Valid; simp [oddAlloc, usizeMod]; omega) (by decide)
    (by refine ⟨Nat.le_refl _, ?_, ?_⟩ <;> simp only [r, h2, usizeMod, List.length_cons, List.length_nil] <;> omega)
    (.inl (by simp only [r, h2]; simp))
  exact ⟨h1, h3.2.1⟩

end GV.Props
