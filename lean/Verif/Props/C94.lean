import Verif.Proofs.Oom
import Verif.Props.C10_C19
/-
C94: what running out of memory leaves of a `GString`.
C95: what it leaves of an `AlignedBuf`.
-/
namespace GV.Props
open GV Spec

/-! ### C94 -/

/-- An edit that panics leaves the string as it was, text, NUL and capacity; one that does not has its effect.  It
    panics only if there was not enough room and the request for more was refused or impossible. -/
theorem c94_edit (e : Edit) (g : GString) (t : Bytes) (m : Answers) (he : e.Ok) (hi : GInv g t) :
    match GString.editIn e g m with
    | (some r, g', _) => GInv g' (e.onText t) ∧ (r = false ↔ ∃ s, e = .push s ∧ (0 : UInt8) ∈ s)
    | (none, g', _) => g' = g ∧ g.cap - g.data.length < wanted e ∧ Denied g.data.length (wanted e) m := by
  rcases editIn_ok (m := m) he hi with ⟨r, g', m', h1, h2, h3⟩ | ⟨m', h1, h2, h3⟩
  · rw [h1]; exact ⟨h2, h3⟩
  · rw [h1]; exact ⟨rfl, h2, h3⟩

-- the push needs four bytes more: granted, refused, refused for its NUL without asking
example : GInv ⟨[97, 0], 3⟩ [97] := ⟨⟨(utf8Valid_iff _).1 (by decide), by decide⟩, rfl, by decide⟩
example : GString.editIn (.push [98, 99]) ⟨[97, 0], 3⟩ [some (64, 4), none] = (some true, ⟨[97, 98, 99, 0], 8⟩, [none]) ∧
    GString.editIn (.push [98, 99]) ⟨[97, 0], 3⟩ [none] = (none, ⟨[97, 0], 3⟩, []) ∧
    GString.editIn (.push [98, 0]) ⟨[97, 0], 3⟩ [none] = (some false, ⟨[97, 0], 3⟩, [none]) := ⟨rfl, rfl, rfl⟩

/-- After any edits, of which any may have failed for want of memory, the string holds what those that did not
    fail make of the text, and can be used in all ways. -/
theorem c94_history (c : Cfg) (es : List Edit) (g : GString) (t : Bytes) (m : Answers) (he : ∀ e ∈ es, e.Ok)
    (hi : GInv g t) :
    match GString.editAll es g m with
    | (rs, g', _) => rs.length = es.length ∧
        ∃ t', t' = edited t (es.zip (rs.map Option.isSome)) ∧ Text t' ∧ g'.data = t' ++ [0] ∧
          g'.asStr c = .ok t' ∧ g'.intoCString = .ok (t' ++ [0]) ∧ g'.intoString = t' := by
  obtain ⟨rs, g', m', h1, h2, h3⟩ := editAll_ok es g t m he hi
  rw [h1]
  have h4 := c24_conversions c g' _ h3
  exact ⟨h2, _, rfl, h3.1, h3.2.1, h4.2.1, h4.1, h4.2.2.1⟩

-- push, push that fails, push, clear, reserve that fails, push
example : GString.editAll [.push [98], .push [99, 100, 101], .push [102], .clear, .reserve 100, .push [103]] .new
      [some (8, 1), none, none] =
    ([some true, none, some true, some true, none, some true], ⟨[103, 0], 3⟩, []) := rfl
example : GInv .new [] := ⟨text_nil', rfl, by decide⟩

/-- `clear` does not ask for memory. -/
theorem c94_clear (g : GString) (t : Bytes) (m : Answers) (hi : GInv g t) :
    GString.clearIn g m = (some (), ⟨[0], g.cap⟩, m) := by
  refine clearIn_eq ?_
  have := hi.2.2
  rw [hi.2.1] at this
  simp only [List.length_append, List.length_cons, List.length_nil] at this
  omega

/-! ### C95 -/

/-- The vec cannot be realigned: it lies badly, has no spare room, and more is refused. -/
def Unlucky (v : RVec) (m : Answers) : Prop :=
  v.bytes ≠ [] ∧ ¬ 8 ∣ v.addr ∧ v.cap < v.bytes.length + 7 ∧ (m = [] ∨ ∃ m', m = none :: m')

/-- Blocks that the allocator gives are inside the address space. -/
def InSpace (m : Answers) : Prop := ∀ ad ex, some (ad, ex) ∈ m → ad + ex + (2 ^ 62 + 22) ≤ usizeMod

/-- The claim: after `with_vec`, whichever way it ended (unless the process is gone), the buffer shows the bytes
    that the callback left. -/
def C95_full : Prop :=
  ∀ (c : Cfg) (f : Callback) (b : AlignedBuf) (m : Answers), b.Inv →
    (f ⟨b.data.addr, b.data.cap, b.vis⟩ m).2.1.Valid → InSpace (f ⟨b.data.addr, b.data.cap, b.vis⟩ m).2.2 →
    (b.withVecIn c f m).1 ≠ .aborted →
    ∃ s, (b.withVecIn c f m).2.1.deref c = .ok s ∧ s.bytes = (f ⟨b.data.addr, b.data.cap, b.vis⟩ m).2.1.bytes

/-- A callback that reads ten bytes into a vec that the allocator has put at an odd address. -/
def readTen : Callback := fun _ m => (false, ⟨1001, 10, [1, 2, 3, 4, 5, 6, 7, 8, 9, 10]⟩, m)

-- seven of the ten bytes cannot be seen any more, and are lost with the next call
example : AlignedBuf.new.withVecIn dbg readTen [none] =
      (.panicked, ⟨⟨1001, 10, [1, 2, 3, 4, 5, 6, 7, 8, 9, 10]⟩⟩, []) ∧
    AlignedBuf.deref dbg ⟨⟨1001, 10, [1, 2, 3, 4, 5, 6, 7, 8, 9, 10]⟩⟩ = .ok ⟨1008, [8, 9, 10]⟩ ∧
    AlignedBuf.intoVec dbg ⟨⟨1001, 10, [1, 2, 3, 4, 5, 6, 7, 8, 9, 10]⟩⟩ = .ok ⟨1001, 10, [8, 9, 10]⟩ :=
  ⟨rfl, rfl, rfl⟩
-- with fewer bytes than that, looking at the buffer panics
example : AlignedBuf.deref dbg ⟨⟨1001, 3, [1, 2, 3]⟩⟩ = .fail .bounds ∧
    AlignedBuf.intoVec dbg ⟨⟨1001, 3, [1, 2, 3]⟩⟩ = .fail .explicit := ⟨rfl, rfl⟩

theorem c95_full_false : ¬ C95_full := by
  intro h
  obtain ⟨s, h1, h2⟩ := h dbg readTen .new [none] ⟨by decide, by decide, by decide, Or.inl rfl⟩
    ⟨by decide, by decide, by decide⟩ (by intro ad ex h; simp [readTen] at h) (by decide)
  have h3 : (AlignedBuf.new.withVecIn dbg readTen [none]).2.1.deref dbg = .ok ⟨1008, [8, 9, 10]⟩ := rfl
  rw [h3] at h1
  cases h1
  simp [readTen] at h2

/-- What holds: unless the vec cannot be realigned, the buffer shows the bytes that the callback left, and the call
    returns or panics as the callback did.  If it cannot, the call panics, or aborts if the callback was
    unwinding. -/
theorem c95_call_partial (c : Cfg) (f : Callback) (b : AlignedBuf) (m : Answers) (hi : b.Inv) (u : Bool) (v : RVec)
    (m' : Answers) (hf : f ⟨b.data.addr, b.data.cap, b.vis⟩ m = (u, v, m')) (hv : v.Valid) (hm : InSpace m') :
    (¬ Unlucky v m' → ∃ b' m'', b.withVecIn c f m = (if u then .panicked else .returned, b', m'') ∧ b'.Inv ∧
      b'.vis = v.bytes ∧ ∃ s, b'.deref c = .ok s ∧ s.bytes = v.bytes ∧ (v.bytes ≠ [] → 8 ∣ s.addr)) ∧
    (Unlucky v m' → ∃ m'', b.withVecIn c f m = (if u then .aborted else .panicked, ⟨v⟩, m'')) := by
  obtain ⟨w, hw, hwb, hwa, hwc⟩ := unalignVec_ok (c := c) hi
  have hwe : w = ⟨b.data.addr, b.data.cap, b.vis⟩ := by rw [← hwb, ← hwa, ← hwc]
  have hun := unalignIn_ok (m := m) hw
  rw [hwe] at hun
  obtain ⟨v1, v2, v3⟩ := hv
  constructor
  · intro hl
    have hkey : ∃ x m'', alignIn c v m' = (some (), x, m'') ∧ AlignedBuf.Inv ⟨x⟩ ∧ AlignedBuf.vis ⟨x⟩ = v.bytes := by
      by_cases hal : bufIsAligned v = true
      · obtain ⟨x, h1, h2, h3⟩ := alignVec_ok (c := c) (a := ⟨fun _ => 0, fun _ => 0⟩)
          (by intro n hn; unfold usizeMod; simp only; omega) ⟨v1, v2, v3⟩
        simp only [alignVec, hal, if_true] at h1
        cases h1
        exact ⟨v, m', alignIn_aligned hal, h2, h3⟩
      · by_cases hr : v.bytes.length + 7 ≤ v.cap
        · obtain ⟨x, h1, h2, h3⟩ := alignVec_ok (c := c) (a := ⟨fun _ => 0, fun _ => 0⟩)
            (by intro n hn; unfold usizeMod; simp only; omega) ⟨v1, v2, v3⟩
          exact ⟨x, m', alignIn_roomy hr h1, h2, h3⟩
        · have hn : v.bytes ≠ [] ∧ ¬ 8 ∣ v.addr := by
            rw [bufIsAligned_iff, gap_eq_zero isAl8] at hal
            exact ⟨fun h => hal (.inl h), fun h => hal (.inr h)⟩
          match m', hl, hm with
          | [], hl, _ => exact absurd ⟨hn.1, hn.2, by omega, .inl rfl⟩ hl
          | none :: m'', hl, _ => exact absurd ⟨hn.1, hn.2, by omega, .inr ⟨m'', rfl⟩⟩ hl
          | some (ad, ex) :: m'', _, hm =>
            have hs := hm ad ex (by simp)
            obtain ⟨x, h1, h2, h3⟩ := alignVec_ok (c := c) (a := ⟨fun _ => ad, fun _ => ex⟩)
              (by intro n hn; simp only; omega) ⟨v1, v2, v3⟩
            exact ⟨x, m'', alignIn_tight (by simpa using hal) (by omega) v1 (by omega) h1, h2, h3⟩
    obtain ⟨x, m'', h1, h2, h3⟩ := hkey
    refine ⟨⟨x⟩, m'', ?_, h2, h3, _, deref_ok h2, h3, ?_⟩
    · simp only [AlignedBuf.withVecIn, hun, hf, h1]
    · intro hne
      have : x.bytes ≠ [] := by
        intro h0
        simp only [AlignedBuf.vis, h0, List.drop_nil] at h3
        exact hne h3.symm
      simp only [this, if_false]
      exact gap_dvd isAl8 _
  · rintro ⟨h1, h2, h3, h4⟩
    have hal : bufIsAligned v = false := by
      rw [Bool.eq_false_iff]
      intro h
      rcases (bufIsAligned_iff v).1 h with h | h
      · exact h1 h
      · exact h2 ((gap_eq_zero isAl8 _).1 h)
    obtain ⟨m'', hx⟩ := alignIn_denied (c := c) hal h3 v1 h4
    exact ⟨m'', by simp only [AlignedBuf.withVecIn, hun, hf, hx]⟩

-- the same ten bytes, but more memory can be had; and at a good address, without
example : AlignedBuf.new.withVecIn dbg readTen [some (2003, 0)] =
    (.returned, ⟨⟨2003, 17, [0, 0, 0, 0, 0, 1, 2, 3, 4, 5, 6, 7, 8, 9, 10]⟩⟩, []) := rfl
example : AlignedBuf.new.withVecIn rel (fun _ m => (true, ⟨1008, 2, [1, 2]⟩, m)) [none] =
    (.panicked, ⟨⟨1008, 2, [1, 2]⟩⟩, [none]) := rfl

/-- Several calls, by a program that goes on after each panic. -/
def callAll (c : Cfg) : List Callback → AlignedBuf → Answers → List Exit × AlignedBuf × Answers
  | [], b, m => ([], b, m)
  | f :: fs, b, m =>
    match b.withVecIn c f m with
    | (.aborted, b, m) => ([.aborted], b, m)
    | (e, b, m) => match callAll c fs b m with
      | (es, b, m) => (e :: es, b, m)

/-- The same callbacks on a plain `Vec`. -/
def plainAll : List Callback → RVec → Answers → List Exit × RVec × Answers
  | [], v, m => ([], v, m)
  | f :: fs, v, m =>
    match f v m with
    | (u, v, m) => match plainAll fs v m with
      | (es, v, m) => ((if u then .panicked else .returned) :: es, v, m)

/-- With an allocator that gives blocks at multiples of eight, as all do for what is larger than a few bytes,
    nothing is left of this: whatever is refused, any calls on the buffer end as the same on a plain vec and leave
    the very same vec. -/
theorem c95_plain_partial (c : Cfg) (fs : List Callback) (v : RVec) (m : Answers) (hv : v.bytes = [] ∨ 8 ∣ v.addr)
    (hf : ∀ f ∈ fs, ∀ v m, v.bytes = [] ∨ 8 ∣ v.addr → (f v m).2.1.bytes = [] ∨ 8 ∣ (f v m).2.1.addr) :
    callAll c fs ⟨v⟩ m = ((plainAll fs v m).1, ⟨(plainAll fs v m).2.1⟩, (plainAll fs v m).2.2) := by
  induction fs generalizing v m with
  | nil => rfl
  | cons f fs ih =>
    have hal : ∀ v : RVec, v.bytes = [] ∨ 8 ∣ v.addr → bufIsAligned v = true := fun v h =>
      (bufIsAligned_iff v).2 (h.imp id (gap_eq_zero isAl8 _).2)
    have h1 : unalignIn c v m = (some (), v, m) := by simp [unalignIn, hal v hv]
    have h2 := hf f (by simp) v m hv
    obtain ⟨⟨u, v', m'⟩, hx⟩ : ∃ r, f v m = r := ⟨_, rfl⟩
    rw [hx] at h2
    have h3 := alignIn_aligned (c := c) (m := m') (hal v' h2)
    have h4 := ih v' m' h2 fun f' h => hf f' (by simp [h])
    simp only [callAll, AlignedBuf.withVecIn, h1, hx, h3, plainAll]
    cases u <;> simp [h4]

-- a vec that is written to until memory runs out, and emptied
example : callAll dbg [fun v m => (false, ⟨64, 4, v.bytes ++ [1, 2, 3]⟩, m), fun v m => (true, v, m.tail),
      fun v m => (false, { v with bytes := [] }, m)] .new [none] =
    ([.returned, .panicked, .returned], ⟨⟨64, 4, []⟩⟩, []) := rfl

/-- Whatever is left behind, looking at it is safe: it panics for being out of bounds, or shows an end of the vec,
    at a multiple of eight if there is anything to see. -/
theorem c95_safe (c : Cfg) (b : AlignedBuf) (ha : b.data.addr + 8 ≤ usizeMod) :
    b.deref c = .fail .bounds ∨ ∃ k ≤ b.data.bytes.length,
      b.deref c = .ok ⟨b.data.addr + k, b.data.bytes.drop k⟩ ∧ (b.data.bytes ≠ [] → 8 ∣ b.data.addr + k) := by
  simp only [AlignedBuf.deref, offsetToAlign_ok ha, Res.bind_ok]
  by_cases hb : b.data.bytes = []
  · refine .inr ⟨0, Nat.zero_le _, ?_, fun h => absurd hb h⟩
    simp only [hb, if_true, Slice.from_, Nat.zero_le, Res.bind_ok, RVec.slice]
    exact unchecked_ok (Or.inl rfl)
  · simp only [hb, if_false, Slice.from_, Slice.len, RVec.slice]
    by_cases hg : gap 8 b.data.addr ≤ b.data.bytes.length
    · rw [if_pos hg]
      simp only [Res.bind_ok]
      exact .inr ⟨gap 8 b.data.addr, hg, unchecked_ok (Or.inr (gap_dvd isAl8 _)), fun _ => gap_dvd isAl8 _⟩
    · rw [if_neg hg]
      exact .inl rfl

end GV.Props
