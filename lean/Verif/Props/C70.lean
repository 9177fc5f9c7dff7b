import Verif.Proofs.Settle
import Verif.Props.C19_C48
import Verif.Props.C67_C68
/-
C70: reading and writing again and again comes to rest.
-/
namespace GV.Props
open GV Spec

/-- Data of any kind, if it can be read at all: after `2 ^ 32 + 1` rounds of reading and writing for each level
    of array nesting (and one) the bytes stay the same for ever, and are the normal form of the value they
    then read as. -/
theorem c70_settles (c : Cfg) (t : Ty) (place : Nat → Nat) (b : Bytes) (v : Val) (hx : Expands t) (hsm : Small t)
    (ha : ∀ k, Spec.align t ∣ place k) (hb : b.length < 2 ^ 63) (N : Nat) (hN : N = arrayDepth t * (2 ^ 32 + 1))
    (hr : readAs c t ⟨place (N + 1), b⟩ = .ok v)
    (hl : ∀ k ≤ N, (enc (.crate c.bigEndian) t (backN (.crate c.bigEndian) t k v)).length < 2 ^ 63) :
    ∃ b' w, rounds c t place (N + 1) b = .ok b' ∧
      (∀ place' n, (∀ k, Spec.align t ∣ place' k) → rounds c t place' n b' = .ok b') ∧
      (∀ addr, Spec.align t ∣ addr → readAs c t ⟨addr, b'⟩ = .ok w) ∧
      Fits t w ∧ b' = enc (.pdf c.bigEndian) t w := by
  obtain ⟨b', h1, h2, h3⟩ := c67_rounds c t place N hx hsm ha b v hb hr hl
  have hrest : back (.crate c.bigEndian) t (backN (.crate c.bigEndian) t N v) = backN (.crate c.bigEndian) t N v := by
    rw [hN]; exact settles t v
  have hlen : b'.length < 2 ^ 63 := by rw [h2]; exact hl N (Nat.le_refl _)
  have hlN := hl N (Nat.le_refl _)
  rw [backN_succ, hrest] at h3
  generalize backN (.crate c.bigEndian) t N v = w at *
  have hread : ∀ addr, Spec.align t ∣ addr → readAs c t ⟨addr, b'⟩ = .ok w := fun addr had => by
    rw [← h3]; exact c37_address c t _ _ hx hsm had (ha 0) hlen rfl
  have hre : ∀ addr, Spec.align t ∣ addr → reserialize c t ⟨addr, b'⟩ = .ok b' ∧ Fits t w := fun addr had => by
    have := reserialize_ok (s := ⟨addr, b'⟩) hx hsm had hlen (hread addr had) hlN
    rw [← h2] at this
    exact this
  have hf := (hre _ (ha 0)).2
  refine ⟨b', w, h1, ?_, hread, hf, ?_⟩
  · intro place' n hp
    induction n with
    | zero => rfl
    | succ n ih => rw [rounds, (hre _ (hp _)).1, Res.bind_ok, ih]
  · rw [h2]
    exact enc_even _ t w ((c67_same _ t w hf hlN).1 hrest)

/-- For C43: re-serializing once more changes nothing exactly if no array needs padding after its last element.
    (The bytes written then are below 2^63 too.) -/
theorem c43_again_partial (c : Cfg) (t : Ty) (s : Slice) (v : Val) (hx : Expands t) (hsm : Small t)
    (ha : Spec.align t ∣ s.addr) (hl : s.len < 2 ^ 63) (h : readAs c t s = .ok v)
    (hle : (enc (.crate c.bigEndian) t v).length < 2 ^ 63)
    (hle' : (enc (.crate c.bigEndian) t (back (.crate c.bigEndian) t v)).length < 2 ^ 63) :
    ∃ b, reserialize c t s = .ok b ∧
      (reserialize c t ⟨s.addr, b⟩ = .ok b ↔ EvenEnds (.crate c.bigEndian) t v) := by
  obtain ⟨h1, hf⟩ := reserialize_ok hx hsm ha hl h hle
  have hr := readAs_enc (c := c) (E := .crate c.bigEndian) rfl hx hsm ha hf hle
  obtain ⟨h2, hf'⟩ := reserialize_ok (s := ⟨s.addr, enc (.crate c.bigEndian) t v⟩) hx hsm ha hle hr hle'
  refine ⟨_, h1, ?_⟩
  rw [h2, ← c67_same _ t v hf hle, Res.ok.injEq]
  exact ⟨fun he => enc_inj _ t _ _ hf' hf (by omega) he, fun he => by rw [he]⟩

/-- Two elements of an `a(si)`. -/
def two : Val := .arr [.tup [.str [104, 105], .num 5], .tup [.str [104, 105], .num 6]]

theorem two_sizes : ∀ k, (enc (.crate false) (.A (.tuple [.S, .I])) (backN (.crate false) (.A (.tuple [.S, .I])) k two)).length ≤ 280 := by
  have h7 : backN (.crate false) (.A (.tuple [.S, .I])) 7 two = .arr [] := by
    have h : (match backN (.crate false) (.A (.tuple [.S, .I])) 7 two with
      | .arr [] => true
      | _ => false) = true := by decide +kernel
    generalize backN (.crate false) (.A (.tuple [.S, .I])) 7 two = x at h
    split at h
    · rfl
    · cases h
  intro k
  by_cases hk : 7 ≤ k
  · rw [backN_rest (by rw [h7, back_nil]) hk, h7]; decide +kernel
  · have : ∀ k < 7, (enc (.crate false) (.A (.tuple [.S, .I]))
        (backN (.crate false) (.A (.tuple [.S, .I])) k two)).length ≤ 280 := by decide +kernel
    exact this k (by omega)

/-- Its normal form, read and written `2 ^ 32 + 2` times. -/
example : ∃ b w, rounds dbg (.A (.tuple [.S, .I])) (fun _ => 64) (2 ^ 32 + 2)
      [104, 105, 0, 0, 5, 0, 0, 0, 3, 0, 0, 0, 104, 105, 0, 0, 6, 0, 0, 0, 3, 9, 21] = .ok b ∧
    readAs dbg (.A (.tuple [.S, .I])) ⟨64, b⟩ = .ok w ∧ b = enc (.pdf false) (.A (.tuple [.S, .I])) w := by
  obtain ⟨b, w, h1, _, h3, _, h5⟩ := c70_settles dbg (.A (.tuple [.S, .I])) (fun _ => 64)
    [104, 105, 0, 0, 5, 0, 0, 0, 3, 0, 0, 0, 104, 105, 0, 0, 6, 0, 0, 0, 3, 9, 21] two (by decide) (by decide)
    (fun _ => by decide) (by decide) (2 ^ 32 + 1) rfl rfl (fun k _ => by have := two_sizes k; exact Nat.lt_of_le_of_lt this (by decide))
  exact ⟨b, w, h1, h3 64 (by decide), h5⟩

/-- An array of tidy elements, the last of which ends in need of padding, does not come to rest before all its
    elements are lost. -/
theorem c70_lost (be : Bool) (e : Ty) (vs : List Val) (hs : size e = none) (hv : ∀ v ∈ vs, Fits e v)
    (hle : ∀ v ∈ vs, (enc (.crate be) e v).length < 2 ^ 63) (he : ∀ v ∈ vs, EvenEnds (.crate be) e v)
    (hp : ¬ Spec.align e ∣ (laid 0 (vs.map fun v => (e, enc (.crate be) e v))).length) :
    backN (.crate be) (.A e) (2 ^ 32 + 1) (.arr vs) = .arr [] ∧
    ∀ n, back (.crate be) (.A e) (backN (.crate be) (.A e) n (.arr vs)) = backN (.crate be) (.A e) n (.arr vs) →
      backN (.crate be) (.A e) n (.arr vs) = .arr [] := by
  have hs' : (size e).isSome = false := by simp [hs]
  have hfix : ∀ v ∈ vs, back (.crate be) e v = v := fun v hm =>
    (c67_same be e v (hv v hm) (hle v hm)).2 (he v hm)
  have hpad : endPad (.crate be) e (vs.map (enc (.crate be) e)) ≠ 0 := by
    intro h0
    apply hp
    unfold endPad at h0
    simp only [Enc.crate, if_true, List.map_map] at h0
    have h1 := le_roundUp (specAlign_isAl e).pos (laid 0 (vs.map fun v => (e, enc (.crate be) e v))).length
    have h2 := roundUp_dvd (laid 0 (vs.map fun v => (e, enc (.crate be) e v))).length (Spec.align e)
    have h3 : roundUp (laid 0 (vs.map fun v => (e, enc (.crate be) e v))).length (Spec.align e) =
        (laid 0 (vs.map fun v => (e, enc (.crate be) e v))).length := by
      replace h0 : roundUp (laid 0 (vs.map fun v => (e, enc (.crate be) e v))).length (Spec.align e) -
        (laid 0 (vs.map fun v => (e, enc (.crate be) e v))).length = 0 := h0
      omega
    rw [h3] at h2
    exact h2
  have hlost := rounds_lost hs' hfix hpad
  refine ⟨hlost, fun n hn => ?_⟩
  rcases Nat.le_total n (2 ^ 32 + 1) with h | h
  · rw [← hlost, backN_rest hn h]
  · rw [backN_rest (by rw [hlost, back_nil]) h, hlost]

/-- As are these two. -/
example : backN (.crate false) (.A (.tuple [.S, .I])) (2 ^ 32 + 1) two = .arr [] :=
  (c70_lost false (.tuple [.S, .I]) _ (by decide)
    (by simp only [List.mem_cons, List.not_mem_nil, or_false, forall_eq_or_imp, forall_eq, Fits, FitsAll]
        refine ⟨⟨⟨?_, ?_⟩, by decide, trivial⟩, ⟨?_, ?_⟩, by decide, trivial⟩ <;>
          first | exact ⟨[104, 105], by simp [Scalar], rfl⟩ | decide)
    (by simp only [List.mem_cons, List.not_mem_nil, or_false, forall_eq_or_imp, forall_eq]; decide +kernel)
    (by simp [EvenEnds, EvenEndsAll]) (by decide +kernel)).1

end GV.Props
