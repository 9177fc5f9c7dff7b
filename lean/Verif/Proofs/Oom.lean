import Verif.Model.Oom
import Verif.Props.C20_C25
/-
In-place changes with allocations that fail.
-/
namespace GV
open Spec Props InPlace

theorem InPlace.bind_def {x : InPlace σ α} {f : α → InPlace σ β} (s : σ) (m : Answers) :
    (x >>= f) s m = match x s m with
      | (some a, s, m) => f a s m
      | (none, s, m) => (none, s, m) := rfl

theorem InPlace.pure_def {a : α} (s : σ) (m : Answers) : (pure a : InPlace σ α) s m = (some a, s, m) := rfl

/-- The request for room was not granted. -/
def Denied (len n : Nat) (m : Answers) : Prop := 2 ^ 63 ≤ len + n ∨ m = [] ∨ ∃ m', m = none :: m'

theorem reserveIn_cases (n : Nat) (g : GString) (m : Answers) :
    (n ≤ g.cap - g.data.length ∧ GString.reserveIn n g m = (some (), g, m)) ∨
    (g.cap - g.data.length < n ∧ ∃ a m', m = some a :: m' ∧
      GString.reserveIn n g m = (some (), ⟨g.data, g.data.length + n + a.2⟩, m')) ∨
    (g.cap - g.data.length < n ∧ Denied g.data.length n m ∧ ∃ m', m' <:+ m ∧ GString.reserveIn n g m = (none, g, m')) := by
  unfold GString.reserveIn
  by_cases h : g.cap - g.data.length ≥ n
  · rw [if_pos h]; exact .inl ⟨h, rfl⟩
  · rw [if_neg h]
    refine .inr ?_
    have h' : g.cap - g.data.length < n := by omega
    simp only [InPlace.bind_def, request]
    by_cases hs : g.data.length + n < 2 ^ 63
    · rw [if_pos hs]
      match m with
      | some a :: m' => exact .inl ⟨h', a, m', rfl, rfl⟩
      | none :: m' => exact .inr ⟨h', .inr (.inr ⟨m', rfl⟩), m', List.suffix_cons _ _, rfl⟩
      | [] => exact .inr ⟨h', .inr (.inl rfl), [], List.suffix_refl _, rfl⟩
    · rw [if_neg hs]
      exact .inr ⟨h', .inl (by omega), m, List.suffix_refl _, rfl⟩

theorem pushStrIn_room {s : Bytes} {g : GString} {m : Answers} (h : s.length ≤ g.cap - g.data.length) :
    GString.pushStrIn s g m = (some (), ⟨g.data ++ s, g.cap⟩, m) := by
  simp only [GString.pushStrIn, InPlace.bind_def, GString.reserveIn, ge_iff_le, if_pos h, change]

theorem clearIn_eq {g : GString} {m : Answers} (h : 1 ≤ g.cap) :
    GString.clearIn g m = (some (), ⟨[0], g.cap⟩, m) := by
  simp only [GString.clearIn, InPlace.bind_def, change]
  rw [pushStrIn_room (by simp only [List.length_cons, List.length_nil]; omega)]
  rfl

theorem tryPushStrIn_room {s t : Bytes} {g : GString} {m : Answers} (h0 : (0 : UInt8) ∉ s) (hd : g.data = t ++ [0])
    (hc : g.data.length + s.length ≤ g.cap) :
    ((do change fun g => { g with data := popChar g.data }
         GString.pushStrIn s
         GString.pushStrIn [0]
         pure true : InPlace GString Bool) g m) = (some true, ⟨t ++ s ++ [0], g.cap⟩, m) := by
  simp only [InPlace.bind_def, change, hd, popChar_zero]
  rw [hd] at hc
  simp only [List.length_append, List.length_cons, List.length_nil] at hc
  rw [pushStrIn_room (by simp only; omega)]
  simp only
  rw [pushStrIn_room (by simp only [List.length_append, List.length_cons, List.length_nil]; omega)]
  rfl

theorem text_nil' : Text [] := ⟨⟨[], by simp⟩, by simp⟩

/-- What an edit asks for. -/
def wanted : Edit → Nat
  | .push s => s.length
  | .clear => 0
  | .reserve n => n

theorem editIn_ok {e : Edit} {g : GString} {t : Bytes} {m : Answers} (he : e.Ok) (hi : GInv g t) :
    (∃ r g' m', GString.editIn e g m = (some r, g', m') ∧ GInv g' (e.onText t) ∧
      (r = false ↔ ∃ s, e = .push s ∧ (0 : UInt8) ∈ s)) ∨
    (∃ m', GString.editIn e g m = (none, g, m') ∧ g.cap - g.data.length < wanted e ∧
      Denied g.data.length (wanted e) m) := by
  obtain ⟨ht, hd, hc⟩ := hi
  have hl : g.data.length = t.length + 1 := by rw [hd]; simp
  cases e with
  | clear =>
    have h1 : 1 ≤ g.cap := by omega
    refine .inl ⟨true, ⟨[0], g.cap⟩, m, ?_, ⟨text_nil', rfl, h1⟩, by simp⟩
    simp only [GString.editIn, InPlace.bind_def, clearIn_eq h1]
    rfl
  | reserve n =>
    simp only [GString.editIn, InPlace.bind_def]
    rcases reserveIn_cases n g m with ⟨h, heq⟩ | ⟨h, a, m', hm, heq⟩ | ⟨h, hden, m', _, heq⟩
    · rw [heq]; exact .inl ⟨true, g, m, rfl, ⟨ht, hd, hc⟩, by simp⟩
    · rw [heq]
      exact .inl ⟨true, _, m', rfl, ⟨ht, hd, by simp only; omega⟩, by simp⟩
    · rw [heq]; exact .inr ⟨m', rfl, h, hden⟩
  | push s =>
    simp only [GString.editIn, GString.tryPushStrIn]
    by_cases h0 : (0 : UInt8) ∈ s
    · rw [if_pos (contains_zero.2 h0)]
      exact .inl ⟨false, g, m, rfl, by simp only [Edit.onText, if_pos h0]; exact ⟨ht, hd, hc⟩, by simp [h0]⟩
    · rw [if_neg (fun h => h0 (contains_zero.1 h))]
      have hgood : ∀ cap, g.data.length + s.length ≤ cap → GInv ⟨t ++ s ++ [0], cap⟩ (Edit.onText t (.push s)) := by
        intro cap hcap
        simp only [Edit.onText, if_neg h0]
        refine ⟨text_append ht ⟨he, h0⟩, rfl, ?_⟩
        simp only [List.length_append, List.length_cons, List.length_nil]
        omega
      rw [InPlace.bind_def]
      rcases reserveIn_cases s.length g m with ⟨h, heq⟩ | ⟨h, a, m', hm, heq⟩ | ⟨h, hden, m', _, heq⟩
      · rw [heq]
        refine .inl ⟨true, _, m, tryPushStrIn_room h0 hd (by omega), hgood _ (by omega), by simp [h0]⟩
      · rw [heq]
        refine .inl ⟨true, _, m', tryPushStrIn_room (g := ⟨g.data, _⟩) h0 hd (by simp only; omega),
          hgood _ (by simp only; omega), by simp [h0]⟩
      · rw [heq]; exact .inr ⟨m', rfl, h, hden⟩

theorem editAll_ok : ∀ (es : List Edit) (g : GString) (t : Bytes) (m : Answers), (∀ e ∈ es, e.Ok) → GInv g t →
    ∃ rs g' m', GString.editAll es g m = (rs, g', m') ∧ rs.length = es.length ∧
      GInv g' (edited t (es.zip (rs.map Option.isSome)))
  | [], g, t, m, _, hi => ⟨[], g, m, rfl, rfl, hi⟩
  | e :: es, g, t, m, he, hi => by
    simp only [GString.editAll]
    rcases editIn_ok (m := m) (he e (by simp)) hi with ⟨r, g1, m1, h1, hi1, _⟩ | ⟨m1, h1, _, _⟩
    · obtain ⟨rs, g', m', h2, hl, hi2⟩ := editAll_ok es g1 _ m1 (fun e' h => he e' (by simp [h])) hi1
      rw [h1]
      exact ⟨some r :: rs, g', m', by simp only [h2], by simp [hl], by simpa [edited] using hi2⟩
    · obtain ⟨rs, g', m', h2, hl, hi2⟩ := editAll_ok es g t m1 (fun e' h => he e' (by simp [h])) hi
      rw [h1]
      exact ⟨none :: rs, g', m', by simp only [h2], by simp [hl], by simpa [edited] using hi2⟩

/-! ### Buffers -/

theorem alignIn_aligned {c : Cfg} {v : RVec} {m : Answers} (h : bufIsAligned v = true) :
    alignIn c v m = (some (), v, m) := by simp [alignIn, h]

/-- The second half of `align_cold`, with room. -/
theorem alignRest {c : Cfg} {a : Alloc} {v w : RVec} {m : Answers} (hn : bufIsAligned v = false)
    (hw : v.reserve a 7 = w) (hb : w.bytes = v.bytes) (hr : v.bytes.length + 7 ≤ w.cap) {x : RVec}
    (hx : alignVec c a v = .ok x) :
    ((do let off ← look (offsetToAlign c)
         let n ← look fun v => uadd c v.bytes.length off
         RVec.resizeIn n 0
         changeOr fun v => v.rotateRight off : InPlace RVec Unit) w m) = (some (), x, m) := by
  unfold alignVec at hx
  simp only [hn, Bool.false_eq_true, if_false, alignCold, hw] at hx
  obtain ⟨off, h1, hx⟩ := Res.bind_eq_ok.1 hx
  obtain ⟨n, h2, hx⟩ := Res.bind_eq_ok.1 hx
  have hoff : off ≤ 7 := by
    unfold offsetToAlign at h1
    split at h1
    · cases h1; omega
    · split at h1
      · obtain ⟨s, _, h1⟩ := Res.bind_eq_ok.1 h1
        split at h1
        · cases h1; exact Nat.and_le_right
        · cases h1
      · cases h1; exact Nat.and_le_right
  have hn' : n ≤ w.bytes.length + off := by
    unfold uadd at h2
    split at h2
    · cases h2; exact Nat.le_refl _
    · split at h2
      · cases h2
      · cases h2; exact Nat.mod_le _ _
  simp only [InPlace.bind_def, look, h1, h2]
  have hre : RVec.resizeIn n 0 w m = (some (), w.resize a n 0, m) := by
    unfold RVec.resizeIn RVec.resize
    split
    · rfl
    · have hroom : w.cap - w.bytes.length ≥ n - w.bytes.length := by rw [hb] at *; omega
      simp only [InPlace.bind_def, RVec.reserveIn, hroom, if_true, RVec.reserve, change]
  rw [hre]
  simp only [changeOr, hx]

theorem alignIn_roomy {c : Cfg} {a : Alloc} {v x : RVec} {m : Answers} (h : v.bytes.length + 7 ≤ v.cap)
    (hx : alignVec c a v = .ok x) : alignIn c v m = (some (), x, m) := by
  unfold alignIn
  by_cases hal : bufIsAligned v = true
  · simp only [alignVec, hal, if_true] at hx ⊢
    cases hx; rfl
  · rw [if_neg hal]
    have hw : v.reserve a 7 = v := by unfold RVec.reserve; rw [if_pos (by omega)]
    simp only [alignColdIn]
    rw [InPlace.bind_def]
    have : RVec.reserveIn 7 v m = (some (), v, m) := by unfold RVec.reserveIn; rw [if_pos (by omega)]
    rw [this]
    exact alignRest (by simpa using hal) hw rfl h hx

theorem alignIn_tight {c : Cfg} {v x : RVec} {m : Answers} {ad ex : Nat} (hal : bufIsAligned v = false)
    (h : v.cap < v.bytes.length + 7) (hc : v.bytes.length ≤ v.cap) (hl : v.bytes.length + 7 < 2 ^ 63)
    (hx : alignVec c ⟨fun _ => ad, fun _ => ex⟩ v = .ok x) :
    alignIn c v (some (ad, ex) :: m) = (some (), x, m) := by
  unfold alignIn
  simp only [hal, Bool.false_eq_true, if_false, alignColdIn]
  rw [InPlace.bind_def]
  have : RVec.reserveIn 7 v (some (ad, ex) :: m) =
      (some (), ⟨ad, v.bytes.length + 7 + ex, v.bytes⟩, m) := by
    unfold RVec.reserveIn
    rw [if_neg (by omega)]
    simp only [InPlace.bind_def, request, if_pos hl, change]
  rw [this]
  exact alignRest (w := ⟨ad, v.bytes.length + 7 + ex, v.bytes⟩) hal
    (by unfold RVec.reserve; rw [if_neg (by omega)]) rfl (by simp only; omega) hx

theorem alignIn_denied {c : Cfg} {v : RVec} {m : Answers} (hal : bufIsAligned v = false)
    (h : v.cap < v.bytes.length + 7) (hc : v.bytes.length ≤ v.cap) (hm : m = [] ∨ ∃ m', m = none :: m') :
    ∃ m', alignIn c v m = (none, v, m') := by
  unfold alignIn
  simp only [hal, Bool.false_eq_true, if_false, alignColdIn]
  rw [InPlace.bind_def]
  have : ∃ m', RVec.reserveIn 7 v m = (none, v, m') := by
    unfold RVec.reserveIn
    rw [if_neg (by omega)]
    simp only [InPlace.bind_def, request]
    by_cases hs : v.bytes.length + 7 < 2 ^ 63
    · rw [if_pos hs]
      rcases hm with rfl | ⟨m', rfl⟩
      · exact ⟨_, rfl⟩
      · exact ⟨_, rfl⟩
    · rw [if_neg hs]
      exact ⟨_, rfl⟩
  obtain ⟨m', hm'⟩ := this
  rw [hm']
  exact ⟨m', rfl⟩

theorem unalignIn_ok {c : Cfg} {b : AlignedBuf} {m : Answers} {w : RVec} (h : unalignVec c b.data = .ok w) :
    unalignIn c b.data m = (some (), w, m) := by
  unfold unalignVec at h
  unfold unalignIn
  split
  · rename_i hal
    rw [if_pos hal] at h
    cases h; rfl
  · rename_i hal
    rw [if_neg hal] at h
    unfold unalignCold at h
    obtain ⟨off, h1, h⟩ := Res.bind_eq_ok.1 h
    obtain ⟨d, h2, h⟩ := Res.bind_eq_ok.1 h
    obtain ⟨n, h3, h⟩ := Res.bind_eq_ok.1 h
    cases h
    simp only [unalignColdIn, InPlace.bind_def, look, h1, changeOr, h2, h3, change]

end GV
