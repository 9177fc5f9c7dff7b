import Verif.Proofs.Stable
import Verif.Props.C84
/-
C86: what programs without `unsafe` can get from the crate.
-/
namespace GV.Props
open GV Spec

/-- A reference to a value of type `t` that is as Rust requires: aligned, of a length that the type has, and
    part of the bytes `m` as they are now or of a static of the crate. -/
def SoundRef (c : Cfg) (m : Slice) (t : Ty) (r : Slice) : Prop :=
  Spec.align t ∣ r.addr ∧ (∀ n, Spec.size t = some n → r.bytes.length = n) ∧
  (∀ e n, t = .A e → Spec.size e = some n → n ∣ r.bytes.length) ∧
  (PartOf m r ∨ ∃ t' d, StaticDefault c t' d ∧ PartOf d r)

/-- A state of a program is sound: what it holds is borrowed from something that is still there, references are
    as Rust requires, and nothing that it can do next is undefined behaviour or breaks an assertion. -/
def SoundState (c : Cfg) (P : CoreFmt) (ok : Session → Act → Prop) (σ : Session) : Prop :=
  (∀ (j k : Nat) (x : Held), σ.held[j]? = some (some (k, x)) → ∃ (cell : Cell) (m : Slice), σ.cells[k]? = some (some cell) ∧ cell.mem c = .ok m ∧
    ∀ t r, (x = .ref t r ∨ ∃ rs, x = .items t rs ∧ r ∈ rs) → SoundRef c m t r) ∧
  ∀ p a f, ProperPlace p → ProperAct a → ok σ a → act c P p σ a = .fail f → f ≠ .ub ∧ f ≠ .debugAssert

/-- C86 as stated: whatever a program does that the compiler accepts, it is sound. -/
def C86_full : Prop := ∀ (c : Cfg) (P : CoreFmt) (σ : Session), Reaches c P (fun _ _ => True) σ →
  SoundState c P (fun _ _ => True) σ

theorem good_soundRef {c : Cfg} {m r : Slice} {t : Ty} (hg : Good c m t r) : SoundRef c m t r := by
  refine ⟨hg.al, fun n hn => castBytes_fixed_len hn hg.cast, ?_, ?_⟩
  · rintro e n rfl hn
    exact Nat.dvd_of_mod_eq_zero (castBytes_A_fixed hn hg.cast)
  · rcases hg.loc with hi | ⟨t', d, _, hd, hi⟩
    · exact Or.inl (Inside.partOf hi)
    · refine Or.inr ⟨t', d, ?_, Inside.partOf hi⟩
      have hb : d.bytes = List.replicate ((Spec.size t').getD 0) 0 := by
        rw [hd.1]; unfold dfltBytes; split <;> simp [*]
      rcases hd.2 with h | h
      · exact Or.inl ⟨h, hb⟩
      · refine Or.inr ⟨by omega, ?_, by rw [hb, h.1]; rfl⟩
        have := gap_lt (specAlign_isAl t') c.spacesAddr
        rcases specAlign_isAl t' with h' | h' | h' | h' <;> omega

theorem reaches_sane {c : Cfg} {P : CoreFmt} {σ : Session} (h : Reaches c P (Careful c) σ) : Sane c σ := by
  induction h with
  | start => exact ⟨fun i x h => by simp at h, fun j k x h => by simp at h⟩
  | step p a o _ hp ha hc hstep ih => exact (act_sane ih hp ha hc).2 _ _ hstep

/-- What holds: a program that is careful is sound, however many buffers it owns, however it changes, copies and
    drops them, and whatever it reads, in whatever order.  Missing: programs that cast an empty buffer or bytes
    from elsewhere that are not aligned, or copy an empty value. -/
theorem c86_sound_partial (c : Cfg) (P : CoreFmt) (σ : Session) (h : Reaches c P (Careful c) σ) :
    SoundState c P (Careful c) σ := by
  have hs := reaches_sane h
  refine ⟨fun j k x hx => ?_, fun p a f hp ha hc hf => (act_sane hs hp ha hc).1 f hf⟩
  obtain ⟨cell, m, h1, h2, _, hin⟩ := hs.held j k x hx
  refine ⟨cell, m, h1, h2, ?_⟩
  rintro t r (rfl | ⟨rs, rfl, hr⟩)
  · cases hin with | ref hg => exact good_soundRef hg
  · cases hin with | items hg => exact good_soundRef (hg r hr)

theorem oddPlaces_proper : ProperPlace oddPlaces := ⟨oddAlloc_valid, (by decide : 8 ∣ 64)⟩

/-- A program that fills a buffer, reads an array of structures in it, keeps an element and an iterator, copies the
    element, changes the buffer, assigns to a number in it, and goes on with the copy. -/
def tour : List Act :=
  [.make ⟨1001, 3, [5, 104, 0]⟩, .cast 0 (.A (.tuple [.I, .S])),
    .alter 0 fun _ => ⟨1003, 9, [7, 0, 0, 0, 104, 105, 0, 7]⟩, .cast 0 (.A (.tuple [.I, .S])), .read (.iter 1),
    .read (.next 2), .read (.copy 3), .poke 0 4 106, .store 0 [.narrow 4, .to 4] .I [] [1, 0, 0, 0],
    .part 0 [.splitFst 4, .narrow 4] .I, .read (.members 4), .read (.look 7), .unwrap 0, .read (.eq 4 4)]

def tourRun : Session → List Act → Res Session
  | σ, [] => .ok σ
  | σ, a :: as => do
    let (_, σ') ← act dbg (toyFmt true) oddPlaces σ a
    tourRun σ' as

example : tourRun ⟨[], []⟩ tour = .ok ⟨[none, some (.owned (.tuple [.I, .S])
      (.buf ⟨⟨1000003, 14, [0, 0, 0, 0, 0, 7, 0, 0, 0, 104, 105, 0]⟩⟩))],
    [none, none, none, none, some (1, .ref (.tuple [.I, .S]) ⟨1000008, [7, 0, 0, 0, 104, 105, 0]⟩), none,
      some (1, .ref .I ⟨1000008, [7, 0, 0, 0]⟩), some (1, .ref .S ⟨1000012, [104, 105, 0]⟩)]⟩ := by rfl

/-- All of it is done with care. -/
theorem tour_careful : ∃ σ, tourRun ⟨[], []⟩ tour = .ok σ ∧ Reaches dbg (toyFmt true) (Careful dbg) σ := by
  have care : ∀ {σ : Session} {b : AlignedBuf} {m : Slice} {t : Ty} {i : Nat}, σ.cells[i]? = some (some (.buffer b)) →
      b.deref dbg = .ok m → m.bytes ≠ [] → Careful dbg σ (.cast i t) := by
    intro σ b m t i h1 h2 h3
    refine ⟨fun b' m' hb hm => ?_, fun s hs => ?_⟩
    · rw [h1] at hb; cases hb; rw [h2] at hm; cases hm; exact Or.inl h3
    · rw [h1] at hs; cases hs
  have h0 : Reaches dbg (toyFmt true) (Careful dbg) ⟨[], []⟩ := .start
  have h1 := h0.step oddPlaces (.make ⟨1001, 3, [5, 104, 0]⟩) _ oddPlaces_proper ⟨by decide, by decide, by decide⟩ trivial rfl
  have h2 := h1.step oddPlaces (.cast 0 (.A (.tuple [.I, .S]))) _ oddPlaces_proper ⟨by decide, by decide⟩
    (care rfl rfl (by decide)) rfl
  have h3 := h2.step oddPlaces (.alter 0 fun _ => ⟨1003, 9, [7, 0, 0, 0, 104, 105, 0, 7]⟩) _ oddPlaces_proper
    (fun _ _ => (⟨by decide, by decide, by decide⟩ : RVec.Valid ⟨1003, 9, [7, 0, 0, 0, 104, 105, 0, 7]⟩)) trivial rfl
  have h4 := h3.step oddPlaces (.cast 0 (.A (.tuple [.I, .S]))) _ oddPlaces_proper ⟨by decide, by decide⟩
    (care rfl rfl (by decide)) rfl
  have h5 := h4.step oddPlaces (.read (.iter 1)) _ oddPlaces_proper trivial trivial rfl
  have h6 := h5.step oddPlaces (.read (.next 2)) _ oddPlaces_proper trivial trivial rfl
  have h7 := h6.step oddPlaces (.read (.copy 3)) _ oddPlaces_proper trivial (by rintro k t r ⟨⟩; exact Or.inr (Or.inl nofun)) rfl
  have h8 := h7.step oddPlaces (.poke 0 4 106) _ oddPlaces_proper trivial trivial rfl
  have h9 := h8.step oddPlaces (.store 0 [.narrow 4, .to 4] .I [] [1, 0, 0, 0]) _ oddPlaces_proper
    ⟨⟨by decide, by decide⟩, ⟨⟨⟨by decide, by decide⟩, trivial, trivial⟩, by decide⟩, rfl, _, rfl, rfl⟩ trivial rfl
  have h10 := h9.step oddPlaces (.part 0 [.splitFst 4, .narrow 4] .I) _ oddPlaces_proper
    ⟨⟨by decide, by decide⟩, ⟨trivial, ⟨by decide, by decide⟩, trivial⟩, by decide⟩
    (by rintro b m ⟨⟩ ⟨⟩; exact Or.inl nofun) rfl
  have h11 := h10.step oddPlaces (.read (.members 4)) _ oddPlaces_proper trivial trivial rfl
  have h12 := h11.step oddPlaces (.read (.look 7)) _ oddPlaces_proper trivial trivial rfl
  have h13 := h12.step oddPlaces (.unwrap 0) _ oddPlaces_proper trivial trivial rfl
  have h14 := h13.step oddPlaces (.read (.eq 4 4)) _ oddPlaces_proper trivial trivial rfl
  exact ⟨_, rfl, h14⟩

/-- What ends what is borrowed from cell `k`: to change it, to drop it, or to drop what it is borrowed from itself. -/
def Ends (σ : Session) (k : Nat) : Act → Prop
  | .alter i _ | .poke i _ _ | .store i _ _ _ _ => i = k ∧ ∃ b, σ.cells[i]? = some (some (.buffer b))
  | .free i => i = k ∨ ∃ x, σ.cells[k]? = some (some x) ∧ x.parent = some i
  | .unwrap i => (i = k ∨ ∃ x, σ.cells[k]? = some (some x) ∧ x.parent = some i) ∧ ∃ b, σ.cells[i]? = some (some (.buffer b))
  | _ => False

theorem set_other {α : Type} {l : List α} {i k : Nat} {x : α} (h : ¬ i = k) : (l.set i x)[k]? = l[k]? := by
  simp [h]

/-- While a program holds a reference neither the reference nor what it is borrowed from changes or moves, and it
    holds it until the latter is changed or dropped. -/
theorem c86_stable (c : Cfg) (P : CoreFmt) (p : Places) (σ σ' : Session) (a : Act) (o : Obs)
    (h : Reaches c P (Careful c) σ) (ha : act c P p σ a = .ok (o, σ')) (j k : Nat) (t : Ty) (r : Slice)
    (hr : σ.held[j]? = some (some (k, .ref t r))) :
    ¬ Ends σ k a ∧ σ'.held[j]? = some (some (k, .ref t r)) ∧ σ'.cells[k]? = σ.cells[k]? ∨
    Ends σ k a ∧ σ'.held[j]? = some none := by
  obtain ⟨cell, m, hcell, _⟩ := (c86_sound_partial c P σ h).1 j k _ hr
  have hjl : j < σ.held.length := (List.getElem?_eq_some_iff.1 hr).1
  have hkl : k < σ.cells.length := (List.getElem?_eq_some_iff.1 hcell).1
  have hpush : ∀ (cs : List (Option Cell)) (xs : List (Option (Nat × Held))), (σ.held ++ xs)[j]? = some (some (k, .ref t r)) ∧
      (σ.cells ++ cs)[k]? = σ.cells[k]? := fun cs xs => by
    rw [List.getElem?_append_left hjl, List.getElem?_append_left hkl]; exact ⟨hr, rfl⟩
  have change : ∀ (i : Nat) (b b' : AlignedBuf), σ.cells[i]? = some (some (.buffer b)) →
      ¬ (i = k ∧ ∃ b, σ.cells[i]? = some (some (.buffer b))) ∧ (kill i σ.held)[j]? = some (some (k, .ref t r)) ∧
        (σ.cells.set i (some (.buffer b')))[k]? = σ.cells[k]? ∨
      (i = k ∧ ∃ b, σ.cells[i]? = some (some (.buffer b))) ∧ (kill i σ.held)[j]? = some none := by
    intro i b b' hb
    rw [kill_getElem hr]
    by_cases hik : i = k
    · exact Or.inr ⟨⟨hik, b, hb⟩, by simp [hik]⟩
    · exact Or.inl ⟨fun hh => hik hh.1, by rw [if_neg (Ne.symm hik)], set_other hik⟩
  have drop : ∀ i : Nat,
      ¬ (i = k ∨ ∃ x, σ.cells[k]? = some (some x) ∧ x.parent = some i) ∧
        (prune (shut Cell.parent i σ.cells) σ.held)[j]? = some (some (k, .ref t r)) ∧
        (shut Cell.parent i σ.cells)[k]? = σ.cells[k]? ∨
      (i = k ∨ ∃ x, σ.cells[k]? = some (some x) ∧ x.parent = some i) ∧
        (prune (shut Cell.parent i σ.cells) σ.held)[j]? = some none := by
    intro i
    have hs : (shut Cell.parent i σ.cells)[k]? = if i = k ∨ cell.parent = some i then some none else some (some cell) := by
      simp only [shut, List.getElem?_map]
      by_cases hik : i = k
      · subst hik; simp [hkl]
      · rw [set_other hik, hcell]
        by_cases hp : cell.parent = some i <;> simp [hp, hik]
    have he : (i = k ∨ ∃ x, σ.cells[k]? = some (some x) ∧ x.parent = some i) ↔ i = k ∨ cell.parent = some i := by
      constructor
      · rintro (h | ⟨x, hx, h⟩)
        · exact Or.inl h
        · rw [hcell] at hx; cases hx; exact Or.inr h
      · rintro (h | h)
        · exact Or.inl h
        · exact Or.inr ⟨cell, hcell, h⟩
    rcases prune_getElem (cells := shut Cell.parent i σ.cells) hr with ⟨⟨y, hy⟩, h2⟩ | ⟨hy, h2⟩
    · refine Or.inl ⟨fun hc => ?_, h2, ?_⟩
      · rw [hs, if_pos (he.1 hc)] at hy; cases hy
      · refine hs.trans ?_
        split at hs
        · rw [hs] at hy; cases hy
        · rename_i hn; rw [if_neg hn, hcell]
    · refine Or.inr ⟨?_, h2⟩
      rw [he]
      exact Classical.byContradiction fun hc => hy ⟨cell, by rw [hs, if_neg hc]⟩
  cases a with
  | make v =>
    simp only [act] at ha
    obtain ⟨b, _, ha⟩ := Res.bind_eq_ok.1 ha
    cases ha
    exact Or.inl ⟨id, hr, (hpush _ []).2⟩
  | lend s => cases ha; exact Or.inl ⟨id, hr, (hpush _ []).2⟩
  | alter i f =>
    simp only [act] at ha
    split at ha
    · rename_i b hb
      obtain ⟨b', _, ha⟩ := Res.bind_eq_ok.1 ha
      cases ha
      exact change i b b' hb
    · rename_i hb
      cases ha
      exact Or.inl ⟨fun ⟨_, b, h⟩ => hb b h, hr, rfl⟩
  | poke i x y =>
    simp only [act] at ha
    split at ha
    · rename_i b hb
      obtain ⟨b', _, ha⟩ := Res.bind_eq_ok.1 ha
      cases ha
      exact change i b b' hb
    · rename_i hb
      cases ha
      exact Or.inl ⟨fun ⟨_, b, h⟩ => hb b h, hr, rfl⟩
  | peek i =>
    simp only [act] at ha
    split at ha
    · obtain ⟨s, _, ha⟩ := Res.bind_eq_ok.1 ha
      cases ha; exact Or.inl ⟨id, hr, rfl⟩
    · cases ha; exact Or.inl ⟨id, hr, rfl⟩
    · cases ha; exact Or.inl ⟨id, hr, rfl⟩
  | store i ops u path x =>
    simp only [act] at ha
    split at ha
    · rename_i b hb
      obtain ⟨b', _, ha⟩ := Res.bind_eq_ok.1 ha
      cases b' with
      | none =>
        cases ha
        rcases change i b b hb with ⟨h1, h2, _⟩ | h
        · exact Or.inl ⟨h1, h2, rfl⟩
        · exact Or.inr h
      | some b' =>
        cases ha
        exact change i b b' hb
    · rename_i hb
      cases ha
      exact Or.inl ⟨fun ⟨_, b, h⟩ => hb b h, hr, rfl⟩
  | free i => cases ha; exact drop i
  | unwrap i =>
    simp only [act] at ha
    split at ha
    · rename_i b hb
      obtain ⟨v, _, ha⟩ := Res.bind_eq_ok.1 ha
      cases ha
      rcases drop i with ⟨h1, h2⟩ | ⟨h1, h2⟩
      · exact Or.inl ⟨fun h => h1 h.1, h2⟩
      · exact Or.inr ⟨⟨h1, b, hb⟩, h2⟩
    · rename_i hb
      cases ha
      exact Or.inl ⟨fun ⟨_, b, h⟩ => hb b h, hr, rfl⟩
  | part i ops u =>
    simp only [act] at ha
    split at ha
    · obtain ⟨s, _, ha⟩ := Res.bind_eq_ok.1 ha
      obtain ⟨s', _, ha⟩ := Res.bind_eq_ok.1 ha
      obtain ⟨s'', _, ha⟩ := Res.bind_eq_ok.1 ha
      obtain ⟨r', _, ha⟩ := Res.bind_eq_ok.1 ha
      cases ha; exact Or.inl ⟨id, (hpush [] _).1, rfl⟩
    · cases ha; exact Or.inl ⟨id, hr, rfl⟩
  | cast i u =>
    simp only [act] at ha
    split at ha
    · obtain ⟨s, _, ha⟩ := Res.bind_eq_ok.1 ha
      obtain ⟨s', _, ha⟩ := Res.bind_eq_ok.1 ha
      obtain ⟨r', _, ha⟩ := Res.bind_eq_ok.1 ha
      cases ha; exact Or.inl ⟨id, (hpush [] _).1, rfl⟩
    · split at ha
      · obtain ⟨r', _, ha⟩ := Res.bind_eq_ok.1 ha
        cases ha; exact Or.inl ⟨id, (hpush [] _).1, rfl⟩
      · cases ha; exact Or.inl ⟨id, hr, rfl⟩
    · cases ha; exact Or.inl ⟨id, hr, rfl⟩
  | settle i u =>
    simp only [act] at ha
    split at ha
    · obtain ⟨s, _, ha⟩ := Res.bind_eq_ok.1 ha
      obtain ⟨s', _, ha⟩ := Res.bind_eq_ok.1 ha
      obtain ⟨r', _, ha⟩ := Res.bind_eq_ok.1 ha
      cases ha; exact Or.inl ⟨id, hpush _ _⟩
    · cases ha; exact Or.inl ⟨id, hr, rfl⟩
  | read op =>
    by_cases hop : ∃ h, op = .copy h
    · obtain ⟨h', rfl⟩ := hop
      simp only [act] at ha
      split at ha
      · obtain ⟨s, _, ha⟩ := Res.bind_eq_ok.1 ha
        obtain ⟨r', _, ha⟩ := Res.bind_eq_ok.1 ha
        cases ha; exact Or.inl ⟨id, hpush _ _⟩
      · cases ha; exact Or.inl ⟨id, hr, rfl⟩
    · rw [act] at ha
      · split at ha
        · obtain ⟨⟨o', hs'⟩, hcall, ha⟩ := Res.bind_eq_ok.1 ha
          cases ha
          refine Or.inl ⟨id, rehold_getElem hr ?_, rfl⟩
          have hl := live_some (d := Held.items .Y []) hr
          obtain ⟨base, new, rfl, rfl | ⟨h', y, _, rfl, hn⟩⟩ := call_adds op _ _ hcall
          · rw [List.getElem?_append_left (List.getElem?_eq_some_iff.1 hl).1]; exact hl
          · rw [List.getElem?_append_left (by rw [List.length_set]; exact (List.getElem?_eq_some_iff.1 hl).1)]
            have : ¬ h' = j := by rintro rfl; exact hn t r hl
            rw [set_other this]; exact hl
        · cases ha; exact Or.inl ⟨id, hr, rfl⟩
      · rintro h' rfl; exact hop ⟨h', rfl⟩

/-- Of three references the one to the buffer that is changed ends. -/
example : ∃ σ', act dbg (toyFmt true) oddPlaces
      ⟨[some (.buffer ⟨⟨1000, 8, [1, 0, 2, 0]⟩⟩), some (.buffer ⟨⟨2000, 8, [3, 0]⟩⟩)],
        [some (0, .ref (.A .Q) ⟨1000, [1, 0, 2, 0]⟩), some (1, .ref .Q ⟨2000, [3, 0]⟩), some (0, .ref .Q ⟨1002, [2, 0]⟩)]⟩
      (.poke 1 0 9) = .ok (.none, σ') ∧
    σ'.held[0]? = some (some (0, .ref (.A .Q) ⟨1000, [1, 0, 2, 0]⟩)) ∧ σ'.held[1]? = some none ∧
    σ'.held[2]? = some (some (0, .ref .Q ⟨1002, [2, 0]⟩)) := ⟨_, rfl, rfl, rfl, rfl⟩

/-- False: the first thing that a program does with a new buffer may be to cast it to an array of numbers. -/
theorem c86_full_false : ¬ C86_full := by
  intro h
  have h1 : Reaches rel (toyFmt false) (fun _ _ => True) ⟨[some (.buffer .new)], []⟩ :=
    .step oddPlaces (.make .empty) _ .start oddPlaces_proper ⟨by decide, by decide, by decide⟩ trivial rfl
  exact (h _ _ _ h1).2 oddPlaces (.cast 0 (.A .I)) .ub oddPlaces_proper ⟨by decide, by decide⟩ trivial rfl |>.1 rfl

/-- A cast to an array of a fixed-size type trusts that the bytes are aligned. -/
theorem fromAligned_bad {c : Cfg} {e : Ty} {n : Nat} {s : Slice} (hx : Expands e) (hn : Spec.size e = some n)
    (ha : ¬ Spec.align e ∣ s.addr) (hl : n ∣ s.len) :
    fromAligned c (.A e) s = .fail (if c.debugAssertions then .debugAssert else .ub) := by
  have h1 : s.isAligned (Spec.align e) = false := by
    cases h : s.isAligned (Spec.align e) with
    | false => rfl
    | true => exact absurd (isAligned_iff.1 h) ha
  have hp := (size_pos_dvd e n hn).1
  cases hd : c.debugAssertions <;>
    simp [fromAligned, tryFromAligned, sizeOf_eq, alignOf_eq, Spec.size, Spec.align, hn, castSlice, rustLayout_ok e n hn hx,
      h1, hd, Nat.pos_iff_ne_zero.1 hp, Nat.mod_eq_zero_of_dvd hl]

/-- Care is needed: whatever else a program has, casting a buffer made of an empty vec that owns no memory to an array of
    any fixed-size type that is to be aligned is undefined behaviour, or fails an assertion if there are assertions. -/
theorem c86_empty (c : Cfg) (P : CoreFmt) (p : Places) (σ : Session) (i n : Nat) (e : Ty)
    (hx : Expands e) (hn : Spec.size e = some n) (ha : Spec.align e ≠ 1)
    (hb : σ.cells[i]? = some (some (.buffer .new))) :
    act c P p σ (.cast i (.A e)) = .fail (if c.debugAssertions then .debugAssert else .ub) := by
  have hd : AlignedBuf.deref c .new = .ok ⟨1, []⟩ := deref_ok (b := .new) ⟨by decide, by decide, by decide, Or.inl rfl⟩
  have := fromAligned_bad (c := c) (s := ⟨1, []⟩) hx hn (fun h => ha (Nat.dvd_one.1 h)) (Nat.dvd_zero n)
  simp only [act, hb, hd, asAligned, this, Res.bind_ok, Res.bind_fail]

example : Spec.size (.tuple [.Y, .X]) = some 16 ∧ Spec.align (.tuple [.Y, .X]) = 8 ∧
    act rel (toyFmt true) oddPlaces ⟨[some (.buffer .new)], []⟩ (.cast 0 (.A (.tuple [.Y, .X]))) = .fail .ub :=
  ⟨rfl, rfl, rfl⟩

/-- So it is with bytes from elsewhere that are not aligned, since `try_as_aligned` takes them. -/
theorem c86_unaligned (c : Cfg) (P : CoreFmt) (p : Places) (σ : Session) (i n : Nat) (e : Ty) (s : Slice)
    (hx : Expands e) (hn : Spec.size e = some n) (ha : ¬ Spec.align e ∣ s.addr) (hl : n ∣ s.len)
    (hb : σ.cells[i]? = some (some (.lent s))) :
    act c P p σ (.cast i (.A e)) = .fail (if c.debugAssertions then .debugAssert else .ub) := by
  have := fromAligned_bad (c := c) hx hn ha hl
  simp only [act, hb, tryAsAligned, markerAlign, ge_iff_le, Nat.le_refl, decide_true, Bool.true_or, if_true, this,
    Res.bind_fail]

example : act rel (toyFmt true) oddPlaces ⟨[some (.lent ⟨1001, [1, 0, 2, 0]⟩)], []⟩ (.cast 0 (.A .Q)) = .fail .ub ∧
    act dbg (toyFmt true) oddPlaces ⟨[some (.lent ⟨1001, [1, 0, 2, 0]⟩)], []⟩ (.cast 0 (.A .Q)) = .fail .debugAssert ∧
    act rel (toyFmt true) oddPlaces ⟨[some (.lent ⟨1001, [1, 0, 2, 0]⟩)], []⟩ (.settle 0 (.A .Q)) =
      .ok (.got, ⟨[some (.lent ⟨1001, [1, 0, 2, 0]⟩),
          some (.cow 0 (.owned ⟨⟨1000003, 11, [0, 0, 0, 0, 0, 1, 0, 2, 0]⟩⟩))],
        [some (1, .ref (.A .Q) ⟨1000008, [1, 0, 2, 0]⟩)]⟩) := ⟨rfl, rfl, rfl⟩

/-- And a copy of an empty value is not aligned; its first member is undefined behaviour. -/
theorem c86_copy : ∃ σ σ' : Session, Reaches rel (toyFmt false) (Careful rel) σ ∧
    act rel (toyFmt false) oddPlaces σ (.read (.copy 0)) = .ok (.got, σ') ∧
    σ'.held[1]? = some (some (1, .ref (.tuple [.A .I, .S]) ⟨1, []⟩)) ∧
    act rel (toyFmt false) oddPlaces σ' (.read (.members 1)) = .fail .ub := by
  have h0 : Reaches rel (toyFmt false) (Careful rel) ⟨[], []⟩ := .start
  have h1 := h0.step oddPlaces (.lend ⟨64, []⟩) _ oddPlaces_proper (Nat.zero_le _) trivial rfl
  have h2 := h1.step oddPlaces (.cast 0 (.tuple [.A .I, .S])) _ oddPlaces_proper ⟨by decide, by decide⟩
    ⟨by rintro b m ⟨⟩, by rintro s ⟨⟩; exact Or.inl (by decide)⟩ rfl
  exact ⟨_, _, h2, rfl, rfl, rfl⟩

end GV.Props
