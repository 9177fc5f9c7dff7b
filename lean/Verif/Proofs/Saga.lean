import Verif.Proofs.Sessions
/-
Helper lemmas: a program goes in memory as it goes with bytes and values.
-/
namespace GV.Props
open GV Spec

/-- Both gone, or both there and related. -/
inductive Both {α β : Type} (R : α → β → Prop) : Option α → Option β → Prop
  | none : Both R none none
  | some {a : α} {b : β} : R a b → Both R (some a) (some b)

/-- A cell holds what a box says. -/
inductive CellShows : Cell → Box → Prop
  | buffer {b : AlignedBuf} : b.Inv → b.vis.length ≤ 2 ^ 62 → CellShows (.buffer b) (.bytes b.vis)
  | lent {s : Slice} : s.len ≤ 2 ^ 62 → CellShows (.lent s) (.lent s.bytes)
  | owned {t : Ty} {o : OwnedVal} : CellShows (.owned t o) .copy
  | cow {i : Nat} {w : CowSlice} : CellShows (.cow i w) (.cow i)

/-- Borrowed from the same, and showing the same. -/
def HoldShows (c : Cfg) (x : Nat × Held) (y : Nat × Seen) : Prop := x.1 = y.1 ∧ Shows c x.2 y.2

/-- A state of a program in memory is as its state without memory says. -/
structure Matches (c : Cfg) (σ : Session) (ω : World) : Prop where
  cells : List.Forall₂ (Both CellShows) σ.cells ω.boxes
  held : List.Forall₂ (Both (HoldShows c)) σ.held ω.seen

def Follows (c : Cfg) (r : Res (Obs × Session)) : Ended → Prop
  | .went o ω => ∃ σ, r = .ok (o, σ) ∧ Matches c σ ω
  | .panicked => ∃ f, r = .fail f
  | .unknown => True

theorem CellShows.parent {x : Cell} {y : Box} (h : CellShows x y) : x.parent = y.parent := by cases h <;> rfl

theorem forall₂_imp_map {α β γ δ : Type} {R : α → β → Prop} {S : γ → δ → Prop} {f : α → γ} {g : β → δ} {as : List α}
    {bs : List β} (h : List.Forall₂ R as bs) (hfg : ∀ a b, R a b → S (f a) (g b)) :
    List.Forall₂ S (as.map f) (bs.map g) := by
  induction h with
  | nil => exact .nil
  | cons h _ ih => exact .cons (hfg _ _ h) ih

theorem both_kill {c : Cfg} {i : Nat} {xs : List (Option (Nat × Held))} {ys : List (Option (Nat × Seen))}
    (h : List.Forall₂ (Both (HoldShows c)) xs ys) : List.Forall₂ (Both (HoldShows c)) (kill i xs) (kill i ys) := by
  refine forall₂_imp_map h fun a b hab => ?_
  cases hab with
  | none => exact .none
  | @some a b hab =>
    obtain ⟨k, x⟩ := a
    obtain ⟨k', y⟩ := b
    obtain ⟨rfl, hxy⟩ := hab
    simp only
    split
    · exact .none
    · exact .some ⟨rfl, hxy⟩

theorem both_shut {i : Nat} {xs : List (Option Cell)} {ys : List (Option Box)}
    (h : List.Forall₂ (Both CellShows) xs ys) :
    List.Forall₂ (Both CellShows) (shut Cell.parent i xs) (shut Box.parent i ys) := by
  refine forall₂_imp_map (forall₂_set h .none i) fun a b hab => ?_
  cases hab with
  | none => exact .none
  | some hab =>
    simp only [hab.parent]
    split
    · exact .none
    · exact .some hab

theorem both_prune {c : Cfg} {xs : List (Option Cell)} {ys : List (Option Box)}
    {hs : List (Option (Nat × Held))} {ss : List (Option (Nat × Seen))} (hc : List.Forall₂ (Both CellShows) xs ys)
    (h : List.Forall₂ (Both (HoldShows c)) hs ss) : List.Forall₂ (Both (HoldShows c)) (prune xs hs) (prune ys ss) := by
  refine forall₂_imp_map h fun a b hab => ?_
  cases hab with
  | none => exact .none
  | @some a b hab =>
    obtain ⟨k, x⟩ := a
    obtain ⟨k', y⟩ := b
    obtain ⟨rfl, hxy⟩ := hab
    simp only
    rcases forall₂_lookup hc k with ⟨h1, h2⟩ | ⟨x, y, h1, h2, hxy⟩
    · rw [h1, h2]; exact .none
    · rw [h1, h2]
      cases hxy with
      | none => exact .none
      | some => exact .some ⟨rfl, by assumption⟩

theorem both_live {c : Cfg} {hs : List (Option (Nat × Held))} {ss : List (Option (Nat × Seen))}
    (h : List.Forall₂ (Both (HoldShows c)) hs ss) :
    List.Forall₂ (Shows c) (live (.items .Y []) hs) (live (.rest .Y []) ss) := by
  refine forall₂_imp_map h fun a b hab => ?_
  cases hab with
  | none => exact .items ⟨0, []⟩ (by decide) (by simp) rfl
  | @some a b hab => exact hab.2

theorem both_rehold {c : Cfg} {o : Nat} {hs : List (Option (Nat × Held))} {ss : List (Option (Nat × Seen))}
    (h : List.Forall₂ (Both (HoldShows c)) hs ss) : ∀ {xs : List Held} {ys : List Seen}, List.Forall₂ (Shows c) xs ys →
    List.Forall₂ (Both (HoldShows c)) (rehold o hs xs) (rehold o ss ys) := by
  induction h with
  | nil =>
    intro xs ys h
    simp only [rehold]
    exact forall₂_imp_map h fun a b hab => .some ⟨rfl, hab⟩
  | cons h hs ih =>
    intro xs ys h'
    cases h with
    | none =>
      cases h' with
      | nil => simp only [rehold]; exact .nil
      | cons h'' h' => simp only [rehold]; exact .cons .none (ih h')
    | @some a b hab =>
      obtain ⟨k, x⟩ := a
      obtain ⟨k', y⟩ := b
      cases h' with
      | nil => simp only [rehold]; exact .nil
      | cons h'' h' =>
        simp only [rehold]
        exact .cons (.some ⟨hab.1, h''⟩) (ih h')

theorem both_lookup {α β : Type} {R : α → β → Prop} {as : List (Option α)} {bs : List (Option β)}
    (h : List.Forall₂ (Both R) as bs) (i : Nat) :
    (as[i]? = none ∧ bs[i]? = none) ∨ (as[i]? = some none ∧ bs[i]? = some none) ∨
      ∃ a b, as[i]? = some (some a) ∧ bs[i]? = some (some b) ∧ R a b := by
  rcases forall₂_lookup h i with h | ⟨a, b, h1, h2, hab⟩
  · exact Or.inl h
  · cases hab with
    | none => exact Or.inr (Or.inl ⟨h1, h2⟩)
    | some hab => exact Or.inr (Or.inr ⟨_, _, h1, h2, hab⟩)

/-- A good cast of bytes shows what the bytes are read as. -/
theorem cast_shows {c : Cfg} {m r : Slice} {t : Ty} {v : Val} (hl : m.len ≤ 2 ^ 62) (hg : Good c m t r)
    (hb : r.bytes = castBytes t m.bytes) (hv : readOut c t m.bytes = some v) : Shows c (.ref t r) (.val t v) := by
  refine .ref m hl hg ?_
  obtain ⟨q, h2, hgq, h3⟩ := cast_any (c := c) (s := ⟨0, m.bytes⟩) hg.ex hg.sm hl (Or.inl (Nat.dvd_zero _))
  rw [view_same t r q hg hgq (by rw [SameB, hb, h3])]
  unfold readOut at hv
  split at hv
  · rename_i h
    cases hv
    simpa only [readAs, h2, Res.bind_ok] using h
  · cases hv

theorem takePart_proper {lo : Nat} (n : Nat) (t : Ty) (hlo : lo < usizeMod) : ProperSlices (takePart lo n t) t := by
  have h1 : alignOf t = 1 ∨ alignOf t = 2 ∨ alignOf t = 4 ∨ alignOf t = 8 := by rw [alignOf_eq]; exact specAlign_isAl t
  have h2 : alignOf t ≤ 8 := by omega
  refine ⟨⟨⟨h2, h1⟩, ⟨?_, hlo⟩, trivial, trivial⟩, ?_⟩
  · simp [OffExpr.ty, SliceOp.tag, h1]
  · simp [lastTag, takePart, SliceOp.tag, alignOf_eq]

/-- What `&buf[lo..][..n]` gives. -/
theorem takePart_run {c : Cfg} {m : Slice} {lo : Nat} (n : Nat) (t : Ty) (hlo : lo < usizeMod) (hp : m.Promise 8)
    (hl : m.len < 2 ^ 63) :
    (Spec.align t ∣ lo ∧ lo + n ≤ m.len →
      runSlices c 8 m (takePart lo n t) = .ok (Spec.align t, ⟨m.addr + lo, sub m.bytes lo (lo + n)⟩)) ∧
    (¬ (Spec.align t ∣ lo ∧ lo + n ≤ m.len) → ∃ f, runSlices c 8 m (takePart lo n t) = .fail f) := by
  have ht := (takePart_proper n t hlo).1
  obtain ⟨ht1, ht2, ht3, _⟩ := ht
  have hA : IsAl (alignOf t) := by rw [alignOf_eq]; exact specAlign_isAl t
  have hp' : m.Promise (alignOf t) := promise_mono (by rw [alignOf_eq]; exact align_dvd_8 t) hp
  have e1 : SliceOp.run c 8 m (.narrow (alignOf t)) = .ok (alignOf t, m) := rfl
  constructor
  · rintro ⟨h1, h2⟩
    have h1' : alignOf t ∣ lo := by rw [alignOf_eq]; exact h1
    have e2 : SliceOp.run c (alignOf t) m (.aFrom (.tryNew (alignOf t) lo)) =
        .ok (alignOf t, ⟨m.addr + lo, sub m.bytes lo m.len⟩) :=
      (c13_step_exact c _ m _ hA ht2 hp' hl _ _).2
        ⟨rfl, lo, m.len, ⟨by simp [OffExpr.eval, tryNew, Nat.mod_eq_zero_of_dvd h1'], rfl⟩, by omega, Nat.le_refl _, rfl⟩
    have hsl : (sub m.bytes lo m.len).length = m.len - lo := sub_length (Nat.le_refl _)
    have e3 : SliceOp.run c (alignOf t) ⟨m.addr + lo, sub m.bytes lo m.len⟩ (.to n) =
        .ok (alignOf t, ⟨m.addr + lo, sub m.bytes lo (lo + n)⟩) := by
      refine (c13_step_exact c _ _ _ hA ht3 (sub_promise hp' h1') (by simp only [Slice.len] at *; omega) _ _).2
        ⟨rfl, 0, n, ⟨rfl, rfl⟩, Nat.zero_le _, by simp only [Slice.len] at *; omega, ?_⟩
      rw [sub_sub _ _ _ _ _ (by omega)]
      simp
    simp only [takePart, runSlices, e1, e2, e3, Res.bind_ok]
    rw [alignOf_eq]
  · intro hn
    cases h : runSlices c 8 m (takePart lo n t) with
    | fail f => exact ⟨f, rfl⟩
    | ok a =>
      exfalso
      simp only [takePart, runSlices, e1, Res.bind_ok] at h
      obtain ⟨⟨al1, s1⟩, h1, h⟩ := Res.bind_eq_ok.1 h
      obtain ⟨rfl, lo', hi', ⟨h2, rfl⟩, h3, _, rfl⟩ := (c13_step_exact c _ m _ hA ht2 hp' hl _ _).1 h1
      simp only [OffExpr.eval, tryNew, Res.ok.injEq] at h2
      split at h2
      · rename_i hmod
        cases h2
        have hd : alignOf t ∣ lo := Nat.dvd_of_mod_eq_zero hmod
        have hsl : (sub m.bytes lo m.len).length = m.len - lo := sub_length (Nat.le_refl _)
        obtain ⟨⟨al2, s2⟩, h4, _⟩ := Res.bind_eq_ok.1 h
        obtain ⟨_, lo2, hi2, ⟨_, rfl⟩, _, h5, _⟩ := (c13_step_exact c _ _ _ hA ht3 (sub_promise hp' hd)
          (by simp only [Slice.len] at *; omega) _ _).1 h4
        simp only [Slice.len, hsl] at h5
        exact hn ⟨by rw [← alignOf_eq]; exact hd, by simp only [Slice.len] at *; omega⟩
      · cases h2

theorem deed_goes {c : Cfg} {P : CoreFmt} {φ : Fate} {σ : Session} {ω : World} {d : Deed} (hp : ProperPlace φ.places)
    (hv : ∀ b : Bytes, b.length ≤ 2 ^ 62 → RVec.Valid ⟨(φ.vec b).1, (φ.vec b).2, b⟩)
    (hd : ProperDeed d) (h : Matches c σ ω) :
    Follows c (act c P φ.places σ (φ.toAct d)) (deed (readOut c) (.crate c.bigEndian) P ω d) := by
  have wrong : Follows c (.ok (.wrong, σ)) (.went .wrong ω) := ⟨σ, rfl, h⟩
  have hlen := h.cells.length_eq
  cases d with
  | make b =>
    simp only [deed, Fate.toAct, act]
    split
    · rename_i hb
      obtain ⟨w, h1, h2, h3⟩ := alignVec_ok (c := c) hp.1 (hv b hb)
      simp only [AlignedBuf.fromVec, h1, Res.bind_ok, Res.pure_eq]
      refine ⟨_, rfl, forall₂_push h.cells (.cons (.some ?_) .nil), h.held⟩
      have := CellShows.buffer h2 (by rw [h3]; exact hb)
      rwa [h3] at this
    · trivial
  | lend b =>
    simp only [deed, Fate.toAct, act]
    split
    · rename_i hb
      exact ⟨_, rfl, forall₂_push h.cells (.cons (.some (.lent (s := ⟨φ.lent, b⟩) hb)) .nil), h.held⟩
    · trivial
  | alter i g =>
    simp only [deed, Fate.toAct, act]
    rcases both_lookup h.cells i with ⟨h1, h2⟩ | ⟨h1, h2⟩ | ⟨x, y, h1, h2, hxy⟩
    · simp only [h1, h2]; exact wrong
    · simp only [h1, h2]; exact wrong
    · cases hxy with
      | @buffer b hi hl =>
        simp only [h1, h2]
        split
        · rename_i hg
          obtain ⟨b', v, h3, h4, h5, h6, h7⟩ := alter_ok (c := c) (a := φ.places.vecs)
            (f := fun v => ⟨(φ.vec (g v.bytes)).1, (φ.vec (g v.bytes)).2, g v.bytes⟩) hp.1 hi hl
            (fun v _ hvb => hv _ (by rw [hvb]; exact hg))
          simp only [h3, Res.bind_ok, Res.pure_eq]
          refine ⟨_, rfl, forall₂_set h.cells (.some ?_) i, both_kill h.held⟩
          have := CellShows.buffer h4 h7
          rwa [h6, h5] at this
        · trivial
      | lent => simp only [h1, h2]; exact wrong
      | owned => simp only [h1, h2]; exact wrong
      | cow => simp only [h1, h2]; exact wrong
  | poke i j x =>
    simp only [deed, Fate.toAct, act]
    rcases both_lookup h.cells i with ⟨h1, h2⟩ | ⟨h1, h2⟩ | ⟨x, y, h1, h2, hxy⟩
    · simp only [h1, h2]; exact wrong
    · simp only [h1, h2]; exact wrong
    · cases hxy with
      | @buffer b hi hl =>
        simp only [h1, h2]
        obtain ⟨h3, h4⟩ := bufStep_ok (c := c) (e := ⟨oddAlloc, fun _ => (0, 0)⟩) (op := .set j x) hi hl trivial
        simp only [bufStep, VecOp.onBytes] at h3 h4
        split
        · rename_i hj
          simp only [hj, if_true] at h3
          obtain ⟨b', h5, h6, h7⟩ := h3 _ rfl
          simp only [h5, Res.bind_ok, Res.pure_eq]
          refine ⟨_, rfl, forall₂_set h.cells (.some ?_) i, both_kill h.held⟩
          have := CellShows.buffer h6 (by rw [h7]; simpa using hl)
          rwa [h7] at this
        · rename_i hj
          simp only [hj, if_false] at h4
          rw [h4 trivial]
          exact ⟨_, rfl⟩
      | lent => simp only [h1, h2]; exact wrong
      | owned => simp only [h1, h2]; exact wrong
      | cow => simp only [h1, h2]; exact wrong
  | peek i =>
    simp only [deed, Fate.toAct, act]
    rcases both_lookup h.cells i with ⟨h1, h2⟩ | ⟨h1, h2⟩ | ⟨x, y, h1, h2, hxy⟩
    · simp only [h1, h2]; exact wrong
    · simp only [h1, h2]; exact wrong
    · cases hxy with
      | @buffer b hi hl =>
        simp only [h1, h2, deref_ok hi, Res.bind_ok, Res.pure_eq]
        exact ⟨_, rfl, h⟩
      | lent => simp only [h1, h2]; exact ⟨_, rfl, h⟩
      | owned => simp only [h1, h2]; exact wrong
      | cow => simp only [h1, h2]; exact wrong
  | store i lo len t path x =>
    obtain ⟨⟨hx, hsm⟩, hlo, hn, u, hu, hxl⟩ := hd
    simp only [deed, Fate.toAct, act]
    rcases both_lookup h.cells i with ⟨h1, h2⟩ | ⟨h1, h2⟩ | ⟨x', y, h1, h2, hxy⟩
    · simp only [h1, h2]; exact wrong
    · simp only [h1, h2]; exact wrong
    · cases hxy with
      | @buffer b hi hl =>
        simp only [h1, h2]
        obtain ⟨n, hn⟩ := Option.isSome_iff_exists.1 hn
        have hder := deref_ok (c := c) hi
        have hrun := takePart_run (c := c) (m := ⟨_, b.vis⟩) len t hlo bufMem_promise (by simp only [Slice.len]; omega)
        by_cases hcond : Spec.align t ∣ lo ∧ lo + len ≤ b.vis.length
        · simp only [hcond, and_self, if_true]
          have hr := hrun.1 hcond
          have hwl : (sub b.vis lo (lo + len)).length = len := by rw [sub_length hcond.2]; omega
          rcases store_at hx hi hl hn hu hxl (takePart_proper len t hlo) hder hr with ⟨hw, k3⟩ | ⟨lo', b', k1, k2, k3, k4, k5⟩
          · have hne : Spec.size t ≠ some len := by
              rw [hn]; rintro ⟨⟩; exact hw hwl
            simp only [ne_eq, hne, not_false_eq_true, if_true, k3, Res.bind_ok, Res.pure_eq]
            exact ⟨_, rfl, h.cells, both_kill h.held⟩
          · have hnl : len = n := by
              have := congrArg Slice.len k2
              simp only [Slice.len, hwl, sub_length k1] at this
              omega
            subst hnl
            simp only [hn, ne_eq, not_true_eq_false, if_false]
            have : lo' = lo := by
              have := congrArg Slice.addr k2
              simp only at this
              omega
            subst this
            simp only [k3, Res.bind_ok, Res.pure_eq]
            refine ⟨_, rfl, forall₂_set h.cells (.some ?_) i, both_kill h.held⟩
            obtain ⟨k, hk, hfit⟩ := startAt_fits path t u _ hn hu
            rw [hxl] at hk; cases hk
            have := CellShows.buffer k4 (by rw [k5, overlay_length (by omega)]; exact hl)
            rwa [k5] at this
        · simp only [hcond, if_false]
          obtain ⟨f, hf⟩ := hrun.2 hcond
          exact ⟨f, by simp only [poke, hder, Res.bind_ok, hf, Res.bind_fail]⟩
      | lent => simp only [h1, h2]; exact wrong
      | owned => simp only [h1, h2]; exact wrong
      | cow => simp only [h1, h2]; exact wrong
  | free i =>
    simp only [deed, Fate.toAct, act]
    exact ⟨_, rfl, both_shut h.cells, both_prune (both_shut h.cells) h.held⟩
  | unwrap i =>
    simp only [deed, Fate.toAct, act]
    rcases both_lookup h.cells i with ⟨h1, h2⟩ | ⟨h1, h2⟩ | ⟨x, y, h1, h2, hxy⟩
    · simp only [h1, h2]; exact wrong
    · simp only [h1, h2]; exact wrong
    · cases hxy with
      | @buffer b hi hl =>
        obtain ⟨v, h3, h4, _⟩ := unalignVec_ok (c := c) hi
        simp only [h1, h2, AlignedBuf.intoVec, h3, Res.bind_ok, Res.pure_eq, h4]
        exact ⟨_, rfl, both_shut h.cells, both_prune (both_shut h.cells) h.held⟩
      | lent => simp only [h1, h2]; exact wrong
      | owned => simp only [h1, h2]; exact wrong
      | cow => simp only [h1, h2]; exact wrong
  | part i lo n t =>
    obtain ⟨⟨hx, hsm⟩, hlo⟩ := hd
    simp only [deed, Fate.toAct, act]
    rcases both_lookup h.cells i with ⟨h1, h2⟩ | ⟨h1, h2⟩ | ⟨x, y, h1, h2, hxy⟩
    · simp only [h1, h2]; exact wrong
    · simp only [h1, h2]; exact wrong
    · cases hxy with
      | @buffer b hi hl =>
        simp only [h1, h2]
        have hder := deref_ok (c := c) hi
        have hrun := takePart_run (c := c) (m := ⟨_, b.vis⟩) n t hlo bufMem_promise (by simp only [Slice.len]; omega)
        split
        · rename_i hcond
          have hr := hrun.1 hcond
          split
          · rename_i hcb
            split
            · rename_i v hro
              obtain ⟨m, k1, k2, k3, k4, k5⟩ := part_ok (c := c) hx hsm hi hl hcb (takePart_proper n t hlo)
              rw [hder] at k1; cases k1
              obtain ⟨k6, r, k7, k8, k9, k10⟩ := k5 _ _ hr
              simp only [hder, Res.bind_ok, hr, asAligned, k7, Res.pure_eq]
              exact ⟨_, rfl, h.cells, forall₂_push h.held (.cons (.some ⟨rfl, cast_shows k6 k8 k10 hro⟩) .nil)⟩
            · trivial
          · trivial
        · rename_i hcond
          obtain ⟨f, hf⟩ := hrun.2 hcond
          exact ⟨f, by simp only [hder, Res.bind_ok, hf, Res.bind_fail]⟩
      | lent => simp only [h1, h2]; exact wrong
      | owned => simp only [h1, h2]; exact wrong
      | cow => simp only [h1, h2]; exact wrong
  | cast i t =>
    obtain ⟨hx, hsm⟩ := hd
    simp only [deed, Fate.toAct, act]
    rcases both_lookup h.cells i with ⟨h1, h2⟩ | ⟨h1, h2⟩ | ⟨x, y, h1, h2, hxy⟩
    · simp only [h1, h2]; exact wrong
    · simp only [h1, h2]; exact wrong
    · cases hxy with
      | @buffer b hi hl =>
        simp only [h1, h2]
        split
        · rename_i hcb
          obtain ⟨m, r, h3, h4, h5, h6, h7, h8⟩ := castBuf_ok (c := c) hx hsm hi hl hcb
          split
          · rename_i v hro
            simp only [h3, asAligned, h6, Res.bind_ok, Res.pure_eq]
            rw [← h4] at hro
            exact ⟨_, rfl, h.cells, forall₂_push h.held (.cons (.some ⟨rfl, cast_shows h5 h7 h8 hro⟩) .nil)⟩
          · trivial
        · trivial
      | @lent s hl =>
        simp only [h1, h2, tryAsAligned, markerAlign, ge_iff_le, Nat.le_refl, decide_true, Bool.true_or, if_true]
        split
        · rename_i hcb
          obtain ⟨r, h6, h7, h8⟩ := cast_any (c := c) hx hsm hl (hcb.imp_left fun h' => by rw [h']; exact Nat.one_dvd _)
          split
          · rename_i v hro
            simp only [h6, Res.bind_ok, Res.pure_eq]
            exact ⟨_, rfl, h.cells, forall₂_push h.held (.cons (.some ⟨rfl, cast_shows hl h7 h8 hro⟩) .nil)⟩
          · trivial
        · trivial
      | owned => simp only [h1, h2]; exact wrong
      | cow => simp only [h1, h2]; exact wrong
  | settle i t =>
    obtain ⟨hx, hsm⟩ := hd
    simp only [deed, Fate.toAct, act]
    rcases both_lookup h.cells i with ⟨h1, h2⟩ | ⟨h1, h2⟩ | ⟨x, y, h1, h2, hxy⟩
    · simp only [h1, h2]; exact wrong
    · simp only [h1, h2]; exact wrong
    · cases hxy with
      | buffer => simp only [h1, h2]; exact wrong
      | @lent s hl =>
        simp only [h1, h2]
        split
        · rename_i hcb
          obtain ⟨w, m, r, h3, h4, h5, h6, h7, h8, h9⟩ := settle_ok (c := c) hp hx hsm hl
            (hcb.imp_right fun h' => h'.imp_left fun h' => by rw [h']; exact Nat.one_dvd _)
          split
          · rename_i v hro
            simp only [h3, h4, h7, Res.bind_ok, Res.pure_eq]
            rw [← h5] at hro
            exact ⟨_, rfl, forall₂_push h.cells (.cons (.some .cow) .nil),
              forall₂_push h.held (.cons (.some ⟨hlen, cast_shows h6 h8 h9 hro⟩) .nil)⟩
          · trivial
        · trivial
      | owned => simp only [h1, h2]; exact wrong
      | cow => simp only [h1, h2]; exact wrong
  | read op =>
    have hlive := both_live h.held
    have hg := call_goes (P := P) hp.1 hp.2 hlive op (by rintro k u rfl; exact hd)
    by_cases hcp : ∃ h0, op = .copy h0
    · obtain ⟨h0, rfl⟩ := hcp
      simp only [deed, Fate.toAct, act, opOn, opWith]
      rcases both_lookup h.held h0 with ⟨h1, h2⟩ | ⟨h1, h2⟩ | ⟨x, y, h1, h2, hxy⟩
      · simp only [h1, h2]; exact wrong
      · simp only [h1, h2]; exact wrong
      · obtain ⟨k, x⟩ := x
        obtain ⟨k', y⟩ := y
        obtain ⟨rfl, hxy⟩ := hxy
        simp only at h1 h2 hxy
        have h3 := live_some (d := Seen.rest .Y []) h2
        cases hxy with
        | @ref t r v root hl hg hv =>
          simp only [h1, h2, call, h3]
          by_cases hpc : plainCopy t = true ∨ v ≠ dflt t
          · simp only [hpc, if_true]
            obtain ⟨o, q, h4, h5, h6⟩ := copy_shows (p := φ.places) hp.1 hp.2 hl hg hv hpc
            simp only [h4, h5, Res.bind_ok, Res.pure_eq]
            refine ⟨_, rfl, forall₂_push h.cells (.cons (.some .owned) .nil), ?_⟩
            simp only [rehold_live]
            exact forall₂_push h.held (.cons (.some ⟨hlen, h6⟩) .nil)
          · simp only [hpc, if_false]
            trivial
        | iter => simp only [h1, h2, call, h3]; exact wrong
        | items => simp only [h1, h2, call, h3]; exact wrong
    · have hnc : ∀ h0, op ≠ .copy h0 := fun h0 h' => hcp ⟨h0, h'⟩
      simp only [Fate.toAct]
      rw [act, deed]
      · rcases both_lookup h.held (opOn op) with ⟨h1, h2⟩ | ⟨h1, h2⟩ | ⟨x, y, h1, h2, hxy⟩
        · simp only [h1, h2]; exact wrong
        · simp only [h1, h2]; exact wrong
        rcases both_lookup h.held (opWith op) with ⟨k1, k2⟩ | ⟨k1, k2⟩ | ⟨x', y', k1, k2, hxy'⟩
        · simp only [h1, h2, k1, k2]; exact wrong
        · simp only [h1, h2, k1, k2]; exact wrong
        obtain ⟨k, x⟩ := x
        obtain ⟨k', y⟩ := y
        obtain ⟨rfl, _⟩ := hxy
        simp only [h1, h2, k1, k2]
        cases hcall : call (readOut c) (.crate c.bigEndian) P (live (.rest .Y []) ω.seen) op with
        | went o ss =>
          rw [hcall] at hg
          obtain ⟨hs', h3, h4⟩ := hg
          simp only [h3, Res.bind_ok, Res.pure_eq]
          split
          · exact absurd rfl (hnc _)
          · exact absurd rfl (hnc _)
          · rename_i heq _ _
            cases heq
            exact ⟨_, rfl, h.cells, both_rehold h.held h4⟩
          · rename_i heq; cases heq
          · rename_i heq; cases heq
        | panicked =>
          rw [hcall] at hg
          obtain ⟨f, h3⟩ := hg
          exact ⟨f, by simp only [h3, Res.bind_fail]⟩
        | unknown => trivial
      · exact hnc

/-- All that a program sees is what bytes and values say. -/
theorem run_follows {c : Cfg} {P : CoreFmt} {fate : Nat → Fate} {prog : Program}
    (hp : ∀ n, ProperPlace (fate n).places)
    (hv : ∀ n (b : Bytes), b.length ≤ 2 ^ 62 → RVec.Valid ⟨((fate n).vec b).1, ((fate n).vec b).2, b⟩)
    (hd : ∀ tr d, prog tr = some d → ProperDeed d) : ∀ (n : Nat) (σ : Session) (ω : World) (tr out : List Obs), Matches c σ ω →
    saga (readOut c) (.crate c.bigEndian) P prog n ω tr = some out → runProgram c P fate prog n σ tr = out := by
  intro n
  induction n with
  | zero => intro σ ω tr out _ h; simpa [saga, runProgram] using h
  | succ n ih =>
    intro σ ω tr out hm h
    simp only [saga] at h
    simp only [runProgram]
    cases hpr : prog tr with
    | none => rw [hpr] at h; simpa using h
    | some d =>
      rw [hpr] at h
      have hg := deed_goes (P := P) (d := d) (hp n) (hv n) (hd tr d hpr) hm
      simp only at h ⊢
      cases hdeed : deed (readOut c) (.crate c.bigEndian) P ω d with
      | went o ω' =>
        rw [hdeed] at h hg
        obtain ⟨σ', h1, h2⟩ := hg
        rw [h1]
        exact ih σ' ω' (tr ++ [o]) out h2 h
      | panicked =>
        rw [hdeed] at h hg
        obtain ⟨f, h1⟩ := hg
        rw [h1]
        simpa using h
      | unknown => rw [hdeed] at h; simp at h

end GV.Props
