import Verif.Props.C27_C32
import Verif.Proofs.Checked
/-
C33–C36: panics while reading, memory safety, agreement with the specification, wrong-size data.

`Expands t`: `gv!` accepts `t`.  `Small t`: its type string has less than 2^40 characters.  The longest
Rust slice has `2 ^ 63 - 1` bytes.
-/
namespace GV.Props
open GV

/-! ### C33 -/

/-- Casting any bytes to any type and reading everything gives a value. -/
def C33_full : Prop := ∀ (c : Cfg) (t : Ty) (s : Slice), Expands t → Small t → Spec.align t ∣ s.addr →
  s.len < 2 ^ 63 → ∃ v, readAs c t s = .ok v

/-- Four bytes as `mai`: the content has three bytes after the trailing zero is dropped, which is no
    multiple of four, and `to_option` panics. -/
theorem c33_full_false : ¬ C33_full := by
  intro h
  obtain ⟨v, hv⟩ := h rel (.M (.A .I)) ⟨64, [1, 2, 3, 0]⟩ (by decide) (by decide) (by decide) (by decide)
  have : readAs rel (.M (.A .I)) ⟨64, [1, 2, 3, 0]⟩ = .fail .unwrap := by rfl
  rw [this] at hv
  cases hv

/-- The only panics: `unwrap` if somewhere in the type an array of fixed-size items is directly in an
    array or maybe; and overflow in builds that check it, for data of at least 4 GiB with framing offsets
    of 2^63 or more. -/
theorem c33_faults_partial (c : Cfg) (t : Ty) (s : Slice) (f : Fault) (hx : Expands t) (hsm : Small t)
    (ha : Spec.align t ∣ s.addr) (hl : s.len < 2 ^ 63) (h : readAs c t s = .fail f) :
    (f = .unwrap ∧ Spec.nestedFixed t = true) ∨
    (f = .overflow ∧ c.overflowChecks = true ∧ 2 ^ 32 ≤ s.len ∧
      ¬ Spec.Tame (.crate c.bigEndian) t s.bytes) := by
  rcases readAs_fault hx hsm ha hl h with h' | h'
  · exact Or.inl h'
  · have ht : ¬ Spec.Tame (.crate c.bigEndian) t s.bytes := by
      intro ht
      rw [readAs_tame hx hsm ha (fun _ => hl) ht] at h
      split at h
      · cases h; cases h'.1
      · cases h
    exact Or.inr ⟨h'.1, h'.2, Nat.le_of_not_lt fun hlt => ht (tame_small _ _ _ hlt), ht⟩

/-- Hence every type without such nesting can be read from all bytes, except in builds with overflow
    checks from data of 4 GiB and more with huge framing offsets. -/
theorem c33_total_partial (c : Cfg) (t : Ty) (s : Slice) (hx : Expands t) (hsm : Small t)
    (hn : Spec.nestedFixed t = false) (ha : Spec.align t ∣ s.addr) (hl : s.len < 2 ^ 63)
    (hw : c.overflowChecks = false ∨ s.len < 2 ^ 32 ∨ Spec.Tame (.crate c.bigEndian) t s.bytes) :
    ∃ v, readAs c t s = .ok v := by
  cases h : readAs c t s with
  | ok v => exact ⟨v, rfl⟩
  | fail f =>
    rcases c33_faults_partial c t s f hx hsm ha hl h with h | h
    · rw [hn] at h; cases h.2
    · rcases hw with hw | hw | hw
      · rw [hw] at h; cases h.2.1
      · have := h.2.2.1; omega
      · exact absurd hw h.2.2.2

/-- And below 4 GiB or without huge framing offsets a panic occurs exactly for data in which an element of an array or the content of a
    maybe is an array of fixed-size items with a length that is no multiple of their size. -/
theorem c33_exact_partial (c : Cfg) (t : Ty) (s : Slice) (hx : Expands t) (hsm : Small t)
    (ha : Spec.align t ∣ s.addr) (hl : s.len < 2 ^ 63)
    (hw : s.len < 2 ^ 32 ∨ Spec.Tame (.crate c.bigEndian) t s.bytes) :
    (∃ f, readAs c t s = .fail f) ↔ Spec.ragged (.crate c.bigEndian) t s.bytes = true := by
  rw [readAs_tame hx hsm ha (fun _ => hl) (hw.elim (tame_small _ _ _) id)]
  split
  · rename_i h; simp [h]
  · rename_i h; simp [h]

/-- Types: the fuzz targets of the crate with `aai`, `mai` are the exceptions. -/
example : Spec.nestedFixed (.A (.dict .S .V)) = false ∧
    Spec.nestedFixed (.tuple [.S, .A (.tuple [.A .I, .M .I])]) = false ∧
    Spec.nestedFixed (.A (.A .I)) = true ∧ Spec.nestedFixed (.tuple [.Y, .M (.A .I)]) = true := by decide

/-- Non-trivial data for `a(si)`, as in section 2.6 of the specification, one byte short. -/
example : Expands (.A (.tuple [.S, .I])) ∧ Small (.A (.tuple [.S, .I])) ∧
    readAs dbg (.A (.tuple [.S, .I])) ⟨64, [104, 105, 0, 0, 254, 255, 255, 255, 3, 0, 0, 0, 98, 121,
      101, 0, 255, 255, 255, 255, 4, 9, 21]⟩ =
      .ok (.arr [.tup [.str [104, 105], .num 4294967294], .tup [.str [98, 121, 101], .num 4294967295]]) :=
  ⟨by decide, by decide, by rfl⟩

/-! ### C34 -/

/-- References that safe code can get from `root`, seen as a `t0`: by casting, then by indexing,
    iterating, `first`, `last`, `to_option`, `to_tuple`, and `get` with any type. -/
inductive Reach (c : Cfg) (t0 : Ty) (root : Slice) : Ty → Slice → Prop
  | cast {r} : fromAligned c t0 root = .ok r → Reach c t0 root t0 r
  | index {e s r} (i : Nat) : Reach c t0 root (.A e) s → sizeOf e = none → arrIndex c e s i = .ok r →
      Reach c t0 root e r
  | first {e s r} : Reach c t0 root (.A e) s → sizeOf e = none → arrFirst c e s = .ok (some r) →
      Reach c t0 root e r
  | last {e s r} : Reach c t0 root (.A e) s → sizeOf e = none → arrLast c e s = .ok (some r) →
      Reach c t0 root e r
  | next {e s it it' items r} (k : Nat) : Reach c t0 root (.A e) s → sizeOf e = none →
      intoIter c e s = .ok it → nexts c e k it = .ok (items, it') → some r ∈ items → Reach c t0 root e r
  | slice {e s n ra r} : Reach c t0 root (.A e) s → sizeOf e ≠ none → rustLayout e = .ok (n, ra) →
      r ∈ sliceElems n s → Reach c t0 root e r
  | option {e s r} : Reach c t0 root (.M e) s → toOption c e s = .ok (some r) → Reach c t0 root e r
  | member {ts s rs t r} : Reach c t0 root (.tuple ts) s → tupRefs c (.tuple ts) ts s = .ok rs →
      (t, r) ∈ ts.zip rs → Reach c t0 root t r
  | entry {k v s rs t r} : Reach c t0 root (.dict k v) s → tupRefs c (.dict k v) [k, v] s = .ok rs →
      (t, r) ∈ [k, v].zip rs → Reach c t0 root t r
  | get {s t r} : Reach c t0 root .V s → Expands t → Small t → variantGet c t s = .ok (some r) →
      Reach c t0 root t r

/-- Faults that an operation on a reference to a `t` can have. -/
inductive Faulty (c : Cfg) : Ty → Slice → Fault → Prop
  | len {e s f} : arrLen c s = .fail f → Faulty c (.A e) s f
  | index {e s f} (i : Nat) : sizeOf e = none → arrIndex c e s i = .fail f → Faulty c (.A e) s f
  | first {e s f} : sizeOf e = none → arrFirst c e s = .fail f → Faulty c (.A e) s f
  | last {e s f} : sizeOf e = none → arrLast c e s = .fail f → Faulty c (.A e) s f
  | iter {e s f} (k : Nat) : sizeOf e = none → (intoIter c e s >>= nexts c e k) = .fail f →
      Faulty c (.A e) s f
  | option {e s f} : toOption c e s = .fail f → Faulty c (.M e) s f
  | member {ts s f} : tupRefs c (.tuple ts) ts s = .fail f → Faulty c (.tuple ts) s f
  | entry {k v s f} : tupRefs c (.dict k v) [k, v] s = .fail f → Faulty c (.dict k v) s f
  | split {s f} : split c s = .fail f → Faulty c .V s f
  | get {t s f} : Expands t → Small t → variantGet c t s = .fail f → Faulty c .V s f
  | all {t s f} : view c t s = .fail f → Faulty c t s f

theorem forall₂_zip {α β : Type} {R : α → β → Prop} {as : List α} {bs : List β} (h : List.Forall₂ R as bs)
    {a : α} {b : β} (hm : (a, b) ∈ as.zip bs) : R a b := by
  induction h with
  | nil => simp at hm
  | cons h1 _ ih =>
    rcases List.mem_cons.1 hm with h | h
    · cases h; exact h1
    · exact ih h

theorem nexts_items {c : Cfg} {e : Ty} {s : Slice} {it it' : ArrIter} {items : List (Option Slice)} {k : Nat}
    (ha : Spec.align e ∣ s.addr) (hl : s.len < 2 ^ 63) (h1 : intoIter c e s = .ok it)
    (h2 : nexts c e k it = .ok (items, it')) {r : Slice} (hr : some r ∈ items) :
    ∃ i, arrIndex c e s i = .ok r := by
  obtain ⟨n, it0, _, hi, hk⟩ := c30_iterate c e s ha hl
  rw [hi] at h1
  cases h1
  obtain ⟨itk, hn, _⟩ := hk k
  rw [hn] at h2
  obtain ⟨items', h3, h4⟩ := Res.bind_eq_ok.1 h2
  cases h4
  obtain ⟨i, _, h5⟩ := traverse_mem h3 _ hr
  unfold indexed at h5
  split at h5
  · obtain ⟨x, hx, h6⟩ := Res.bind_eq_ok.1 h5
    cases h6
    exact ⟨i, hx⟩
  · cases h5

theorem arrFirst_index {c : Cfg} {e : Ty} {s r : Slice} (h : arrFirst c e s = .ok (some r)) :
    ∃ i, arrIndex c e s i = .ok r := by
  obtain ⟨n, _, h⟩ := Res.bind_eq_ok.1 h
  split at h
  · cases h
  · obtain ⟨x, hx, h⟩ := Res.bind_eq_ok.1 h
    cases h
    exact ⟨0, hx⟩

theorem arrLast_index {c : Cfg} {e : Ty} {s r : Slice} (h : arrLast c e s = .ok (some r)) :
    ∃ i, arrIndex c e s i = .ok r := by
  obtain ⟨n, _, h⟩ := Res.bind_eq_ok.1 h
  split at h
  · cases h
  · obtain ⟨i, _, h⟩ := Res.bind_eq_ok.1 h
    obtain ⟨x, hx, h⟩ := Res.bind_eq_ok.1 h
    cases h
    exact ⟨i, hx⟩

theorem Good.index {c : Cfg} {root s r : Slice} {e : Ty} {i : Nat} (h : Good c root (.A e) s)
    (hs : sizeOf e = none) (hr : arrIndex c e s i = .ok r) : Good c root e r := by
  obtain ⟨h1, h2, h3⟩ := (arrIndex_safe (c := c) (expands_A.1 h.ex) (sizeOf_eq e ▸ hs) h.al h.len i).1 r hr
  exact h.child (expands_A.1 h.ex) h.sm.A h1 h2 h3

theorem variantGet_cases {c : Cfg} {t : Ty} {root s : Slice} (h : Good c root .V s) (hx : Expands t)
    (hsm : Small t) :
    (∀ r, variantGet c t s = .ok (some r) → Good c root t r) ∧ ∀ f, variantGet c t s ≠ .fail f := by
  obtain ⟨d, h1, h8, _, hin⟩ := split_ok (c := c) (s := s) h.al
  have ha : Spec.align t ∣ d.addr := Nat.dvd_trans ((specAlign_isAl t).dvd (by simp [IsAl]) (by
    rcases specAlign_isAl t with h | h | h | h <;> omega)) h8
  obtain ⟨r, h2, h3, h4, h5⟩ := fromAligned_ok (c := c) hx ha
  unfold variantGet
  simp only [h1, Res.bind_ok]
  split
  · rw [h2]
    refine ⟨fun r' hr => ?_, fun f hf => (by cases hf)⟩
    cases hr
    rcases h5 with rfl | h5
    · rcases hin with hin | rfl
      · exact h.child hx hsm h3 (by rw [h4, castBytes_idem]) (Or.inl hin)
      · refine ⟨hx, hsm, h3, by rw [h4, castBytes_idem], by simp [Slice.len], Or.inr ⟨.V, _, by decide, ?_, .refl _⟩⟩
        exact ⟨rfl, Or.inr ⟨rfl, rfl⟩⟩
    · exact h.child hx hsm h3 (by rw [h4, castBytes_idem]) (Or.inr h5)
  · exact ⟨fun r hr => (by cases hr), fun f hf => (by cases hf)⟩

theorem reach_good {c : Cfg} {t0 t : Ty} {root r : Slice} (hx : Expands t0) (hsm : Small t0)
    (ha : Spec.align t0 ∣ root.addr) (hl : root.len < 2 ^ 63) (h : Reach c t0 root t r) :
    Good c root t r := by
  induction h with
  | cast h =>
    obtain ⟨r, h1, h2⟩ := cast_good (c := c) hx hsm ha hl
    rw [h1] at h; cases h; exact h2
  | index i _ hs hr ih => exact Good.index ih hs hr
  | first _ hs hr ih => obtain ⟨i, hi⟩ := arrFirst_index hr; exact Good.index ih hs hi
  | last _ hs hr ih => obtain ⟨i, hi⟩ := arrLast_index hr; exact Good.index ih hs hi
  | @next e _ _ _ _ _ k _ hs h1 h2 hm ih =>
    obtain ⟨i, hi⟩ := nexts_items (e := e) ih.al ih.len h1 h2 hm
    exact Good.index ih hs hi
  | @slice e s n ra r _ hs hr hm ih =>
    refine (arrRefs_good ih).1 (sliceElems n s) ?_ r hm
    unfold arrRefs
    cases hz : sizeOf e with
    | none => exact absurd hz hs
    | some m => simp [hr]
  | option _ hr ih => exact (toOption_good ih).1 _ hr
  | member _ hr hm ih =>
    obtain ⟨hx, d, hd⟩ := expands_tuple.1 ih.ex
    exact forall₂_zip ((tuple_good ih rfl rfl rfl hx hd ih.sm.shows).1 _ hr) hm
  | @entry k v _ _ _ _ _ hr hm ih =>
    obtain ⟨⟨hk, hv⟩, d, hd⟩ := expands_dict.1 ih.ex
    refine forall₂_zip ((tuple_good (ts := [k, v]) ih (size_dict_eq k v) (align_dict_eq k v)
      (castBytes_dict k v _) ?_ hd ih.sm.dict).1 _ hr) hm
    intro t ht
    simp only [List.mem_cons, List.not_mem_nil, or_false] at ht
    rcases ht with rfl | rfl <;> assumption
  | get _ hx hsm hr ih => exact (variantGet_cases ih hx hsm).1 _ hr

/-- `r` is the part of `s` between two positions: it lies there and shows exactly those bytes. -/
def PartOf (s r : Slice) : Prop :=
  ∃ lo hi, lo ≤ hi ∧ hi ≤ s.bytes.length ∧ r.addr = s.addr + lo ∧ r.bytes = (s.bytes.drop lo).take (hi - lo)

/-- A static default value of the crate: as many zero bytes as type `t` has, in a static that the
    compiler put at a multiple of its alignment; or an empty part of the eight-space literal. -/
def StaticDefault (c : Cfg) (t : Ty) (d : Slice) : Prop :=
  (d.addr = c.staticIdx * Spec.align t ∧ d.bytes = List.replicate ((Spec.size t).getD 0) 0) ∨
  (c.spacesAddr ≤ d.addr ∧ d.addr ≤ c.spacesAddr + 8 ∧ d.bytes = [])

theorem Inside.partOf {s r : Slice} (h : Inside s r) : PartOf s r := by
  obtain ⟨lo, hi, h1, h2, rfl⟩ := h
  exact ⟨lo, hi, h1, h2, rfl, by simp [Spec.sub, List.drop_take]⟩

/-- Every reference reachable from data aligned for its type is aligned for its own type, has a length
    its type can have, and is part of the data or of a static all-zero (or empty) default. -/
theorem c34_refs (c : Cfg) (t0 t : Ty) (root r : Slice) (hx : Expands t0) (hsm : Small t0)
    (ha : Spec.align t0 ∣ root.addr) (hl : root.len < 2 ^ 63) (h : Reach c t0 root t r) :
    Spec.align t ∣ r.addr ∧ (∀ n, Spec.size t = some n → r.bytes.length = n) ∧
    (∀ e n, t = .A e → Spec.size e = some n → n ∣ r.bytes.length) ∧
    (PartOf root r ∨ ∃ t' d, StaticDefault c t' d ∧ PartOf d r) := by
  have hg := reach_good hx hsm ha hl h
  refine ⟨hg.al, fun n hn => castBytes_fixed_len hn hg.cast, ?_, ?_⟩
  · rintro e n rfl hn
    exact Nat.dvd_of_mod_eq_zero (castBytes_A_fixed hn hg.cast)
  · rcases hg.loc with hi | ⟨t', d, _, hd, hi⟩
    · exact Or.inl (Inside.partOf hi)
    · refine Or.inr ⟨t', d, ?_, Inside.partOf hi⟩
      have hb : d.bytes = List.replicate ((Spec.size t').getD 0) 0 := by
        rw [hd.1]; unfold dfltBytes; split <;> simp [*]
      rcases hd.2 with h | h
      · exact Or.inl ⟨h, hb⟩
      · refine Or.inr ⟨by omega, ?_, by rw [hb, h.1]; rfl⟩
        have := gap_lt (specAlign_isAl t') c.spacesAddr
        rcases specAlign_isAl t' with h' | h' | h' | h' <;> omega

/-- No operation on a reachable reference causes undefined behaviour, a failed alignment assertion, or
    any panic but those for a bad index, overflow, or a ragged nested array. -/
theorem c34_no_ub (c : Cfg) (t0 t : Ty) (root r : Slice) (f : Fault) (hx : Expands t0) (hsm : Small t0)
    (ha : Spec.align t0 ∣ root.addr) (hl : root.len < 2 ^ 63) (h : Reach c t0 root t r)
    (hf : Faulty c t r f) : f = .overflow ∨ f = .bounds ∨ f = .unwrap := by
  have hg := reach_good hx hsm ha hl h
  have hidx : ∀ {e : Ty} {s : Slice}, Good c root (.A e) s → sizeOf e = none → ∀ i f,
      arrIndex c e s i = .fail f → f = .overflow ∨ f = .bounds ∨ f = .unwrap := fun hg hs i f hf =>
    (arrIndex_safe (c := c) (expands_A.1 hg.ex) (sizeOf_eq _ ▸ hs) hg.al hg.len i).2 f hf
  have hall : ∀ {t : Ty} {f : Fault}, Allowed c t f → f = .overflow ∨ f = .bounds ∨ f = .unwrap := by
    rintro t f (h | h) <;> simp [h.1]
  cases hf with
  | len h => rw [arrLen_ok hg.len] at h; cases h
  | index i hs h => exact hidx hg hs i f h
  | first hs h =>
    rw [arrFirst, arrLen_ok hg.len, Res.bind_ok] at h
    split at h
    · cases h
    · rcases Res.bind_eq_fail.1 h with h | ⟨_, _, h⟩
      · exact hidx hg hs _ f h
      · cases h
  | last hs h =>
    rw [arrLast, arrLen_ok hg.len, Res.bind_ok] at h
    split at h
    · cases h
    · rw [usub_ok (by omega), Res.bind_ok] at h
      rcases Res.bind_eq_fail.1 h with h | ⟨_, _, h⟩
      · exact hidx hg hs _ f h
      · cases h
  | @iter e _ _ k hs h =>
    obtain ⟨n, it, _, h1, h2⟩ := c30_iterate c e r hg.al hg.len
    obtain ⟨itk, h3, _⟩ := h2 k
    rw [h1, Res.bind_ok, h3] at h
    rcases Res.bind_eq_fail.1 h with h | ⟨_, _, h⟩
    · obtain ⟨i, _, h⟩ := traverse_fail h
      unfold indexed at h
      split at h
      · rcases Res.bind_eq_fail.1 h with h | ⟨_, _, h⟩
        · exact hidx hg hs _ f h
        · cases h
      · cases h
    · cases h
  | option h => exact hall ((toOption_good hg).2 f h)
  | member h =>
    obtain ⟨hx, d, hd⟩ := expands_tuple.1 hg.ex
    exact Or.inl ((tuple_good hg rfl rfl rfl hx hd hg.sm.shows).2 _ h).1
  | @entry k v _ _ h =>
    obtain ⟨⟨hk, hv⟩, d, hd⟩ := expands_dict.1 hg.ex
    refine Or.inl ((tuple_good (ts := [k, v]) hg (size_dict_eq k v) (align_dict_eq k v)
      (castBytes_dict k v _) ?_ hd hg.sm.dict).2 _ h).1
    intro t ht
    simp only [List.mem_cons, List.not_mem_nil, or_false] at ht
    rcases ht with rfl | rfl <;> assumption
  | split h =>
    obtain ⟨d, h1, _⟩ := split_ok (c := c) (s := r) hg.al
    rw [h1] at h; cases h
  | get hx hsm h => exact absurd h ((variantGet_cases hg hx hsm).2 f)
  | all h => exact hall (view_fault _ r f hg h)

/-- The inner array of `(saai)` with one element of eight bytes, at its place in the data. -/
def sampleNested : Slice := ⟨64, [104, 105, 0, 0, 1, 0, 0, 0, 2, 0, 0, 0, 8, 3]⟩

example : Reach dbg (.tuple [.S, .A (.A .I)]) sampleNested .I ⟨72, [2, 0, 0, 0]⟩ := by
  have h1 : Reach dbg (.tuple [.S, .A (.A .I)]) sampleNested (.tuple [.S, .A (.A .I)]) sampleNested :=
    .cast (by decide)
  have h2 : Reach dbg (.tuple [.S, .A (.A .I)]) sampleNested (.A (.A .I))
      ⟨68, [1, 0, 0, 0, 2, 0, 0, 0, 8]⟩ :=
    .member (rs := [⟨64, [104, 105, 0]⟩, ⟨68, [1, 0, 0, 0, 2, 0, 0, 0, 8]⟩]) h1 (by decide) (by decide)
  have h3 : Reach dbg (.tuple [.S, .A (.A .I)]) sampleNested (.A .I) ⟨68, [1, 0, 0, 0, 2, 0, 0, 0]⟩ :=
    .index 0 h2 (by decide) (by decide)
  exact .slice (n := 4) (ra := 4) h3 (by decide) (by decide) (by decide)

example : Expands (.tuple [.S, .A (.A .I)]) ∧ Spec.align (.tuple [.S, .A (.A .I)]) ∣ sampleNested.addr ∧
    Faulty dbg (.A .S) sampleStrs .bounds :=
  ⟨by decide, by decide, .index 7 (by decide) (by decide)⟩

/-! ### C35 -/

/-- The letter of the specification, except for strings that are not UTF-8 or contain a NUL
    (`Str::to_str`: they are empty). -/
def almost (be : Bool) : Spec.Rules := ⟨be, true, false⟩

/-- Strings apart, whatever is read is what the specification says to the letter. -/
def C35_letter : Prop := ∀ (c : Cfg) (t : Ty) (s : Slice) (v : Val), Expands t → Small t →
  Spec.align t ∣ s.addr → s.len < 2 ^ 63 → readAs c t s = .ok v →
  v = Spec.dec (almost c.bigEndian) t s.bytes

/-- The specification (2.7.3, "Insufficient Space for Structure Framing Offsets") gives this very example:
    three bytes as `(ayayayayay)`; the crate reads five empty arrays. -/
theorem c35_letter_false : ¬ C35_letter := by
  intro h
  have h1 := h dbg (.tuple [.A .Y, .A .Y, .A .Y, .A .Y, .A .Y]) ⟨64, [3, 2, 1]⟩
    (.tup [.arr [], .arr [], .arr [], .arr [], .arr []]) (by decide) (by decide) (by decide) (by decide)
    (by rfl)
  have h2 : Spec.dec (almost dbg.bigEndian) (.tuple [.A .Y, .A .Y, .A .Y, .A .Y, .A .Y]) [3, 2, 1] =
      .tup [.arr [.num 3], .arr [.num 2], .arr [.num 1], .arr [], .arr []] := by rfl
  rw [h2] at h1
  simp at h1

/-- Whatever is read is what the specification says, except that children overlapping the framing
    offsets, and all members of structures too short for their framing offsets, read as defaults.  This is
    so in builds with overflow checks, and in others below 4 GiB or without huge framing offsets. -/
theorem c35_rules_partial (c : Cfg) (t : Ty) (s : Slice) (v : Val) (hx : Expands t) (hsm : Small t)
    (ha : Spec.align t ∣ s.addr) (hl : s.len < 2 ^ 63)
    (hw : c.overflowChecks = true ∨ s.len < 2 ^ 32 ∨ Spec.Tame (.crate c.bigEndian) t s.bytes)
    (h : readAs c t s = .ok v) :
    v = Spec.dec ⟨c.bigEndian, true, true⟩ t s.bytes := by
  rcases hw with hw | hw
  · rcases readAs_checked hw hx hsm ha hl with h' | h'
    · rw [h'] at h; cases h
    · rw [h'] at h
      split at h
      · cases h
      · cases h; rfl
  · rw [readAs_tame hx hsm ha (fun _ => hl) (hw.elim (tame_small _ _ _) id)] at h
    split at h
    · cases h
    · cases h; rfl

mutual
/-- No value of the type has framing offsets (outside variants). -/
def unframed : Ty → Bool
  | .A e => (Spec.size e).isSome && unframed e
  | .M e => unframed e
  | .tuple ts => Spec.frameCount ts == 0 && unframedAll ts
  | .dict k v => (Spec.size k).isSome && unframed k && unframed v
  | _ => true
def unframedAll : List Ty → Bool
  | [] => true
  | t :: ts => unframed t && unframedAll ts
end

theorem unframedAll_mem {t : Ty} {ts : List Ty} (h : t ∈ ts) (hu : unframedAll ts = true) :
    unframed t = true := by
  induction ts with
  | nil => simp at h
  | cons u ts ih =>
    simp only [unframedAll, Bool.and_eq_true] at hu
    rcases List.mem_cons.1 h with rfl | h
    · exact hu.1
    · exact ih h hu.2

theorem decAll_congr {R R' : Spec.Rules} (ts : List Ty) : (∀ t ∈ ts, ∀ b, Spec.dec R t b = Spec.dec R' t b) →
    ∀ os, Spec.decAll R ts os = Spec.decAll R' ts os := by
  induction ts with
  | nil => intro _ os; simp [Spec.decAll]
  | cons t ts ih =>
    intro h os
    cases os with
    | nil => simp [Spec.decAll]
    | cons o os =>
      rw [decAll_cons, decAll_cons, ih (fun u hu => h u (by simp [hu]))]
      cases o with
      | none => rfl
      | some x => simp [decChild, h t (by simp) x]

theorem memberChildren_unframed {be tx : Bool} {ts : List Ty} (h : Spec.frameCount ts = 0) (b : Bytes) :
    Spec.memberChildren ⟨be, tx, true⟩ ts b = Spec.memberChildren ⟨be, tx, false⟩ ts b := by
  unfold Spec.memberChildren
  split
  · rfl
  · simp [Spec.bodyEnd, h]

theorem dec_unframed (be tx : Bool) (t : Ty) : unframed t = true → ∀ b,
    Spec.dec ⟨be, tx, true⟩ t b = Spec.dec ⟨be, tx, false⟩ t b := by
  induction t using Ty.ind with
  | a e ih =>
    intro h b
    simp only [unframed, Bool.and_eq_true] at h
    obtain ⟨n, hn⟩ := Option.isSome_iff_exists.1 h.1
    rw [dec_A, dec_A]
    simp only [Spec.arrChildren, hn]
    congr 1
    apply List.map_congr_left
    rintro (_ | x) _
    · rfl
    · exact ih h.2 x
  | m e ih =>
    intro h b
    simp only [unframed] at h
    rw [dec_M, dec_M]
    cases Spec.maybeChild e b with
    | none => rfl
    | some x => simp only [ih h x]
  | tuple ts ih =>
    intro h b
    simp only [unframed, Bool.and_eq_true, beq_iff_eq] at h
    rw [Spec.dec, Spec.dec, memberChildren_unframed h.1,
      decAll_congr ts (fun t ht => ih t ht (unframedAll_mem ht h.2))]
  | dict k v ihk ihv =>
    intro h b
    simp only [unframed, Bool.and_eq_true] at h
    obtain ⟨n, hn⟩ := Option.isSome_iff_exists.1 h.1.1
    rw [dec_dict, dec_dict, Spec.dec, Spec.dec, memberChildren_unframed (by simp [Spec.frameCount, hn]),
      decAll_congr [k, v] (fun t ht => ?_)]
    simp only [List.mem_cons, List.not_mem_nil, or_false] at ht
    rcases ht with rfl | rfl
    · exact ihk h.1.2
    · exact ihv h.2
  | _ => intro _ b; rfl

/-- Without framing offsets there are no huge ones. -/
theorem tame_unframed (R : Spec.Rules) (t : Ty) : unframed t = true → ∀ b, Spec.Tame R t b := by
  have tup : ∀ ts : List Ty, Spec.frameCount ts = 0 → (∀ t ∈ ts, ∀ b, Spec.Tame R t b) →
      ∀ b, Spec.Tame R (.tuple ts) b := by
    intro ts h0 h b
    rw [Spec.Tame]
    exact ⟨fun i _ hi => absurd hi (by omega), tameAll_of fun p hp x _ => h _ (List.of_mem_zip hp).1 x⟩
  induction t using Ty.ind with
  | a e ih =>
    intro h b
    simp only [unframed, Bool.and_eq_true] at h
    obtain ⟨n, hn⟩ := Option.isSome_iff_exists.1 h.1
    rw [Spec.Tame]
    exact ⟨fun h => absurd hn (by simp [h]), fun x _ => ih h.2 x⟩
  | m e ih =>
    intro h b
    rw [Spec.Tame]
    exact fun x _ => ih (by simpa [unframed] using h) x
  | tuple ts ih =>
    intro h
    simp only [unframed, Bool.and_eq_true, beq_iff_eq] at h
    exact tup ts h.1 fun t ht => ih t ht (unframedAll_mem ht h.2)
  | dict k v ihk ihv =>
    intro h b
    simp only [unframed, Bool.and_eq_true] at h
    obtain ⟨n, hn⟩ := Option.isSome_iff_exists.1 h.1.1
    rw [tame_dict]
    refine tup [k, v] (by simp [Spec.frameCount, hn]) (fun t ht => ?_) b
    simp only [List.mem_cons, List.not_mem_nil, or_false] at ht
    rcases ht with rfl | rfl
    · exact ihk h.1.2
    · exact ihv h.2
  | _ => intro _ b; simp [Spec.Tame]

/-- For types without framing offsets the only deviation is that for strings. -/
theorem c35_unframed_partial (c : Cfg) (t : Ty) (s : Slice) (v : Val) (hx : Expands t) (hsm : Small t)
    (hu : unframed t = true)
    (ha : Spec.align t ∣ s.addr) (hl : s.len < 2 ^ 63) (h : readAs c t s = .ok v) :
    v = Spec.dec (almost c.bigEndian) t s.bytes := by
  rw [c35_rules_partial c t s v hx hsm ha hl (.inr (.inr (tame_unframed _ t hu _))) h]
  exact dec_unframed _ _ t hu _

example : unframed (.A (.tuple [.Y, .M .I])) = false ∧ unframed (.tuple [.Y, .T, .A (.tuple [.I, .I])]) = true ∧
    unframed (.M (.dict .Y .V)) = true := by decide

/-- The decoder used as specification, on examples of section 2.6 and 2.7.3 of its document. -/
example :
    Spec.dec (.pdf false) (.A .S) [105, 0, 99, 97, 110, 0, 104, 97, 115, 0, 115, 116, 114, 105, 110, 103,
      115, 63, 0, 2, 6, 10, 19] =
      .arr [.str [105], .str [99, 97, 110], .str [104, 97, 115], .str [115, 116, 114, 105, 110, 103, 115, 63]] ∧
    Spec.dec (.pdf false) (.tuple [.tuple [.Y, .S], .A .S]) [105, 99, 97, 110, 0, 104, 97, 115, 0, 115, 116,
      114, 105, 110, 103, 115, 63, 0, 4, 13, 5] =
      .tup [.tup [.num 105, .str [99, 97, 110]], .arr [.str [104, 97, 115], .str [115, 116, 114, 105, 110, 103, 115, 63]]] ∧
    Spec.dec (.pdf false) (.dict .S .I) [97, 32, 107, 101, 121, 0, 0, 0, 2, 2, 0, 0, 6] =
      .tup [.str [97, 32, 107, 101, 121], .num 514] ∧
    Spec.dec (.pdf false) (.A (.tuple [.S, .I])) [104, 105, 0, 0, 254, 255, 255, 255, 3, 0, 0, 0, 98, 121,
      101, 0, 255, 255, 255, 255, 4, 9, 21] =
      .arr [.tup [.str [104, 105], .num 4294967294], .tup [.str [98, 121, 101], .num 4294967295]] :=
  ⟨rfl, rfl, rfl, rfl⟩

/-! ### C36 -/

theorem readAs_of_cast {c : Cfg} {t : Ty} {s : Slice} (hx : Expands t) (hsm : Small t)
    (ha : Spec.align t ∣ s.addr) (h : castBytes t s.bytes = dfltBytes t) :
    readAs c t s = .ok (Spec.dflt t) := by
  obtain ⟨r, h1, h2, h3, h4⟩ := fromAligned_ok (c := c) hx ha
  have hlen : Spec.size t = none → r.len < 2 ^ 63 := by
    intro hs
    simp [Slice.len, h3, h, dfltBytes, hs]
  unfold readAs
  rw [h1, Res.bind_ok, view_ok c t hx hsm r h2 (by rw [h3, castBytes_idem]) hlen
    (by rw [h3, h]; exact tame_dflt _ t), h3, h,
    (dec_dfltBytes _ t).1, (dec_dfltBytes _ t).2]
  rfl

/-- Data of any other length than that of the fixed-size type reads as the default value, through a
    reference to zero bytes. -/
theorem c36_fixed (c : Cfg) (t : Ty) (s : Slice) (n : Nat) (hx : Expands t) (hsm : Small t)
    (ha : Spec.align t ∣ s.addr) (hn : Spec.size t = some n) (hl : s.bytes.length ≠ n) :
    readAs c t s = .ok (Spec.dflt t) ∧
    ∃ r, fromAligned c t s = .ok r ∧ r.bytes = List.replicate n 0 := by
  have h : castBytes t s.bytes = dfltBytes t := by simp [castBytes, dfltBytes, hn, hl]
  refine ⟨readAs_of_cast hx hsm ha h, ?_⟩
  obtain ⟨r, h1, _, h3, _⟩ := fromAligned_ok (c := c) hx ha
  exact ⟨r, h1, by rw [h3, h]; simp [dfltBytes, hn]⟩

/-- Data of the right length is referred to where it is. -/
theorem c36_fixed_exact (c : Cfg) (t : Ty) (s : Slice) (n : Nat) (hx : Expands t)
    (ha : Spec.align t ∣ s.addr) (hn : Spec.size t = some n) (hl : s.bytes.length = n) :
    fromAligned c t s = .ok s := by
  unfold fromAligned
  rw [tryFromAligned_ok hx ha, if_pos (Or.inl ⟨by simp [castBytes, hn, hl], by simp [hn]⟩)]
  rfl

example : Expands (.tuple [.Y, .I]) ∧ Spec.size (.tuple [.Y, .I]) = some 8 ∧
    Spec.dflt (.tuple [.Y, .I]) = .tup [.num 0, .num 0] ∧
    readAs dbg (.tuple [.Y, .I]) ⟨64, [1, 2, 3, 4, 5, 6, 7, 8]⟩ = .ok (.tup [.num 1, .num 134678021]) :=
  ⟨by decide, by decide, rfl, by rfl⟩

/-- A maybe of a fixed-size type is Nothing exactly if the length is not that of the type; otherwise its
    content is the data itself. -/
theorem c36_maybe (c : Cfg) (e : Ty) (s : Slice) (n : Nat) (hx : Expands e) (hsm : Small (.M e))
    (ha : Spec.align e ∣ s.addr) (hn : Spec.size e = some n) :
    toOption c e s = .ok (if s.bytes.length = n then some s else none) ∧
    (s.bytes.length ≠ n → readAs c (.M e) s = .ok .nothing) := by
  have h1 : toOption c e s = .ok (if s.bytes.length = n then some s else none) := by
    unfold toOption
    simp only [sizeOf_eq, hn, tryFromAligned_ok hx ha]
    by_cases h : s.bytes.length = n
    · rw [if_pos (Or.inl ⟨by simp [castBytes, hn, h], rfl⟩), if_pos h]
    · rw [if_neg, if_neg h]
      rintro (h' | h')
      · have := castBytes_fixed_len hn h'.1
        exact h this
      · simp at h'
  refine ⟨h1, fun h => ?_⟩
  rw [if_neg h] at h1
  unfold readAs fromAligned
  rw [tryFromAligned_ok (t := .M e) (expands_M.2 hx) ha, if_pos (Or.inr ⟨rfl, rfl⟩)]
  simp only [Res.bind_ok, Res.pure_eq, view, h1]

example : toOption dbg .I ⟨64, [1, 2, 3, 4]⟩ = .ok (some ⟨64, [1, 2, 3, 4]⟩) ∧
    toOption dbg .I ⟨64, [1, 2, 3, 4, 5]⟩ = .ok none := by decide

/-- An array of fixed-size elements whose length is no multiple of their size is empty; otherwise it has
    as many elements as fit, read from the data where it is. -/
theorem c36_array (c : Cfg) (e : Ty) (s : Slice) (n : Nat) (hx : Expands e) (hsm : Small (.A e))
    (ha : Spec.align e ∣ s.addr) (hn : Spec.size e = some n) :
    (¬ n ∣ s.bytes.length → readAs c (.A e) s = .ok (.arr [])) ∧
    (n ∣ s.bytes.length → fromAligned c (.A e) s = .ok s ∧
      ∃ rs, arrRefs c e s = .ok rs ∧ rs.length = s.bytes.length / n) := by
  refine ⟨fun h => ?_, fun h => ⟨?_, ?_⟩⟩
  · have hm : s.bytes.length % n ≠ 0 := fun h' => h (Nat.dvd_of_mod_eq_zero h')
    exact readAs_of_cast (expands_A.2 hx) hsm ha (by
      simp only [castBytes, dfltBytes, Spec.size, Spec.badSize, hn]
      simp [hm])
  · unfold fromAligned
    rw [tryFromAligned_ok (t := .A e) (expands_A.2 hx) ha,
      if_pos (Or.inr ⟨rfl, by simp [Spec.badSize, hn, Nat.mod_eq_zero_of_dvd h]⟩)]
    rfl
  · refine ⟨sliceElems n s, ?_, by simp [sliceElems, Slice.len]⟩
    simp only [arrRefs, sizeOf_eq, hn, rustLayout_ok e n hn hx]
    rfl

example : readAs dbg (.A .I) ⟨64, [1, 0, 0, 0, 2, 0, 0]⟩ = .ok (.arr []) ∧
    readAs dbg (.A .I) ⟨64, [1, 0, 0, 0, 2, 0, 0, 0]⟩ = .ok (.arr [.num 1, .num 2]) := ⟨by rfl, by rfl⟩

end GV.Props
