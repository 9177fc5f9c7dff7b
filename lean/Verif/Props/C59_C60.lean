import Verif.Proofs.Packed
import Verif.Proofs.Reser
import Verif.Props.C54_C56
/-
C59, C60: making and changing fixed-size structures in memory.
-/
namespace GV.Props
open GV Spec

/-! ### C59 -/

/-- `Structure…::new(…)` puts each argument at the place the specification gives to the member and sets
    everything else to zero; no byte is left uninitialized. -/
theorem c59_new (t : Ty) (n : Nat) (ms : List (Ty × Bytes)) (hs : isStruct t = true) (hn : size t = some n)
    (hx : Expands t) (ht : ms.map (·.1) = members t) (hms : ∀ m ∈ ms, size m.1 = some m.2.length) :
    structNew t (members t) (ms.map (·.2)) = .ok ((encStruct (some n) ms).map some) ∧
      (encStruct (some n) ms).length = n :=
  ⟨structNew_members hs hn hx ht hms,
    (encStruct_fixed_length ht (fun m hm k hk => by rw [hms m hm] at hk; simpa using hk)
      (size_members hs hn)).1⟩

/-- Memory can be read exactly if every byte is initialized; reading anything else is undefined behaviour. -/
theorem c59_read (m : Mem) : (∀ b, m.read = .ok b ↔ m = b.map some) ∧ (m.read = .fail .ub ↔ none ∈ m) := by
  induction m with
  | nil => exact ⟨fun b => by cases b <;> simp [Mem.read], by simp [Mem.read]⟩
  | cons x m ih =>
    cases x with
    | none => exact ⟨fun b => by cases b <;> simp [Mem.read], by simp [Mem.read]⟩
    | some x =>
      cases h : Mem.read m with
      | ok r =>
        have h1 := (ih.1 r).1 h
        have h2 : Mem.read (some x :: m) = .ok (x :: r) := by
          rw [Mem.read, h]; rfl
        rw [h2, h1]
        refine ⟨fun b => ?_, by simp⟩
        cases b with
        | nil => simp
        | cons y b =>
          simp only [Res.ok.injEq, List.cons.injEq, List.map_cons, Option.some.injEq]
          rw [List.map_inj_right fun _ _ => Option.some.inj]
      | fail f =>
        have h2 : Mem.read (some x :: m) = .fail f := by
          rw [Mem.read, h]; rfl
        rw [h2]
        refine ⟨fun b => ?_, ?_⟩
        · cases b with
          | nil => simp
          | cons y b =>
            simp only [List.map_cons, List.cons.injEq, Option.some.injEq, reduceCtorEq, false_iff, not_and]
            intro _ hm
            rw [(ih.1 b).2 hm] at h; cases h
        · simp only [List.mem_cons, reduceCtorEq, false_or]
          rw [← ih.2, h]

/-- `(yu)` without the padding field between its members would have three bytes that cannot be read. -/
example : Mem.read [some 7, none, none, none, some 1, some 0, some 0, some 0] = .fail .ub ∧
    structNew (.tuple [.Y, .U]) [.Y, .U] [[7], [1, 0, 0, 0]] =
      .ok [some 7, some 0, some 0, some 0, some 1, some 0, some 0, some 0] := ⟨rfl, rfl⟩

/-- `to_tuple` of it gives references to just the arguments. -/
theorem c59_to_tuple (c : Cfg) (t : Ty) (n addr : Nat) (ms : List (Ty × Bytes)) (m : Mem) (b : Bytes)
    (hs : isStruct t = true) (hn : size t = some n)
    (hx : Expands t) (ht : ms.map (·.1) = members t) (hms : ∀ m ∈ ms, size m.1 = some m.2.length)
    (hm : structNew t (members t) (ms.map (·.2)) = .ok m) (hb : m.read = .ok b) :
    ∃ rs, tupRefs c t (members t) ⟨addr, b⟩ = .ok rs ∧ rs.map (·.bytes) = ms.map (·.2) := by
  rw [structNew_members hs hn hx ht hms] at hm
  cases hm
  rw [read_some] at hb
  cases hb
  obtain ⟨hoff, hxs⟩ := fieldOffsets_members hs hn hx
  obtain ⟨e, he, hsz, _⟩ := size_tuple_members (size_members hs hn)
  have hls : rustLayouts (members t) = .ok ((members t).map lay) := rustLayouts_ok fun u hu => by
    obtain ⟨k, hk⟩ := Option.isSome_iff_exists.1 (hsz u hu)
    rw [rustLayout_ok u k hk (hxs u hu), lay, hk]; rfl
  refine ⟨_, by simp only [tupRefs, sizeOf_eq, hn, hoff, hls, Res.bind_ok, Res.pure_eq]; rfl, ?_⟩
  have hsizes : ((members t).map lay).map (·.1) = ms.map (·.2.length) := by
    rw [← ht, List.map_map, List.map_map]
    apply List.map_congr_left
    intro m hm
    simp [lay, hms m hm]
  have := fieldRefs_laid addr (zeros (n - (laid 0 ms).length)) ms hms []
  simp only [List.length_nil, List.nil_append] at this
  rw [hsizes, ← ht]
  exact this

/-- Built from values, the memory is their normal form, and reading it gives the values back. -/
theorem c59_value (c : Cfg) (t : Ty) (n addr : Nat) (vs : List Val) (hs : isStruct t = true) (hn : size t = some n)
    (hx : Expands t) (hsm : Small t) (ha : Spec.align t ∣ addr) (hf : Fits t (.tup vs)) :
    ∃ b, structNew t (members t) ((encAll (.pdf c.bigEndian) (members t) vs).map (·.2)) = .ok (b.map some) ∧
      b = enc (.pdf c.bigEndian) t (.tup vs) ∧ readAs c t ⟨addr, b⟩ = .ok (.tup vs) := by
  have hf' : FitsAll (members t) vs := by
    cases t <;> simp [isStruct] at hs
    case tuple ts => exact hf
    case dict k v =>
      match vs, hf with
      | [x, y], hf => exact ⟨hf.1, hf.2, trivial⟩
  have he : enc (.pdf c.bigEndian) t (.tup vs) =
      encStruct (some n) (encAll (.pdf c.bigEndian) (members t) vs) := by
    rw [← hn]
    cases t <;> simp [isStruct] at hs
    case tuple ts => rfl
    case dict k v =>
      match vs, hf with
      | [x, y], hf => rfl
  obtain ⟨e, he', hsz, _⟩ := size_tuple_members (size_members hs hn)
  have hmem : ∀ (ts : List Ty) (vs : List Val), (∀ t ∈ ts, (size t).isSome) → FitsAll ts vs →
      (encAll (.pdf c.bigEndian) ts vs).map (·.1) = ts ∧
      ∀ m ∈ encAll (.pdf c.bigEndian) ts vs, size m.1 = some m.2.length := by
    intro ts
    induction ts with
    | nil => intro vs _ h; cases vs <;> simp [FitsAll, encAll] at h ⊢
    | cons t ts ih =>
      intro vs hsz h
      cases vs with
      | nil => simp [FitsAll] at h
      | cons v vs =>
        obtain ⟨k, hk⟩ := Option.isSome_iff_exists.1 (hsz t (by simp))
        obtain ⟨h1, h2⟩ := ih vs (fun u hu => hsz u (by simp [hu])) h.2
        refine ⟨by simp [encAll, h1], ?_⟩
        intro m hm
        simp only [encAll, List.mem_cons] at hm
        rcases hm with rfl | hm
        · simp only [hk, enc_length (.pdf c.bigEndian) t v k h.1 hk]
        · exact h2 m hm
  obtain ⟨h1, h2⟩ := hmem (members t) vs hsz hf'
  refine ⟨_, by rw [structNew_members hs hn hx h1 h2, ← he], rfl, ?_⟩
  refine (c54_read c t (.tup vs) addr hx hsm ha hf ?_).1
  rw [enc_length _ t _ n hf hn]
  have := size_bound t n hn
  unfold Small at hsm; omega

/-- `Default::default()` of a fixed-size type without booleans is all zero, which is also the memory of
    `default_ref` and reads as the default value of the specification. -/
theorem c59_default (c : Cfg) (t : Ty) (n addr : Nat) (hn : size t = some n) (hx : Expands t) (hsm : Small t)
    (hb : ¬ Component .B t) (ha : Spec.align t ∣ addr) :
    ∃ b, defaultMem t = .ok b ∧ b = zeros n ∧ readAs c t ⟨addr, b⟩ = .ok (dflt t) ∧
      ∃ s, defaultRef c t = .ok s ∧ s.bytes = b := by
  refine ⟨_, defaultMem_ok t n hn hx hb, rfl, ?_, ?_⟩
  · rw [readAs_ok' (s := ⟨addr, zeros n⟩) hx hsm ha (fun h => by rw [hn] at h; cases h),
      if_neg (by simp [(dec_fixed _ t n hn _).2])]
    exact congrArg Res.ok (dec_zeros _ t n hn)
  · simp only [defaultRef, sizeOf_eq, hn, rustLayout_ok t n hn hx, Res.bind_ok, Res.pure_eq]
    exact ⟨_, rfl, rfl⟩

/-- `(yi)` of `(7, 258)`: three bytes of padding between the fields. -/
example : structNew (.tuple [.Y, .I]) [.Y, .I] [[7], [2, 1, 0, 0]] =
    .ok ([7, 0, 0, 0, 2, 1, 0, 0].map some) := by decide +kernel
/-- `(iy)`: padding at the end. -/
example : structNew (.tuple [.I, .Y]) [.I, .Y] [[2, 1, 0, 0], [7]] =
    .ok ([2, 1, 0, 0, 7, 0, 0, 0].map some) := by decide +kernel
example : Expands (.tuple [.Y, .I]) ∧ size (.tuple [.Y, .I]) = some 8 ∧ Small (.tuple [.Y, .I]) := by decide
example : tupRefs dbg (.tuple [.Y, .I]) [.Y, .I] ⟨64, [7, 0, 0, 0, 2, 1, 0, 0]⟩ =
    .ok [⟨64, [7]⟩, ⟨68, [2, 1, 0, 0]⟩] := by decide +kernel
example : Fits (.tuple [.Y, .I]) (.tup [.num 7, .num 258]) := by simp [Fits, FitsAll]
example : defaultMem (.tuple [.Y, .tuple [.I, .Y]]) = .ok (List.replicate 12 0) := by decide +kernel

/-! ### C60 -/

/-- Assigning `x` to a member (of a member …) through `try_cast_mut` changes the bytes of that member
    and no others, and afterwards the data reads as the old value with that part replaced. -/
theorem c60_assign (c : Cfg) (t u : Ty) (n : Nat) (s : Slice) (path : List Nat) (x : Bytes) (a : Nat)
    (hn : size t = some n) (hx : Expands t) (hsm : Small t) (hu : typeAt t path = some u)
    (ha : Spec.align t ∣ s.addr) (hau : Spec.align u ∣ a) (hl : s.len = n) (hxl : size u = some x.length) :
    ∃ b' v w, assign c t s path x = .ok (some b') ∧ b'.length = n ∧
      (∀ i, b'[i]? = if startAt t path ≤ i ∧ i < startAt t path + x.length then x[i - startAt t path]? else s.bytes[i]?) ∧
      readAs c t s = .ok v ∧ readAs c u ⟨a, x⟩ = .ok w ∧
      readAs c t ⟨s.addr, b'⟩ = .ok (replaceAt v path w) := by
  obtain ⟨m, hm, hfit⟩ := startAt_fits path t u n hn hu
  rw [hxl] at hm; cases hm
  have hl' : s.bytes.length = n := hl
  have hxu : Expands u ∧ Small u := by
    have : ∀ (p : List Nat) (t : Ty), Expands t → Small t → typeAt t p = some u → Expands u ∧ Small u := by
      intro p
      induction p with
      | nil => intro t hx hsm h; simp [typeAt] at h; subst h; exact ⟨hx, hsm⟩
      | cons k p ih =>
        intro t hx hsm h
        obtain ⟨hs, w, hw, hu⟩ := typeAt_struct h
        have hm := List.mem_of_getElem? hw
        refine ih w ?_ ?_ hu
        · cases t <;> simp [isStruct] at hs
          case tuple ts => exact (expands_tuple.1 hx).1 w hm
          case dict k v =>
            have := (expands_dict.1 hx).1
            simp only [members, List.mem_cons, List.not_mem_nil, or_false] at hm
            rcases hm with rfl | rfl
            · exact this.1
            · exact this.2
        · cases t <;> simp [isStruct] at hs
          case tuple ts => have := shows_ge hm; have := Small.shows hsm; simp only [members] at *; unfold Small; omega
          case dict k v => have := shows_ge hm; have := Small.dict hsm; simp only [members] at *; unfold Small; omega
    exact this path t hx hsm hu
  have hread : ∀ (c : Cfg) (t : Ty) (n : Nat) (s : Slice), size t = some n → Expands t → Small t →
      Spec.align t ∣ s.addr → readAs c t s = .ok (dec (.crate c.bigEndian) t s.bytes) := by
    intro c t n s hn hx hsm ha
    rw [readAs_ok' (s := s) hx hsm ha (fun h => by rw [hn] at h; cases h),
      if_neg (by simp [(dec_fixed _ t n hn _).2])]
  have htry : tryFromAlignedMut c t s = .ok (some s) := by
    have h := tryFromAligned_ok (c := c) (s := s) hx ha
    have h2 : tryFromAlignedMut c t s = tryFromAligned c t s := by
      simp only [tryFromAlignedMut, tryFromAligned, sizeOf_eq, hn]
    rw [h2, h, if_pos]
    left
    simp [castBytes, hn, hl']
  refine ⟨overlay s.bytes (startAt t path) x, _, _, ?_, ?_, ?_, hread c t n s hn hx hsm ha,
    hread c u _ ⟨a, x⟩ hxl hxu.1 hxu.2 hau, ?_⟩
  · simp only [assign, htry, Res.bind_ok, placeOf_ok path t u n hn hx hu, Res.pure_eq, overlay]
  · rw [overlay_length (by omega)]; exact hl'
  · exact overlay_getElem? (by omega)
  · rw [hread c t n ⟨s.addr, overlay s.bytes (startAt t path) x⟩ hn hx hsm ha]
    exact congrArg Res.ok (dec_overlay _ path t u n s.bytes x hn hu hl' hxl)

/-- Data of the wrong size is refused, whatever was to be assigned. -/
theorem c60_wrong_size (c : Cfg) (t : Ty) (n : Nat) (s : Slice) (path : List Nat) (x : Bytes)
    (hn : size t = some n) (hx : Expands t) (ha : Spec.align t ∣ s.addr) (hl : s.len ≠ n) :
    assign c t s path x = .ok none := by
  have h := tryFromAligned_ok (c := c) (s := s) hx ha
  have h2 : tryFromAlignedMut c t s = tryFromAligned c t s := by
    simp only [tryFromAlignedMut, tryFromAligned, sizeOf_eq, hn]
  have hl' : s.bytes.length ≠ n := hl
  rw [if_neg] at h
  · simp only [assign, h2, h, Res.bind_ok, Res.pure_eq]
  · rintro (⟨h3, _⟩ | ⟨h3, _⟩)
    · simp only [castBytes, hn, hl', if_false, dfltBytes] at h3
      have := congrArg List.length h3
      simp at this
      omega
    · simp [hn] at h3

/-- `data.field_1.field_0 = 9` in `(y(iy))`. -/
example : assign dbg (.tuple [.Y, .tuple [.I, .Y]]) ⟨64, [1, 0xff, 0xff, 0xff, 2, 0, 0, 0, 3, 0, 0, 0]⟩ [1, 0] [9, 0, 0, 0] =
    .ok (some [1, 0xff, 0xff, 0xff, 9, 0, 0, 0, 3, 0, 0, 0]) := by decide +kernel
example : typeAt (.tuple [.Y, .tuple [.I, .Y]]) [1, 0] = some .I ∧ startAt (.tuple [.Y, .tuple [.I, .Y]]) [1, 0] = 4 := by
  decide +kernel
example : replaceAt (.tup [.num 1, .tup [.num 2, .num 3]]) [1, 0] (.num 9) = .tup [.num 1, .tup [.num 9, .num 3]] := rfl
example : Expands (.tuple [.Y, .tuple [.I, .Y]]) ∧ size (.tuple [.Y, .tuple [.I, .Y]]) = some 12 := by decide
example : assign dbg .I ⟨64, [1, 2, 3]⟩ [] [9, 0, 0, 0] = .ok none := by decide +kernel

end GV.Props
