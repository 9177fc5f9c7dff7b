import Verif.Proofs.OwnSer
import Verif.Proofs.OwnTame
import Verif.Props.C67_C68
/-
C80: parts serialized by implementations of `SerializeTo` that users wrote.
-/
namespace GV.Props
open GV Spec

variable {σ : Type}

/-- What the crate does with its own sources is what it does with any parts: the containers know of
    their parts only the action `serialize`. -/
theorem c80_same (w : Writer σ) (c : Cfg) (e k v : Ty) (ts : List Ty) (x : Src) (xs : List Src) :
    ser w c (.A e) (.seq xs) = arrOf w c e (xs.map (ser w c e)) ∧
    ser w c .V (.wrap e x) = wrapOf w c e (ser w c e x) ∧
    ser w c (.M e) .nothing = maybeOf w c e none ∧
    ser w c (.M e) (.just x) = maybeOf w c e (some (ser w c e x)) ∧
    (size e = none → ser w c (.M e) (.iter xs) = maybeOf w c e (xs.head?.map (ser w c e))) ∧
    ser w c (.tuple ts) (.tup xs) = serStruct w c (.tuple ts) ts (List.zipWith (ser w c) ts xs) ∧
    ser w c (.dict k v) (.tup xs) = serStruct w c (.dict k v) [k, v] (List.zipWith (ser w c) [k, v] xs) := by
  have hmem : ∀ ts xs, serMembers w c ts xs = List.zipWith (ser w c) ts xs := by
    intro ts
    induction ts with
    | nil => intro xs; cases xs <;> simp [serMembers]
    | cons t ts ih => intro xs; cases xs <;> simp [serMembers, ih]
  refine ⟨?_, ?_, ?_, ?_, ?_, ?_, ?_⟩
  · rw [ser]; simp only [arrOf, serFixed_eq, serElems_eq]; rfl
  · rw [ser]; rfl
  · rw [ser]; rfl
  · rw [ser]; rfl
  · intro hs
    have hse : GV.sizeOf e = none := (sizeOf_eq e).trans hs
    cases xs with
    | nil => rw [ser]; simp only [hse]; rfl
    | cons x xs => rw [ser]; simp only [List.head?_cons, Option.map_some, maybeOf, hse]
  · rw [ser, hmem]
  · rw [ser, hmem]

/-- Layout: an array around parts that each write some bytes (or refuse) writes just those bytes as the
    elements of an array, with the padding and framing offsets belonging to them, and returns how many
    bytes that is; if a part refuses, it refuses.  Whatever the bytes are. -/
theorem c80_array (w : Writer σ) (c : Cfg) (e : Ty) (ps : List (Prop × WM σ Nat × Bytes))
    (h : ∀ p ∈ ps, Keeps w p.1 p.2.1 p.2.2) :
    let out := if (size e).isSome then (ps.map (·.2.2)).flatten
      else encArr (.crate c.bigEndian) e (ps.map (·.2.2))
    out.length < 2 ^ 63 → Keeps w (∃ p ∈ ps, p.1) (arrOf w c e (ps.map (·.2.1))) out := by
  intro out hl
  have := arrOf_half (w := w) (c := c) (e := e) (ps.map fun p => ⟨e, p.2.2, p.1, p.2.1⟩) (by
    intro x hx
    obtain ⟨p, hp, rfl⟩ := List.mem_map.1 hx
    exact keeps_iff.1 (h p hp))
  simp only [List.map_map, Function.comp_def, arrBytes] at this
  exact keeps_iff.2 ((this hl).congr (by simp [anyBad]) rfl rfl)

/-- The same for a structure, if each part of a fixed-size type writes as many bytes as the type has. -/
theorem c80_struct (w : Writer σ) (c : Cfg) (ps : List (Ty × Prop × WM σ Nat × Bytes))
    (hx : Expands (.tuple (ps.map (·.1)))) (h : ∀ p ∈ ps, Keeps w p.2.1 p.2.2.1 p.2.2.2)
    (hz : ∀ p ∈ ps, ∀ n, size p.1 = some n → p.2.2.2.length = n) :
    let out := encStruct (size (.tuple (ps.map (·.1)))) (ps.map fun p => (p.1, p.2.2.2))
    out.length < 2 ^ 63 →
    Keeps w (∃ p ∈ ps, p.2.1)
      (serStruct w c (.tuple (ps.map (·.1))) (ps.map (·.1)) (ps.map (·.2.2.1))) out := by
  intro out hl
  obtain ⟨_, d, hd⟩ := expands_tuple.1 hx
  have := serStruct_half (w := w) (c := c) (gv := .tuple (ps.map (·.1)))
    (L := ps.map fun p => ⟨p.1, p.2.2.2, p.2.1, p.2.2.1⟩)
    (by simp [Function.comp_def]) hx (d := d) (by simpa [Function.comp_def] using hd) (by
      intro x hxm
      obtain ⟨p, hp, rfl⟩ := List.mem_map.1 hxm
      exact ⟨keeps_iff.1 (h p hp), hz p hp⟩)
  simp only [List.map_map, Function.comp_def, pairs] at this
  exact keeps_iff.2 ((this hl).congr (by simp [anyBad]) rfl rfl)

/-- Values: put together by the crate's containers in any way and to any depth, parts that write their
    values make a serializer writing the whole value; it refuses exactly if one of them does. -/
theorem c80_value (w : Writer σ) (c : Cfg) (p : Part σ) (h : Built w c p)
    (hl : (enc (.crate c.bigEndian) p.t p.v).length < 2 ^ 63) :
    Fits p.t p.v ∧ Keeps w p.bad p.m (enc (.crate c.bigEndian) p.t p.v) :=
  ⟨built_fits h, keeps_iff.2 (built_half h hl)⟩

/-- Into a vector: the result is the encoding and reads back as the value, but for arrays whose last
    element needs padding (C67). -/
theorem c80_reads_back (c : Cfg) (p : Part Unit) (h : Built vecWriter c p) (hb : ¬ p.bad)
    (hx : Expands p.t) (hsm : Small p.t) (addr : Nat) (ha : Spec.align p.t ∣ addr)
    (hl : (enc (.crate c.bigEndian) p.t p.v).length < 2 ^ 63) :
    ∃ b, p.m ⟨(), []⟩ = (⟨(), b⟩, .ok b.length) ∧
      readAs c p.t ⟨addr, b⟩ = .ok (back (.crate c.bigEndian) p.t p.v) ∧
      (EvenEnds (.crate c.bigEndian) p.t p.v → readAs c p.t ⟨addr, b⟩ = .ok p.v) := by
  have hr := readAs_enc (c := c) (E := .crate c.bigEndian) rfl hx hsm ha (built_fits h) hl
  refine ⟨enc (.crate c.bigEndian) p.t p.v, ?_, hr, fun he => ?_⟩
  · rcases built_half h hl with ⟨_, ws, h1, h2⟩ | ⟨hb', _⟩
    · rw [h2, runAll_vec]; simp [h1]
    · exact absurd hb' hb
  · rw [hr, (c67_same _ _ _ (built_fits h) hl).2 he]

/-- Any program that writes and returns a `usize`: what it has written stays written. -/
def AnyPart (m : WM σ Nat) : Prop :=
  ∀ s, s.got <+: (m s).1.got ∧ ∀ n, (m s).2 = .ok n → n < 2 ^ 64

/-- Some part panics with `f`. -/
def PartPanics (ms : List (WM σ Nat)) (f : Fault) : Prop := ∃ m ∈ ms, ∃ s, (m s).2 = .panic f

theorem anyPart_mild {c : Cfg} {ms : List (WM σ Nat)} (h : ∀ m ∈ ms, AnyPart m) :
    ∀ m ∈ ms, Mild (fun f => (c.overflowChecks = true ∧ f = .overflow) ∨ PartPanics ms f)
      (· < usizeMod) m :=
  fun m hm s => ⟨(h m hm s).1, (h m hm s).2, fun f hf => .inr ⟨m, hm, s, hf⟩⟩

/-- Parts that do anything, whatever they write and whatever number they return: an array, maybe or
    variant around them again is such a part; it panics only where a part panics or, in builds with
    overflow checks, because the numbers returned add up to too much.  In particular the padding, computed
    from those numbers, is never out of range. -/
theorem c80_any (w : Writer σ) (c : Cfg) (e : Ty) (ms : List (WM σ Nat)) (h : ∀ m ∈ ms, AnyPart m) :
    ∀ m', (m' = arrOf w c e ms ∨ m' = maybeOf w c e ms.head? ∨ ∃ m ∈ ms, m' = wrapOf w c e m) →
    AnyPart m' ∧ ∀ s f, (m' s).2 = .panic f →
      (c.overflowChecks = true ∧ f = .overflow) ∨ PartPanics ms f := by
  have ht := anyPart_mild (c := c) h
  have hP : c.overflowChecks → ((c.overflowChecks = true ∧ Fault.overflow = .overflow) ∨
      PartPanics ms .overflow) := fun h => .inl ⟨h, rfl⟩
  intro m' hm'
  have key : Mild (fun f => (c.overflowChecks = true ∧ f = .overflow) ∨ PartPanics ms f)
      (· < usizeMod) m' := by
    rcases hm' with rfl | rfl | ⟨m, hm, rfl⟩
    · exact mild_arrOf w hP e ms ht
    · exact mild_maybeOf w hP e _ fun m hm => ht m (List.mem_of_head? hm)
    · exact mild_wrapOf w hP e m (ht m hm)
  exact ⟨fun s => ⟨(key s).1, (key s).2.1⟩, fun s f hf => (key s).2.2 f hf⟩

/-- The same for structures of at most the size of the address space; also for dictionary entries. -/
theorem c80_any_struct (w : Writer σ) (c : Cfg) (gv : Ty) (ts : List Ty) (ms : List (WM σ Nat))
    (hgv : gv = .tuple ts ∨ ∃ k v, ts = [k, v] ∧ gv = .dict k v) (hx : Expands gv)
    (hz : ∀ n, size gv = some n → n < 2 ^ 64) (hl : ms.length = ts.length) (h : ∀ m ∈ ms, AnyPart m) :
    AnyPart (serStruct w c gv ts ms) ∧ ∀ s f, (serStruct w c gv ts ms s).2 = .panic f →
      (c.overflowChecks = true ∧ f = .overflow) ∨ PartPanics ms f := by
  have ht := anyPart_mild (c := c) h
  have hP : c.overflowChecks → ((c.overflowChecks = true ∧ Fault.overflow = .overflow) ∨
      PartPanics ms .overflow) := fun h => .inl ⟨h, rfl⟩
  have key : Mild (fun f => (c.overflowChecks = true ∧ f = .overflow) ∨ PartPanics ms f)
      (· < usizeMod) (serStruct w c gv ts ms) := by
    rcases hgv with rfl | ⟨k, v, rfl, rfl⟩
    · obtain ⟨_, d, hd⟩ := expands_tuple.1 hx
      exact mild_struct w hP rfl hx hd hl hz ht
    · obtain ⟨_, d, hd⟩ := expands_dict.1 hx
      exact mild_struct w hP (size_dict_eq k v) hx hd hl hz ht
  exact ⟨fun s => ⟨(key s).1, (key s).2.1⟩, fun s f hf => (key s).2.2 f hf⟩

/-! ### Examples -/

/-- The `MyEnum` of the documentation (lib.rs:1256-1271). -/
inductive MyEnum
  | bool (b : Bool)
  | string (s : Bytes)

/-- Its `SerializeTo<Variant>` (lib.rs:1264-1269). -/
def MyEnum.serialize (w : Writer σ) (c : Cfg) : MyEnum → WM σ Nat
  | .bool b => wrapOf w c .B (ser w c .B (.bool b))
  | .string s => wrapOf w c .S (ser w c .S (.str s))

/-- A user's part for `s` that writes the text letter by letter. -/
def letters (w : Writer σ) (b : Bytes) : WM σ Nat := do
  writeEach w (b.map fun x => [x])
  WM.write w [0]
  pure (b.length + 1)

theorem letters_keeps (w : Writer σ) (b : Bytes) : Keeps w False (letters w b) (b ++ [0]) := by
  refine .inl ⟨id, writes_iff.2 ⟨b.map (fun x => [x]) ++ [[0]], ?_, ?_⟩⟩
  · rw [List.flatten_append]
    congr 1
    induction b with
    | nil => rfl
    | cons x b ih => simp [ih]
  · have h1 : Tr w (WM.write w [0] >>= fun _ => (pure (b.length + 1) : WM σ Nat)) ([[0]] ++ [])
        (.ok (b.length + 1)) := (Tr.write w [0]).bind (Tr.pure w _)
    have := Tr.bind (f := fun _ => WM.write w [0] >>= fun _ => (pure (b.length + 1) : WM σ Nat))
      (tr_writeEach w (b.map fun x => [x])) h1
    simpa [letters] using this

/-- The two as parts. -/
def lettersPart (w : Writer σ) (b : Bytes) : Part σ := ⟨.S, .str b, False, letters w b⟩
def enumPart (w : Writer σ) (c : Cfg) (b : Bool) : Part σ :=
  ⟨.V, .variant [98] [if b then 1 else 0], False, (MyEnum.bool b).serialize w c⟩

theorem enumPart_built (w : Writer σ) (c : Cfg) (b : Bool) : Built w c (enumPart w c b) :=
  .wrap ⟨.B, .bool b, False, ser w c .B (.bool b)⟩ (.own _ (by trivial) (by
    refine keeps_iff.2 ?_
    simp only [ser]
    cases b <;> exact Half.write_end.then_pure))

/-- `(asv)` with a list of texts written letter by letter and a `MyEnum`. -/
def mixed (w : Writer σ) (c : Cfg) : Part σ :=
  ⟨.tuple [.A .S, .V], .tup [.arr [.str [104, 105], .str [111]], .variant [98] [1]],
    ∃ p ∈ [(⟨.A .S, .arr [.str [104, 105], .str [111]],
        ∃ p ∈ [lettersPart w [104, 105], lettersPart w [111]], p.bad,
        arrOf w c .S [letters w [104, 105], letters w [111]]⟩ : Part σ), enumPart w c true], p.bad,
    serStruct w c (.tuple [.A .S, .V]) [.A .S, .V]
      [arrOf w c .S [letters w [104, 105], letters w [111]], (MyEnum.bool true).serialize w c]⟩

/-- It is built from parts keeping the contract, for every writer; its bytes, and what they read as. -/
example (w : Writer σ) (c : Cfg) : Built w c (mixed w c) ∧ ¬ (mixed w c).bad := by
  refine ⟨.tup [⟨.A .S, .arr [.str [104, 105], .str [111]],
    ∃ p ∈ [lettersPart w [104, 105], lettersPart w [111]], p.bad,
    arrOf w c .S [letters w [104, 105], letters w [111]]⟩, enumPart w c true]
    ⟨_, rfl⟩ ?_, by simp [mixed, lettersPart, enumPart]⟩
  intro p hp
  rcases List.mem_cons.1 hp with rfl | hp
  · refine Built.arr (w := w) (c := c) .S [lettersPart w [104, 105], lettersPart w [111]]
      (by simp [lettersPart]) ?_
    intro p hp
    simp only [List.mem_cons, List.not_mem_nil, or_false] at hp
    rcases hp with rfl | rfl
    · exact .own _ (show Text [104, 105] from ⟨⟨[104, 105], by simp [Scalar], rfl⟩, by decide⟩)
        (letters_keeps w _)
    · exact .own _ (show Text [111] from ⟨⟨[111], by simp [Scalar], rfl⟩, by decide⟩) (letters_keeps w _)
  · rw [List.mem_singleton.1 hp]
    exact enumPart_built w c true

example : (mixed vecWriter dbg).m ⟨(), []⟩ =
      (⟨(), [104, 105, 0, 111, 0, 3, 5, 0, 1, 0, 98, 7]⟩, .ok 12) ∧
    readAs dbg (.tuple [.A .S, .V]) ⟨64, [104, 105, 0, 111, 0, 3, 5, 0, 1, 0, 98, 7]⟩ =
      .ok (.tup [.arr [.str [104, 105], .str [111]], .variant [98] [1]]) := ⟨rfl, rfl⟩

/-- The contract is needed: a part that returns one less than it wrote is framed wrongly, and reads as
    something else. -/
def short (w : Writer σ) (b : Bytes) : WM σ Nat := do
  WM.write w (b ++ [0])
  pure b.length

example : (arrOf vecWriter dbg .S [short vecWriter [104], short vecWriter [111]]) ⟨(), []⟩ =
      (⟨(), [104, 0, 111, 0, 1, 2]⟩, .ok 4) ∧
    readAs dbg (.A .S) ⟨64, [104, 0, 111, 0, 1, 2]⟩ = .ok (.arr [.str [], .str [], .str [], .str []]) := ⟨rfl, rfl⟩

/-- A part that returns far too much makes checked builds panic; others write on. -/
def boast (w : Writer σ) : WM σ Nat := do
  WM.write w [0]
  pure (2 ^ 64 - 1)

example : (arrOf vecWriter dbg .S [boast vecWriter, boast vecWriter] ⟨(), []⟩).2 = .panic .overflow ∧
    (arrOf vecWriter rel .S [boast vecWriter, boast vecWriter] ⟨(), []⟩).2 = .ok 0 ∧
    AnyPart (boast vecWriter) :=
  ⟨rfl, rfl, fun s => ⟨List.prefix_append _ _, fun n hn => by cases hn; decide⟩⟩

end GV.Props
