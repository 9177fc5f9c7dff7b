import Verif.Proofs.Generate
/-
C05: names of generated structs.  C06: one definition each.  C07: memory layout of fixed-size
structures.  C08: their defaults type-check.  C09: the addressing table.  C51: which types compile.
-/
namespace GV.Props
open GV Spec

/-! ### C05 -/

/-- Names of generated structs a Rust type mentions. -/
def mentions : RTy → List Bytes
  | .slice e | .nonFixedWidthArray e | .maybeNonFixedSize e | .maybeFixedSize e => mentions e
  | .struct n => [n]
  | _ => []

/-- C05: different types never get the same struct name. -/
theorem c05_name_injective (t u : Ty) (h : structName t = structName u) : t = u := structName_inj h

/-- A Rust identifier in ASCII: a letter, then letters, digits and underscores (the Rust reference,
    "Identifiers"; `_` alone cannot occur here). -/
def isIdentifier : Bytes → Bool
  | [] => false
  | c :: cs => isLetter c && cs.all fun c => isLetter c || (48 ≤ c && c ≤ 57) || c == 95
where isLetter (c : UInt8) : Bool := (65 ≤ c && c ≤ 90) || (97 ≤ c && c ≤ 122)

theorem escape_byte (c : UInt8)
    (h : isIdentifier.isLetter c = true ∨ c = 40 ∨ c = 41 ∨ c = 123 ∨ c = 125) :
    (escape [c]).all (fun c => isIdentifier.isLetter c || (48 ≤ c && c ≤ 57) || c == 95) = true := by
  have : ∀ n : Fin 256,
      (isIdentifier.isLetter n.val.toUInt8 = true ∨ n.val.toUInt8 = 40 ∨ n.val.toUInt8 = 41 ∨
        n.val.toUInt8 = 123 ∨ n.val.toUInt8 = 125) →
      (escape [n.val.toUInt8]).all
        (fun c => isIdentifier.isLetter c || (48 ≤ c && c ≤ 57) || c == 95) = true := by
    decide +kernel
  have hc := this ⟨c.toNat, c.toNat_lt⟩
  simpa using hc (by simpa using h)

theorem show_bytes (t : Ty) : ∀ c ∈ t.show,
    isIdentifier.isLetter c = true ∨ c = 40 ∨ c = 41 ∨ c = 123 ∨ c = 125 := by
  induction t using Ty.ind with
  | a e ih =>
    intro c hc; simp only [Ty.show, List.mem_cons] at hc
    rcases hc with rfl | hc
    · left; decide
    · exact ih c hc
  | m e ih =>
    intro c hc; simp only [Ty.show, List.mem_cons] at hc
    rcases hc with rfl | hc
    · left; decide
    · exact ih c hc
  | tuple ts ih =>
    have hall : ∀ us : List Ty, (∀ u ∈ us, u ∈ ts) → ∀ c ∈ Ty.shows us,
        isIdentifier.isLetter c = true ∨ c = 40 ∨ c = 41 ∨ c = 123 ∨ c = 125 := by
      intro us
      induction us with
      | nil => intro _ c hc; simp [Ty.shows] at hc
      | cons u us ih' =>
        intro hu c hc
        simp only [Ty.shows, List.mem_append] at hc
        rcases hc with hc | hc
        · exact ih u (hu u (by simp)) c hc
        · exact ih' (fun u h => hu u (by simp [h])) c hc
    intro c hc
    simp only [Ty.show, List.mem_cons, List.mem_append, List.not_mem_nil, or_false] at hc
    rcases hc with rfl | hc | rfl
    · simp
    · exact hall ts (fun _ h => h) c hc
    · simp
  | dict k v ihk ihv =>
    intro c hc
    simp only [Ty.show, List.mem_cons, List.mem_append, List.not_mem_nil, or_false] at hc
    rcases hc with rfl | (hc | hc) | rfl
    · simp
    · exact ihk c hc
    · exact ihv c hc
    · simp
  | _ => intro c hc; simp only [Ty.show, List.mem_singleton] at hc; subst hc; left; decide

/-- The names that the module around the expansion brings into scope and that begin like a
    generated one: the trait `Structure` alone (lib.rs:573-590 imports everything public of the
    crate). -/
def traitName : Bytes := [83, 116, 114, 117, 99, 116, 117, 114, 101]

/-- C05: a generated name is that of the trait `Structure` followed by one character for each of the type string. -/
theorem c05_prefix (t : Ty) : ∃ rest, structName t = traitName ++ rest ∧ rest.length = t.show.length :=
  ⟨escape t.show, rfl, by simp [escape]⟩

example : structName (.tuple [.A .S]) = traitName ++ [67, 97, 115, 55] := rfl

/-- C05: a generated name is an identifier of Rust, and not that of the trait `Structure` which it
    implements. -/
theorem c05_identifier (t : Ty) : isIdentifier (structName t) = true ∧ structName t ≠ traitName := by
  refine ⟨?_, ?_⟩
  · have h : (escape t.show).all
        (fun c => isIdentifier.isLetter c || (48 ≤ c && c ≤ 57) || c == 95) = true := by
      have hb := show_bytes t
      generalize t.show = l at hb
      induction l with
      | nil => rfl
      | cons c l ih =>
        have h1 := escape_byte c (hb c (by simp))
        have h2 := ih fun c hc => hb c (by simp [hc])
        simp only [escape, List.map_cons, List.map_nil, List.all_cons, List.all_nil,
          Bool.and_true] at h1 h2 ⊢
        rw [h1, h2]; rfl
    show isIdentifier (83 :: ([116, 114, 117, 99, 116, 117, 114, 101] ++ escape t.show)) = true
    simp only [isIdentifier, List.all_append, h]
    decide
  · intro h
    have : (escape t.show).length = 0 := by
      have := congrArg List.length h
      simp [structName, traitName] at this
      simpa [escape] using this
    have hs : t.show ≠ [] := by cases t <;> simp [Ty.show]
    simp [escape, hs] at this

-- Non-vacuity: brackets and braces would not be allowed in a name.
example : isIdentifier (Ty.show (.tuple [.S])) = false ∧
    isIdentifier (structName (.A (.dict .S (.tuple [.S])))) = true := by decide +kernel

theorem mentions_markerType (t : Ty) : ∀ n ∈ mentions (markerType t),
    ∃ c, Component c t ∧ isStruct c = true ∧ n = structName c := by
  induction t using Ty.ind with
  | a e ih =>
    intro n hn
    have hn' : n ∈ mentions (markerType e) := by
      simp only [markerType] at hn; cases h : sizeOf e <;> simpa [h, mentions] using hn
    obtain ⟨c, hc, hs, he⟩ := ih n hn'
    exact ⟨c, .array hc, hs, he⟩
  | m e ih =>
    intro n hn
    have hn' : n ∈ mentions (markerType e) := by
      simp only [markerType] at hn; cases h : sizeOf e <;> simpa [h, mentions] using hn
    obtain ⟨c, hc, hs, he⟩ := ih n hn'
    exact ⟨c, .maybe hc, hs, he⟩
  | tuple ts _ =>
    intro n hn; simp [markerType, mentions] at hn
    exact ⟨_, .refl _, rfl, hn⟩
  | dict k v _ _ =>
    intro n hn; simp [markerType, mentions] at hn
    exact ⟨_, .refl _, rfl, hn⟩
  | _ => intro n hn; simp [markerType, mentions] at hn

theorem component_trans {a b c : Ty} (h1 : Component a b) (h2 : Component b c) : Component a c := by
  induction h2 with
  | refl => exact h1
  | array _ ih => exact .array ih
  | maybe _ ih => exact .maybe ih
  | member _ hm ih => exact .member ih hm
  | key _ ih => exact .key ih
  | value _ ih => exact .value ih

theorem member_component {c t : Ty} (h : c ∈ members t) : Component c t := by
  cases t <;> simp [members] at h
  case tuple ts => exact .member (.refl _) h
  case dict k v =>
    rcases h with rfl | rfl
    · exact .key (.refl _)
    · exact .value (.refl _)

/-- C05: every struct name that the expansion of `gv!(t)` mentions, in the resulting type or in the
    member types of a definition, is defined by it, for the type of that name. -/
theorem c05_mentioned_is_defined (t : Ty) (defs : List StructDef) (h : generateTypes t = .ok defs)
    (n : Bytes)
    (hn : n ∈ mentions (markerType t) ∨
      ∃ d ∈ defs, ∃ c ∈ d.children, n ∈ mentions (markerType c)) :
    ∃ d ∈ defs, d.name = n ∧ n = structName d.ty ∧ d.children = members d.ty := by
  have key : ∃ c, Component c t ∧ isStruct c = true ∧ n = structName c := by
    rcases hn with hn | ⟨d, hd, c, hc, hn⟩
    · exact mentions_markerType t n hn
    · obtain ⟨_, _, hch, _⟩ := generateTypes_defOk t defs h d hd
      have hty : d.ty ∈ structOccs t := by
        rw [← generateTypes_tys t defs h]; exact List.mem_map_of_mem hd
      obtain ⟨hcomp, _⟩ := (mem_structOccs t _).1 hty
      obtain ⟨c', hc', hs, he⟩ := mentions_markerType c n hn
      rw [hch] at hc
      exact ⟨c', component_trans hc' (component_trans (member_component hc) hcomp), hs, he⟩
  obtain ⟨c, hc, hs, rfl⟩ := key
  have hm : c ∈ defs.map (·.ty) := by
    rw [generateTypes_tys t defs h]; exact (mem_structOccs t c).2 ⟨hc, hs⟩
  obtain ⟨d, hd, rfl⟩ := List.mem_map.1 hm
  obtain ⟨_, hname, hch, _⟩ := generateTypes_defOk t defs h d hd
  exact ⟨d, hd, hname, rfl, hch⟩

/-- C05: nothing else is defined. -/
theorem c05_defined_is_component (t : Ty) (defs : List StructDef) (h : generateTypes t = .ok defs)
    (d : StructDef) (hd : d ∈ defs) : Component d.ty t ∧ isStruct d.ty = true ∧
      d.name = structName d.ty := by
  have hty : d.ty ∈ structOccs t := by
    rw [← generateTypes_tys t defs h]; exact List.mem_map_of_mem hd
  obtain ⟨h1, h2⟩ := (mem_structOccs t _).1 hty
  exact ⟨h1, h2, (generateTypes_defOk t defs h d hd).2.1⟩

-- Non-vacuity: `a(say)` mentions and defines `StructureCsay7`.
example : (generateTypes (.A (.tuple [.S, .A .Y]))).isOk = true ∧
    mentions (markerType (.A (.tuple [.S, .A .Y]))) =
      [(['S','t','r','u','c','t','u','r','e','C','s','a','y','7'].map fun c => c.toNat.toUInt8)] := by
  decide

/-! ### C06 -/

/-- C06 as stated: one definition per structure type, for every type that expands. -/
def C06_full : Prop := ∀ t defs, generateTypes t = .ok defs → (defs.map (·.name)).Nodup

/-- C06 is false of the code: `((si)(si))` defines `StructureCsi7` twice. -/
theorem c06_full_false : ¬ C06_full := by
  intro h
  have := h (.tuple [.tuple [.S, .I], .tuple [.S, .I]])
  revert this
  cases hg : generateTypes (.tuple [.tuple [.S, .I], .tuple [.S, .I]]) with
  | fail f =>
    have h0 : (generateTypes (.tuple [.tuple [.S, .I], .tuple [.S, .I]])).isOk = true := by decide
    rw [hg] at h0; cases h0
  | ok defs =>
    intro h
    have h1 := h defs rfl
    have h2 := generateTypes_tys _ _ hg
    have h3 : (defs.map (·.ty)).Nodup := by
      have hmap : defs.map (·.name) = (defs.map (·.ty)).map structName := by
        rw [List.map_map]
        exact List.map_congr_left fun d hd => (generateTypes_defOk _ _ hg d hd).2.1
      rw [hmap] at h1
      exact (List.pairwise_map.1 h1).imp @fun a b hne (heq : a = b) => hne (congrArg structName heq)
    rw [h2] at h3
    exact absurd h3 (by decide)

/-- C06, the part that holds, with the exact condition: names are defined once exactly when no
    structure type occurs twice in the type.  Missing for the full claim: repeated structure types. -/
theorem c06_defined_once_iff_partial (t : Ty) (defs : List StructDef)
    (h : generateTypes t = .ok defs) : (defs.map (·.name)).Nodup ↔ (structOccs t).Nodup := by
  have hmap : defs.map (·.name) = (structOccs t).map structName := by
    rw [← generateTypes_tys t defs h, List.map_map]
    exact List.map_congr_left fun d hd => (generateTypes_defOk _ _ h d hd).2.1
  rw [hmap]
  constructor
  · intro h; exact (List.pairwise_map.1 h).imp @fun a b hne (heq : a = b) => hne (congrArg structName heq)
  · intro h
    exact List.pairwise_map.2 (h.imp fun hne heq => hne (structName_inj heq))

example : (structOccs (.tuple [.tuple [.S, .I], .A (.dict .S .V)])).Nodup ∧
    (generateTypes (.tuple [.tuple [.S, .I], .A (.dict .S .V)])).isOk = true := by decide

/-! ### C07 -/

/-- The Rust struct generated for structure type `t` of size `n` has the specified layout. -/
def SpecLayout (t : Ty) (n : Nat) : Prop :=
  rustLayout t = .ok (n, Spec.align t) ∧ fieldOffsets t (members t) = .ok (startsFrom 0 (members t))

/-- C07 as stated. -/
def C07_full : Prop := ∀ t n, isStruct t = true → Spec.size t = some n → Expands t ∧ SpecLayout t n

/-- C07 is false of the code: `gv!("(yii)")` panics while expanding. -/
theorem c07_full_false : ¬ C07_full := by
  intro h
  obtain ⟨⟨defs, hd⟩, _⟩ := h (.tuple [.Y, .I, .I]) 12 rfl (by decide)
  have : generateTypes (.tuple [.Y, .I, .I]) = .fail .overflow := by decide
  rw [this] at hd
  cases hd

/-- C07, the part that holds: whenever `gv!` expands, the layout is as specified.  Missing for the
    full claim: types for which `gv!` does not expand, see `c07_expands_iff`. -/
theorem c07_layout_partial (t : Ty) (n : Nat) (hs : isStruct t = true) (hn : Spec.size t = some n)
    (hx : Expands t) : SpecLayout t n := by
  refine ⟨rustLayout_ok t n hn hx, ?_⟩
  cases t <;> simp [isStruct] at hs
  case tuple ts =>
    obtain ⟨hc, d, hd⟩ := expands_tuple.1 hx
    exact fieldOffsets_ok rfl hn hc hd
  case dict k v =>
    obtain ⟨⟨hk, hv⟩, d, hd⟩ := expands_dict.1 hx
    refine fieldOffsets_ok (size_dict_eq k v) hn ?_ hd
    intro t ht
    simp only [members, List.mem_cons, List.not_mem_nil, or_false] at ht
    rcases ht with rfl | rfl <;> assumption

/-- C07: exactly which types `gv!` expands: those in which every fixed-size structure is laid out
    without a carry between the start of the most aligned member so far and later distances. -/
theorem c07_expands_iff (t : Ty) : (∃ defs, generateTypes t = .ok defs) ↔
    ∀ c, Component c t → isStruct c = true → (Spec.size c).isSome → carryFree 0 1 0 (members c) :=
  expands_iff t

/-- The loop over the members of a fixed-size structure only fails in the padding computation. -/
theorem packedLoop_fault : ∀ (l : List (Ty × Row)) n e f, (∀ p ∈ l, (Spec.size p.1).isSome) →
    packedLoop n e l = .fail f → f = .overflow := by
  intro l
  induction l with
  | nil => intro n e f _ h; simp [packedLoop] at h
  | cons p l ih =>
    intro n e f hp h
    obtain ⟨c, r⟩ := p
    obtain ⟨s, hs⟩ := Option.isSome_iff_exists.1 (hp (c, r) (by simp))
    simp only [packedLoop, sizeOf_eq, hs, Res.unwrap_some, Res.bind_ok] at h
    split at h
    · simpa using h.symm
    · rw [Res.bind_eq_fail] at h
      rcases h with h | ⟨x, _, h⟩
      · exact ih _ _ _ (fun p hp' => hp p (by simp [hp'])) h
      · split at h <;> simp at h

/-- One structure only fails in the padding computation. -/
theorem generateTuple_fault {gv : Ty} {ts : List Ty} {f : Fault}
    (hgv : Spec.size gv = Spec.size (.tuple ts)) (h : generateTuple gv ts = .fail f) :
    f = .overflow := by
  unfold generateTuple at h
  rw [sizeOf_eq] at h
  cases hn : Spec.size gv with
  | none =>
    rw [hn] at h
    obtain ⟨p, hp⟩ := writeNonFixed_ok ts
    simp [hp] at h
  | some n =>
    obtain ⟨_, _, hsz, _⟩ := size_tuple_members (hgv ▸ hn)
    have hzip : ∀ p ∈ ts.zip (generateTable ts), (Spec.size p.1).isSome :=
      fun p hp => hsz p.1 (List.of_mem_zip (a := p.1) (b := p.2) hp).1
    rw [hn] at h
    simp only [Option.isSome_some, if_true, writePackedStruct, sizeOf_eq, hn, Res.unwrap_some,
      Res.bind_ok] at h
    rw [Res.bind_eq_fail] at h
    rcases h with h | ⟨d, hd, h⟩
    · rw [Res.bind_eq_fail] at h
      rcases h with h | ⟨x, hx, h⟩
      · exact packedLoop_fault _ _ _ _ hzip h
      · obtain ⟨out, e⟩ := x
        simp only at h
        split at h
        · simpa using h.symm
        · split at h <;> simp at h
    · simp at h

/-- C07: whatever the type, a failing expansion is the overflow in the padding computation: the
    type's size is never asked of a member that has none, and no framing offset number is negative. -/
theorem c07_expansion_fault (t : Ty) (f : Fault) (h : generateTypes t = .fail f) :
    f = .overflow := by
  induction t using Ty.ind generalizing f with
  | a e ih => exact ih f (by simpa [generateTypes] using h)
  | m e ih => exact ih f (by simpa [generateTypes] using h)
  | tuple ts ih =>
    have hall : ∀ (us : List Ty) f, (∀ u ∈ us, u ∈ ts) → generateTypesAll us = .fail f →
        f = .overflow := by
      intro us
      induction us with
      | nil => intro f _ h; simp [generateTypesAll] at h
      | cons u us ih' =>
        intro f hu h
        simp only [generateTypesAll] at h
        rw [Res.bind_eq_fail] at h
        rcases h with h | ⟨_, _, h⟩
        · exact ih u (hu u (by simp)) f h
        · rw [Res.bind_eq_fail] at h
          rcases h with h | ⟨_, _, h⟩
          · exact ih' f (fun u h => hu u (by simp [h])) h
          · simp at h
    simp only [generateTypes] at h
    rw [Res.bind_eq_fail] at h
    rcases h with h | ⟨_, _, h⟩
    · exact hall ts f (fun _ h => h) h
    · rw [Res.bind_eq_fail] at h
      rcases h with h | ⟨_, _, h⟩
      · exact generateTuple_fault rfl h
      · simp at h
  | dict k v ihk ihv =>
    simp only [generateTypes] at h
    rw [Res.bind_eq_fail] at h
    rcases h with h | ⟨_, _, h⟩
    · exact ihk f h
    · rw [Res.bind_eq_fail] at h
      rcases h with h | ⟨_, _, h⟩
      · exact ihv f h
      · rw [Res.bind_eq_fail] at h
        rcases h with h | ⟨_, _, h⟩
        · exact generateTuple_fault (size_dict_eq k v) h
        · simp at h
  | _ => simp [generateTypes] at h

-- Non-vacuity: a structure that fails deep inside a type that has no size itself.
example : generateTypes (.A (.dict .S (.tuple [.V, .tuple [.Y, .I, .I]]))) = .fail .overflow := by
  decide +kernel

-- Non-vacuity: `(xiny)` expands with members at 0, 8, 12, 14 and size 16; `(yii)` does not.
example : fieldOffsets (.tuple [.X, .I, .N, .Y]) [.X, .I, .N, .Y] = .ok [0, 8, 12, 14] ∧
    rustLayout (.tuple [.X, .I, .N, .Y]) = .ok (16, 8) ∧
    (generateTypes (.tuple [.X, .I, .N, .Y])).isOk = true := by decide
example : ¬ carryFree 0 1 0 [.Y, .I, .I] ∧ carryFree 0 1 0 [.X, .Y, .I, .Y, .Q] := by decide

/-! ### C08 -/

/-- The argument list of the emitted `new(0, .., 0)` has the member types, and every member type is
    `Default` as `derive(Default)` requires. -/
def defaultsTypecheck (d : StructDef) : Bool :=
  match d.body with
  | .packed _ => d.children.all fun c =>
      zeroLiteralHasType (markerType c) && implsDefault (markerType c)
  | .nonFixed _ => true

/-- C08 as stated. -/
def C08_full : Prop := ∀ t defs, generateTypes t = .ok defs → ∀ d ∈ defs, defaultsTypecheck d = true

/-- C08 is false of the code: `(bi)`, `(d)` and `((ii)i)` pass `0` for a `Bool`, an `f64` and a
    struct. -/
theorem c08_full_false : ¬ C08_full := by
  intro h
  cases hg : generateTypes (.tuple [.B, .I]) with
  | fail f =>
    have h0 : (generateTypes (.tuple [.B, .I])).isOk = true := by decide
    rw [hg] at h0; cases h0
  | ok defs =>
    have h1 := h _ _ hg
    have : (match generateTypes (.tuple [.B, .I]) with
      | .ok defs => defs.all defaultsTypecheck | .fail _ => true) = false := by decide
    rw [hg] at this
    have h2 : defs.all defaultsTypecheck = true := List.all_eq_true.2 h1
    simp only [h2] at this
    cases this

theorem zeroLiteral_iff_isInt (c : Ty) :
    (zeroLiteralHasType (markerType c) && implsDefault (markerType c)) = isInt c := by
  cases c <;> simp only [markerType] <;> try rfl
  all_goals split <;> rfl

/-- C08, the part that holds, with the exact condition: the defaults type-check exactly when all
    members of the fixed-size structure are integers.  Missing for the full claim: members of type
    `b`, `d`, or nested fixed-size structures. -/
theorem c08_defaults_typecheck_partial (t : Ty) (defs : List StructDef)
    (h : generateTypes t = .ok defs) (d : StructDef) (hd : d ∈ defs) :
    defaultsTypecheck d = true ↔
      ((Spec.size d.ty).isSome → ∀ c ∈ members d.ty, isInt c = true) := by
  obtain ⟨_, _, hch, hg⟩ := generateTypes_defOk t defs h d hd
  obtain ⟨ty, name, children, body⟩ := d
  simp only at *
  subst hch
  unfold generateTuple at hg
  rw [sizeOf_eq] at hg
  cases hz : Spec.size ty with
  | none =>
    rw [hz] at hg
    simp only [Option.isSome_none, Bool.false_eq_true, if_false, Res.bind_eq_ok] at hg
    obtain ⟨p, _, hg⟩ := hg
    simp at hg
    simp [← hg.2, defaultsTypecheck]
  | some n =>
    rw [hz] at hg
    simp only [Option.isSome_some, if_true, Res.bind_eq_ok] at hg
    obtain ⟨p, _, hg⟩ := hg
    simp at hg
    simp only [← hg.2, defaultsTypecheck, zeroLiteral_iff_isInt]
    simp

example : (match generateTypes (.A (.tuple [.X, .Y, .Q])) with
    | .ok defs => defs.length == 1 && defs.all defaultsTypecheck | .fail _ => false) = true := by
  decide

/-! ### C51 -/

/-- C51, exact condition for `gv!(t)` to compile: every structure inside has at most 12 members, no
    structure type occurs twice, and each fixed-size structure has only integer members and no carry
    in its layout. -/
theorem c51_compiles_iff_partial (t : Ty) : compiles t ↔
    (structOccs t).Nodup ∧ ∀ c, Component c t → isStruct c = true →
      (members c).length ≤ 12 ∧
      ((Spec.size c).isSome → (∀ m ∈ members c, isInt m = true) ∧ carryFree 0 1 0 (members c)) := by
  constructor
  · rintro ⟨defs, hg, htc, hnd⟩
    refine ⟨(c06_defined_once_iff_partial t defs hg).1 hnd, ?_⟩
    intro c hc hs
    have hm : c ∈ defs.map (·.ty) := by
      rw [generateTypes_tys t defs hg]; exact (mem_structOccs t c).2 ⟨hc, hs⟩
    obtain ⟨d, hd, rfl⟩ := List.mem_map.1 hm
    have h1 := htc d hd
    have hch := (generateTypes_defOk t defs hg d hd).2.2.1
    simp only [StructDef.typechecks, Bool.and_eq_true, decide_eq_true_eq] at h1
    refine ⟨hch ▸ h1.1, fun hz => ⟨?_, (expands_iff t).1 ⟨defs, hg⟩ _ hc hs hz⟩⟩
    exact (c08_defaults_typecheck_partial t defs hg d hd).1 h1.2 hz
  · rintro ⟨hnd, h⟩
    obtain ⟨defs, hg⟩ := (expands_iff t).2 fun c hc hs hz => ((h c hc hs).2 hz).2
    refine ⟨defs, hg, ?_, (c06_defined_once_iff_partial t defs hg).2 hnd⟩
    intro d hd
    have hty : d.ty ∈ structOccs t := by
      rw [← generateTypes_tys t defs hg]; exact List.mem_map_of_mem hd
    obtain ⟨hcomp, hs⟩ := (mem_structOccs t _).1 hty
    have hch := (generateTypes_defOk t defs hg d hd).2.2.1
    have hc := h d.ty hcomp hs
    simp only [StructDef.typechecks, Bool.and_eq_true, decide_eq_true_eq]
    exact ⟨hch ▸ hc.1, (c08_defaults_typecheck_partial t defs hg d hd).2 fun hz => (hc.2 hz).1⟩

/-- C51 as stated is false: `(ddd)` does not compile. -/
theorem c51_full_false : ¬ ∀ t, compiles t := by
  intro h
  have := ((c51_compiles_iff_partial _).1 (h (.tuple [.D, .D, .D]))).2 _ (.refl _) rfl
  exact absurd (this.2 (by decide)).1 (by decide)

-- Non-vacuity: `a(sa{sv}(yy))` compiles.
example : compiles (.A (.tuple [.S, .A (.dict .S .V), .tuple [.Y, .Y]])) :=
  ⟨_, rfl, by decide, by decide⟩

/-! ### C09 -/

/-- C09: for whatever ends the variable-size members have (as stored in the framing offsets), the
    `(i, a, b, c)` formula `roundUp (frame_offset i + a) b + c` gives each member exactly the start
    of the sequential walk. `frame_offset (-1)` is 0. -/
theorem c09_table_starts (ts : List Ty) (ends : Nat → Nat) :
    (generateTable ts).map (fun r =>
      Spec.roundUp ((if r.i < 0 then 0 else ends r.i.toNat) + r.a) r.b + r.c) =
    memberStarts ends 0 0 ts := by
  have := tableLoop_start ends ts 0 0 1 0 (Or.inl rfl)
  have h0 : Spec.roundUp (frameAt ends (((0 : Nat) : Int) - 1) + 0) 1 + 0 = 0 := by
    simp [frameAt, Spec.roundUp]
  rw [h0] at this
  exact this

/-- C09: there is one row per member; `b` is an alignment, and `b` and `c` are multiples of the
    member's alignment. -/
theorem c09_table_aligned (ts : List Ty) : (generateTable ts).length = ts.length ∧
    ∀ p ∈ ts.zip (generateTable ts), (p.2.b = 1 ∨ p.2.b = 2 ∨ p.2.b = 4 ∨ p.2.b = 8) ∧
      alignOf p.1 ∣ p.2.b ∧ alignOf p.1 ∣ p.2.c := by
  obtain ⟨h1, h2⟩ := tableLoop_aligned ts ⟨-1, 0, 1, 0⟩ (Or.inl rfl)
  refine ⟨h1, fun p hp => ?_⟩
  obtain ⟨a, b, c⟩ := h2 p hp
  exact ⟨a, (alignOf_isAl p.1).dvd a b, c⟩

-- Non-vacuity: the specification's own example shape `(sysiq)`-like mix.
example : generateTable [.S, .Y, .I, .A .X, .Q] =
    [⟨-1, 0, 1, 0⟩, ⟨0, 0, 1, 0⟩, ⟨0, 1, 4, 0⟩, ⟨0, 5, 8, 0⟩, ⟨1, 0, 2, 0⟩] := by decide

end GV.Props
