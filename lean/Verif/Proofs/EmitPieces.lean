import Verif.Proofs.EmitNames
/-
Names in the parts of a definition.
-/
namespace GV.Props
open GV Spec

abbrev Good (S : Scope) : Use → Prop := fun u => S.resolves u = true

theorem fine_number {br ok} {w : Bytes} (h : isNumber w = true) : Fine br ok (.leaf (.word w) .nil) := by
  refine ⟨fun g _ => rfl, fun a g _ => ⟨[], .none, ?_, by simp⟩⟩
  simp only [Forest.append, Spec.uses, next_number h (show Before.at a 0 ≠ .quote by simp), List.nil_append]
  simp only [useOf, h, reduceCtorEq, if_false, Bool.or_true, Bool.true_or, if_true, List.nil_append]

theorem fine_num {br ok} (n : Nat) : Fine br ok (numF n) := fine_number (number_dec n)

theorem fine_int {br ok} (i : Int) : Fine br ok (intF i) := by
  unfold intF
  split
  · refine ⟨fun g _ => rfl, fun a g _ => ⟨[], .none, ?_, by simp⟩⟩
    have h1 : next (.at a 0) (.op 45) = .dash := rfl
    simp only [numF, Forest.append, Spec.uses, h1, next_number (number_dec _) (show Before.dash ≠ .quote by simp),
      List.nil_append]
    simp only [useOf, number_dec, reduceCtorEq, if_false, Bool.or_true, Bool.true_or, if_true, List.nil_append]
  · exact fine_num _

theorem fine_known {S : Scope} {br} {w : Bytes} (h : everywhere.contains w = true) (hk : keywords.contains w = false) :
    Fine br (Good S) (.leaf (.word w) .nil) :=
  Fine.word (show S.resolves _ = true by simp only [Scope.resolves, Scope.here, h, Bool.or_true, Bool.true_or]) hk

theorem fine_opt {S : Scope} {br} (o : Option Nat) : Fine br (Good S) (optF o) := by
  cases o with
  | none =>
    have : optF none = .leaf (.word fmt!"None") .nil := by decide +kernel
    rw [this]
    exact fine_known (by decide) (by decide)
  | some n =>
    exact Fine.append (f := .leaf (.word fmt!"Some") .nil) (fine_known (by decide) (by decide))
      (Fine.grp (fine_num n).uses)

theorem resolves_local {S : Scope} {w : Bytes} (h : w ∈ S.locals) : S.resolves (.path .here [w]) = true := by
  simp [Scope.resolves, Scope.here, h]

theorem resolves_A {S : Scope} {n : Nat} (h : IsAl n) : S.resolves (.path .here [fmt!"A" ++ decText n]) = true := by
  have : (imports.map (·.2)).contains (fmt!"A" ++ decText n) = true := by
    rcases h with rfl | rfl | rfl | rfl <;> decide
  simp only [Scope.resolves, Scope.here, this, Bool.or_true, Bool.true_or]

theorem resolves_alignedA {S : Scope} {n : Nat} (h : IsAl n) :
    S.resolves (.path .here [fmt!"aligned_bytes", fmt!"A" ++ decText n]) = true := by
  have : crateRoot.contains [fmt!"aligned_bytes", fmt!"A" ++ decText n] = true := by
    rcases h with rfl | rfl | rfl | rfl <;> decide
  simp only [Scope.resolves, Scope.here, this, Bool.true_or]

theorem resolves_topA {S : Scope} {n : Nat} (hc : S.crate = fmt!"gvariant") (h : IsAl n) :
    S.resolves (.path .top [fmt!"gvariant", fmt!"aligned_bytes", fmt!"A" ++ decText n]) = true := by
  have : crateRoot.contains [fmt!"aligned_bytes", fmt!"A" ++ decText n] = true := by
    rcases h with rfl | rfl | rfl | rfl <;> decide
  simp only [Scope.resolves, Scope.extern, this, hc, Bool.or_true, beq_self_eq_true, Bool.and_self, Bool.true_or]

theorem fine_comma {br ok} : Fine br ok (.leaf (.op 44) .nil) := Fine.op rfl

/-! ### Types -/

theorem fine_tuple {S : Scope} {br} (hS : Has S [] [] [fmt!"a"]) {children : List Ty} (h : ∀ c ∈ children, Knows S c) :
    Fine br (Good S) (tupleF children) := by
  refine .concat fun f hf => ?_
  obtain ⟨c, hc, rfl⟩ := List.mem_map.1 hf
  refine fine_wrap (T := fmt!"&'a {marker_type},") hS
    (fine_marker (hS.mono (by simp) (by simp) (by simp)) c (h c hc)) ?_ ?_
  · cases br <;> decide +kernel
  · simp only [refTyF, forest_append_assoc]; rfl

/-- `T{n}` are known. -/
def KnowsT (S : Scope) (len : Nat) : Prop := ∀ n < len, fmt!"T" ++ decText n ∈ S.locals

theorem fine_serType {S : Scope} {br} (hS : Has S [] [] []) {c : Ty} (h : Knows S c) {n : Nat}
    (hn : fmt!"T" ++ decText n ∈ S.locals) : Fine br (Good S) (serTypeF n c) := by
  refine fine_piece (T := fmt!"T{n}: ::gvariant::SerializeTo<{marker_type}> + Copy")
    [(ph! "n", decText n, .nil), (ph! "marker_type", [], (markerType c).trees)] hS rfl
    [.path .here [fmt!"T{n}"]] (onePh (ph! "marker_type")) (· == fmt!"T{n}") noName ?_ ?_ ?_ (by simp) ?_ rfl
  · intro u hu
    simp only [List.mem_singleton] at hu
    subst hu
    have : subUse (argT [(ph! "n", decText n, .nil), (ph! "marker_type", [], (markerType c).trees)])
      (.path .here [fmt!"T{n}"]) = .path .here [fmt!"T" ++ decText n] := by
      simp [subUse, subPath, argT, args, List.lookup]
    rw [this]
    exact resolves_local hn
  · intro br h hh
    simp only [onePh, beq_iff_eq] at hh
    subst hh
    exact fine_marker hS c ‹_› br
  · intro w hw
    simp only [beq_iff_eq] at hw
    subst hw
    have : List.flatMap (argT [(ph! "n", decText n, .nil), (ph! "marker_type", [], (markerType c).trees)]) fmt!"T{n}" =
        fmt!"T" ++ decText n := by
      simp [argT, args, List.lookup]
    rw [this]
    exact name_T n
  · cases br <;> decide +kernel

theorem mem_mapIdx {α β} {f : Nat → α → β} {l : List α} {b : β} (h : b ∈ l.mapIdx f) :
    ∃ n a, n < l.length ∧ a ∈ l ∧ b = f n a := by
  obtain ⟨n, hn, rfl⟩ := List.mem_iff_getElem.1 h
  simp only [List.length_mapIdx] at hn
  exact ⟨n, l[n], hn, List.getElem_mem hn, by simp⟩

theorem fine_serTypes {S : Scope} {br} (hS : Has S [] [] []) {children : List Ty} (h : ∀ c ∈ children, Knows S c)
    (hT : KnowsT S children.length) : Fine br (Good S) (serTypesF children) := by
  refine .sep fine_comma fun f hf => ?_
  obtain ⟨n, c, hn, hc, rfl⟩ := mem_mapIdx hf
  exact fine_serType hS (h c hc) (hT n hn)

theorem fine_serTypes2 {S : Scope} {br} {children : List Ty} (hT : KnowsT S children.length) :
    Fine br (Good S) (serTypes2F children) := by
  refine .concat fun f hf => ?_
  obtain ⟨n, c, hn, hc, rfl⟩ := mem_mapIdx hf
  exact Fine.append (f := .leaf (.word (fmt!"T" ++ decText n)) .nil)
    (Fine.word (resolves_local (hT n hn)) (name_T n).1) fine_comma

/-! ### Reading -/

set_option maxRecDepth 20000 in
theorem fine_row {S : Scope} {br} (hS : Has S [] [fmt!"self"] []) {c : Ty} (h : Knows S c) {row : Row} (hb : IsAl row.b)
    (last : Bool) (nfo : Nat) :
    Fine br (Good S) ((rowHead c row.b).append (.grp 40 (rowArgs c row last nfo) (.leaf (.op 44) .nil))) := by
  have hS' : Has S [] [] [] := hS.mono (by simp) (by simp) (by simp)
  refine fine_piece (T := nfRow) [(ph! "ty", c.show, .nil), (ph! "marker_type", markerText c, (markerType c).trees),
    (ph! "i", intText row.i, intF row.i),
    (ph! "a", decText row.a, .nil), (ph! "b", decText row.b, .nil), (ph! "c", decText row.c, .nil),
    (ph! "child_size", optText (GV.sizeOf c), optF (GV.sizeOf c)), (ph! "last_child", boolText last, .nil),
    (ph! "n_frame_offsets", decText nfo, .nil)] hS rfl
    [.path .here [fmt!"aligned_bytes", fmt!"A{b}"], .path .here [fmt!"{last_child}"]]
    (fun _ h => h == ph! "marker_type" || h == ph! "i" || h == ph! "child_size")
    (fun w => w == fmt!"A{b}" || w == fmt!"{last_child}")
    (fun w => w == fmt!"{a}" || w == fmt!"{c}" || w == fmt!"{n_frame_offsets}") ?_ ?_ ?_ ?_ ?_ ?_
  · intro u hu
    simp only [List.mem_cons, List.not_mem_nil, or_false] at hu
    rcases hu with rfl | rfl
    · have : subUse (argT [(ph! "ty", c.show, .nil), (ph! "marker_type", markerText c, (markerType c).trees),
          (ph! "i", intText row.i, intF row.i),
          (ph! "a", decText row.a, .nil), (ph! "b", decText row.b, .nil), (ph! "c", decText row.c, .nil),
          (ph! "child_size", optText (GV.sizeOf c), optF (GV.sizeOf c)), (ph! "last_child", boolText last, .nil),
          (ph! "n_frame_offsets", decText nfo, .nil)]) (.path .here [fmt!"aligned_bytes", fmt!"A{b}"]) =
          .path .here [fmt!"aligned_bytes", fmt!"A" ++ decText row.b] := by
        simp [subUse, subPath, argT, args, List.lookup]
      rw [this]
      exact resolves_alignedA hb
    · have : subUse (argT [(ph! "ty", c.show, .nil), (ph! "marker_type", markerText c, (markerType c).trees),
          (ph! "i", intText row.i, intF row.i),
          (ph! "a", decText row.a, .nil), (ph! "b", decText row.b, .nil), (ph! "c", decText row.c, .nil),
          (ph! "child_size", optText (GV.sizeOf c), optF (GV.sizeOf c)), (ph! "last_child", boolText last, .nil),
          (ph! "n_frame_offsets", decText nfo, .nil)]) (.path .here [fmt!"{last_child}"]) =
          .path .here [boolText last] := by
        simp [subUse, subPath, argT, args, List.lookup]
      rw [this]
      have hb : everywhere.contains (boolText last) = true := by cases last <;> decide
      simp only [Scope.resolves, Scope.here, hb, Bool.or_true, Bool.true_or]
  · intro br h hh
    simp only [Bool.or_eq_true, beq_iff_eq] at hh
    rcases hh with (rfl | rfl) | rfl
    · exact fine_marker hS' c ‹_› br
    · exact fine_int row.i
    · exact fine_opt _
  · intro w hw
    simp only [Bool.or_eq_true, beq_iff_eq] at hw
    rcases hw with rfl | rfl
    · have : List.flatMap (argT [(ph! "ty", c.show, .nil), (ph! "marker_type", markerText c, (markerType c).trees),
          (ph! "i", intText row.i, intF row.i),
          (ph! "a", decText row.a, .nil), (ph! "b", decText row.b, .nil), (ph! "c", decText row.c, .nil),
          (ph! "child_size", optText (GV.sizeOf c), optF (GV.sizeOf c)), (ph! "last_child", boolText last, .nil),
          (ph! "n_frame_offsets", decText nfo, .nil)]) fmt!"A{b}" = fmt!"A" ++ decText row.b := by
        simp [argT, args, List.lookup]
      rw [this]
      exact name_A _
    · have : List.flatMap (argT [(ph! "ty", c.show, .nil), (ph! "marker_type", markerText c, (markerType c).trees),
          (ph! "i", intText row.i, intF row.i),
          (ph! "a", decText row.a, .nil), (ph! "b", decText row.b, .nil), (ph! "c", decText row.c, .nil),
          (ph! "child_size", optText (GV.sizeOf c), optF (GV.sizeOf c)), (ph! "last_child", boolText last, .nil),
          (ph! "n_frame_offsets", decText nfo, .nil)]) fmt!"{last_child}" = boolText last := by
        simp [argT, args, List.lookup]
      rw [this]
      cases last <;> decide
  · intro w hw
    simp only [Bool.or_eq_true, beq_iff_eq] at hw
    rcases hw with (rfl | rfl) | rfl
    all_goals
      simp only [argT, args, List.map_cons, List.map_nil, List.flatMap_cons, List.flatMap_nil, List.append_nil]
      exact number_dec _
  · cases br <;> decide +kernel
  · simp only [rowHead, rowArgs, forest_append_assoc]; rfl

theorem fine_rows {S : Scope} {br} (hS : Has S [] [fmt!"self"] []) (len nfo n : Nat) {l : List (Ty × Row)}
    (h : ∀ p ∈ l, Knows S p.1 ∧ IsAl p.2.b) : Fine br (Good S) (rowsF len nfo n l) := by
  induction l generalizing n with
  | nil => exact .nil
  | cons p l ih =>
    obtain ⟨c, row⟩ := p
    obtain ⟨h1, h2⟩ := h (c, row) List.mem_cons_self
    rw [rowsF]
    exact Fine.append (fine_row hS h1 h2 (n == len - 1) nfo) (ih (n + 1) fun q hq => h q (List.mem_cons_of_mem _ hq))

/-! ### Writing -/

/-- What statements of `serialize` refer to is there: `off` and the framing offsets only in structures of variable
    size. -/
def cmdNames (nf : Bool) : Cmd → Prop
  | .zeros _ | .child _ => True
  | .writePadding al => nf = true ∧ IsAl al
  | _ => nf = true

/-- The variables of `serialize`. -/
def cmdLocals (nf : Bool) : List Bytes :=
  [fmt!"self", fmt!"f"] ++ if nf then [fmt!"off", fmt!"framing_offsets"] else []

theorem fine_dec {S A L V br} {T : Bytes} {g : Forest} {c : UInt8} (n : Nat) (hc : (decide (128 ≤ c)) = true) (hS : Has S A L V)
    (hs : (startsOk noPh br (tplF T) && (tplRun (litS A L V []) noPh noName (· == [c]) br (.at .none 0) (tplF T)).map is0
      == some true) = true)
    (hg : subG (argT [(c, decText n, .nil)]) (argF [(c, decText n, .nil)]) (tplF T) = g) : Fine br (Good S) g := by
  refine fine_piece (T := T) [(c, decText n, .nil)] hS (by simpa using hc) [] noPh noName (· == [c]) (by simp) (by simp [noPh])
    (by simp) ?_ hs hg
  intro w hw
  simp only [beq_iff_eq] at hw
  subst hw
  have : List.flatMap (argT [(c, decText n, .nil)]) [c] = decText n := by
    simp [argT, args, List.lookup]
  rw [this]
  exact number_dec n

theorem fine_cmd {S : Scope} {br nf} (hS : Has S [] (cmdLocals nf) []) {x : Cmd} (hx : cmdNames nf x) :
    Fine br (Good S) ((cmdF x).append (.leaf (.op 59) .nil)) := by
  cases x with
  | zeros n =>
    have h1 : Fine br (Good S) (code fmt!"f.write_all") := by
      refine fine_code hS ?_
      cases br <;> cases nf <;> decide +kernel
    have h2 : Fine br (Good S) (code fmt!"?") := by
      refine fine_code hS ?_
      cases br <;> cases nf <;> decide +kernel
    have h3 : Fine br (Good S) (.grp 40 (.leaf (.word fmt!"b") (.leaf (.lit (List.replicate n 0)) .nil)) .nil) :=
      Fine.grp (fun u hu => by
        have h4 : uses (40 == 123) (.at .none 0) (.leaf (.word fmt!"b") (.leaf (.lit (List.replicate n 0)) .nil)) = [] := rfl
        exact absurd (h4 ▸ hu) List.not_mem_nil)
    exact Fine.append (Fine.append h1 (Fine.append h3 h2)) (Fine.op rfl)
  | addOff n =>
    obtain rfl : nf = true := hx
    refine fine_dec (T := fmt!"off += {x};") (c := ph! "x") n rfl hS ?_ rfl
    cases br <;> decide +kernel
  | child n =>
    refine fine_dec (T := fmt!"self.{n}.serialize(f)?;") (c := ph! "n") n rfl hS ?_ rfl
    cases br <;> cases nf <;> decide +kernel
  | childOff n =>
    obtain rfl : nf = true := hx
    refine fine_dec (T := fmt!"off += self.{n}.serialize(f)?;") (c := ph! "n") n rfl hS ?_ rfl
    cases br <;> decide +kernel
  | setFrame n =>
    obtain rfl : nf = true := hx
    refine fine_dec (T := fmt!"framing_offsets[{x}] = off;") (c := ph! "x") n rfl hS ?_ rfl
    cases br <;> decide +kernel
  | writePadding al =>
    obtain ⟨rfl, hal⟩ := hx
    refine fine_piece (T := fmt!"off += write_padding::<A{base}, _>(off, f)?;") [(ph! "base", decText al, .nil)] hS rfl
      [.path .here [fmt!"A{base}"]] noPh (· == fmt!"A{base}") noName ?_ (by simp [noPh]) ?_ (by simp) ?_ rfl
    · intro u hu
      simp only [List.mem_singleton] at hu
      subst hu
      have : subUse (argT [(ph! "base", decText al, .nil)]) (.path .here [fmt!"A{base}"]) =
          .path .here [fmt!"A" ++ decText al] := by
        simp [subUse, subPath, argT, args, List.lookup]
      rw [this]
      exact resolves_A hal
    · intro w hw
      simp only [beq_iff_eq] at hw
      subst hw
      have : List.flatMap (argT [(ph! "base", decText al, .nil)]) fmt!"A{base}" = fmt!"A" ++ decText al := by
        simp [argT, args, List.lookup]
      rw [this]
      exact name_A _
    · cases br <;> decide +kernel

theorem fine_cmds {S : Scope} {br nf} (hS : Has S [] (cmdLocals nf) []) {cs : List Cmd} (h : ∀ x ∈ cs, cmdNames nf x) :
    Fine br (Good S) (cmdsF cs) := by
  refine .sep .nil fun f hf => ?_
  obtain ⟨x, hx, rfl⟩ := List.mem_map.1 hf
  exact fine_cmd hS (h x hx)

/-! ### Fields -/

/-- Begins with a word or an opening bracket. -/
def wordy : Forest → Bool
  | .leaf (.word _) _ => true
  | .grp _ _ _ => true
  | _ => false

theorem uses_colon {br f} (h : wordy f = true) (c c' : Cur) : uses br (.at c 1) f = uses br (.at c' 0) f := by
  cases f with
  | nil => cases h
  | grp d i r => rfl
  | leaf t r =>
    cases t with
    | word w => rfl
    | _ => cases h

theorem wordy_append {f : Forest} (h : wordy f = true) (g) : wordy (f.append g) = true := by
  cases f with
  | nil => cases h
  | grp d i r => rfl
  | leaf t r =>
    cases t with
    | word w => rfl
    | _ => cases h

theorem ascribed_wordy {f : Forest} (h : wordy f = true) : ascribed (.leaf (.op 58) f) = true := by
  cases f with
  | nil => cases h
  | grp d i r => rfl
  | leaf t r =>
    cases t with
    | word w => cases r <;> rfl
    | _ => cases h

/-- `name : type`; between braces the name is that of a field. -/
theorem fine_ascribe {br ok f} {w : Bytes} (hw : keywords.contains w = false ∧ isNumber w = false)
    (h : br = false → ok (.path .here [w])) (hf : Fine br ok f) (hb : wordy f = true) :
    Fine br ok (.leaf (.word w) (.leaf (.op 58) f)) := by
  refine ⟨fun g _ => rfl, fun a g hg => ?_⟩
  obtain ⟨us, c, h1, h2⟩ := hf.2 .none g hg
  have hb' := wordy_append hb g
  refine ⟨useOf br (.at a 0) w (.leaf (.op 58) (f.append g)) ++ us, c, ?_, fun u hu => ?_⟩
  · simp only [Forest.append, Spec.uses, next_at hw.1 hw.2 (show Before.at a 0 ≠ .quote by simp), List.nil_append]
    rw [List.append_assoc, ← h1]
    congr 1
    exact uses_colon hb' _ _
  · rcases List.mem_append.1 hu with hu | hu
    · simp only [useOf, reduceCtorEq, if_false, hw.1, hw.2, Bool.false_or, ascribed_wordy hb', Bool.and_true] at hu
      cases br with
      | true => simp [litNext, starts] at hu
      | false =>
        simp [litNext, pathOf] at hu
        rw [hu]
        exact h rfl
    · exact h2 u hu

theorem trees_wordy (t : Ty) : wordy (markerType t).trees = true := by
  cases t with
  | A t =>
    simp only [markerType]
    cases GV.sizeOf t with
    | none => exact wordy_append (by decide +kernel) _
    | some n => rfl
  | M t =>
    simp only [markerType]
    cases GV.sizeOf t with
    | none => exact wordy_append (by decide +kernel) _
    | some n => exact wordy_append (by decide +kernel) _
  | tuple ts => rfl
  | dict k v => rfl
  | _ => simp only [markerType]; decide +kernel

theorem fine_pub {br ok} : Fine br ok (.leaf (.word fmt!"pub") .nil) :=
  ⟨fun _ _ => rfl, fun _ _ _ => ⟨[], .none, rfl, by simp⟩⟩

theorem fine_fields {S : Scope} (hS : Has S [] [] []) : ∀ (k : Nat) (fs : List Field) (ms : List Ty), (∀ c ∈ ms, Knows S c) →
    ∀ f ∈ fieldsF k fs ms, Fine true (Good S) f := by
  intro k fs ms
  fun_induction fieldsF k fs ms with
  | case1 k n fs ms ih =>
    intro h f hf
    rcases List.mem_cons.1 hf with rfl | hf
    · refine fine_ascribe (name_padding k) (by simp) (Fine.grp (Fine.uses (br := false) (f := (code fmt!"u8;").append (numF n)) ?_)) rfl
      exact Fine.append (fine_code hS (by decide +kernel)) (fine_num n)
    · exact ih h f hf
  | case2 k n fs c ms ih =>
    intro h f hf
    rcases List.mem_cons.1 hf with rfl | hf
    · exact Fine.append (f := .leaf (.word fmt!"pub") .nil) fine_pub
        (fine_ascribe (name_field n) (by simp) (fine_marker hS c (h c (by simp)) true) (trees_wordy c))
    · exact ih (fun d hd => h d (by simp [hd])) f hf
  | case3 => intro _ f hf; cases hf

theorem fine_each {br ok} {fs : List Forest} (h : ∀ f ∈ fs, Fine br ok f) : Fine br ok (eachF fs) := by
  refine .concat fun f hf => ?_
  obtain ⟨g, hg, rfl⟩ := List.mem_map.1 hf
  exact (h g hg).append fine_comma

/-- `field_{n}` are known. -/
def KnowsF (S : Scope) (len : Nat) : Prop := ∀ n < len, fmt!"field_" ++ decText n ∈ S.locals

theorem fine_inits {S : Scope} {len} (hF : KnowsF S len) : ∀ (k : Nat) (fs : List Field), (∀ n, Field.mem n ∈ fs → n < len) →
    ∀ f ∈ initsF k fs, Fine true (Good S) f := by
  intro k fs
  fun_induction initsF k fs with
  | case1 => intro _ f hf; cases hf
  | case2 k n fs ih =>
    intro h f hf
    rcases List.mem_cons.1 hf with rfl | hf
    · refine fine_ascribe (name_padding k) (by simp) (Fine.grp (Fine.uses (br := false) (f := (code fmt!"0u8;").append (numF n)) ?_)) rfl
      have h0 : code fmt!"0u8;" = (Forest.leaf (.word fmt!"0u8") .nil).append (.leaf (.op 59) .nil) := by decide +kernel
      rw [h0]
      exact ((fine_number rfl).append (Fine.op rfl)).append (fine_num n)
    · exact ih (fun m hm => h m (by simp [hm])) f hf
  | case3 k n fs ih =>
    intro h f hf
    rcases List.mem_cons.1 hf with rfl | hf
    · exact fine_ascribe (name_field n) (by simp)
        (Fine.word (resolves_local (hF n (h n (by simp)))) (name_field n).1) rfl
    · exact ih (fun m hm => h m (by simp [hm])) f hf

theorem fine_params {S : Scope} {br} (hS : Has S [] [] []) {children : List Ty} (h : ∀ c ∈ children, Knows S c)
    (hF : KnowsF S children.length) : Fine br (Good S) (paramsF children) := by
  refine .sep fine_comma fun f hf => ?_
  obtain ⟨n, c, hn, hc, rfl⟩ := mem_mapIdx hf
  exact fine_ascribe (name_field n) (fun _ => resolves_local (hF n hn)) (fine_marker hS c (h c hc) br) (trees_wordy c)

theorem fine_member {S A L V br} {T : Bytes} {g : Forest} (n : Nat) (hS : Has S A L V)
    (hs : (startsOk noPh br (tplF T) && (tplRun (litS A L V []) noPh (· == fmt!"field_{n}") noName br (.at .none 0)
      (tplF T)).map is0 == some true) = true)
    (hg : subG (argT [(ph! "n", decText n, .nil)]) (argF [(ph! "n", decText n, .nil)]) (tplF T) = g) :
    Fine br (Good S) g := by
  refine fine_piece (T := T) [(ph! "n", decText n, .nil)] hS rfl [] noPh (· == fmt!"field_{n}") noName (by simp)
    (by simp [noPh]) ?_ (by simp) hs hg
  intro w hw
  simp only [beq_iff_eq] at hw
  subst hw
  have : List.flatMap (argT [(ph! "n", decText n, .nil)]) fmt!"field_{n}" = fmt!"field_" ++ decText n := by
    simp [argT, args, List.lookup]
  rw [this]
  exact name_field n

theorem fine_refs {S : Scope} {br} (hS : Has S [] [fmt!"self"] []) (children : List Ty) :
    Fine br (Good S) (refsF children) := by
  refine fine_each fun f hf => ?_
  obtain ⟨n, c, hn, hc, rfl⟩ := mem_mapIdx hf
  refine fine_member (T := fmt!"&self.field_{n}") n hS ?_ rfl
  cases br <;> decide +kernel

theorem fine_defaults {S : Scope} {br} (children : List Ty) : Fine br (Good S) (defaultsF children) := by
  refine .sep fine_comma fun f hf => ?_
  obtain ⟨c, hc, rfl⟩ := List.mem_map.1 hf
  have h0 : code fmt!"0" = Forest.leaf (.word fmt!"0") .nil := by decide +kernel
  rw [h0]
  exact fine_number rfl

theorem fine_eqs {S : Scope} {br} (hS : Has S [] [fmt!"self", fmt!"other"] []) (children : List Ty) :
    Fine br (Good S) (eqsF children) := by
  have h0 : code fmt!"true" = Forest.leaf (.word fmt!"true") .nil := by decide +kernel
  unfold eqsF
  rw [h0]
  refine (fine_known (by decide) (by decide)).append (.concat fun f hf => ?_)
  obtain ⟨n, c, hn, hc, rfl⟩ := mem_mapIdx hf
  refine fine_member (T := fmt!"&& self.field_{n} == other.field_{n}") n hS ?_ rfl
  cases br <;> decide +kernel

end GV.Props
