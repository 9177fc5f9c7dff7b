import Verif.Proofs.EmitPieces
/-
Names in the items of a definition.
-/
namespace GV.Props
open GV Spec

/-! ### What a definition binds -/

theorem params_concat {fs : List Forest} {f : Forest} {w : Bytes} (hf : f ∈ fs) (h : w ∈ params f) :
    w ∈ params (concatF fs) := by
  induction fs with
  | nil => cases hf
  | cons g fs ih =>
    rcases List.mem_cons.1 hf with rfl | hf
    · exact params_append _ (Or.inl h)
    · exact params_append _ (Or.inr (ih hf))

theorem params_sep {s : Forest} {fs : List Forest} {f : Forest} {w : Bytes} (hf : f ∈ fs) (h : w ∈ params f) :
    w ∈ params (sepF s fs) := by
  cases fs with
  | nil => cases hf
  | cons g fs =>
    rcases List.mem_cons.1 hf with rfl | hf
    · exact params_append _ (Or.inl h)
    · exact params_append _ (Or.inr (params_concat (List.mem_map_of_mem hf) (params_append _ (Or.inr h))))

theorem mem_mapIdx_of {α β} {f : Nat → α → β} {l : List α} {n : Nat} (h : n < l.length) : f n l[n] ∈ l.mapIdx f := by
  rw [List.mem_iff_getElem]
  exact ⟨n, by simpa using h, by simp⟩

theorem params_serTypes {children : List Ty} {n : Nat} (h : n < children.length) :
    fmt!"T" ++ decText n ∈ params (serTypesF children) := by
  refine params_sep (mem_mapIdx_of h) ?_
  have h0 : serTypeF n children[n] = .leaf (.word (fmt!"T" ++ decText n)) (.leaf (.op 58) (.leaf (.op 58) (.leaf (.op 58)
      ((code fmt!"gvariant::SerializeTo<").append ((markerType children[n]).trees.append (code fmt!"> + Copy")))))) := rfl
  rw [h0]
  simp only [params, ascribed, if_true, decide_true, Bool.and_self, Bool.or_true, Bool.true_or, List.mem_cons, true_or]

theorem params_params {children : List Ty} {n : Nat} (h : n < children.length) :
    fmt!"field_" ++ decText n ∈ params (paramsF children) := by
  refine params_sep (mem_mapIdx_of h) ?_
  have h0 : paramF n children[n] = .leaf (.word (fmt!"field_" ++ decText n)) (.leaf (.op 58) (markerType children[n]).trees) := rfl
  rw [h0]
  simp only [params, ascribed_wordy (trees_wordy _), Bool.true_or, if_true, List.mem_cons, true_or]

/-- The lifetimes of `impl<'a>` in a format string. -/
def livesSure : Forest → List Bytes
  | .leaf (.word w) r =>
    if w = fmt!"impl" then
      match r with
      | .leaf (.op a) (.leaf (.op q) (.leaf (.word l) _)) => if a = 60 ∧ q = 39 ∧ plainW l = true then [l] else []
      | _ => []
    else if plainW w then livesSure r else []
  | _ => []

theorem lifetimes_sub {σ φ} (hlow : ∀ c < 128, σ c = [c]) {f : Forest} {w} (h : w ∈ livesSure f) :
    w ∈ lifetimes (subF σ φ f) := by
  induction f with
  | nil => cases h
  | grp d i r _ _ => cases h
  | leaf t r ih =>
    cases t with
    | op c => cases h
    | lit b => cases h
    | word x =>
      by_cases hx : x = fmt!"impl"
      · subst hx
        have hs : subF σ φ (.leaf (.word fmt!"impl") r) = .leaf (.word fmt!"impl") (subF σ φ r) :=
          subF_plain (w := fmt!"impl") hlow (by decide) r
        rw [hs]
        simp only [livesSure, if_true] at h
        split at h
        · rename_i a q l r'
          split at h
          · next hc =>
            obtain ⟨rfl, rfl, hl⟩ := hc
            obtain rfl := List.mem_singleton.1 h
            have hs : subF σ φ (.leaf (.op 60) (.leaf (.op 39) (.leaf (.word w) r'))) =
                .leaf (.op 60) (.leaf (.op 39) (.leaf (.word w) (subF σ φ r'))) := by
              have := subF_plain (φ := φ) hlow hl r'
              simp only [subF] at this ⊢
              rw [this]
            rw [hs]
            simp [lifetimes]
          · cases h
        · cases h
      · simp only [livesSure, if_neg hx] at h
        split at h
        · next hp =>
          rw [subF_plain hlow hp]
          simp only [lifetimes, if_neg hx]
          exact ih h
        · cases h

/-! ### What is checked of the format strings -/

/-- The placeholders for code that may come at a place where these names are known and these placeholders were
    parameters. -/
def phOk (nf : Bool) (L V : List Bytes) (P : List UInt8) (br : Bool) (h : UInt8) : Bool :=
  if h = ph! "tuple" then V.contains fmt!"a"
  else if h = ph! "serialize_types" || h = ph! "serialize_types2" then P.contains (ph! "serialize_types")
  else if h = ph! "serialize_cmds" then (cmdLocals nf).all fun w => L.contains w
  else if nf then
    if h = ph! "tuple2" then V.contains fmt!"a"
    else if h = ph! "rows" then L.contains fmt!"self"
    else false
  else
    if h = ph! "get_fields" then L.contains fmt!"self"
    else if h = ph! "eq" then L.contains fmt!"self" && L.contains fmt!"other"
    else if h = ph! "field_arglist" then P.contains (ph! "field_arglist")
    else if h = ph! "set_fields" then br && P.contains (ph! "field_arglist")
    else if h = ph! "fields" then br
    else h = ph! "defaults"

/-- Names made with placeholders. -/
def nmD (nf : Bool) (w : Bytes) : Bool :=
  w == fmt!"Structure{escaped}" || if nf then w == fmt!"Structure{spec}" || w == fmt!"A{alignment}" else w == fmt!"A{align}"

def nuD (nf : Bool) (w : Bytes) : Bool := nf && w == fmt!"{n_frame_offsets}"

/-- Uses of them. -/
def spD (nf : Bool) (A : List Bytes) : List Use :=
  .path .here [fmt!"Structure{escaped}"] ::
  if nf then [.path .here [fmt!"Structure{spec}"], .path .here [fmt!"aligned_bytes", fmt!"A{alignment}"]]
  else .path .top [fmt!"gvariant", fmt!"aligned_bytes", fmt!"A{align}"] ::
    if A.contains fmt!"new" then [.path .here [fmt!"Structure{escaped}", fmt!"new"]] else []

def tplOk (nf : Bool) (A L V : List Bytes) (P : List UInt8) (br : Bool) (f : Forest) : Bool :=
  (tplRun (litS A L V (spD nf A)) (phOk nf L V P) (nmD nf) (nuD nf) br (.at .none 0) f).isSome

def varsSure : Stop → List Bytes
  | .body c => boundSure [fmt!"let", fmt!"static"] c
  | _ => []

def tplItemOk (nf : Bool) (A : List Bytes) (it : Item) : Bool :=
  tplOk nf A (paramsSure it.hdr) (livesSure it.hdr) (phsIn it.hdr) false it.hdr &&
  match it.stop with
  | .body b =>
    if isImpl it.hdr then (items b).all fun jt =>
      tplOk nf A (paramsSure it.hdr ++ (paramsSure jt.hdr ++ varsSure jt.stop)) (livesSure it.hdr)
        (phsIn it.hdr ++ phsIn jt.hdr) false jt.hdr &&
      match jt.stop with
      | .body c => tplOk nf A (paramsSure it.hdr ++ (paramsSure jt.hdr ++ varsSure jt.stop)) (livesSure it.hdr)
          (phsIn it.hdr ++ phsIn jt.hdr) true c
      | _ => true
    else tplOk nf A (paramsSure it.hdr) (livesSure it.hdr) (phsIn it.hdr) true b
  | _ => true

/-- Names that belong to a structure. -/
def assocSure (f : Forest) : List Bytes := boundSure [fmt!"fn", fmt!"type"] f

set_option maxRecDepth 100000 in
theorem nf_tplOk : (items nfTrees).all (tplItemOk true (assocSure nfTrees)) = true := by decide +kernel

set_option maxRecDepth 100000 in
theorem pk_tplOk : (items packedTrees).all (tplItemOk false (assocSure packedTrees)) = true := by decide +kernel

/-! ### The parts of a definition -/

/-- What is needed of the parts. -/
def Sound (d : StructDef) : Prop :=
  match d.body with
  | .nonFixed p => (∀ q ∈ d.children.zip p.rows, IsAl q.2.b) ∧ ∀ x ∈ p.cmds, cmdNames true x
  | .packed p => (∀ n, Field.mem n ∈ p.fields → n < d.children.length) ∧ ∀ x ∈ p.cmds, cmdNames false x

theorem packedLoop_sound {l : List (Ty × Row)} : ∀ {n e p e'}, packedLoop n e l = .ok (p, e') →
    (∀ k, Field.mem k ∈ p.fields → k < n + l.length) ∧ ∀ x ∈ p.cmds, cmdNames false x := by
  induction l with
  | nil =>
    intro n e p e' h
    simp only [packedLoop, Res.ok.injEq, Prod.mk.injEq] at h
    rw [← h.1]
    simp
  | cons q l ih =>
    intro n e p e' h
    obtain ⟨c, row⟩ := q
    simp only [packedLoop, Res.bind_eq_ok] at h
    obtain ⟨sz, _, h⟩ := h
    split at h
    · cases h
    · simp only [Res.bind_eq_ok] at h
      obtain ⟨⟨out, e2⟩, h1, h⟩ := h
      obtain ⟨h2, h3⟩ := ih h1
      simp only [List.length_cons]
      split at h
      · obtain ⟨rfl, _⟩ := Prod.mk.inj (Res.ok.inj h)
        refine ⟨fun k hk => ?_, fun x hx => ?_⟩
        · simp only [List.mem_cons, reduceCtorEq, false_or, Field.mem.injEq] at hk
          rcases hk with rfl | hk
          · omega
          · have := h2 k hk; omega
        · simp only [List.mem_cons] at hx
          rcases hx with rfl | rfl | hx
          · trivial
          · trivial
          · exact h3 x hx
      · obtain ⟨rfl, _⟩ := Prod.mk.inj (Res.ok.inj h)
        refine ⟨fun k hk => ?_, fun x hx => ?_⟩
        · simp only [List.mem_cons, Field.mem.injEq] at hk
          rcases hk with rfl | hk
          · omega
          · have := h2 k hk; omega
        · simp only [List.mem_cons] at hx
          rcases hx with rfl | hx
          · trivial
          · exact h3 x hx

theorem def_sound {d : StructDef} (h : DefOk d) : Sound d := by
  obtain ⟨_, _, _, hg⟩ := h
  obtain ⟨ty, name, children, body⟩ := d
  simp only [generateTuple] at hg
  split at hg
  · simp only [Res.bind_eq_ok] at hg
    obtain ⟨p, hp, hg⟩ := hg
    cases hg
    simp only [writePackedStruct, Res.bind_eq_ok] at hp
    obtain ⟨⟨out, e⟩, h1, sz, _, hp⟩ := hp
    obtain ⟨h2, h3⟩ := packedLoop_sound h1
    have hl : 0 + (children.zip (generateTable children)).length = children.length := by
      simp [generateTable_length]
    rw [hl] at h2
    simp only [Sound]
    split at hp
    · cases hp
    · split at hp
      · cases hp
        refine ⟨fun k hk => h2 k ?_, fun x hx => ?_⟩
        · simpa using hk
        · rcases List.mem_append.1 hx with hx | hx
          · exact h3 x hx
          · obtain rfl := List.mem_singleton.1 hx
            trivial
      · cases hp
        exact ⟨h2, h3⟩
  · simp only [Res.bind_eq_ok] at hg
    obtain ⟨p, hp, hg⟩ := hg
    cases hg
    simp only [writeNonFixedSizeStructure, Res.bind_eq_ok] at hp
    obtain ⟨cmds, h1, hp⟩ := hp
    cases hp
    simp only [Sound]
    refine ⟨fun q hq => ((tableLoop_aligned children _ (Or.inl rfl)).2 q hq).1, fun x hx => ?_⟩
    have := serLoop_cmdOk children _ _ _ _ children.length cmds (by omega) h1 x hx
    cases x <;> first | trivial | exact ⟨rfl, this⟩

def nfOf (d : StructDef) : Bool :=
  match d.body with
  | .nonFixed _ => true
  | .packed _ => false

theorem subset_of_all {X Y : List Bytes} (h : (X.all fun w => Y.contains w) = true) : ∀ w ∈ X, w ∈ Y := by
  intro w hw
  simpa using List.all_eq_true.1 h w hw

theorem resolves_name {S : Scope} {w : Bytes} (h : w ∈ S.structs) : S.resolves (.path .here [w]) = true := by
  simp [Scope.resolves, Scope.here, h]

theorem resolves_assoc {S : Scope} {w x : Bytes} (h : w ∈ S.structs) (hx : x ∈ S.assocs) :
    S.resolves (.path .here [w, x]) = true := by
  simp [Scope.resolves, Scope.here, h, hx]

theorem zip_fst {α β} {l : List α} {r : List β} {p : α × β} (h : p ∈ l.zip r) : p.1 ∈ l := (List.of_mem_zip h).1

section
variable {S : Scope} {A L V : List Bytes} {P : List UInt8} {d : StructDef}

theorem def_ph (hs : Sound d) (hS : Has S A L V) (hk : ∀ c ∈ d.children, Knows S c)
    (hT : ph! "serialize_types" ∈ P → KnowsT S d.children.length)
    (hF : nfOf d = false → ph! "field_arglist" ∈ P → KnowsF S d.children.length) (br : Bool) (h : UInt8)
    (hh : phOk (nfOf d) L V P br h = true) : Fine br (Good S) (argF (defArgs d) h) := by
  have hS0 : Has S [] [] [] := hS.mono (by simp) (by simp) (by simp)
  have hL : ∀ {X : List Bytes}, (X.all fun w => L.contains w) = true → Has S [] X [] := fun hX =>
    hS.mono (by simp) (subset_of_all hX) (by simp)
  have hV : V.contains fmt!"a" = true → Has S [] [] [fmt!"a"] := fun hX =>
    hS.mono (by simp) (by simp) (by simpa using hX)
  have hP : ∀ {x}, P.contains x = true → x ∈ P := fun hx => by simpa using hx
  obtain ⟨ty, name, children, body⟩ := d
  unfold phOk at hh
  cases body with
  | nonFixed p =>
    obtain ⟨h1, h2⟩ := hs
    simp only [nfOf, if_true] at hh
    split at hh
    · next e => subst e; exact Fine.grp (fine_tuple (hV hh) hk).uses
    split at hh
    · next e =>
      simp only [Bool.or_eq_true, decide_eq_true_eq] at e
      rcases e with rfl | rfl
      · exact fine_serTypes hS0 hk (hT (hP hh))
      · exact fine_serTypes2 (hT (hP hh))
    split at hh
    · next e => subst e; exact fine_cmds (hL hh) h2
    split at hh
    · next e => subst e; exact fine_tuple (hV hh) hk
    split at hh
    · next e =>
      subst e
      exact fine_rows (hL (by simpa using hh)) _ _ _ fun q hq => ⟨hk _ (zip_fst hq), h1 q hq⟩
    · cases hh
  | packed p =>
    obtain ⟨h1, h2⟩ := hs
    simp only [nfOf, Bool.false_eq_true, if_false] at hh
    split at hh
    · next e => subst e; exact fine_tuple (hV hh) hk
    split at hh
    · next e =>
      simp only [Bool.or_eq_true, decide_eq_true_eq] at e
      rcases e with rfl | rfl
      · exact fine_serTypes hS0 hk (hT (hP hh))
      · exact fine_serTypes2 (hT (hP hh))
    split at hh
    · next e => subst e; exact fine_cmds (hL hh) h2
    split at hh
    · next e => subst e; exact fine_refs (hL (by simpa using hh)) _
    split at hh
    · next e =>
      subst e
      exact fine_eqs (hL (by simpa using hh)) _
    split at hh
    · next e => subst e; exact fine_params hS0 hk (hF rfl (hP hh))
    split at hh
    · next e =>
      subst e
      simp only [Bool.and_eq_true] at hh
      obtain ⟨rfl, hh⟩ := hh
      exact fine_each (fine_inits (hF rfl (hP hh)) 0 p.fields h1)
    split at hh
    · next e =>
      subst e
      subst hh
      refine fine_each (fine_fields hS0 0 p.fields _ fun c hc => ?_)
      obtain ⟨q, hq, rfl⟩ := List.mem_map.1 hc
      exact hk _ (zip_fst hq)
    · simp only [decide_eq_true_eq] at hh
      subst hh
      exact fine_defaults _

theorem def_names (d : StructDef) (w : Bytes) (h : nmD (nfOf d) w = true) :
    keywords.contains (w.flatMap (argT (defArgs d))) = false ∧ isNumber (w.flatMap (argT (defArgs d))) = false := by
  obtain ⟨ty, name, children, body⟩ := d
  unfold nmD at h
  cases body with
  | nonFixed p =>
    simp only [nfOf, if_true, Bool.or_eq_true, beq_iff_eq] at h
    rcases h with rfl | rfl | rfl <;> exact name_upper rfl
  | packed p =>
    simp only [nfOf, Bool.false_eq_true, if_false, Bool.or_eq_true, beq_iff_eq] at h
    rcases h with rfl | rfl <;> exact name_upper rfl

theorem def_numbers (d : StructDef) (w : Bytes) (h : nuD (nfOf d) w = true) :
    isNumber (w.flatMap (argT (defArgs d))) = true := by
  obtain ⟨ty, name, children, body⟩ := d
  unfold nuD at h
  cases body with
  | nonFixed p =>
    simp only [nfOf, Bool.true_and, beq_iff_eq] at h
    subst h
    have : List.flatMap (argT (nfArgs ty children p)) fmt!"{n_frame_offsets}" = decText p.nFrameOffsets := by
      simp only [List.flatMap_cons, List.flatMap_nil, List.append_nil]
      rfl
    exact this ▸ number_dec _
  | packed p => cases h

theorem def_special (hS : Has S A L V) (hn : structName d.ty ∈ S.structs) (u : Use) (hu : u ∈ spD (nfOf d) A) :
    S.resolves (subUse (argT (defArgs d)) u) = true := by
  obtain ⟨ty, name, children, body⟩ := d
  unfold spD at hu
  cases body with
  | nonFixed p =>
    simp only [nfOf, if_true, List.mem_cons, List.not_mem_nil, or_false] at hu
    have e1 : List.flatMap (argT (nfArgs ty children p)) fmt!"Structure{escaped}" = structName ty := by
      simp [argT, nfArgs, args, List.lookup, structName]
    have e2 : List.flatMap (argT (nfArgs ty children p)) fmt!"Structure{spec}" = structName ty := by
      simp [argT, nfArgs, args, List.lookup, structName]
    have e3 : List.flatMap (argT (nfArgs ty children p)) fmt!"A{alignment}" = fmt!"A" ++ decText (alignOf ty) := by
      simp [argT, nfArgs, args, List.lookup]
    have e4 : List.flatMap (argT (nfArgs ty children p)) fmt!"aligned_bytes" = fmt!"aligned_bytes" := by
      simp [argT, nfArgs, args, List.lookup]
    rcases hu with rfl | rfl | rfl
    · simp only [subUse, subPath, List.map_cons, List.map_nil, defArgs, e1]
      exact resolves_name hn
    · simp only [subUse, subPath, List.map_cons, List.map_nil, defArgs, e2]
      exact resolves_name hn
    · simp only [subUse, subPath, List.map_cons, List.map_nil, defArgs, e3, e4]
      exact resolves_alignedA (alignOf_isAl _)
  | packed p =>
    simp only [nfOf, Bool.false_eq_true, if_false, List.mem_cons] at hu
    have e1 : List.flatMap (argT (packedArgs ty children p)) fmt!"Structure{escaped}" = structName ty := by
      simp [argT, packedArgs, args, List.lookup, structName]
    have e2 : List.flatMap (argT (packedArgs ty children p)) fmt!"new" = fmt!"new" := by
      simp [argT, packedArgs, args, List.lookup]
    have e3 : List.flatMap (argT (packedArgs ty children p)) fmt!"A{align}" = fmt!"A" ++ decText (alignOf ty) := by
      simp [argT, packedArgs, args, List.lookup]
    have e4 : List.flatMap (argT (packedArgs ty children p)) fmt!"aligned_bytes" = fmt!"aligned_bytes" := by
      simp [argT, packedArgs, args, List.lookup]
    have e5 : List.flatMap (argT (packedArgs ty children p)) fmt!"gvariant" = fmt!"gvariant" := by
      simp [argT, packedArgs, args, List.lookup]
    rcases hu with rfl | rfl | hu
    · simp only [subUse, subPath, List.map_cons, List.map_nil, defArgs, e1]
      exact resolves_name hn
    · simp only [subUse, subPath, List.map_cons, List.map_nil, defArgs, e3, e4, e5]
      exact resolves_topA hS.crate (alignOf_isAl _)
    · split at hu
      · next hA =>
        obtain rfl := List.mem_singleton.1 hu
        simp only [subUse, subPath, List.map_cons, List.map_nil, defArgs, e1, e2]
        exact resolves_assoc hn (hS.assocs _ (by simpa using hA))
      · cases hu

theorem def_all (hs : Sound d) (hS : Has S A L V) (hk : ∀ c ∈ d.children, Knows S c) (hn : structName d.ty ∈ S.structs)
    (hT : ph! "serialize_types" ∈ P → KnowsT S d.children.length)
    (hF : nfOf d = false → ph! "field_arglist" ∈ P → KnowsF S d.children.length) {br : Bool} {f : Forest}
    (h : tplOk (nfOf d) A L V P br f = true) : S.all br (subF (argT (defArgs d)) (argF (defArgs d)) f) :=
  uses_tpl (ok := Good S) (defArgs_low d) (litS_ok (defArgs_low d) hS (def_special hS hn))
    (def_ph hs hS hk hT hF) (def_names d) (def_numbers d) h

end

/-- What a placeholder among the parameters binds. -/
theorem def_knowsT {d : StructDef} {f : Forest} (h : ph! "serialize_types" ∈ phsIn f) {n : Nat} (hn : n < d.children.length) :
    fmt!"T" ++ decText n ∈ params (subF (argT (defArgs d)) (argF (defArgs d)) f) := by
  refine params_ph h ?_
  obtain ⟨ty, name, children, body⟩ := d
  cases body <;> exact params_serTypes hn

theorem def_knowsF {d : StructDef} (hd : nfOf d = false) {f : Forest} (h : ph! "field_arglist" ∈ phsIn f) {n : Nat}
    (hn : n < d.children.length) :
    fmt!"field_" ++ decText n ∈ params (subF (argT (defArgs d)) (argF (defArgs d)) f) := by
  refine params_ph h ?_
  obtain ⟨ty, name, children, body⟩ := d
  cases body with
  | nonFixed p => cases hd
  | packed p => exact params_params hn

theorem def_tplOk (d : StructDef) : (items (defTpl d)).all (tplItemOk (nfOf d) (assocSure (defTpl d))) = true := by
  obtain ⟨ty, name, children, body⟩ := d
  cases body with
  | nonFixed p => exact nf_tplOk
  | packed p => exact pk_tplOk

theorem vars_sub {σ φ} (hlow : ∀ c < 128, σ c = [c]) {jt : Item} {w} (h : w ∈ varsSure jt.stop) :
    w ∈ (match (subItem σ φ jt).stop with
      | .body c => bound [fmt!"let", fmt!"static"] c
      | _ => []) := by
  obtain ⟨hdr, stop⟩ := jt
  cases stop with
  | body c => exact bound_sub hlow h
  | semi => cases h
  | eof => cases h

/-- Every name in the items of a definition stands for something. -/
theorem def_items {d : StructDef} (hs : Sound d) {S : Scope} (h1 : S.std = true) (h2 : S.crate = fmt!"gvariant")
    (hA : ∀ w ∈ bound [fmt!"fn", fmt!"type"] (defF d), w ∈ S.assocs)
    (hk : ∀ c ∈ d.children, Knows S c) (hn : structName d.ty ∈ S.structs) :
    ∀ it ∈ items (defF d), S.item it := by
  have hr := def_ready d
  simp only [ready, Bool.and_eq_true] at hr
  intro it hit
  rw [defF, items_sub (defArgs_clean d) hr.1] at hit
  obtain ⟨t, ht, rfl⟩ := List.mem_map.1 hit
  have hr2 := List.all_eq_true.1 hr.2 t ht
  have hok := List.all_eq_true.1 (def_tplOk d) t ht
  have hA' : ∀ w ∈ assocSure (defTpl d), w ∈ S.assocs := fun w hw => hA w (bound_sub (defArgs_low d) hw)
  simp only [tplItemOk, Bool.and_eq_true] at hok
  simp only [Bool.and_eq_true] at hr2
  have hS1 : Has { S with locals := params (subF (argT (defArgs d)) (argF (defArgs d)) t.hdr),
                          lives := lifetimes (subF (argT (defArgs d)) (argF (defArgs d)) t.hdr) }
      (assocSure (defTpl d)) (paramsSure t.hdr) (livesSure t.hdr) :=
    ⟨h1, h2, hA', fun w hw => params_sub (defArgs_low d) hw, fun w hw => lifetimes_sub (defArgs_low d) hw⟩
  refine ⟨def_all hs hS1 hk hn (fun hp n hl => def_knowsT hp hl) (fun hd hp n hl => def_knowsF hd hp hl) hok.1, ?_⟩
  obtain ⟨hdr, stop⟩ := t
  cases stop with
  | semi => trivial
  | eof => trivial
  | body b =>
    have hi0 : isImpl (subItem (argT (defArgs d)) (argF (defArgs d)) ⟨hdr, .body b⟩).hdr = isImpl hdr :=
      isImpl_sub (defArgs_low d) hr2.1.2
    have hok2 := hok.2
    simp only at hok2 hS1
    by_cases hi : isImpl (subItem (argT (defArgs d)) (argF (defArgs d)) ⟨hdr, .body b⟩).hdr = true
    · refine (if_pos hi).mpr ?_
      rw [hi0] at hi
      rw [if_pos hi] at hok2
      have hr3 := hr2.2
      simp only [hi, Bool.not_true, Bool.false_or, Bool.and_eq_true] at hr3
      intro jt hjt
      rw [items_sub (defArgs_clean d) hr3.1] at hjt
      obtain ⟨j, hj, rfl⟩ := List.mem_map.1 hjt
      have hj2 := List.all_eq_true.1 hok2 j hj
      simp only [Bool.and_eq_true] at hj2
      have hS2 : Has { S with
            locals := params (subF (argT (defArgs d)) (argF (defArgs d)) hdr) ++
              (params (subItem (argT (defArgs d)) (argF (defArgs d)) j).hdr ++
                match (subItem (argT (defArgs d)) (argF (defArgs d)) j).stop with
                | .body c => bound [fmt!"let", fmt!"static"] c
                | _ => []),
            lives := lifetimes (subF (argT (defArgs d)) (argF (defArgs d)) hdr) }
          (assocSure (defTpl d)) (paramsSure hdr ++ (paramsSure j.hdr ++ varsSure j.stop)) (livesSure hdr) := by
        refine ⟨h1, h2, hA', fun w hw => ?_, hS1.lives⟩
        simp only [List.mem_append] at hw ⊢
        exact hw.imp (params_sub (defArgs_low d)) (Or.imp (params_sub (defArgs_low d)) (vars_sub (defArgs_low d)))
      have hT2 : ∀ {x : UInt8} {w : Bytes}, (x ∈ phsIn hdr → w ∈ params (subF (argT (defArgs d)) (argF (defArgs d)) hdr)) →
          (x ∈ phsIn j.hdr → w ∈ params (subF (argT (defArgs d)) (argF (defArgs d)) j.hdr)) →
          x ∈ phsIn hdr ++ phsIn j.hdr → ∀ Z : List Bytes,
          w ∈ params (subF (argT (defArgs d)) (argF (defArgs d)) hdr) ++
              (params (subItem (argT (defArgs d)) (argF (defArgs d)) j).hdr ++ Z) := by
        intro x w ha hb hx Z
        rcases List.mem_append.1 hx with hx | hx
        · exact List.mem_append.2 (Or.inl (ha hx))
        · exact List.mem_append.2 (Or.inr (List.mem_append.2 (Or.inl (hb hx))))
      refine ⟨def_all hs hS2 hk hn (fun hp n hl => hT2 (def_knowsT · hl) (def_knowsT · hl) hp _)
        (fun hd hp n hl => hT2 (def_knowsF hd · hl) (def_knowsF hd · hl) hp _) hj2.1, ?_⟩
      have hj3 := hj2.2
      obtain ⟨jh, js⟩ := j
      cases js with
      | semi => trivial
      | eof => trivial
      | body c =>
        exact def_all hs hS2 hk hn (fun hp n hl => hT2 (def_knowsT · hl) (def_knowsT · hl) hp _)
          (fun hd hp n hl => hT2 (def_knowsF hd · hl) (def_knowsF hd · hl) hp _) hj3
    · refine (if_neg hi).mpr ?_
      rw [hi0] at hi
      rw [if_neg hi] at hok2
      exact def_all hs hS1 hk hn (fun hp n hl => def_knowsT hp hl) (fun hd hp n hl => def_knowsF hd hp hl) hok2

end GV.Props
