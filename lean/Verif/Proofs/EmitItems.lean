import Verif.Proofs.EmitWhole
/-
Structures, implementations and functions in the text of a definition.
-/
namespace GV.Props
open GV Spec

theorem code_of {x : Bytes} {f} (h : Parses x f) : code x = f := by
  unfold code; rw [h.parseText]; rfl

/-- A piece of a format string: plain text, a placeholder, or a name of a structure. -/
inductive Chunk
  | lit (b : Bytes)
  | ph (c : UInt8)
  | nm (c : UInt8)

def Chunk.tpl : Chunk → Bytes
  | .lit b => b
  | .ph c => [c]
  | .nm c => fmt!"Structure" ++ [c]

def Chunk.text (σ : UInt8 → Bytes) : Chunk → Bytes
  | .lit b => b
  | .ph c => σ c
  | .nm c => fmt!"Structure" ++ σ c

def Chunk.plain : Chunk → Bool
  | .lit b => plainW b
  | _ => true

/-- The format string. -/
def chunksTpl (cs : List Chunk) : Bytes := cs.flatMap Chunk.tpl

/-- The filled-in format string. -/
def chunksText (σ : UInt8 → Bytes) : List Chunk → Bytes
  | [] => []
  | [c] => c.text σ
  | c :: cs => c.text σ ++ chunksText σ cs

theorem chunks_fill {σ : UInt8 → Bytes} (hl : ∀ c < 128, σ c = [c]) (cs : List Chunk) (h : cs.all Chunk.plain = true) :
    fill σ (chunksTpl cs) = chunksText σ cs := by
  have h1 : ∀ c : Chunk, c.plain = true → fill σ c.tpl = c.text σ := by
    intro c hc
    cases c with
    | lit b => exact flatMap_plainW hl hc
    | ph c => simp [fill, Chunk.tpl, Chunk.text]
    | nm c =>
      have := flatMap_plainW hl (w := fmt!"Structure") (by decide)
      simp only [fill, Chunk.tpl, Chunk.text, List.flatMap_append, this]
      simp
  induction cs with
  | nil => rfl
  | cons c cs ih =>
    simp only [List.all_cons, Bool.and_eq_true] at h
    have ih := ih h.2
    cases cs with
    | nil => simpa [chunksTpl, chunksText] using h1 c h.1
    | cons c2 cs =>
      have ha : chunksTpl (c :: c2 :: cs) = c.tpl ++ chunksTpl (c2 :: cs) := rfl
      rw [ha, chunksText, ← ih, ← h1 c h.1]
      · simp [fill, List.flatMap_append]
      · intro h; cases h

/-- The trees of a filled-in format string are those of the text. -/
theorem sub_code {xs : List (UInt8 × Bytes × Forest)} (h : ∀ x ∈ xs, ArgOk x) (hl : ∀ c < 128, argT xs c = [c])
    {cs : List Chunk} (hs : ((shape (chunksTpl cs)).isSome && cs.all Chunk.plain) = true) :
    subF (argT xs) (argF xs) (tplF (chunksTpl cs)) = code (chunksText (argT xs) cs) := by
  simp only [Bool.and_eq_true] at hs
  cases hT : shape (chunksTpl cs) with
  | none => rw [hT] at hs; cases hs.1
  | some p =>
    obtain ⟨f, b⟩ := p
    have hf : tplF (chunksTpl cs) = f := by unfold tplF; rw [hT]; rfl
    have := code_of (parses_args xs h hT)
    rw [hf, ← chunks_fill hl cs hs.2]
    exact this.symm

theorem fns_tpl {xs : List (UInt8 × Bytes × Forest)} {F : Forest} {name : Bytes}
    (hl : ∀ c < 128, argT xs c = [c]) (hc : ∀ h, cleanPh h = true → flat (argF xs h) = true) (hr : ready cleanPh F = true)
    (l : List (List Chunk × List Chunk × List Chunk))
    (h : fns name F = l.map fun p => (tplF (chunksTpl p.1), tplF (chunksTpl p.2.1), tplF (chunksTpl p.2.2))) :
    fns name (subF (argT xs) (argF xs) F) = l.map fun p => (subF (argT xs) (argF xs) (tplF (chunksTpl p.1)),
      subF (argT xs) (argF xs) (tplF (chunksTpl p.2.1)), subF (argT xs) (argF xs) (tplF (chunksTpl p.2.2))) := by
  rw [fns_sub hl hc hr, h, List.map_map]
  rfl

theorem typeDefs_tpl {xs : List (UInt8 × Bytes × Forest)} {F : Forest} {name : Bytes}
    (hl : ∀ c < 128, argT xs c = [c]) (hc : ∀ h, cleanPh h = true → flat (argF xs h) = true) (hr : ready cleanPh F = true)
    (l : List (List Chunk × List Chunk))
    (h : typeDefs name F = l.map fun p => (tplF (chunksTpl p.1), tplF (chunksTpl p.2))) :
    typeDefs name (subF (argT xs) (argF xs) F) = l.map fun p => (subF (argT xs) (argF xs) (tplF (chunksTpl p.1)),
      subF (argT xs) (argF xs) (tplF (chunksTpl p.2))) := by
  rw [typeDefs_sub hl hc hr, h, List.map_map]
  rfl

theorem structs_tpl {xs : List (UInt8 × Bytes × Forest)} {F : Forest}
    (hl : ∀ c < 128, argT xs c = [c]) (hc : ∀ h, cleanPh h = true → flat (argF xs h) = true) (hr : ready cleanPh F = true)
    (l : List (List (List Chunk) × List Chunk × List Chunk))
    (h : structs F = l.map fun p => (p.1.map fun x => tplF (chunksTpl x), chunksTpl p.2.1, tplF (chunksTpl p.2.2))) :
    structs (subF (argT xs) (argF xs) F) = l.map fun p => (p.1.map fun x => subF (argT xs) (argF xs) (tplF (chunksTpl x)),
      fill (argT xs) (chunksTpl p.2.1), subF (argT xs) (argF xs) (tplF (chunksTpl p.2.2))) := by
  rw [structs_sub hl hc hr, h, List.map_map]
  refine List.map_congr_left fun p _ => ?_
  simp only [Function.comp, List.map_map]
  rfl

/-! ### Structures of variable size -/

section
variable (ty : Ty) (children : List Ty) (p : NonFixed)

/-- The trees of the text of a structure of variable size. -/
def nfF : Forest := subF (argT (nfArgs ty children p)) (argF (nfArgs ty children p)) nfTrees

theorem nf_low : ∀ c < 128, argT (nfArgs ty children p) c = [c] :=
  defArgs_low ⟨ty, [], children, .nonFixed p⟩

theorem nf_clean : ∀ h, cleanPh h = true → flat (argF (nfArgs ty children p) h) = true :=
  defArgs_clean ⟨ty, [], children, .nonFixed p⟩

set_option maxRecDepth 100000

/-- The trees of the text of a structure of fixed size. -/
def pkF (pk : Packed) : Forest := subF (argT (packedArgs ty children pk)) (argF (packedArgs ty children pk)) packedTrees

theorem pk_low (pk : Packed) : ∀ c < 128, argT (packedArgs ty children pk) c = [c] :=
  defArgs_low ⟨ty, [], children, .packed pk⟩

theorem pk_clean (pk : Packed) : ∀ h, cleanPh h = true → flat (argF (packedArgs ty children pk) h) = true :=
  defArgs_clean ⟨ty, [], children, .packed pk⟩

theorem nf_fn {name : Bytes} (l : List (List Chunk × List Chunk × List Chunk))
    (h : fns name nfTrees = l.map fun q => (tplF (chunksTpl q.1), tplF (chunksTpl q.2.1), tplF (chunksTpl q.2.2))) :
    fns name (nfF ty children p) = l.map fun q =>
      (subF (argT (nfArgs ty children p)) (argF (nfArgs ty children p)) (tplF (chunksTpl q.1)),
      subF (argT (nfArgs ty children p)) (argF (nfArgs ty children p)) (tplF (chunksTpl q.2.1)),
      subF (argT (nfArgs ty children p)) (argF (nfArgs ty children p)) (tplF (chunksTpl q.2.2))) :=
  fns_tpl (nf_low ty children p) (nf_clean ty children p) nf_ready l h

theorem nf_type {name : Bytes} (l : List (List Chunk × List Chunk))
    (h : typeDefs name nfTrees = l.map fun q => (tplF (chunksTpl q.1), tplF (chunksTpl q.2))) :
    typeDefs name (nfF ty children p) = l.map fun q =>
      (subF (argT (nfArgs ty children p)) (argF (nfArgs ty children p)) (tplF (chunksTpl q.1)),
      subF (argT (nfArgs ty children p)) (argF (nfArgs ty children p)) (tplF (chunksTpl q.2))) :=
  typeDefs_tpl (nf_low ty children p) (nf_clean ty children p) nf_ready l h

theorem nf_code {cs : List Chunk} (hs : ((shape (chunksTpl cs)).isSome && cs.all Chunk.plain) = true) :
    subF (argT (nfArgs ty children p)) (argF (nfArgs ty children p)) (tplF (chunksTpl cs)) = code (chunksText (argT (nfArgs ty children p)) cs) :=
  sub_code (nfArgs_ok _ _ _) (nf_low ty children p) hs

theorem pk_fn (pk : Packed) {name : Bytes} (l : List (List Chunk × List Chunk × List Chunk))
    (h : fns name packedTrees = l.map fun q => (tplF (chunksTpl q.1), tplF (chunksTpl q.2.1), tplF (chunksTpl q.2.2))) :
    fns name (pkF ty children pk) = l.map fun q =>
      (subF (argT (packedArgs ty children pk)) (argF (packedArgs ty children pk)) (tplF (chunksTpl q.1)),
      subF (argT (packedArgs ty children pk)) (argF (packedArgs ty children pk)) (tplF (chunksTpl q.2.1)),
      subF (argT (packedArgs ty children pk)) (argF (packedArgs ty children pk)) (tplF (chunksTpl q.2.2))) :=
  fns_tpl (pk_low ty children pk) (pk_clean ty children pk) packed_ready l h

theorem pk_type (pk : Packed) {name : Bytes} (l : List (List Chunk × List Chunk))
    (h : typeDefs name packedTrees = l.map fun q => (tplF (chunksTpl q.1), tplF (chunksTpl q.2))) :
    typeDefs name (pkF ty children pk) = l.map fun q =>
      (subF (argT (packedArgs ty children pk)) (argF (packedArgs ty children pk)) (tplF (chunksTpl q.1)),
      subF (argT (packedArgs ty children pk)) (argF (packedArgs ty children pk)) (tplF (chunksTpl q.2))) :=
  typeDefs_tpl (pk_low ty children pk) (pk_clean ty children pk) packed_ready l h

theorem pk_code (pk : Packed) {cs : List Chunk} (hs : ((shape (chunksTpl cs)).isSome && cs.all Chunk.plain) = true) :
    subF (argT (packedArgs ty children pk)) (argF (packedArgs ty children pk)) (tplF (chunksTpl cs)) = code (chunksText (argT (packedArgs ty children pk)) cs) :=
  sub_code (packedArgs_ok _ _ _) (pk_low ty children pk) hs

theorem nf_structs : structs (nfF ty children p) = [([code fmt!"repr(transparent)"], structName ty,
    code (fmt!"data: AlignedSlice<aligned_bytes::A" ++ (decText (alignOf ty) ++ fmt!">,")))] := by
  have h := structs_tpl (nf_low ty children p) (nf_clean ty children p) nf_ready
    [([[.lit fmt!"repr(transparent)"]], [.nm (ph! "spec")],
      [.lit fmt!"data: AlignedSlice<aligned_bytes::A", .ph (ph! "alignment"), .lit fmt!">,"])]
    (by decide +kernel)
  simp only [List.map_cons, List.map_nil] at h
  rw [nf_code ty children p (by decide +kernel), nf_code ty children p (by decide +kernel),
    chunks_fill (nf_low ty children p) _ (by decide)] at h
  exact h

theorem nf_from_mut : fns fmt!"from_aligned_slice_mut" (nfF ty children p) =
    [(code (fmt!"impl " ++ structName ty),
      code fmt!"fn from_aligned_slice_mut(slice: &mut AlignedSlice<<Self as AlignOf>::AlignOf>) -> &mut Self",
      code (fmt!"unsafe {{&mut *(slice as *mut AlignedSlice<aligned_bytes::A" ++ (decText (alignOf ty) ++ (fmt!"> as *mut " ++ (structName ty ++ fmt!")}}")))))] := by
  have h := nf_fn ty children p (name := fmt!"from_aligned_slice_mut")
    [([.lit fmt!"impl ", .nm (ph! "spec")],
      [.lit fmt!"fn from_aligned_slice_mut(slice: &mut AlignedSlice<<Self as AlignOf>::AlignOf>) -> &mut Self"],
      [.lit fmt!"unsafe {{&mut *(slice as *mut AlignedSlice<aligned_bytes::A", .ph (ph! "alignment"), .lit fmt!"> as *mut ", .nm (ph! "spec"), .lit fmt!")}}"])]
    (by decide +kernel)
  simp only [List.map_cons, List.map_nil] at h
  rw [nf_code ty children p (by decide +kernel), nf_code ty children p (by decide +kernel),
    nf_code ty children p (by decide +kernel)] at h
  exact h

theorem nf_to_owned : fns fmt!"to_owned" (nfF ty children p) =
    [(code (fmt!"impl ToOwned for " ++ structName ty),
      code fmt!"fn to_owned(&self) -> Self::Owned",
      code fmt!"Owned::from_bytes(&*self.data)")] := by
  have h := nf_fn ty children p (name := fmt!"to_owned")
    [([.lit fmt!"impl ToOwned for ", .nm (ph! "spec")],
      [.lit fmt!"fn to_owned(&self) -> Self::Owned"],
      [.lit fmt!"Owned::from_bytes(&*self.data)"])]
    (by decide +kernel)
  simp only [List.map_cons, List.map_nil] at h
  rw [nf_code ty children p (by decide +kernel), nf_code ty children p (by decide +kernel),
    nf_code ty children p (by decide +kernel)] at h
  exact h

theorem nf_default_ref : fns fmt!"default_ref" (nfF ty children p) =
    [(code (fmt!"impl ::gvariant::Cast for " ++ structName ty),
      code fmt!"fn default_ref() -> &'static Self",
      code (fmt!"let d = empty_aligned(); unsafe {{&*(d as *const AlignedSlice<aligned_bytes::A" ++ (decText (alignOf ty) ++ (fmt!"> as *const " ++ (structName ty ++ fmt!")}}")))))] := by
  have h := nf_fn ty children p (name := fmt!"default_ref")
    [([.lit fmt!"impl ::gvariant::Cast for ", .nm (ph! "spec")],
      [.lit fmt!"fn default_ref() -> &'static Self"],
      [.lit fmt!"let d = empty_aligned(); unsafe {{&*(d as *const AlignedSlice<aligned_bytes::A", .ph (ph! "alignment"), .lit fmt!"> as *const ", .nm (ph! "spec"), .lit fmt!")}}"])]
    (by decide +kernel)
  simp only [List.map_cons, List.map_nil] at h
  rw [nf_code ty children p (by decide +kernel), nf_code ty children p (by decide +kernel),
    nf_code ty children p (by decide +kernel)] at h
  exact h

theorem nf_try_from : fns fmt!"try_from_aligned_slice" (nfF ty children p) =
    [(code (fmt!"impl ::gvariant::Cast for " ++ structName ty),
      code fmt!"fn try_from_aligned_slice(slice:&AlignedSlice<Self::AlignOf>) -> Result<&Self, ::gvariant::casting::WrongSize>",
      code (fmt!"Ok(unsafe {{&*(slice as *const AlignedSlice<aligned_bytes::A" ++ (decText (alignOf ty) ++ (fmt!"> as *const " ++ (structName ty ++ fmt!")}})")))))] := by
  have h := nf_fn ty children p (name := fmt!"try_from_aligned_slice")
    [([.lit fmt!"impl ::gvariant::Cast for ", .nm (ph! "spec")],
      [.lit fmt!"fn try_from_aligned_slice(slice:&AlignedSlice<Self::AlignOf>) -> Result<&Self, ::gvariant::casting::WrongSize>"],
      [.lit fmt!"Ok(unsafe {{&*(slice as *const AlignedSlice<aligned_bytes::A", .ph (ph! "alignment"), .lit fmt!"> as *const ", .nm (ph! "spec"), .lit fmt!")}})"])]
    (by decide +kernel)
  simp only [List.map_cons, List.map_nil] at h
  rw [nf_code ty children p (by decide +kernel), nf_code ty children p (by decide +kernel),
    nf_code ty children p (by decide +kernel)] at h
  exact h

theorem nf_try_from_mut : fns fmt!"try_from_aligned_slice_mut" (nfF ty children p) =
    [(code (fmt!"impl ::gvariant::Cast for " ++ structName ty),
      code fmt!"fn try_from_aligned_slice_mut(slice:&mut AlignedSlice<Self::AlignOf>) -> Result<&mut Self, ::gvariant::casting::WrongSize>",
      code fmt!"Ok(Self::from_aligned_slice_mut(slice))")] := by
  have h := nf_fn ty children p (name := fmt!"try_from_aligned_slice_mut")
    [([.lit fmt!"impl ::gvariant::Cast for ", .nm (ph! "spec")],
      [.lit fmt!"fn try_from_aligned_slice_mut(slice:&mut AlignedSlice<Self::AlignOf>) -> Result<&mut Self, ::gvariant::casting::WrongSize>"],
      [.lit fmt!"Ok(Self::from_aligned_slice_mut(slice))"])]
    (by decide +kernel)
  simp only [List.map_cons, List.map_nil] at h
  rw [nf_code ty children p (by decide +kernel), nf_code ty children p (by decide +kernel),
    nf_code ty children p (by decide +kernel)] at h
  exact h

theorem nf_eq : fns fmt!"eq" (nfF ty children p) =
    [(code (fmt!"impl PartialEq for " ++ structName ty),
      code fmt!"fn eq(&self, other: &Self) -> bool",
      code fmt!"self.to_tuple() == other.to_tuple()")] := by
  have h := nf_fn ty children p (name := fmt!"eq")
    [([.lit fmt!"impl PartialEq for ", .nm (ph! "escaped")],
      [.lit fmt!"fn eq(&self, other: &Self) -> bool"],
      [.lit fmt!"self.to_tuple() == other.to_tuple()"])]
    (by decide +kernel)
  simp only [List.map_cons, List.map_nil] at h
  rw [nf_code ty children p (by decide +kernel), nf_code ty children p (by decide +kernel),
    nf_code ty children p (by decide +kernel)] at h
  exact h

theorem nf_fmt : fns fmt!"fmt" (nfF ty children p) =
    [(code (fmt!"impl std::fmt::Debug for " ++ structName ty),
      code fmt!"fn fmt(&self, f: &mut std::fmt::Formatter<'_>) -> std::fmt::Result",
      code fmt!"std::fmt::Debug::fmt(&self.to_tuple(), f)")] := by
  have h := nf_fn ty children p (name := fmt!"fmt")
    [([.lit fmt!"impl std::fmt::Debug for ", .nm (ph! "escaped")],
      [.lit fmt!"fn fmt(&self, f: &mut std::fmt::Formatter<'_>) -> std::fmt::Result"],
      [.lit fmt!"std::fmt::Debug::fmt(&self.to_tuple(), f)"])]
    (by decide +kernel)
  simp only [List.map_cons, List.map_nil] at h
  rw [nf_code ty children p (by decide +kernel), nf_code ty children p (by decide +kernel),
    nf_code ty children p (by decide +kernel)] at h
  exact h

theorem nf_alignOf : typeDefs fmt!"AlignOf" (nfF ty children p) =
    [(code (fmt!"unsafe impl ::gvariant::casting::AlignOf for " ++ structName ty), code (fmt!"aligned_bytes::A" ++ decText (alignOf ty)))] := by
  have h := nf_type ty children p (name := fmt!"AlignOf")
    [([.lit fmt!"unsafe impl ::gvariant::casting::AlignOf for ", .nm (ph! "spec")], [.lit fmt!"aligned_bytes::A", .ph (ph! "alignment")])]
    (by decide +kernel)
  simp only [List.map_cons, List.map_nil] at h
  rw [nf_code ty children p (by decide +kernel), nf_code ty children p (by decide +kernel)] at h
  exact h

theorem nf_owned : typeDefs fmt!"Owned" (nfF ty children p) =
    [(code (fmt!"impl ToOwned for " ++ structName ty), code fmt!"Owned<Self>")] := by
  have h := nf_type ty children p (name := fmt!"Owned")
    [([.lit fmt!"impl ToOwned for ", .nm (ph! "spec")], [.lit fmt!"Owned<Self>"])]
    (by decide +kernel)
  simp only [List.map_cons, List.map_nil] at h
  rw [nf_code ty children p (by decide +kernel), nf_code ty children p (by decide +kernel)] at h
  exact h

/-! ### Structures of fixed size -/

theorem pk_try_from (pk : Packed) : fns fmt!"try_from_aligned_slice" (pkF ty children pk) =
    [(code (fmt!"impl ::gvariant::Cast for " ++ structName ty),
      code fmt!"fn try_from_aligned_slice(slice:&::gvariant::aligned_bytes::AlignedSlice<Self::AlignOf>) -> Result<&Self, ::gvariant::casting::WrongSize>",
      code fmt!"::gvariant::casting::try_cast_slice_to::<Self>(slice)")] := by
  have h := pk_fn ty children pk (name := fmt!"try_from_aligned_slice")
    [([.lit fmt!"impl ::gvariant::Cast for ", .nm (ph! "escaped")],
      [.lit fmt!"fn try_from_aligned_slice(slice:&::gvariant::aligned_bytes::AlignedSlice<Self::AlignOf>) -> Result<&Self, ::gvariant::casting::WrongSize>"],
      [.lit fmt!"::gvariant::casting::try_cast_slice_to::<Self>(slice)"])]
    (by decide +kernel)
  simp only [List.map_cons, List.map_nil] at h
  rw [pk_code ty children pk (by decide +kernel), pk_code ty children pk (by decide +kernel),
    pk_code ty children pk (by decide +kernel)] at h
  exact h

theorem pk_try_from_mut (pk : Packed) : fns fmt!"try_from_aligned_slice_mut" (pkF ty children pk) =
    [(code (fmt!"impl ::gvariant::Cast for " ++ structName ty),
      code fmt!"fn try_from_aligned_slice_mut(slice:&mut ::gvariant::aligned_bytes::AlignedSlice<Self::AlignOf>) -> Result<&mut Self, ::gvariant::casting::WrongSize>",
      code fmt!"::gvariant::casting::try_cast_slice_to_mut::<Self>(slice)")] := by
  have h := pk_fn ty children pk (name := fmt!"try_from_aligned_slice_mut")
    [([.lit fmt!"impl ::gvariant::Cast for ", .nm (ph! "escaped")],
      [.lit fmt!"fn try_from_aligned_slice_mut(slice:&mut ::gvariant::aligned_bytes::AlignedSlice<Self::AlignOf>) -> Result<&mut Self, ::gvariant::casting::WrongSize>"],
      [.lit fmt!"::gvariant::casting::try_cast_slice_to_mut::<Self>(slice)"])]
    (by decide +kernel)
  simp only [List.map_cons, List.map_nil] at h
  rw [pk_code ty children pk (by decide +kernel), pk_code ty children pk (by decide +kernel),
    pk_code ty children pk (by decide +kernel)] at h
  exact h

theorem pk_fmt (pk : Packed) : fns fmt!"fmt" (pkF ty children pk) =
    [(code (fmt!"impl std::fmt::Debug for " ++ structName ty),
      code fmt!"fn fmt(&self, f: &mut std::fmt::Formatter<'_>) -> std::fmt::Result",
      code fmt!"std::fmt::Debug::fmt(&self.to_tuple(), f)")] := by
  have h := pk_fn ty children pk (name := fmt!"fmt")
    [([.lit fmt!"impl std::fmt::Debug for ", .nm (ph! "escaped")],
      [.lit fmt!"fn fmt(&self, f: &mut std::fmt::Formatter<'_>) -> std::fmt::Result"],
      [.lit fmt!"std::fmt::Debug::fmt(&self.to_tuple(), f)"])]
    (by decide +kernel)
  simp only [List.map_cons, List.map_nil] at h
  rw [pk_code ty children pk (by decide +kernel), pk_code ty children pk (by decide +kernel),
    pk_code ty children pk (by decide +kernel)] at h
  exact h

theorem pk_alignOf (pk : Packed) : typeDefs fmt!"AlignOf" (pkF ty children pk) =
    [(code (fmt!"unsafe impl ::gvariant::casting::AlignOf for " ++ structName ty), code (fmt!"::gvariant::aligned_bytes::A" ++ decText (alignOf ty)))] := by
  have h := pk_type ty children pk (name := fmt!"AlignOf")
    [([.lit fmt!"unsafe impl ::gvariant::casting::AlignOf for ", .nm (ph! "escaped")], [.lit fmt!"::gvariant::aligned_bytes::A", .ph (ph! "align")])]
    (by decide +kernel)
  simp only [List.map_cons, List.map_nil] at h
  rw [pk_code ty children pk (by decide +kernel), pk_code ty children pk (by decide +kernel)] at h
  exact h

end
end GV.Props
