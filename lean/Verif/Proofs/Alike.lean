import Verif.Model.Ser
import Verif.Proofs.Children
import Verif.Proofs.EncLen
import Verif.Spec.Alike
/-
Types whose values look the same in bytes are read and written alike.
-/
namespace GV
open Spec

theorem canons_eq (ts : List Ty) : canons ts = ts.map canon := by
  induction ts with
  | nil => rfl
  | cons t ts ih => simp [canons, ih]

theorem align_canon (t : Ty) : Spec.align (canon t) = Spec.align t := by
  induction t using Ty.ind with
  | a e ih => simpa only [canon, Spec.align] using ih
  | m e ih => simpa only [canon, Spec.align] using ih
  | tuple ts ih =>
    simp only [canon, Spec.align]
    induction ts with
    | nil => rfl
    | cons t ts ihl =>
      simp only [canons, alignMax, ih t (by simp), ihl fun u hu => ih u (by simp [hu])]
  | dict k v ihk ihv => rw [align_dict_eq]; simp only [canon, Spec.align, alignMax, ihk, ihv]
  | _ => rfl

theorem size_canon (t : Ty) : size (canon t) = size t := by
  induction t using Ty.ind with
  | a e ih => rfl
  | m e ih => rfl
  | tuple ts ih =>
    have h1 : alignMax (canons ts) = alignMax ts := by
      have := align_canon (.tuple ts)
      simpa only [canon, Spec.align] using this
    have h2 : ∀ pos, endAfter pos (canons ts) = endAfter pos ts := by
      clear h1
      induction ts with
      | nil => intro pos; rfl
      | cons t ts ihl =>
        intro pos
        simp only [canons, endAfter, ih t (by simp), align_canon, ihl fun u hu => ih u (by simp [hu])]
    have h3 : canons ts = [] ↔ ts = [] := by rw [canons_eq]; simp
    simp only [canon, size, h1, h2, h3]
  | dict k v ihk ihv => rw [size_dict_eq]; simp only [canon, size, endAfter, alignMax, align_canon, ihk, ihv]; simp
  | _ => rfl

theorem alignOf_canon (t : Ty) : alignOf (canon t) = alignOf t := by rw [alignOf_eq, alignOf_eq, align_canon]

theorem sizeOf_canon (t : Ty) : sizeOf (canon t) = sizeOf t := by rw [sizeOf_eq, sizeOf_eq, size_canon]

/-! ### Generated code -/

theorem tableLoop_canon (ts : List Ty) : ∀ r, tableLoop r (canons ts) = tableLoop r ts := by
  induction ts with
  | nil => intro r; rfl
  | cons t ts ih =>
    intro r
    obtain ⟨i, a, b, c⟩ := r
    simp only [canons, tableLoop, alignOf_canon, sizeOf_canon, ih]

theorem packedLoop_canon (ts : List Ty) : ∀ (rows : List Row) (n e : Nat),
    packedLoop n e ((canons ts).zip rows) = packedLoop n e (ts.zip rows) := by
  induction ts with
  | nil => intro rows n e; rfl
  | cons t ts ih =>
    intro rows n e
    cases rows with
    | nil => rfl
    | cons r rows => simp only [canons, List.zip_cons_cons, packedLoop, sizeOf_canon, ih]

theorem writePacked_canon {gv gv' : Ty} (h : sizeOf gv' = sizeOf gv) (ts : List Ty) :
    writePackedStruct gv' (canons ts) = writePackedStruct gv ts := by
  simp only [writePackedStruct, generateTable, tableLoop_canon, packedLoop_canon, h]

theorem sizeOf_dict_canon (k v : Ty) : sizeOf (.tuple [canon k, canon v]) = sizeOf (.dict k v) :=
  sizeOf_canon (.dict k v)

theorem rustLayouts_pair {k v : Ty} : rustLayouts [k, v] = (do
    let lk ← rustLayout k
    let lv ← rustLayout v
    pure [lk, lv]) := by
  simp only [rustLayouts]
  cases rustLayout k with
  | fail f => rfl
  | ok a => cases rustLayout v <;> rfl

theorem rustLayout_canon (t : Ty) : rustLayout (canon t) = rustLayout t := by
  induction t using Ty.ind with
  | tuple ts ih =>
    have h2 : rustLayouts (canons ts) = rustLayouts ts := by
      induction ts with
      | nil => rfl
      | cons t ts ihl => simp only [canons, rustLayouts, ih t (by simp), ihl fun u hu => ih u (by simp [hu])]
    have h1 := writePacked_canon (sizeOf_canon (.tuple ts)) ts
    simp only [canon] at h1
    simp only [canon, rustLayout, h1, h2]
  | dict k v ihk ihv =>
    have h1 := writePacked_canon (sizeOf_canon (.dict k v)) [k, v]
    simp only [canon, canons] at h1
    simp only [canon, rustLayout, h1, rustLayouts_pair, ihk, ihv]
    cases writePackedStruct (.dict k v) [k, v] with
    | fail f => rfl
    | ok p => cases rustLayout k with
      | fail f => rfl
      | ok a => cases rustLayout v <;> rfl
  | _ => rfl

theorem rustLayouts_canon (ts : List Ty) : rustLayouts (canons ts) = rustLayouts ts := by
  induction ts with
  | nil => rfl
  | cons t ts ih => simp only [canons, rustLayouts, rustLayout_canon, ih]

theorem fieldOffsets_canon {gv gv' : Ty} (h : sizeOf gv' = sizeOf gv) (ts : List Ty) :
    fieldOffsets gv' (canons ts) = fieldOffsets gv ts := by
  simp only [fieldOffsets, writePacked_canon h, rustLayouts_canon]

theorem nFrameOffsets_canon (ts : List Ty) : nFrameOffsets (canons ts) = nFrameOffsets ts := by
  have h1 : ((canons ts).filter fun x => (sizeOf x).isNone).length = (ts.filter fun x => (sizeOf x).isNone).length := by
    induction ts with
    | nil => rfl
    | cons t ts ih =>
      simp only [canons, List.filter_cons, sizeOf_canon]
      split <;> simp [ih]
  have h2 : (canons ts).getLast? = ts.getLast?.map canon := by rw [canons_eq, List.getLast?_map]
  simp only [nFrameOffsets, h1, h2]
  cases ts.getLast? with
  | none => rfl
  | some l => simp only [Option.map_some, sizeOf_canon]

theorem serLoop_canon (nfo : Nat) (ts : List Ty) : ∀ n b o k, serLoop nfo n b o k (canons ts) = serLoop nfo n b o k ts := by
  induction ts with
  | nil => intro n b o k; rfl
  | cons t ts ih =>
    intro n b o k
    have h : (canons ts).isEmpty = ts.isEmpty := by rw [canons_eq]; cases ts <;> rfl
    simp only [canons, serLoop, h, alignOf_canon, sizeOf_canon, ih]

theorem writeNonFixed_canon (ts : List Ty) : writeNonFixedSizeStructure (canons ts) = writeNonFixedSizeStructure ts := by
  simp only [writeNonFixedSizeStructure, nFrameOffsets_canon, serLoop_canon, generateTable, tableLoop_canon]

/-! ### Reading -/

theorem tryCast_canon (c : Cfg) (t : Ty) (s : Slice) : tryCastSliceTo c (canon t) s = tryCastSliceTo c t s := by
  simp only [tryCastSliceTo, rustLayout_canon]

theorem castSlice_canon (c : Cfg) (al : Nat) (t : Ty) (s : Slice) : castSlice c al (canon t) s = castSlice c al t s := by
  simp only [castSlice, rustLayout_canon]

theorem tryFrom_canon (c : Cfg) (t : Ty) (s : Slice) : tryFromAligned c (canon t) s = tryFromAligned c t s := by
  simp only [tryFromAligned, sizeOf_canon, tryCast_canon]
  cases sizeOf t with
  | some n => rfl
  | none =>
    cases t with
    | A e => simp only [canon, sizeOf_canon, castSlice_canon, alignOf, alignOf_canon]
    | _ => rfl

theorem defaultRef_canon (c : Cfg) (t : Ty) : defaultRef c (canon t) = defaultRef c t := by
  simp only [defaultRef, sizeOf_canon, rustLayout_canon]
  cases sizeOf t with
  | some n => rfl
  | none =>
    have h := alignOf_canon t
    cases t with
    | A e => simp only [canon, sizeOf_canon, rustLayout_canon, alignOf, alignOf_canon]
    | M e => simp only [canon, alignOf, alignOf_canon]
    | tuple ts => simp only [canon] at h ⊢; rw [h]
    | dict k v => simp only [canon] at h ⊢; rw [h]
    | _ => rfl

theorem fromAligned_canon (c : Cfg) (t : Ty) (s : Slice) : fromAligned c (canon t) s = fromAligned c t s := by
  simp only [fromAligned, tryFrom_canon, defaultRef_canon]

theorem iterNext_canon (c : Cfg) (e : Ty) (it : ArrIter) : iterNext c (canon e) it = iterNext c e it := by
  simp only [iterNext, alignOf_canon, tryFrom_canon]

theorem collectIter_canon (c : Cfg) (e : Ty) (fuel : Nat) : ∀ it, collectIter c (canon e) fuel it = collectIter c e fuel it := by
  induction fuel with
  | zero => intro it; rfl
  | succ fuel ih =>
    intro it
    simp only [collectIter, iterNext_canon]
    cases iterNext c e it with
    | fail f => rfl
    | ok p =>
      obtain ⟨o, it'⟩ := p
      cases o with
      | none => rfl
      | some r => simp only [Res.bind_ok, ih]

theorem arrRefs_canon (c : Cfg) (e : Ty) (s : Slice) : arrRefs c (canon e) s = arrRefs c e s := by
  simp only [arrRefs, sizeOf_canon, rustLayout_canon, intoIter, alignOf_canon, collectIter_canon]

theorem toOption_canon (c : Cfg) (e : Ty) (s : Slice) : toOption c (canon e) s = toOption c e s := by
  simp only [toOption, sizeOf_canon, alignOf_canon, tryFrom_canon]

theorem getChild_canon (c : Cfg) (t : Ty) (s : Slice) (row : Row) (l : Bool) (n : Nat) :
    getChildElem c (canon t) s row l n = getChildElem c t s row l n := by
  simp only [getChildElem, alignOf_canon, sizeOf_canon, fromAligned_canon, defaultRef_canon]

theorem memberRefs_canon (c : Cfg) (s : Slice) (n : Nat) (ts : List Ty) : ∀ rows, memberRefs c s n (canons ts) rows = memberRefs c s n ts rows := by
  induction ts with
  | nil => intro rows; cases rows <;> rfl
  | cons t ts ih =>
    intro rows
    cases rows with
    | nil => rfl
    | cons row rows =>
      have h : (canons ts).isEmpty = ts.isEmpty := by rw [canons_eq]; cases ts <;> rfl
      simp only [canons, memberRefs, getChild_canon, ih, h]

theorem tupRefs_canon (c : Cfg) {gv gv' : Ty} (h : sizeOf gv' = sizeOf gv) (ts : List Ty) (s : Slice) :
    tupRefs c gv' (canons ts) s = tupRefs c gv ts s := by
  simp only [tupRefs, h, fieldOffsets_canon h, rustLayouts_canon, writeNonFixed_canon, memberRefs_canon]

theorem viewAll_canon {c : Cfg} (ts : List Ty) : (∀ t ∈ ts, ∀ r, view c (canon t) r = view c t r) → ∀ rs,
    viewAll c (canons ts) rs = viewAll c ts rs := by
  induction ts with
  | nil => intro _ rs; cases rs <;> rfl
  | cons t ts ih =>
    intro h rs
    cases rs with
    | nil => rfl
    | cons r rs => simp only [canons, viewAll, h t (by simp), ih fun u hu => h u (by simp [hu])]

/-- Number of members among the fields. -/
def memCount : List Field → Nat
  | [] => 0
  | .pad _ :: fs => memCount fs
  | .mem _ :: fs => memCount fs + 1

theorem memCount_pad (fs : List Field) (n : Nat) : memCount (fs ++ [.pad n]) = memCount fs := by
  induction fs with
  | nil => rfl
  | cons f fs ih => cases f <;> simp [memCount, ih]

theorem packedLoop_mems (l : List (Ty × Row)) : ∀ (n e : Nat) (p : Packed) (e' : Nat), packedLoop n e l = .ok (p, e') →
    memCount p.fields = l.length := by
  induction l with
  | nil => intro n e p e' h; cases h; rfl
  | cons x l ih =>
    intro n e p e' h
    obtain ⟨child, row⟩ := x
    simp only [packedLoop, Res.bind_eq_ok] at h
    obtain ⟨size, _, h⟩ := h
    split at h
    · cases h
    · obtain ⟨⟨out, e1⟩, h1, h⟩ := Res.bind_eq_ok.1 h
      have := ih _ _ _ _ h1
      simp only at h
      split at h <;> cases h <;> simp [memCount, this]

theorem writePacked_mems {gv : Ty} {ts : List Ty} {p : Packed} (h : writePackedStruct gv ts = .ok p) :
    memCount p.fields = ts.length := by
  simp only [writePackedStruct, Res.bind_eq_ok] at h
  obtain ⟨⟨out, e⟩, h1, size, _, h⟩ := h
  have h2 := packedLoop_mems _ _ _ _ _ h1
  have h3 : (generateTable ts).length = ts.length := (tableLoop_aligned ts ⟨-1, 0, 1, 0⟩ (Or.inl rfl)).1
  rw [List.length_zip, h3, Nat.min_self] at h2
  simp only at h
  split at h
  · cases h
  · split at h <;> cases h <;> simp [memCount_pad, h2]

theorem rustLayouts_len (ts : List Ty) : ∀ ls, rustLayouts ts = .ok ls → ls.length = ts.length := by
  induction ts with
  | nil => intro ls h; cases h; rfl
  | cons t ts ih =>
    intro ls h
    simp only [rustLayouts, Res.bind_eq_ok] at h
    obtain ⟨l, _, ls', h1, h2⟩ := h
    cases h2
    simp [ih ls' h1]

theorem fieldLayouts_len (ms : List (Nat × Nat)) (fs : List Field) : ∀ ls, fieldLayouts ms fs = .ok ls → ls.length = fs.length := by
  induction fs with
  | nil => intro ls h; cases h; rfl
  | cons f fs ih =>
    intro ls h
    cases f with
    | pad n =>
      simp only [fieldLayouts, Res.bind_eq_ok] at h
      obtain ⟨ls', h1, h2⟩ := h
      cases h2
      simp [ih ls' h1]
    | mem k =>
      simp only [fieldLayouts, Res.bind_eq_ok] at h
      obtain ⟨l, _, ls', h1, h2⟩ := h
      cases h2
      simp [ih ls' h1]

theorem reprC_len (fs : List (Nat × Nat)) : ∀ pos, (reprCLoop pos fs).1.length = fs.length := by
  induction fs with
  | nil => intro pos; rfl
  | cons f fs ih => intro pos; obtain ⟨a, b⟩ := f; simp [reprCLoop, ih]

theorem memberOffsets_len (fs : List Field) : ∀ os : List Nat, os.length = fs.length → (memberOffsets fs os).length = memCount fs := by
  induction fs with
  | nil => intro os _; cases os <;> rfl
  | cons f fs ih =>
    intro os h
    cases os with
    | nil => simp at h
    | cons o os => cases f <;> simp [memberOffsets, memCount, ih os (by simpa using h)]

theorem fieldOffsets_len {gv : Ty} {ts : List Ty} {os : List Nat} (h : fieldOffsets gv ts = .ok os) : os.length = ts.length := by
  simp only [fieldOffsets, Res.bind_eq_ok] at h
  obtain ⟨p, h1, ls, h2, fs, h3, h4⟩ := h
  cases h4
  rw [memberOffsets_len _ _ (by rw [reprC_len, fieldLayouts_len _ _ _ h3]), writePacked_mems h1]

theorem fieldRefs_len (s : Slice) (os : List Nat) : ∀ ns, (fieldRefs s os ns).length = min os.length ns.length := by
  induction os with
  | nil => intro ns; simp [fieldRefs]
  | cons o os ih => intro ns; cases ns <;> simp [fieldRefs, ih]

theorem memberRefs_len {c : Cfg} {s : Slice} {nfo : Nat} (ts : List Ty) : ∀ (rows : List Row) (rs : List Slice),
    rows.length = ts.length → memberRefs c s nfo ts rows = .ok rs → rs.length = ts.length := by
  induction ts with
  | nil => intro rows rs _ h; cases rows <;> cases h <;> rfl
  | cons t ts ih =>
    intro rows rs hl h
    cases rows with
    | nil => simp at hl
    | cons r rows =>
      simp only [memberRefs, Res.bind_eq_ok] at h
      obtain ⟨x, _, xs, h1, h2⟩ := h
      cases h2
      simp [ih rows xs (by simpa using hl) h1]

theorem tupRefs_len {c : Cfg} {gv : Ty} {ts : List Ty} {s : Slice} {rs : List Slice} (h : tupRefs c gv ts s = .ok rs) :
    rs.length = ts.length := by
  unfold tupRefs at h
  split at h
  · simp only [Res.bind_eq_ok] at h
    obtain ⟨os, h1, ls, h2, h3⟩ := h
    cases h3
    rw [fieldRefs_len, List.length_map, fieldOffsets_len h1, rustLayouts_len _ _ h2, Nat.min_self]
  · simp only [writeNonFixedSizeStructure, Res.bind_eq_ok] at h
    obtain ⟨p, ⟨cmds, _, h1⟩, h2⟩ := h
    cases h1
    exact memberRefs_len ts _ rs (tableLoop_aligned ts ⟨-1, 0, 1, 0⟩ (Or.inl rfl)).1 h2

theorem view_canon (c : Cfg) (t : Ty) : ∀ r, view c (canon t) r = view c t r := by
  induction t using Ty.ind with
  | a e ih =>
    intro r
    have : view c (canon e) = view c e := funext ih
    simp only [canon, view, arrRefs_canon, this]
  | m e ih =>
    intro r
    simp only [canon, view, toOption_canon, ih]
  | tuple ts ih =>
    intro r
    have h1 := tupRefs_canon c (sizeOf_canon (.tuple ts)) ts r
    simp only [canon] at h1
    simp only [canon, view, h1, viewAll_canon ts ih]
  | dict k v ihk ihv =>
    intro r
    have h1 := tupRefs_canon c (sizeOf_canon (.dict k v)) [k, v] r
    simp only [canon, canons] at h1
    simp only [canon, view, h1]
    cases hr : tupRefs c (.dict k v) [k, v] r with
    | fail f => rfl
    | ok rs =>
      have hl := tupRefs_len hr
      match rs, hl with
      | [a, b], _ =>
        simp only [Res.bind_ok, viewAll, ihk, ihv]
        cases view c k a with
        | fail f => rfl
        | ok x => cases view c v b <;> rfl
  | _ => intro r; rfl

theorem readAs_canon (c : Cfg) (t : Ty) (s : Slice) : readAs c (canon t) s = readAs c t s := by
  have : view c (canon t) = view c t := funext (view_canon c t)
  simp only [readAs, fromAligned_canon, this]

/-! ### Writing -/

theorem generate_canon {gv gv' : Ty} (h : sizeOf gv' = sizeOf gv) (ts : List Ty) :
    (do let d ← generateTuple gv' (canons ts); pure d.body) = (do let d ← generateTuple gv ts; pure d.body) := by
  simp only [generateTuple, h, writePacked_canon h, writeNonFixed_canon]
  split
  · cases writePackedStruct gv ts <;> rfl
  · cases writeNonFixedSizeStructure ts <;> rfl

theorem serStruct_canon {σ : Type} (w : Writer σ) (c : Cfg) {gv gv' : Ty} (h : sizeOf gv' = sizeOf gv)
    (hr : rustLayout gv' = rustLayout gv) (ts : List Ty) (ms : List (WM σ Nat)) :
    serStruct w c gv' (canons ts) ms = serStruct w c gv ts ms := by
  have hg := generate_canon h ts
  have key : ∀ (gv : Ty) (ts : List Ty), serStruct w c gv ts ms = (do
      let b ← WM.lift (do let d ← generateTuple gv ts; pure d.body)
      match b with
      | .packed p => do
        let _ ← runCmds w c ms p.cmds 0 []
        let l ← WM.lift (rustLayout gv)
        pure l.1
      | .nonFixed p => do
        let r ← runCmds w c ms p.cmds 0 (List.replicate p.nFrameOffsets 0)
        writeOffsets w c r.1 r.2) := by
    intro gv ts
    unfold serStruct
    cases generateTuple gv ts <;> rfl
  rw [key, key, hg, hr]

theorem numSize_canon (t : Ty) : numSize (canon t) = numSize t := by cases t <;> rfl

theorem isStr_canon (t : Ty) : isStrTy (canon t) = isStrTy t := by cases t <;> rfl

theorem serMembers_canon {σ : Type} {w : Writer σ} {c : Cfg} (xs : List Src) : (∀ x ∈ xs, ∀ t, ser w c (canon t) x = ser w c t x) →
    ∀ ts, serMembers w c (canons ts) xs = serMembers w c ts xs := by
  induction xs with
  | nil => intro _ ts; cases ts <;> rfl
  | cons x xs ih =>
    intro h ts
    cases ts with
    | nil => rfl
    | cons t ts => simp only [canons, serMembers, h x (by simp) t, ih (fun y hy => h y (by simp [hy])) ts]

theorem serFixed_canon {σ : Type} {w : Writer σ} {c : Cfg} {e : Ty} (xs : List Src) : (∀ x ∈ xs, ∀ t, ser w c (canon t) x = ser w c t x) →
    ∀ n, serFixed w c (canon e) n xs = serFixed w c e n xs := by
  induction xs with
  | nil => intro _ n; rfl
  | cons x xs ih =>
    intro h n
    simp only [serFixed, h x (by simp) e, ih (fun y hy => h y (by simp [hy]))]

theorem serElems_canon {σ : Type} {w : Writer σ} {c : Cfg} {e : Ty} (xs : List Src) : (∀ x ∈ xs, ∀ t, ser w c (canon t) x = ser w c t x) →
    ∀ n offs, serElems w c (canon e) n offs xs = serElems w c e n offs xs := by
  induction xs with
  | nil => intro _ n offs; rfl
  | cons x xs ih =>
    intro h n offs
    simp only [serElems, h x (by simp) e, alignOf_canon, ih (fun y hy => h y (by simp [hy]))]

theorem ser_canon {σ : Type} (w : Writer σ) (c : Cfg) (x : Src) : ∀ t, ser w c (canon t) x = ser w c t x := by
  induction x using Src.ind with
  | num n => intro t; rw [ser, ser, numSize_canon]
  | str b => intro t; rw [ser, ser, isStr_canon]
  | strRef b => intro t; rw [ser, ser, isStr_canon]
  | seq xs ih =>
    intro t
    cases t with
    | A e => simp only [canon, ser, sizeOf_canon, serFixed_canon xs ih, serElems_canon xs ih]
    | _ => simp only [canon, ser]
  | just x ih =>
    intro t
    cases t with
    | M e => simp only [canon, ser, sizeOf_canon, ih]
    | _ => simp only [canon, ser]
  | iter xs ih =>
    intro t
    cases t with
    | M e =>
      cases xs with
      | nil => simp only [canon, ser, sizeOf_canon]
      | cons x xs => simp only [canon, ser, sizeOf_canon, ih x (by simp)]
    | _ => simp only [canon, ser]
  | tup xs ih =>
    intro t
    cases t with
    | tuple ts =>
      have h := serStruct_canon w c (sizeOf_canon (.tuple ts)) (rustLayout_canon (.tuple ts)) ts
      simp only [canon] at h
      simp only [canon, ser, serMembers_canon xs ih, h]
    | dict k v =>
      have h := serStruct_canon w c (sizeOf_canon (.dict k v)) (rustLayout_canon (.dict k v)) [k, v]
      simp only [canon, canons] at h
      have hm := serMembers_canon xs ih [k, v]
      simp only [canons] at hm
      simp only [canon, ser, hm, h]
    | _ => simp only [canon, ser]
  | _ => intro t; cases t <;> simp only [canon, ser]

theorem serialize_canon {σ : Type} (w : Writer σ) (c : Cfg) (t : Ty) (x : Src) (st : σ) :
    serialize w c (canon t) x st = serialize w c t x st := by
  simp only [serialize, ser_canon]

end GV
