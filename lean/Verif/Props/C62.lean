import Verif.Proofs.OstreeLs
import Verif.Props.C19_C48
import Verif.Props.C33_C36
import Verif.Props.C54_C56
/-
C62: the example program `ostree-ls`.
-/
namespace GV.Props
open GV Spec

/-- Whatever the file contains, the program does not panic; it prints the listing of the directory that
    the specification says the file holds (with the crate's rules for data not in normal form). -/
theorem c62_any (c : Cfg) (p : Places) (v : RVec) (hp : p.vecs.Valid) (hv : v.Valid)
    (hl : v.bytes.length < 2 ^ 32 ∨ Tame (.crate c.bigEndian) lsTy v.bytes) :
    ∃ d : Dirtree, dec (.crate c.bigEndian) lsTy v.bytes = d.val ∧ ostreeLs c p v = .ok d.listing := by
  have hx : Expands lsTy := by decide
  have hsm : Small lsTy := by decide
  have hvl : v.bytes.length ≤ 2 ^ 62 := hv.2.2
  obtain ⟨dv, hdv, hi, hvis⟩ := alignVec_ok (c := c) hp hv
  have ha : Spec.align lsTy ∣ (⟨0, v.bytes⟩ : Slice).addr := Nat.dvd_zero _
  have h1 := (c37_agree_partial c p lsTy ⟨0, v.bytes⟩ ⟨0, v.bytes⟩ v ⟨dv⟩ hx hsm hp (show Spec.align lsTy ∣ p.addr from Nat.one_dvd _) ha hvl rfl rfl
    hv hi hvis (Or.inr (by decide))).2.1
  have h2 := readAs_tame (c := c) (s := ⟨0, v.bytes⟩) hx hsm ha (fun _ => by simp only [Slice.len]; omega)
    (hl.elim (tame_small _ _ _) id)
  obtain ⟨w, hw⟩ := c33_total_partial c lsTy ⟨0, v.bytes⟩ hx hsm (by decide) ha (by simp only [Slice.len]; omega)
    (Or.inr hl)
  have h3 := hw
  rw [h2] at h3
  split at h3
  · cases h3
  · cases h3
    obtain ⟨d, hd, h⟩ := ls_read (h1.trans hw)
    exact ⟨d, hd, h⟩

/-- A file that holds a directory in normal form is listed: its directories, then its files. -/
theorem c62_tree (c : Cfg) (p : Places) (v : RVec) (d : Dirtree) (hp : p.vecs.Valid) (hv : v.Valid)
    (hf : ∀ f ∈ d.files, Text f.1) (hd : ∀ f ∈ d.dirs, Text f.1)
    (h : v.bytes = enc (.pdf c.bigEndian) lsTy d.val) : ostreeLs c p v = .ok d.listing := by
  have hvl : v.bytes.length ≤ 2 ^ 62 := hv.2.2
  have hbytes : ∀ b : Bytes, Fits (.A .Y) (byteVal b) := by
    intro b
    simp only [Fits, byteVal, List.mem_map]
    rintro _ ⟨x, _, rfl⟩
    exact x.toNat_lt
  have hfit : Fits lsTy d.val := by
    simp only [lsTy, Dirtree.val, Fits, FitsAll, List.mem_map, and_true]
    refine ⟨?_, ?_⟩
    · rintro _ ⟨f, hm, rfl⟩
      exact ⟨hf f hm, hbytes _, trivial⟩
    · rintro _ ⟨f, hm, rfl⟩
      exact ⟨hd f hm, hbytes _, hbytes _, trivial⟩
  have ht := tame_enc (R := .crate c.bigEndian) (E := .pdf c.bigEndian) lsTy d.val hfit (by rw [← h]; omega)
  obtain ⟨d', h1, h2⟩ := c62_any c p v hp hv (Or.inr (by rw [h]; exact ht))
  have h3 := (trip (R := .crate c.bigEndian) (E := .pdf c.bigEndian) rfl lsTy d.val hfit
    (by rw [← h]; omega)).1.2 (fun h => by cases h)
  rw [h, h3] at h1
  rw [dirtree_val_inj h1, h2]

/-- The listing tells directories apart, if no name contains a newline or a slash. -/
theorem c62_tell_apart (d d' : Dirtree)
    (h1 : ∀ f ∈ d.files, (10 : UInt8) ∉ f.1 ∧ (47 : UInt8) ∉ f.1) (h2 : ∀ f ∈ d.dirs, (10 : UInt8) ∉ f.1 ∧ (47 : UInt8) ∉ f.1)
    (h3 : ∀ f ∈ d'.files, (10 : UInt8) ∉ f.1 ∧ (47 : UInt8) ∉ f.1) (h4 : ∀ f ∈ d'.dirs, (10 : UInt8) ∉ f.1 ∧ (47 : UInt8) ∉ f.1)
    (h : d.listing = d'.listing) : d = d' := by
  obtain ⟨fs, ds⟩ := d
  obtain ⟨fs', ds'⟩ := d'
  simp only [Dirtree.listing] at *
  have nl : ∀ {b : Bytes}, (10 : UInt8) ∉ hex b := hex_not (by decide)
  have sl : ∀ {b : Bytes}, (47 : UInt8) ∉ hex b := hex_not (by decide)
  have key : ∀ (fs : List (Bytes × Bytes)) (ds : List (Bytes × Bytes × Bytes)),
      (∀ f ∈ fs, (10 : UInt8) ∉ f.1 ∧ (47 : UInt8) ∉ f.1) → (∀ f ∈ ds, (10 : UInt8) ∉ f.1 ∧ (47 : UInt8) ∉ f.1) →
      ∀ a ∈ ds.map dirLine ++ fs.map fileLine, (10 : UInt8) ∉ a := by
    intro fs ds h1 h2 a ha
    simp only [List.mem_append, List.mem_map] at ha
    rcases ha with ⟨f, hm, rfl⟩ | ⟨f, hm, rfl⟩
    · have := (h2 f hm).1
      simp [dirLine, nl, this]
    · have := (h1 f hm).1
      simp [fileLine, nl, this]
  have e := lines_inj _ _ (key fs ds h1 h2) (key fs' ds' h3 h4) h
  have isDir : ∀ ds : List (Bytes × Bytes × Bytes), ∀ a ∈ ds.map dirLine, (47 : UInt8) ∈ a := by
    intro ds a ha
    simp only [List.mem_map] at ha
    obtain ⟨f, _, rfl⟩ := ha
    simp [dirLine]
  have isFile : ∀ fs : List (Bytes × Bytes), (∀ f ∈ fs, (10 : UInt8) ∉ f.1 ∧ (47 : UInt8) ∉ f.1) →
      ∀ a ∈ fs.map fileLine, ¬ (47 : UInt8) ∈ a := by
    intro fs h a ha
    simp only [List.mem_map] at ha
    obtain ⟨f, hm, rfl⟩ := ha
    have := (h f hm).2
    simp [fileLine, sl, this]
  obtain ⟨e1, e2⟩ := append_sorted (P := fun a => (47 : UInt8) ∈ a) _ _ _ _ (isDir ds) (isDir ds') (isFile fs h1) (isFile fs' h3) e
  rw [map_injective (fun _ _ => dirLine_inj) _ _ e1, map_injective (fun _ _ => fileLine_inj) _ _ e2]

/-- The directory with a file `a` (checksum `12 ab`) and a directory `b` (checksums `01`, `02`):
    `01 02 b/`, `12ab a`. -/
example : ostreeLs dbg ⟨oddAlloc, fun _ => 0, 8⟩ ⟨1000003, 20,
      enc (.pdf false) lsTy (Dirtree.val ⟨[([97], [0x12, 0xab])], [([98], [1], [2])]⟩)⟩ =
    .ok [48, 49, 32, 48, 50, 32, 98, 47, 10, 49, 50, 97, 98, 32, 97, 10] := by decide +kernel

/-- Rubbish: two directories without name and checksums. -/
example : ostreeLs dbg ⟨oddAlloc, fun _ => 0, 8⟩ ⟨1000003, 20, [255, 255, 1, 0, 3, 0]⟩ =
    .ok [32, 32, 47, 10, 32, 32, 47, 10] := by decide +kernel

/-- Without the condition listings are ambiguous: a file with a slash in its name looks like a directory. -/
example : (⟨[([98, 47], [1])], []⟩ : Dirtree).listing ≠ (⟨[], [([98], [1], [])]⟩ : Dirtree).listing ∧
    (⟨[([48, 50, 32, 98, 47], [1])], []⟩ : Dirtree).listing = (⟨[], [([98], [1], [2])]⟩ : Dirtree).listing := by
  decide +kernel

end GV.Props
