import Verif.Model.OstreeLs
import Verif.Spec.Listing
import Verif.Proofs.Children
/-
The example program `ostree-ls`.
-/
namespace GV
open Spec

theorem hexEncode_ok (b : Bytes) : hexEncode b = .ok (hex b) := by
  induction b with
  | nil => rfl
  | cons x xs ih =>
    have h : ∀ n : Fin 256, hexChars[((UInt8.ofNat n) >>> 4).toNat]? = some (hexDigit ((UInt8.ofNat n).toNat / 16)) ∧
        hexChars[((UInt8.ofNat n) &&& 0x0f).toNat]? = some (hexDigit ((UInt8.ofNat n).toNat % 16)) := by
      decide +kernel
    have := h ⟨x.toNat, x.toNat_lt⟩
    simp only [UInt8.ofNat_toNat] at this
    simp only [hexEncode, this.1, this.2, Res.unwrap_some, ih, Res.bind_ok, Res.pure_eq]
    simp [hex]

theorem view_bytes {c : Cfg} {s : Slice} {v : Val} (h : view c (.A .Y) s = .ok v) : v = byteVal s.bytes := by
  have hs : sizeOf .Y = some 1 := rfl
  have hl : rustLayout .Y = .ok (1, 1) := rfl
  simp only [view, arrRefs, hs, hl, Res.bind_ok, Res.pure_eq, Res.bind_eq_ok] at h
  obtain ⟨vs, h, h2⟩ := h
  cases h2
  have e : ∀ (l : List Slice) (vs : List Val), Res.traverse (view c .Y) l = .ok vs → vs = l.map fun s => .num (fromNe c s.bytes) := by
    intro l
    induction l with
    | nil => intro vs h; cases h; rfl
    | cons x xs ih =>
      intro vs h
      simp only [Res.traverse, view, Res.bind_ok, Res.bind_eq_ok] at h
      obtain ⟨ws, h, h2⟩ := h
      cases h2
      rw [ih ws h]; rfl
  rw [e _ _ h, byteVal]
  congr 1
  apply List.ext_getElem?
  intro i
  simp only [sliceElems, List.map_map, List.getElem?_map, Nat.div_one, Slice.len]
  by_cases hi : i < s.bytes.length
  · rw [List.getElem?_range hi, List.getElem?_eq_getElem hi]
    simp only [Option.map_some, Function.comp, Nat.mul_one]
    have hd : (s.bytes.drop i).take 1 = [s.bytes[i]] := by rw [List.drop_eq_getElem_cons hi]; rfl
    rw [hd]
    simp [fromNe, fromLe]
  · rw [List.getElem?_eq_none (by simpa using hi), List.getElem?_eq_none (by simpa using hi)]
    rfl

theorem lsDir_ok {c : Cfg} {s : Slice} {v : Val} (h : view c lsDirTy s = .ok v) :
    ∃ d : Bytes × Bytes × Bytes, v = .tup [.str d.1, byteVal d.2.1, byteVal d.2.2] ∧
      lsDir c s = .ok (dirLine d ++ [10]) := by
  simp only [lsDirTy, view, Res.bind_eq_ok] at h
  obtain ⟨rs, h1, vs, h2, h3⟩ := h
  cases h3
  match rs, h2 with
  | [r1, r2, r3], h2 =>
    simp only [viewAll, Res.bind_eq_ok] at h2
    obtain ⟨v1, hv1, _, ⟨v2, hv2, _, ⟨v3, hv3, _, h4, h5⟩, h6⟩, h7⟩ := h2
    cases h4; cases h5; cases h6; cases h7
    simp only [view] at hv1
    cases hv1
    refine ⟨(toStr r1.bytes, r2.bytes, r3.bytes), by rw [view_bytes hv2, view_bytes hv3], ?_⟩
    simp only [lsDir, lsDirTy, h1, Res.bind_ok, hexEncode_ok, Res.pure_eq]
    simp [dirLine, displayStr]
  | [], h2 => cases h2
  | [_], h2 =>
    simp only [viewAll, Res.bind_eq_ok] at h2
    obtain ⟨_, _, _, h, _⟩ := h2; cases h
  | [_, _], h2 =>
    simp only [viewAll, Res.bind_eq_ok] at h2
    obtain ⟨_, _, _, ⟨_, _, _, h, _⟩, _⟩ := h2; cases h
  | _ :: _ :: _ :: _ :: _, h2 =>
    simp only [viewAll, Res.bind_eq_ok] at h2
    obtain ⟨_, _, _, ⟨_, _, _, ⟨_, _, _, h, _⟩, _⟩, _⟩ := h2; cases h

theorem lsFile_ok {c : Cfg} {s : Slice} {v : Val} (h : view c lsFileTy s = .ok v) :
    ∃ f : Bytes × Bytes, v = .tup [.str f.1, byteVal f.2] ∧ lsFile c s = .ok (fileLine f ++ [10]) := by
  simp only [lsFileTy, view, Res.bind_eq_ok] at h
  obtain ⟨rs, h1, vs, h2, h3⟩ := h
  cases h3
  match rs, h2 with
  | [r1, r2], h2 =>
    simp only [viewAll, Res.bind_eq_ok] at h2
    obtain ⟨v1, hv1, _, ⟨v2, hv2, _, h4, h6⟩, h7⟩ := h2
    cases h4; cases h6; cases h7
    simp only [view] at hv1
    cases hv1
    refine ⟨(toStr r1.bytes, r2.bytes), by rw [view_bytes hv2], ?_⟩
    simp only [lsFile, lsFileTy, h1, Res.bind_ok, hexEncode_ok, Res.pure_eq]
    simp [fileLine, displayStr]
  | [], h2 => cases h2
  | [_], h2 =>
    simp only [viewAll, Res.bind_eq_ok] at h2
    obtain ⟨_, _, _, h, _⟩ := h2; cases h
  | _ :: _ :: _ :: _, h2 =>
    simp only [viewAll, Res.bind_eq_ok] at h2
    obtain ⟨_, _, _, ⟨_, _, _, h, _⟩, _⟩ := h2; cases h

theorem lsLoop_ok {c : Cfg} {e : Ty} {α : Type} {mk : α → Val} {line : α → Bytes} {body : Slice → Res Bytes}
    (hb : ∀ s v, view c e s = .ok v → ∃ d, v = mk d ∧ body s = .ok (line d ++ [10])) (fuel : Nat) :
    ∀ (it : ArrIter) (rs : List Slice) (vs : List Val), collectIter c e fuel it = .ok rs →
      Res.traverse (view c e) rs = .ok vs →
      ∃ ds : List α, vs = ds.map mk ∧ lsLoop c e body fuel it = .ok ((ds.map line).flatMap (· ++ [10])) := by
  induction fuel with
  | zero => intro it rs vs h; cases h
  | succ fuel ih =>
    intro it rs vs h hv
    simp only [collectIter, lsLoop] at h ⊢
    cases hn : iterNext c e it with
    | fail f => rw [hn] at h; cases h
    | ok p =>
      obtain ⟨o, it'⟩ := p
      rw [hn] at h
      cases o with
      | none =>
        simp only [Res.bind_ok] at h ⊢
        cases h; cases hv
        exact ⟨[], rfl, rfl⟩
      | some r =>
        simp only [Res.bind_ok, Res.bind_eq_ok] at h
        obtain ⟨rs', h1, h2⟩ := h
        cases h2
        simp only [Res.traverse, Res.bind_eq_ok] at hv
        obtain ⟨v, hv1, vs', hv2, h3⟩ := hv
        cases h3
        obtain ⟨d, rfl, hd⟩ := hb r v hv1
        obtain ⟨ds, rfl, hds⟩ := ih it' rs' vs' h1 hv2
        refine ⟨d :: ds, rfl, ?_⟩
        simp only [Res.bind_ok, hd, hds, Res.pure_eq]
        simp

/-- The two loops, given a reference to the directory. -/
theorem ls_view {c : Cfg} {r : Slice} {v : Val} (h : view c lsTy r = .ok v) :
    ∃ d : Dirtree, v = d.val ∧
      (do match ← tupRefs c lsTy [.A lsFileTy, .A lsDirTy] r with
          | [files, dirs] => do
            let it ← intoIter c lsDirTy dirs
            let x ← lsLoop c lsDirTy (lsDir c) (it.offsets.length + 1) it
            let it ← intoIter c lsFileTy files
            let y ← lsLoop c lsFileTy (lsFile c) (it.offsets.length + 1) it
            pure (x ++ y)
          | _ => .fail .explicit : Res Bytes) = .ok d.listing := by
  rw [lsTy, view] at h
  simp only [Res.bind_eq_ok] at h
  obtain ⟨rs, h1, vs, h2, h3⟩ := h
  cases h3
  match rs, h2 with
  | [r1, r2], h2 =>
    simp only [viewAll, Res.bind_eq_ok] at h2
    obtain ⟨v1, hv1, _, ⟨v2, hv2, _, h4, h6⟩, h7⟩ := h2
    cases h4; cases h6; cases h7
    have hs1 : sizeOf lsFileTy = none := by decide
    have hs2 : sizeOf lsDirTy = none := by decide
    rw [view] at hv1 hv2
    simp only [arrRefs, hs1, hs2, Res.bind_eq_ok] at hv1 hv2
    obtain ⟨rs1, ⟨it1, hi1, hc1⟩, ws1, hw1, e1⟩ := hv1
    obtain ⟨rs2, ⟨it2, hi2, hc2⟩, ws2, hw2, e2⟩ := hv2
    cases e1; cases e2
    obtain ⟨fs, rfl, hf⟩ := lsLoop_ok (mk := fun f : Bytes × Bytes => .tup [.str f.1, byteVal f.2])
      (fun s v => lsFile_ok) _ it1 rs1 ws1 hc1 hw1
    obtain ⟨ds, rfl, hd⟩ := lsLoop_ok
      (mk := fun d : Bytes × Bytes × Bytes => .tup [.str d.1, byteVal d.2.1, byteVal d.2.2])
      (fun s v => lsDir_ok) _ it2 rs2 ws2 hc2 hw2
    refine ⟨⟨fs, ds⟩, rfl, ?_⟩
    rw [lsTy]
    simp only [h1, Res.bind_ok, hi1, hi2, hf, hd, Res.pure_eq]
    simp [Dirtree.listing]
  | [], h2 => cases h2
  | [_], h2 =>
    simp only [viewAll, Res.bind_eq_ok] at h2
    obtain ⟨_, _, _, h, _⟩ := h2; cases h
  | _ :: _ :: _ :: _, h2 =>
    simp only [viewAll, Res.bind_eq_ok] at h2
    obtain ⟨_, _, _, ⟨_, _, _, h, _⟩, _⟩ := h2; cases h

theorem ls_read {c : Cfg} {p : Places} {w : RVec} {v : Val} (h : readDeserialize c p lsTy w = .ok v) :
    ∃ d : Dirtree, v = d.val ∧ ostreeLs c p w = .ok d.listing := by
  simp only [readDeserialize, Res.bind_eq_ok] at h
  obtain ⟨b, h1, s, h2, r, h3, o, h4, q, h5, h6⟩ := h
  obtain ⟨d, hd, h7⟩ := ls_view h6
  exact ⟨d, hd, by simp only [ostreeLs, h1, h2, h3, h4, h5, Res.bind_ok]; exact h7⟩

/-! ### Reading the listing back -/

theorem byteVal_inj {a b : Bytes} (h : byteVal a = byteVal b) : a = b := by
  simp only [byteVal, Val.arr.injEq] at h
  induction a generalizing b with
  | nil => cases b with
    | nil => rfl
    | cons => simp at h
  | cons x xs ih => cases b with
    | nil => simp at h
    | cons y ys =>
      simp only [List.map_cons, List.cons.injEq, Val.num.injEq] at h
      rw [ih h.2, UInt8.toNat.inj h.1]

theorem map_injective {α β : Type} {f : α → β} (hf : ∀ a b, f a = f b → a = b) : ∀ l m : List α, l.map f = m.map f → l = m := by
  intro l
  induction l with
  | nil => intro m h; cases m with
    | nil => rfl
    | cons => simp at h
  | cons x xs ih => intro m h; cases m with
    | nil => simp at h
    | cons y ys =>
      simp only [List.map_cons, List.cons.injEq] at h
      rw [hf _ _ h.1, ih ys h.2]

theorem dirtree_val_inj {d d' : Dirtree} (h : d.val = d'.val) : d = d' := by
  obtain ⟨fs, ds⟩ := d
  obtain ⟨fs', ds'⟩ := d'
  simp only [Dirtree.val, Val.tup.injEq, List.cons.injEq, Val.arr.injEq, and_true] at h
  have h1 := map_injective (by
    rintro ⟨a, b⟩ ⟨a', b'⟩ h
    simp only [Val.tup.injEq, List.cons.injEq, Val.str.injEq, and_true] at h
    rw [h.1, byteVal_inj h.2]) _ _ h.1
  have h2 := map_injective (by
    rintro ⟨a, b, e⟩ ⟨a', b', e'⟩ h
    simp only [Val.tup.injEq, List.cons.injEq, Val.str.injEq, and_true] at h
    rw [h.1, byteVal_inj h.2.1, byteVal_inj h.2.2]) _ _ h.2
  rw [h1, h2]

/-- Text up to the first separator is determined. -/
theorem split_sep {a b r r' : Bytes} {x : UInt8} (ha : x ∉ a) (hb : x ∉ b) (h : a ++ x :: r = b ++ x :: r') :
    a = b ∧ r = r' := by
  induction a generalizing b with
  | nil => cases b with
    | nil => simpa using h
    | cons y ys =>
      simp only [List.nil_append, List.cons_append, List.cons.injEq] at h
      exact absurd (by simp [h.1]) hb
  | cons y ys ih => cases b with
    | nil =>
      simp only [List.nil_append, List.cons_append, List.cons.injEq] at h
      exact absurd (by simp [← h.1]) ha
    | cons z zs =>
      simp only [List.cons_append, List.cons.injEq] at h
      have := ih (b := zs) (fun hm => ha (by simp [hm])) (fun hm => hb (by simp [hm])) h.2
      exact ⟨by rw [h.1, this.1], this.2⟩

theorem lines_inj {x : UInt8} : ∀ l m : List Bytes, (∀ a ∈ l, x ∉ a) → (∀ a ∈ m, x ∉ a) →
    l.flatMap (· ++ [x]) = m.flatMap (· ++ [x]) → l = m := by
  intro l
  induction l with
  | nil => intro m _ _ h; cases m with
    | nil => rfl
    | cons y ys => simp at h
  | cons a as ih => intro m ha hm h; cases m with
    | nil => simp at h
    | cons b bs =>
      simp only [List.flatMap_cons, List.append_assoc, List.singleton_append] at h
      have := split_sep (ha a (by simp)) (hm b (by simp)) h
      rw [this.1, ih bs (fun a h => ha a (by simp [h])) (fun a h => hm a (by simp [h])) this.2]

theorem hexDigit_range : ∀ n : Fin 16, 48 ≤ (hexDigit n).toNat := by decide

theorem hexDigit_inj : ∀ a b : Fin 16, hexDigit a = hexDigit b → a = b := by decide

theorem hex_ge (b : Bytes) : ∀ x ∈ hex b, 48 ≤ x.toNat := by
  intro x hx
  simp only [hex, List.mem_flatMap, List.mem_cons, List.not_mem_nil, or_false] at hx
  obtain ⟨y, _, h | h⟩ := hx
  · rw [h]; exact hexDigit_range ⟨y.toNat / 16, by have := y.toNat_lt; omega⟩
  · rw [h]; exact hexDigit_range ⟨y.toNat % 16, by omega⟩

theorem hex_not {b : Bytes} {x : UInt8} (hx : x.toNat < 48) : x ∉ hex b := by
  intro h; have := hex_ge b x h; omega

theorem hex_inj : ∀ a b : Bytes, hex a = hex b → a = b := by
  intro a
  induction a with
  | nil => intro b h; cases b with
    | nil => rfl
    | cons y ys => simp [hex] at h
  | cons x xs ih => intro b h; cases b with
    | nil => simp [hex] at h
    | cons y ys =>
      simp only [hex, List.flatMap_cons, List.cons_append, List.nil_append, List.cons.injEq] at h
      have hx := x.toNat_lt
      have hy := y.toNat_lt
      have h1 := hexDigit_inj ⟨x.toNat / 16, by omega⟩ ⟨y.toNat / 16, by omega⟩ h.1
      have h2 := hexDigit_inj ⟨x.toNat % 16, by omega⟩ ⟨y.toNat % 16, by omega⟩ h.2.1
      simp only [Fin.mk.injEq] at h1 h2
      have h3 : x = y := UInt8.toNat.inj (by omega)
      rw [h3, ih ys h.2.2]

theorem fileLine_inj {f g : Bytes × Bytes} (h : fileLine f = fileLine g) : f = g := by
  simp only [fileLine, List.append_assoc, List.singleton_append] at h
  have := split_sep (hex_not (by decide)) (hex_not (by decide)) h
  obtain ⟨f1, f2⟩ := f
  obtain ⟨g1, g2⟩ := g
  simp only at this
  rw [hex_inj _ _ this.1, this.2]

theorem dirLine_inj {f g : Bytes × Bytes × Bytes} (h : dirLine f = dirLine g) : f = g := by
  simp only [dirLine, List.append_assoc, List.cons_append, List.nil_append] at h
  have h1 := split_sep (hex_not (by decide)) (hex_not (by decide)) h
  have h2 := split_sep (hex_not (by decide)) (hex_not (by decide)) h1.2
  obtain ⟨f1, f2, f3⟩ := f
  obtain ⟨g1, g2, g3⟩ := g
  simp only at h1 h2
  rw [hex_inj _ _ h1.1, hex_inj _ _ h2.1, List.append_cancel_right h2.2]

theorem append_sorted {α : Type} {P : α → Prop} : ∀ a a' b b' : List α, (∀ x ∈ a, P x) → (∀ x ∈ a', P x) →
    (∀ x ∈ b, ¬ P x) → (∀ x ∈ b', ¬ P x) → a ++ b = a' ++ b' → a = a' ∧ b = b' := by
  intro a
  induction a with
  | nil => intro a' b b' _ h2 h3 _ h; cases a' with
    | nil => exact ⟨rfl, by simpa using h⟩
    | cons y ys => exact absurd (h2 y (by simp)) (h3 y (by simp at h; simp [h]))
  | cons x xs ih => intro a' b b' h1 h2 h3 h4 h; cases a' with
    | nil => exact absurd (h1 x (by simp)) (h4 x (by simp at h; simp [← h]))
    | cons y ys =>
      simp only [List.cons_append, List.cons.injEq] at h
      have := ih ys b b' (fun x hx => h1 x (by simp [hx])) (fun x hx => h2 x (by simp [hx])) h3 h4 h.2
      exact ⟨by rw [h.1, this.1], this.2⟩

end GV
