import Verif.Props.C59_C60
/-
C61: writing into a part of a buffer.
-/
namespace GV.Props
open GV Spec

/-- Take a buffer made from any vec, slice it mutably in any way, cast the part to a fixed-size type and
    assign to a member (of a member …).  Then just the bytes of that member have changed, in the buffer
    and in the vec it converts to; the part reads as before with the member replaced; and every part
    beside the bytes of the member is unchanged. -/
theorem c61_poke (c : Cfg) (a : Alloc) (v : RVec) (b : AlignedBuf) (s w : Slice) (ops : List SliceOp) (al n ax : Nat)
    (t u : Ty) (path : List Nat) (x : Bytes) (ha : a.Valid) (hv : v.Valid) (hb : AlignedBuf.fromVec c a v = .ok b)
    (hs : b.deref c = .ok s) (ht : typedSlices 8 ops) (hr : runSlices c 8 s ops = .ok (al, w))
    (hal : Spec.align t ∣ al) (hn : size t = some n) (hw : w.len = n) (hx : Expands t) (hsm : Small t)
    (hu : typeAt t path = some u) (hxl : size u = some x.length) (hax : Spec.align u ∣ ax) :
    ∃ lo b' s' w' z old new, lo + n ≤ v.bytes.length ∧ w = ⟨s.addr + lo, sub v.bytes lo (lo + n)⟩ ∧
      poke c b ops t path x = .ok (some b') ∧ b'.deref c = .ok s' ∧ s'.addr = s.addr ∧
      s'.bytes = overlay v.bytes (lo + startAt t path) x ∧
      b'.intoVec c = .ok z ∧ z.bytes = overlay v.bytes (lo + startAt t path) x ∧
      runSlices c 8 s' ops = .ok (al, w') ∧
      readAs c t w = .ok old ∧ readAs c u ⟨ax, x⟩ = .ok new ∧ readAs c t w' = .ok (replaceAt old path new) ∧
      ∀ i j, (j ≤ lo + startAt t path ∨ lo + startAt t path + x.length ≤ i) → sub s'.bytes i j = sub s.bytes i j := by
  obtain ⟨dv, hdv, hi, hvis⟩ := alignVec_ok (c := c) ha hv
  simp only [AlignedBuf.fromVec, hdv, Res.bind_ok, Res.pure_eq, Res.ok.injEq] at hb
  subst hb
  rw [deref_ok hi] at hs
  cases hs
  rw [hvis] at hr ⊢
  have hvl : v.bytes.length ≤ 2 ^ 62 := hv.2.2
  have hnpos := (size_pos_dvd t n hn).1
  obtain ⟨m, hm, hfit⟩ := startAt_fits path t u n hn hu
  rw [hxl] at hm; cases hm
  have hne : dv.bytes ≠ [] := by
    intro h0
    have hv0 : v.bytes = [] := by rw [← hvis]; simp [AlignedBuf.vis, h0]
    obtain ⟨_, lo, hi, h1, h2, rfl⟩ := c13_program_window c ops 8 _ al w isAl8 ht
      (Or.inl (by simp only [hv0])) (by simp [Slice.len, hv0]) hr
    simp only [Slice.len, hv0, sub, List.take_nil, List.drop_nil, List.length_nil] at hw
    omega
  simp only [hne, if_false] at hr ⊢
  have hgd : 8 ∣ dv.addr + gap 8 dv.addr := gap_dvd isAl8 _
  have hder0 := deref_ok (c := c) hi
  simp only [hne, if_false, hvis] at hder0
  obtain ⟨hi1, hi2, hi3, hi4⟩ := hi
  have hgl : gap 8 dv.addr < dv.bytes.length := hi4.resolve_left hne
  have hvis' : dv.bytes.drop (gap 8 dv.addr) = v.bytes := hvis
  have hdl : dv.bytes.length = gap 8 dv.addr + v.bytes.length := by rw [← hvis', List.length_drop]; omega
  obtain ⟨lo, hi', h1, h2, hweq, -⟩ := runSlices_same c ops 8 _ _ al w isAl8 ht hgd
    (by simp only [Slice.len]; omega) rfl rfl hr
  subst hweq
  simp only [Slice.len] at h2
  have hhi : hi' = lo + n := by simp only [Slice.len, sub_length h2] at hw; omega
  subst hhi
  have hwa : al ∣ dv.addr + gap 8 dv.addr + lo := c13_program_aligned c ops 8 _ _ _ isAl8 ht hgd
    (by simp only [Slice.len]; omega) hr
  obtain ⟨b1, old, new, h3, h4, h5, h6, h7, h8⟩ := c60_assign c t u n _ path x ax hn hx hsm hu
    (Nat.dvd_trans hal hwa) hax hw hxl
  have hb1 : b1 = overlay (sub v.bytes lo (lo + n)) (startAt t path) x := by
    apply List.ext_getElem?
    intro i
    rw [h5, overlay_getElem? (by rw [sub_length h2]; omega)]
  subst hb1
  have hmut : tryFromAlignedMut c t ⟨dv.addr + gap 8 dv.addr + lo, sub v.bytes lo (lo + n)⟩ =
      .ok (some ⟨dv.addr + gap 8 dv.addr + lo, sub v.bytes lo (lo + n)⟩) := by
    have h := tryFromAligned_ok (c := c) (s := ⟨dv.addr + gap 8 dv.addr + lo, sub v.bytes lo (lo + n)⟩) hx
      (Nat.dvd_trans hal hwa)
    have h2' : ∀ s, tryFromAlignedMut c t s = tryFromAligned c t s := by
      intro s; simp only [tryFromAlignedMut, tryFromAligned, sizeOf_eq, hn]
    rw [h2', h, if_pos]
    left
    simp only [Slice.len] at hw
    simp [castBytes, hn, hw]
  let i := dv.addr + gap 8 dv.addr + lo + startAt t path - dv.addr
  have hii : i = gap 8 dv.addr + (lo + startAt t path) := by simp only [i]; omega
  let b' : AlignedBuf := ⟨{ dv with bytes := overlay dv.bytes i x }⟩
  have hol : (overlay dv.bytes i x).length = dv.bytes.length := overlay_length (by omega)
  have hinv : b'.Inv := by
    refine ⟨?_, hi2, ?_, Or.inr ?_⟩
    · simp only [b', hol]; exact hi1
    · simp only [b', hol]; exact hi3
    · simp only [b', hol]; exact hgl
  have hbvis : b'.vis = overlay v.bytes (lo + startAt t path) x := by
    simp only [AlignedBuf.vis, b']
    apply List.ext_getElem?
    intro k
    rw [List.getElem?_drop, overlay_getElem? (by omega), overlay_getElem? (by omega), ← hvis', List.getElem?_drop]
    by_cases hk : lo + startAt t path ≤ k ∧ k < lo + startAt t path + x.length
    · rw [if_pos (by omega), if_pos hk]; congr 1; omega
    · rw [if_neg (by omega), if_neg hk]
  have hbd : b'.data.bytes ≠ [] := by
    intro h0
    have := congrArg List.length h0
    simp only [b', hol, List.length_nil] at this
    omega
  have hder := deref_ok (c := c) hinv
  simp only [hbd, if_false, hbvis] at hder
  obtain ⟨z, hz, hzb, -, -⟩ := unalignVec_ok (c := c) hinv
  have hovl : (overlay v.bytes (lo + startAt t path) x).length = v.bytes.length := overlay_length (by omega)
  obtain ⟨lo2, hi2', h9, h10, h11, h12⟩ := runSlices_same c ops 8 ⟨dv.addr + gap 8 dv.addr, v.bytes⟩
    ⟨dv.addr + gap 8 dv.addr, overlay v.bytes (lo + startAt t path) x⟩ al _ isAl8 ht hgd
    (by simp only [Slice.len]; omega) rfl (by simp only [Slice.len, hovl]) hr
  simp only [Slice.mk.injEq, Slice.len] at h11 h10
  have hlo2 : lo2 = lo := by omega
  subst hlo2
  have hhi2 : hi2' = lo2 + n := by
    have := congrArg List.length h11.2
    rw [sub_length h2, sub_length h10] at this
    omega
  subst hhi2
  rw [sub_overlay_in (by omega) (by omega)] at h12
  refine ⟨lo2, b', _, _, z, old, new, h2, rfl, ?_, hder, rfl, rfl, hz, by rw [hzb, hbvis], h12, h6, h7, h8, ?_⟩
  · simp only [poke, hder0, Res.bind_ok, hr, hmut,
      placeOf_ok path t u n hn hx hu, Res.pure_eq]
    rfl
  · intro p q hpq
    exact sub_overlay_out (by omega) hpq

/-- Set the second member of the `(yi)` that the last 8 of 12 bytes hold. -/
example : poke dbg ⟨⟨4096, 12, [9, 9, 9, 9, 1, 2, 3, 4, 5, 6, 7, 8]⟩⟩ [.aFrom (.tryNew 8 0), .narrow 4, .aFrom (.tryNew 4 4)]
    (.tuple [.Y, .I]) [1] [0, 0, 0, 0] =
    .ok (some ⟨⟨4096, 12, [9, 9, 9, 9, 1, 2, 3, 4, 0, 0, 0, 0]⟩⟩) := by decide +kernel

end GV.Props
