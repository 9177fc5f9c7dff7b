import Verif.Proofs.SetPart
import Verif.Props.C61
import Verif.Props.C75
/-
C76: overwriting a part of data in normal form changes just that part of what is read.
-/
namespace GV.Props
open GV Spec

/-- Overwrite a part of data in normal form with any bytes as long as the part.  The whole then reads as
    before with that part replaced by what the new bytes alone read as, and if reading them panics, so
    does reading the whole. -/
theorem c76_overwrite (c : Cfg) (t : Ty) (v : Val) (addr a' : Nat) (p : List Step) (u : Ty) (w : Val) (x : Bytes)
    (hx : Expands t) (hsm : Small t) (ha : Spec.align t ∣ addr) (hf : Fits t v)
    (hl : (enc (.pdf c.bigEndian) t v).length < 2 ^ 63) (hp : ∀ u, Step.inside u ∉ p)
    (h : follow (fun _ _ => none) t v p = some (u, w)) (hxl : x.length = (enc (.pdf c.bigEndian) u w).length)
    (ha' : Spec.align u ∣ a') :
    ∃ o, spot (.pdf c.bigEndian) (fun _ _ => none) t v p = some o ∧
      walkFrom c t ⟨addr, enc (.pdf c.bigEndian) t v⟩ p = .ok (some (u, ⟨addr + o, enc (.pdf c.bigEndian) u w⟩)) ∧
      readAs c t ⟨addr, overlay (enc (.pdf c.bigEndian) t v) o x⟩ =
        readAs c u ⟨a', x⟩ >>= fun w' => .ok (setPart v p w') := by
  obtain ⟨k1, o, k2, k3, k4, _⟩ := c75_part c (fun _ _ => none) (readsNone _) t v addr p u w hx hsm ha hf hl
    (fun u hu => absurd hu (hp u)) h
  obtain ⟨o', j1, _, j3⟩ := walk_spot (readsNone c.bigEndian) p t v u w addr (fun u hu => absurd hu (hp u)) hx hsm ha hf hl h
  rw [k2] at j1; cases j1
  obtain ⟨hxu, hsu⟩ := follow_expands p t v u w hp hx hsm h
  refine ⟨o, k2, k3, ?_⟩
  rw [readAs_long hx ha hf (overlay_length (by omega)), view_overlay p t v u w addr o x hp hx hsm ha hf hl h k2 hxl,
    ← readAs_long hxu j3 k1 hxl]
  rw [readAs_same (s := ⟨addr + o, x⟩) (s' := ⟨a', x⟩) hxu hsu j3 ha' (by simp only [Slice.len]; omega) rfl]

/-- What is written need not be normal form: here the text of the second entry is overwritten by bytes with
    a zero in the middle. -/
example : readAs dbg (.A (.tuple [.S, .V])) ⟨64, overlay (enc (.pdf false) (.A (.tuple [.S, .V])) listed) 16 [120, 0, 121]⟩ =
    .ok (.arr [.tup [.str [97], .variant [115] [104, 105, 0]], .tup [.str [], .variant [97, 121] [7, 8]]]) := by rfl
example : readAs dbg .S ⟨64, [120, 0, 121]⟩ = .ok (.str []) := by rfl
example : setPart listed [.elem 1, .member 0] (.str []) =
    .arr [.tup [.str [97], .variant [115] [104, 105, 0]], .tup [.str [], .variant [97, 121] [7, 8]]] := by rfl
-- a part within which reading panics makes reading the whole panic
example : readAs dbg (.A (.A .S)) ⟨64, overlay (enc (.pdf false) (.A (.A .S)) (.arr [.arr [.str [], .str []], .arr []])) 0
    [0, 1, 2, 9]⟩ = readAs dbg (.A .S) ⟨64, [0, 1, 2, 9]⟩ >>= fun w => .ok (setPart (.arr [.arr [.str [], .str []], .arr []])
      [.elem 0] w) := by rfl

/-- Overwriting a part with the normal form of another value, as long as the first, gives the normal form
    of the whole with the part replaced: what serializing the changed value anew would give. -/
theorem c76_normal (be : Bool) (t : Ty) (v : Val) (p : List Step) (u : Ty) (w w' : Val) (hf : Fits t v)
    (hp : ∀ u, Step.inside u ∉ p) (h : follow (fun _ _ => none) t v p = some (u, w)) (hw : Fits u w')
    (hxl : (enc (.pdf be) u w').length = (enc (.pdf be) u w).length) :
    ∃ o, spot (.pdf be) (fun _ _ => none) t v p = some o ∧ Fits t (setPart v p w') ∧
      overlay (enc (.pdf be) t v) o (enc (.pdf be) u w') = enc (.pdf be) t (setPart v p w') := by
  obtain ⟨_, o, k2, _⟩ := spot_sub (readsNone be) p t v u w hf h
  exact ⟨o, k2, enc_overlay p t v u w w' o hp hf hw h k2 hxl⟩

example : overlay (enc (.pdf false) (.A (.tuple [.S, .V])) listed) 16 [120, 121, 0] =
    enc (.pdf false) (.A (.tuple [.S, .V])) (setPart listed [.elem 1, .member 0] (.str [120, 121])) := by decide
-- with another length it would not do: framing offsets and padding would have to change too
example : overlay (enc (.pdf false) (.A .S) (.arr [.str [97], .str [98]])) 0 [120, 121, 0] ≠
    enc (.pdf false) (.A .S) (.arr [.str [120, 121], .str [98]]) := by decide

/-- The same within a variant: the bytes in the variant are changed, nothing else is, whatever is written;
    and what the variant then holds is the subject of `c76_overwrite` and of this theorem again. -/
theorem c76_inside (c : Cfg) (rd : Ty → Bytes → Option Val) (hrd : ReadsNormal c.bigEndian rd) (t : Ty) (v : Val)
    (addr : Nat) (q p : List Step) (ty d : Bytes) (u' u : Ty) (w : Val) (x : Bytes)
    (hx : Expands t) (hsm : Small t) (ha : Spec.align t ∣ addr) (hf : Fits t v)
    (hl : (enc (.pdf c.bigEndian) t v).length < 2 ^ 63) (hq : ∀ u, Step.inside u ∉ q)
    (h1 : follow rd t v q = some (.V, .variant ty d))
    (h2 : follow rd t v (q ++ .inside u' :: p) = some (u, w))
    (hxl : x.length = (enc (.pdf c.bigEndian) u w).length) :
    ∃ o y o', spot (.pdf c.bigEndian) rd t v (q ++ .inside u' :: p) = some o ∧
      rd u' d = some y ∧ spot (.pdf c.bigEndian) rd u' y p = some o' ∧
      readAs c t ⟨addr, overlay (enc (.pdf c.bigEndian) t v) o x⟩ = .ok (setPart v q (.variant ty (overlay d o' x))) := by
  obtain ⟨k1, o, k2, k3, k4⟩ := spot_sub hrd _ t v u w hf h2
  obtain ⟨o1, o2, m1, m2, rfl⟩ := spot_append q t v _ h1 k2
  obtain ⟨t', v', n1, n2⟩ := follow_append q t v _ h2
  rw [h1] at n1
  simp only [Option.some.injEq, Prod.mk.injEq] at n1
  obtain ⟨rfl, rfl⟩ := n1
  simp only [follow] at n2
  simp only [spot] at m2
  split at n2
  · rename_i hty
    rw [if_pos hty] at m2
    obtain ⟨y, r1, r2⟩ := Option.bind_eq_some_iff.1 n2
    rw [r1, Option.bind_some] at m2
    refine ⟨o1 + o2, y, o2, k2, r1, m2, ?_⟩
    obtain ⟨hy, hd⟩ := hrd u' d y r1
    obtain ⟨_, o2', s1, s2, _⟩ := spot_sub hrd p u' y u w hy r2
    rw [m2] at s1; cases s1
    rw [hd] at s2
    have hq' := h1
    rw [follow_same (rd' := fun _ _ => none) q hq] at hq'
    have hm1 := m1
    rw [spot_same (rd' := fun _ _ => none) q hq] at hm1
    have hencv : enc (.pdf c.bigEndian) .V (.variant ty d) = d ++ [0] ++ ty := rfl
    have hlen : (overlay d o2 x).length = d.length := overlay_length (by omega)
    obtain ⟨o1', g1, g2, g3⟩ := c76_overwrite c t v addr 8 q .V (.variant ty d) (overlay d o2 x ++ [0] ++ ty) hx hsm ha hf hl hq
      hq' (by rw [hencv]; simp [hlen]) (by decide)
    rw [hm1] at g1; cases g1
    obtain ⟨f1, o1', f2, f3, f4⟩ := spot_sub (readsNone c.bigEndian) q t v _ _ hf hq'
    rw [hm1] at f2; cases f2
    rw [hencv] at f3 f4
    simp only [List.length_append, List.length_singleton] at f3
    have hover : overlay (enc (.pdf c.bigEndian) t v) (o1 + o2) x =
        overlay (enc (.pdf c.bigEndian) t v) o1 (overlay d o2 x ++ [0] ++ ty) := by
      have h0 : overlay (d ++ [0] ++ ty) o2 x = overlay d o2 x ++ [0] ++ ty := by
        rw [List.append_assoc, overlay_append_left (by omega), List.append_assoc]
      rw [← h0]
      exact overlay_within f4 (by simp only [List.length_append, List.length_singleton]; omega)
        (by simp only [List.length_append, List.length_singleton]; omega)
    rw [hover, g3]
    have hnn : (0 : UInt8) ∉ ty := by
      rw [hty]; exact show_noNul u'
    have hsp : readAs c .V ⟨8, overlay d o2 x ++ [0] ++ ty⟩ = .ok (.variant ty (overlay d o2 x)) := by
      have hfv : Fits .V (.variant ty (overlay d o2 x)) := by simpa [Fits] using hnn
      have := (c54_read c .V (.variant ty (overlay d o2 x)) 8 (by decide) (by decide) (by decide) hfv
        (by
          simp only [enc, List.length_append, hlen, List.length_singleton]
          omega)).1
      simpa only [enc] using this
    rw [hsp, Res.bind_ok]
  · cases n2

-- the second of the two bytes in the variant of the second entry of `listed`
example : readAs dbg (.A (.tuple [.S, .V])) ⟨64, overlay (enc (.pdf false) (.A (.tuple [.S, .V])) listed) 25 [9]⟩ =
    .ok (setPart listed [.elem 1, .member 1] (.variant [97, 121] [7, 9])) := by rfl
example : spot (.pdf false) (takeNormal dbg) (.A (.tuple [.S, .V])) listed
    [.elem 1, .member 1, .inside (.A .Y), .elem 1] = some 25 := by rfl

/-- In a program: a buffer made from a vec that holds normal form; a part of fixed size, found by reading;
    the buffer sliced mutably to just that part, cast, and assigned to, as a whole or to a member (of a
    member …).  Then the buffer reads as before with just that changed. -/
theorem c76_poke (c : Cfg) (a : Alloc) (r : RVec) (b : AlignedBuf) (s win : Slice) (ops : List SliceOp) (al n ax : Nat)
    (t : Ty) (v : Val) (p : List Step) (u : Ty) (w : Val) (path : List Nat) (m : Ty) (x : Bytes)
    (ha : a.Valid) (hr : r.Valid) (hb : AlignedBuf.fromVec c a r = .ok b) (hs : b.deref c = .ok s)
    (hx : Expands t) (hsm : Small t) (hf : Fits t v) (hbytes : r.bytes = enc (.pdf c.bigEndian) t v)
    (hp : ∀ u, Step.inside u ∉ p) (h : follow (fun _ _ => none) t v p = some (u, w)) (hn : size u = some n)
    (hwin : walkFrom c t s p = .ok (some (u, win)))
    (hops : typedSlices 8 ops) (hrun : runSlices c 8 s ops = .ok (al, win)) (hal : Spec.align u ∣ al)
    (hm : typeAt u path = some m) (hxl : size m = some x.length) (hax : Spec.align m ∣ ax) :
    ∃ b' s' new, poke c b ops u path x = .ok (some b') ∧ b'.deref c = .ok s' ∧ readAs c m ⟨ax, x⟩ = .ok new ∧
      readAs c t s' = .ok (setPart v p (replaceAt w path new)) := by
  obtain ⟨f1, o, f2, f3, f4⟩ := spot_sub (readsNone c.bigEndian) p t v u w hf h
  have hwl : (enc (.pdf c.bigEndian) u w).length = n := enc_length _ u w n f1 hn
  have hnpos := (size_pos_dvd u n hn).1
  obtain ⟨dv, hdv, hi, hvis⟩ := alignVec_ok (c := c) ha hr
  have hsa : s.bytes = r.bytes ∧ 8 ∣ s.addr := by
    have hb' := hb
    simp only [AlignedBuf.fromVec, hdv, Res.bind_ok, Res.pure_eq, Res.ok.injEq] at hb'
    subst hb'
    rw [deref_ok hi] at hs
    cases hs
    have hne : dv.bytes ≠ [] := by
      intro h0
      have hv0 : r.bytes = [] := by rw [← hvis]; simp [AlignedBuf.vis, h0]
      rw [← hbytes, hv0] at f3
      simp only [List.length_nil] at f3
      omega
    simp only [hne, if_false]
    exact ⟨hvis, gap_dvd isAl8 _⟩
  obtain ⟨sa, sb⟩ := s
  simp only at hsa
  obtain ⟨rfl, h8⟩ := hsa
  have hat : Spec.align t ∣ sa := Nat.dvd_trans (align_dvd_8 t) h8
  have hl : (enc (.pdf c.bigEndian) t v).length < 2 ^ 63 := by
    rw [← hbytes]
    have := hr.2.2
    omega
  obtain ⟨_, o', k2, k3, _⟩ := c75_part c (fun _ _ => none) (readsNone _) t v sa p u w hx hsm hat hf hl
    (fun u hu => absurd hu (hp u)) h
  rw [f2] at k2; cases k2
  rw [hbytes, k3] at hwin
  cases hwin
  obtain ⟨o', j1, _, j3⟩ := walk_spot (readsNone c.bigEndian) p t v u w sa (fun u hu => absurd hu (hp u)) hx hsm hat hf hl h
  rw [f2] at j1; cases j1
  obtain ⟨hxu, hsu⟩ := follow_expands p t v u w hp hx hsm h
  obtain ⟨lo, b', s', w', z, old, new, g1, g2, g3, g4, g5, g6, _, _, _, g7, g8, _⟩ := c61_poke c a r b _ _ ops al n ax u m path x
    ha hr hb hs hops hrun hal hn hwl hxu hsu hm hxl hax
  simp only [Slice.mk.injEq] at g2
  have hlo : lo = o := by omega
  subst hlo
  obtain ⟨n', hn', hfit⟩ := startAt_fits path u m n hn hm
  rw [hxl] at hn'; cases hn'
  obtain ⟨b1, old', new', q1, q2, q3, q4, q5, q6⟩ := c60_assign c u m n ⟨sa + lo, enc (.pdf c.bigEndian) u w⟩ path x ax hn hxu hsu hm
    j3 hax hwl hxl
  rw [g8] at q5; cases q5
  rw [(c54_read c u w _ hxu hsu j3 f1 (by omega)).1] at q4; cases q4
  have hb1 : b1 = overlay (enc (.pdf c.bigEndian) u w) (startAt u path) x := by
    apply List.ext_getElem?
    intro i
    rw [q3, overlay_getElem? (by omega)]
  subst hb1
  obtain ⟨o', e1, _, e3⟩ := c76_overwrite c t v sa (sa + lo) p u w (overlay (enc (.pdf c.bigEndian) u w) (startAt u path) x) hx hsm
    hat hf hl hp h (by omega) j3
  rw [f2] at e1; cases e1
  refine ⟨b', s', new, g3, g4, g8, ?_⟩
  have hs' : s' = ⟨sa, overlay (enc (.pdf c.bigEndian) t v) lo (overlay (enc (.pdf c.bigEndian) u w) (startAt u path) x)⟩ := by
    obtain ⟨sa', sb'⟩ := s'
    simp only at g5 g6
    subst g5 g6
    rw [hbytes, overlay_within (by rw [f4]) (by omega) (by omega)]
  rw [hs', e3, q6, Res.bind_ok]

-- the first number of the second of two `(ui)`; the rest of the data is a text
example : enc (.pdf false) (.tuple [.A (.tuple [.U, .I]), .S]) (.tup [.arr [.tup [.num 1, .num 2], .tup [.num 3, .num 4]], .str [97]]) =
    [1, 0, 0, 0, 2, 0, 0, 0, 3, 0, 0, 0, 4, 0, 0, 0, 97, 0, 16] := by decide
example : walkFrom dbg (.tuple [.A (.tuple [.U, .I]), .S])
      ⟨4096, [1, 0, 0, 0, 2, 0, 0, 0, 3, 0, 0, 0, 4, 0, 0, 0, 97, 0, 16]⟩ [.member 0, .elem 1] =
      .ok (some (.tuple [.U, .I], ⟨4104, [3, 0, 0, 0, 4, 0, 0, 0]⟩)) ∧
    runSlices dbg 8 ⟨4096, [1, 0, 0, 0, 2, 0, 0, 0, 3, 0, 0, 0, 4, 0, 0, 0, 97, 0, 16]⟩ [.aFrom (.tryNew 8 8), .to 8] =
      .ok (8, ⟨4104, [3, 0, 0, 0, 4, 0, 0, 0]⟩) ∧ typedSlices 8 [.aFrom (.tryNew 8 8), .to 8] := by
  refine ⟨rfl, by decide +kernel, ?_⟩
  simp [typedSlices, SliceOp.typed, OffExpr.ty, OffExpr.inRange, usizeMod]
example : poke dbg ⟨⟨4096, 19, [1, 0, 0, 0, 2, 0, 0, 0, 3, 0, 0, 0, 4, 0, 0, 0, 97, 0, 16]⟩⟩
    [.aFrom (.tryNew 8 8), .to 8] (.tuple [.U, .I]) [0] [5, 0, 0, 0] =
    .ok (some ⟨⟨4096, 19, [1, 0, 0, 0, 2, 0, 0, 0, 5, 0, 0, 0, 4, 0, 0, 0, 97, 0, 16]⟩⟩) := by decide +kernel
example : readAs dbg (.tuple [.A (.tuple [.U, .I]), .S]) ⟨4096, [1, 0, 0, 0, 2, 0, 0, 0, 5, 0, 0, 0, 4, 0, 0, 0, 97, 0, 16]⟩ =
    .ok (setPart (.tup [.arr [.tup [.num 1, .num 2], .tup [.num 3, .num 4]], .str [97]]) [.member 0, .elem 1]
      (replaceAt (.tup [.num 3, .num 4]) [0] (.num 5))) := by rfl

end GV.Props
