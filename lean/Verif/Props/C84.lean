import Verif.Proofs.Client
import Verif.Props.C78
import Verif.Props.C57_C58
import Verif.Props.C19_C48
/-
C84: programs that read through the interface of the crate see the values, and nothing else.
-/
namespace GV.Props
open GV Spec

/-- Data that can be opened as a value of a type: `gv!` takes the type, the data is aligned, and it reads as the
    value. -/
def Readable (c : Cfg) (d : Ty × Slice) (v : Ty × Val) : Prop :=
  d.1 = v.1 ∧ Expands d.1 ∧ Small d.1 ∧ Spec.align d.1 ∣ d.2.addr ∧ d.2.len ≤ 2 ^ 62 ∧ readAs c d.1 d.2 = .ok v.2

/-- The types that a program asks variants for are such as `gv!` can be given. -/
def ProperClient (client : Client) : Prop := ∀ tr h u, client tr = some (.get h u) → Expands u ∧ Small u

/-- Copies are put where Rust puts them. -/
def ProperPlaces (places : Nat → Places) : Prop := ∀ n, (places n).vecs.Valid ∧ 8 ∣ (places n).addr

theorem openAll_shows {c : Cfg} : ∀ {ds : List (Ty × Slice)} {vs : List (Ty × Val)}, List.Forall₂ (Readable c) ds vs →
    ∃ hs, openAll c ds = .ok hs ∧ List.Forall₂ (Shows c) hs (vs.map fun v => .val v.1 v.2)
  | [], [], _ => ⟨[], rfl, .nil⟩
  | (t, s) :: ds, (t', v) :: vs, .cons h hs => by
    obtain ⟨h0, hx, hsm, ha, hl, hv⟩ := h
    simp only at h0 hx hsm ha hl hv
    subst h0
    obtain ⟨r, h1, hg⟩ := cast_good (c := c) hx hsm ha (show s.len < 2 ^ 63 by omega)
    obtain ⟨rs, h2, h3⟩ := openAll_shows hs
    refine ⟨.ref t r :: rs, by simp only [openAll, h1, h2, Res.bind_ok, Res.pure_eq], ?_⟩
    refine .cons (.ref s hl hg ?_) h3
    simpa only [readAs, h1, Res.bind_ok] using hv

/-- Whatever a program does, whatever it makes depend on what it has seen, however often it comes back to
    references and iterators it holds, and however many calls it makes: what it sees is what it would see if
    there were just the values. -/
theorem c84_client (c : Cfg) (P : CoreFmt) (places : Nat → Places) (client : Client) (n : Nat)
    (ds : List (Ty × Slice)) (vs : List (Ty × Val)) (out : List Obs) (hd : List.Forall₂ (Readable c) ds vs)
    (hp : ProperPlaces places) (hc : ProperClient client)
    (h : session (readOut c) (.crate c.bigEndian) P client n (vs.map fun v => .val v.1 v.2) [] = some out) :
    ∃ hs, openAll c ds = .ok hs ∧ runClient c P places client n hs [] = out := by
  obtain ⟨hs, h1, h2⟩ := openAll_shows hd
  exact ⟨hs, h1, run_shows hp hc n hs _ [] out h2 h⟩

/-- Look up "l" in a dictionary `a{sv}`, entry by entry, and ask for the array of variants there; then for an
    element that it does not have. -/
def lookup : Client
  | [] => some (.iter 0)
  | [_] => some (.next 1)
  | [_, _] => some (.members 2)
  | [_, _, _] => some (.look 3)
  | [_, _, _, .bytes k] => if k = [108] then some (.get 4 (.A .V)) else some (.next 1)
  | [_, _, _, _, .got] => some (.members 5)
  | [_, _, _, _, _, .got] => some (.get 7 (.A .V))
  | [_, _, _, _, _, _, .got] => some (.len 8)
  | [_, _, _, _, _, _, _, .count _] => some (.index 8 2)
  | _ => none

def onlyPlace : Nat → Places := fun _ => oddPlaces

example : openAll dbg [(.A (.dict .S .V), ⟨64, settingsBytes⟩)] = .ok [.ref (.A (.dict .S .V)) ⟨64, settingsBytes⟩] := by rfl
example : runClient dbg (toyFmt true) onlyPlace lookup 20 [.ref (.A (.dict .S .V)) ⟨64, settingsBytes⟩] [] =
    [.got, .got, .got, .bytes [110], .got, .got, .got, .count 2, .panic] := by rfl

theorem onlyPlace_proper : ProperPlaces onlyPlace := fun _ => ⟨oddAlloc_valid, (by decide : 8 ∣ 64)⟩

/-- So no program can tell apart data that reads as the same values: not data in normal form from other data, not
    one place from another, not borrowed data from a copy. -/
theorem c84_same (c : Cfg) (P : CoreFmt) (places places' : Nat → Places) (client : Client) (n : Nat)
    (ds ds' : List (Ty × Slice)) (vs : List (Ty × Val)) (hs hs' : List Held)
    (hd : List.Forall₂ (Readable c) ds vs) (hd' : List.Forall₂ (Readable c) ds' vs)
    (hp : ProperPlaces places) (hp' : ProperPlaces places') (hc : ProperClient client)
    (h : session (readOut c) (.crate c.bigEndian) P client n (vs.map fun v => .val v.1 v.2) [] ≠ none)
    (ho : openAll c ds = .ok hs) (ho' : openAll c ds' = .ok hs') :
    runClient c P places client n hs [] = runClient c P places' client n hs' [] := by
  obtain ⟨out, h⟩ := Option.ne_none_iff_exists'.1 h
  obtain ⟨_, h1, h2⟩ := c84_client c P places client n ds vs out hd hp hc h
  obtain ⟨_, h1', h2'⟩ := c84_client c P places' client n ds' vs out hd' hp' hc h
  rw [ho] at h1; cases h1
  rw [ho'] at h1'; cases h1'
  rw [h2, h2']

theorem session_panics (rd : Ty → Bytes → Option Val) (E : Enc) (P : CoreFmt) (client : Client)
    (hc : ∀ tr h i, client tr ≠ some (.index h i)) : ∀ (n : Nat) (hs : List Seen) (tr out : List Obs),
    Obs.panic ∉ tr → session rd E P client n hs tr = some out → Obs.panic ∉ out := by
  have hcall : ∀ hs op, (∀ h i, op ≠ .index h i) → call rd E P hs op ≠ .panicked ∧
      ∀ o hs', call rd E P hs op = .went o hs' → o ≠ .panic := by
    intro hs op hop
    cases op <;> simp only [call]
    all_goals first | (exact absurd rfl (hop _ _)) | skip
    all_goals ((repeat' split) <;> exact ⟨(by intro h; cases h), (by intro o hs' h; cases h <;> (intro h; cases h))⟩)
  intro n
  induction n with
  | zero => intro hs tr out ht h; simp only [session, Option.some.injEq] at h; exact h ▸ ht
  | succ n ih =>
    intro hs tr out ht h
    simp only [session] at h
    split at h
    · simp only [Option.some.injEq] at h; exact h ▸ ht
    · rename_i op hcl
      obtain ⟨k1, k2⟩ := hcall hs op (fun h i he => hc tr h i (he ▸ hcl))
      split at h
      · rename_i o hs' ho
        exact ih _ _ _ (by simp only [List.mem_append, List.mem_singleton, not_or]; exact ⟨ht, (k2 _ _ ho).symm⟩) h
      · exact absurd (by assumption) k1
      · cases h

/-- Panics come from indexing only. -/
theorem c84_panics (c : Cfg) (P : CoreFmt) (places : Nat → Places) (client : Client) (n : Nat)
    (ds : List (Ty × Slice)) (vs : List (Ty × Val)) (hs : List Held) (hd : List.Forall₂ (Readable c) ds vs)
    (hp : ProperPlaces places) (hc : ProperClient client) (hi : ∀ tr h i, client tr ≠ some (.index h i))
    (h : session (readOut c) (.crate c.bigEndian) P client n (vs.map fun v => .val v.1 v.2) [] ≠ none)
    (ho : openAll c ds = .ok hs) : Obs.panic ∉ runClient c P places client n hs [] := by
  obtain ⟨out, h⟩ := Option.ne_none_iff_exists'.1 h
  obtain ⟨_, h1, h2⟩ := c84_client c P places client n ds vs out hd hp hc h
  rw [ho] at h1; cases h1
  rw [h2]
  exact session_panics _ _ _ _ hi n _ [] out (by simp) h

/-! When values determine all -/

/-- A call that neither opens a variant, nor serializes, nor copies, nor uses a huge index. -/
def Plain : Op → Prop
  | .index _ i => i < 2 ^ 61 - 1
  | .get _ _ | .write _ | .copy _ => False
  | _ => True

theorem call_plain {rd : Ty → Bytes → Option Val} {E : Enc} {P : CoreFmt} {hs : List Seen} {op : Op} (h : Plain op) :
    call rd E P hs op ≠ .unknown := by
  cases op <;> simp only [Plain] at h <;> simp only [call] <;>
    (repeat' split) <;> first | omega | (intro h; cases h; done) | (simp at *; done)

/-- What a program sees that makes such calls only is determined by the values, whatever the data. -/
theorem c84_determined (rd : Ty → Bytes → Option Val) (E : Enc) (P : CoreFmt) (client : Client)
    (hc : ∀ tr op, client tr = some op → Plain op) : ∀ (n : Nat) (hs : List Seen) (tr : List Obs),
    session rd E P client n hs tr ≠ none := by
  intro n
  induction n with
  | zero => intro hs tr; simp [session]
  | succ n ih =>
    intro hs tr
    simp only [session]
    cases hcl : client tr with
    | none => simp
    | some op =>
      have := call_plain (rd := rd) (E := E) (P := P) (hs := hs) (hc tr op hcl)
      simp only
      split
      · exact ih _ _
      · simp
      · exact absurd (by assumption) this

/-- Take a structure apart, look at both members, compare it with itself and print it. -/
def inspect : Client
  | [] => some (.members 0)
  | [_] => some (.look 1)
  | [_, _] => some (.look 2)
  | [_, _, _] => some (.eq 0 0)
  | [_, _, _, _] => some (.print 0)
  | _ => none

theorem inspect_plain : ∀ tr op, inspect tr = some op → Plain op := by
  intro tr op h
  unfold inspect at h
  split at h <;> simp only [Option.some.injEq, reduceCtorEq] at h <;> subst h <;> trivial

-- the padding makes no difference, nor does the place
example : runClient dbg (toyFmt true) onlyPlace inspect 9 [.ref (.tuple [.Y, .U]) ⟨64, [1, 0, 0, 0, 2, 0, 0, 0]⟩] [] =
    runClient dbg (toyFmt true) onlyPlace inspect 9 [.ref (.tuple [.Y, .U]) ⟨128, [1, 7, 7, 7, 2, 0, 0, 0]⟩] [] := by
  refine c84_same dbg (toyFmt true) onlyPlace onlyPlace inspect 9
    [(.tuple [.Y, .U], ⟨64, [1, 0, 0, 0, 2, 0, 0, 0]⟩)] [(.tuple [.Y, .U], ⟨128, [1, 7, 7, 7, 2, 0, 0, 0]⟩)]
    [(.tuple [.Y, .U], .tup [.num 1, .num 2])] _ _
    (.cons ⟨rfl, by decide, by decide, by decide, by decide, by rfl⟩ .nil)
    (.cons ⟨rfl, by decide, by decide, by decide, by decide, by rfl⟩ .nil) onlyPlace_proper onlyPlace_proper
    (fun tr h u hg => (inspect_plain tr _ hg).elim) (c84_determined _ _ _ _ inspect_plain _ _ _) (by rfl) (by rfl)

example : Obs.panic ∉ runClient dbg (toyFmt true) onlyPlace inspect 9
    [.ref (.tuple [.Y, .U]) ⟨128, [1, 7, 7, 7, 2, 0, 0, 0]⟩] [] :=
  c84_panics dbg (toyFmt true) onlyPlace inspect 9 [(.tuple [.Y, .U], ⟨128, [1, 7, 7, 7, 2, 0, 0, 0]⟩)]
    [(.tuple [.Y, .U], .tup [.num 1, .num 2])] _
    (.cons ⟨rfl, by decide, by decide, by decide, by decide, by rfl⟩ .nil) onlyPlace_proper
    (fun tr h u hg => (inspect_plain tr _ hg).elim)
    (by intro tr h i he; unfold inspect at he; split at he <;> cases he)
    (c84_determined _ _ _ _ inspect_plain _ _ _) (by rfl)

/-- The value, to any depth, can be encoded in normal form. -/
def DeepVal (be : Bool) (t : Ty) (v : Val) : Prop :=
  ∃ x : Tree, x.Fits t ∧ v = x.flat (.pdf be) ∧ (x.enc (.pdf be) t).length < 2 ^ 63

/-- All that is held can be. -/
def DeepSeen (be : Bool) : Seen → Prop
  | .val t v => DeepVal be t v
  | .rest e vs => ∀ v ∈ vs, DeepVal be e v

/-- As `Plain`, but variants may be opened. -/
def Mild : Op → Prop
  | .get _ u => Expands u ∧ Small u
  | op => Plain op

theorem deepVal_child {be : Bool} {t u : Ty} {x y : Tree} {s : Step} (hf : x.Fits t)
    (hl : (x.enc (.pdf be) t).length < 2 ^ 63) (h : x.child t s = some (u, y)) : DeepVal be u (y.flat (.pdf be)) := by
  refine ⟨y, ?_, rfl, Nat.lt_of_le_of_lt (child_length hf h) hl⟩
  classical
  exact (child_flat (E := .pdf be) (rd := fun _ _ => some (y.flat (.pdf be))) hf h (fun _ _ => rfl)).1

theorem deepVal_arr {be : Bool} {e : Ty} {vs : List Val} (h : DeepVal be (.A e) (.arr vs)) :
    ∀ v ∈ vs, DeepVal be e v := by
  obtain ⟨x, hf, hv, hl⟩ := h
  cases x <;> simp only [Tree.flat, reduceCtorEq, Val.arr.injEq] at hv
  rename_i xs
  subst hv
  intro v hv
  rw [flatAll_eq, List.mem_map] at hv
  obtain ⟨y, hy, rfl⟩ := hv
  obtain ⟨i, hi⟩ := List.mem_iff_getElem?.1 hy
  exact deepVal_child (s := .elem i) hf hl (by simp [Tree.child, hi])

theorem deepVal_just {be : Bool} {e : Ty} {v : Val} (h : DeepVal be (.M e) (.just v)) : DeepVal be e v := by
  obtain ⟨x, hf, hv, hl⟩ := h
  cases x <;> simp only [Tree.flat, reduceCtorEq, Val.just.injEq] at hv
  subst hv
  exact deepVal_child (s := .content) hf hl (by simp [Tree.child])

theorem deepVal_tuple {be : Bool} {ts : List Ty} {vs : List Val} (h : DeepVal be (.tuple ts) (.tup vs)) :
    ∀ s ∈ ts.zipWith Seen.val vs, DeepSeen be s := by
  obtain ⟨x, hf, hv, hl⟩ := h
  cases x <;> simp only [Tree.flat, reduceCtorEq, Val.tup.injEq] at hv
  rename_i xs
  subst hv
  intro s hs
  obtain ⟨i, hi⟩ := List.mem_iff_getElem?.1 hs
  rw [flatAll_eq, List.getElem?_zipWith, List.getElem?_map] at hi
  cases h1 : ts[i]? <;> cases h2 : xs[i]? <;> simp only [h1, h2, Option.map_none, Option.map_some, reduceCtorEq, Option.some.injEq] at hi
  subst hi
  exact deepVal_child (s := .member i) hf hl (by simp [Tree.child, h1, h2])

theorem deepVal_dict {be : Bool} {k u : Ty} {vs : List Val} (h : DeepVal be (.dict k u) (.tup vs)) :
    ∀ s ∈ [k, u].zipWith Seen.val vs, DeepSeen be s := by
  obtain ⟨x, hf, hv, hl⟩ := h
  cases x <;> simp only [Tree.flat, reduceCtorEq, Val.tup.injEq] at hv
  rename_i xs
  subst hv
  intro s hs
  obtain ⟨i, hi⟩ := List.mem_iff_getElem?.1 hs
  rw [flatAll_eq, List.getElem?_zipWith, List.getElem?_map] at hi
  cases h1 : [k, u][i]? <;> cases h2 : xs[i]? <;> simp only [h1, h2, Option.map_none, Option.map_some, reduceCtorEq, Option.some.injEq] at hi
  subst hi
  exact deepVal_child (s := .member i) hf hl (by simp [Tree.child, h1, h2])

theorem deepVal_open {be : Bool} {rd : Ty → Bytes → Option Val} (hr : Opens be rd) {u : Ty} {d : Bytes} (hx : Expands u)
    (hsm : Small u) (h : DeepVal be .V (.variant u.show d)) : ∃ w, rd u d = some w ∧ DeepVal be u w := by
  obtain ⟨x, hf, hv, hl⟩ := h
  cases x <;> simp only [Tree.flat, reduceCtorEq, Val.variant.injEq] at hv
  rename_i u' y
  obtain ⟨h1, rfl⟩ := hv
  have := c01_show_injective _ _ h1
  subst this
  obtain ⟨z, hzf, hz, hzl⟩ := deepVal_child (u := u) (y := y) (s := .inside u) hf hl (by simp [Tree.child])
  exact ⟨_, hr u _ hx hsm (hz ▸ flat_fits _ z _ hzf) (by rw [hz]; exact hzl), z, hzf, hz, hzl⟩

theorem deepSeen_push {be : Bool} {hs gs : List Seen} (h : ∀ s ∈ hs, DeepSeen be s) (hg : ∀ s ∈ gs, DeepSeen be s) :
    ∀ s ∈ hs ++ gs, DeepSeen be s := by
  intro s hm
  rcases List.mem_append.1 hm with hm | hm
  · exact h s hm
  · exact hg s hm

theorem call_deep {be : Bool} {rd : Ty → Bytes → Option Val} {E : Enc} {P : CoreFmt} (hr : Opens be rd)
    {hs : List Seen} {op : Op} (hd : ∀ s ∈ hs, DeepSeen be s) (hm : Mild op) :
    call rd E P hs op = .panicked ∨ ∃ o hs', call rd E P hs op = .went o hs' ∧ ∀ s ∈ hs', DeepSeen be s := by
  have hat : ∀ {h s}, hs[h]? = some s → DeepSeen be s := fun h => hd _ (List.mem_of_getElem? h)
  have one : ∀ {t v}, DeepVal be t v → ∀ s ∈ hs ++ [Seen.val t v], DeepSeen be s := fun h =>
    deepSeen_push hd (by simpa [DeepSeen] using h)
  cases op with
  | look h => simp only [call]; split <;> exact .inr ⟨_, _, rfl, hd⟩
  | len h => simp only [call]; split <;> exact .inr ⟨_, _, rfl, hd⟩
  | index h i =>
    simp only [Mild, Plain] at hm
    simp only [call]
    split
    · rename_i hh
      rw [if_neg (by omega)]
      split
      · rename_i hw
        exact .inr ⟨_, _, rfl, one (deepVal_arr (hat hh) _ (List.mem_of_getElem? hw))⟩
      · exact .inl rfl
    · exact .inr ⟨_, _, rfl, hd⟩
  | first h =>
    simp only [call]
    split
    · rename_i hh
      split
      · rename_i hw
        exact .inr ⟨_, _, rfl, one (deepVal_arr (hat hh) _ (List.mem_of_mem_head? hw))⟩
      · exact .inr ⟨_, _, rfl, hd⟩
    · exact .inr ⟨_, _, rfl, hd⟩
  | last h =>
    simp only [call]
    split
    · rename_i hh
      split
      · rename_i hw
        exact .inr ⟨_, _, rfl, one (deepVal_arr (hat hh) _ (List.mem_of_getLast? hw))⟩
      · exact .inr ⟨_, _, rfl, hd⟩
    · exact .inr ⟨_, _, rfl, hd⟩
  | iter h =>
    simp only [call]
    split
    · rename_i hh
      refine .inr ⟨_, _, rfl, deepSeen_push hd ?_⟩
      simpa [DeepSeen] using deepVal_arr (hat hh)
    · exact .inr ⟨_, _, rfl, hd⟩
  | next h =>
    simp only [call]
    split
    · rename_i e w ws hh
      have h0 : ∀ v ∈ w :: ws, DeepVal be e v := hat hh
      refine .inr ⟨_, _, rfl, deepSeen_push ?_ (by simpa [DeepSeen] using h0 w (by simp))⟩
      intro s hs
      rcases List.mem_or_eq_of_mem_set hs with hs | rfl
      · exact hd s hs
      · exact fun v hv => h0 v (by simp [hv])
    · exact .inr ⟨_, _, rfl, hd⟩
    · exact .inr ⟨_, _, rfl, hd⟩
  | option h =>
    simp only [call]
    split
    · rename_i hh
      exact .inr ⟨_, _, rfl, one (deepVal_just (hat hh))⟩
    · exact .inr ⟨_, _, rfl, hd⟩
    · exact .inr ⟨_, _, rfl, hd⟩
  | members h =>
    simp only [call]
    split
    · rename_i hh
      exact .inr ⟨_, _, rfl, deepSeen_push hd (deepVal_tuple (hat hh))⟩
    · rename_i hh
      exact .inr ⟨_, _, rfl, deepSeen_push hd (deepVal_dict (hat hh))⟩
    · exact .inr ⟨_, _, rfl, hd⟩
  | get h u =>
    simp only [call]
    split
    · rename_i ty d hh
      split
      · rename_i he
        subst he
        obtain ⟨w, h1, h2⟩ := deepVal_open hr hm.1 hm.2 (hat hh)
        rw [h1]
        exact .inr ⟨_, _, rfl, one h2⟩
      · exact .inr ⟨_, _, rfl, hd⟩
    · exact .inr ⟨_, _, rfl, hd⟩
  | eq h k =>
    simp only [call]
    split
    · split <;> exact .inr ⟨_, _, rfl, hd⟩
    · exact .inr ⟨_, _, rfl, hd⟩
  | order h k =>
    simp only [call]
    split
    · split
      · split <;> exact .inr ⟨_, _, rfl, hd⟩
      · exact .inr ⟨_, _, rfl, hd⟩
    · exact .inr ⟨_, _, rfl, hd⟩
  | print h => simp only [call]; split <;> exact .inr ⟨_, _, rfl, hd⟩
  | write h => exact absurd hm (by simp [Mild, Plain])
  | copy h => exact absurd hm (by simp [Mild, Plain])

theorem session_deep {be : Bool} {rd : Ty → Bytes → Option Val} {E : Enc} {P : CoreFmt} (hr : Opens be rd)
    {client : Client} (hc : ∀ tr op, client tr = some op → Mild op) : ∀ (n : Nat) (hs : List Seen) (tr : List Obs),
    (∀ s ∈ hs, DeepSeen be s) → session rd E P client n hs tr ≠ none := by
  intro n
  induction n with
  | zero => intro hs tr _; simp [session]
  | succ n ih =>
    intro hs tr hd
    simp only [session]
    cases hcl : client tr with
    | none => simp
    | some op =>
      rcases call_deep (E := E) (P := P) hr hd (hc tr op hcl) with h | ⟨o, hs', h, hd'⟩
      · simp [h]
      · simp only [h]; exact ih _ _ hd'

/-- If the data is in normal form to any depth, the values also determine what a program sees that opens
    variants, and variants in variants. -/
theorem c84_deep (c : Cfg) (P : CoreFmt) (places : Nat → Places) (client : Client) (n : Nat) (t : Ty) (x : Tree)
    (addr : Nat) (hx : Expands t) (hsm : Small t) (ha : Spec.align t ∣ addr) (hf : x.Fits t)
    (hl : (x.enc (.pdf c.bigEndian) t).length ≤ 2 ^ 62) (hp : ProperPlaces places)
    (hc : ∀ tr op, client tr = some op → Mild op) :
    ∃ out hs, session (readOut c) (.crate c.bigEndian) P client n [.val t (x.flat (.pdf c.bigEndian))] [] = some out ∧
      openAll c [(t, ⟨addr, x.enc (.pdf c.bigEndian) t⟩)] = .ok hs ∧ runClient c P places client n hs [] = out := by
  have hop : Opens c.bigEndian (readOut c) := by
    intro u w hx hsm hf hl
    unfold readOut
    rw [(c54_read c u w 0 hx hsm (Nat.dvd_zero _) hf hl).1]
  have hd : DeepVal c.bigEndian t (x.flat (.pdf c.bigEndian)) := ⟨x, hf, rfl, by omega⟩
  obtain ⟨out, ho⟩ := Option.ne_none_iff_exists'.1 (session_deep (E := .crate c.bigEndian) (P := P) hop hc n
    [.val t (x.flat (.pdf c.bigEndian))] [] (by simpa [DeepSeen] using hd))
  have hrd : Readable c (t, ⟨addr, x.enc (.pdf c.bigEndian) t⟩) (t, x.flat (.pdf c.bigEndian)) :=
    ⟨rfl, hx, hsm, ha, hl, (c54_read c t _ addr hx hsm ha (flat_fits _ x t hf) (by
      show (x.enc (.pdf c.bigEndian) t).length < 2 ^ 63; omega)).1⟩
  obtain ⟨hs, h1, h2⟩ := c84_client c P places client n [(t, ⟨addr, x.enc (.pdf c.bigEndian) t⟩)]
    [(t, x.flat (.pdf c.bigEndian))] out (.cons hrd .nil) hp (fun tr h u hg => hc tr _ hg) ho
  exact ⟨out, hs, ho, h1, h2⟩

theorem lookup_mild : ∀ tr op, lookup tr = some op → Mild op := by
  intro tr op h
  unfold lookup at h
  split at h <;> (try split at h) <;> simp only [Option.some.injEq, reduceCtorEq] at h <;> subst h <;>
    simp only [Mild, Plain] <;> decide

example : session (readOut dbg) (.crate false) (toyFmt true) lookup 20 [.val (.A (.dict .S .V)) (settings.flat (.pdf false))] [] =
    some [.got, .got, .got, .bytes [110], .got, .got, .got, .count 2, .panic] := by
  obtain ⟨out, hs, h1, h2, h3⟩ := c84_deep dbg (toyFmt true) onlyPlace lookup 20 (.A (.dict .S .V)) settings 64 (by decide)
    (by decide) (by decide) settings_fits (by decide +kernel) onlyPlace_proper lookup_mild
  have he : settings.enc (.pdf dbg.bigEndian) (.A (.dict .S .V)) = settingsBytes := by decide +kernel
  rw [he] at h2
  have : hs = [.ref (.A (.dict .S .V)) ⟨64, settingsBytes⟩] := (Res.ok.inj (h2.symm.trans (by rfl)))
  subst this
  exact h1.trans (congrArg some (h3.symm.trans (by rfl)))

end GV.Props
