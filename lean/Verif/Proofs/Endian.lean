import Verif.Proofs.Addr
import Verif.Proofs.RoundTrip
import Verif.Spec.Endian
/-
The byte order of the machine.
-/
namespace GV
open Spec

/-- The same build for a machine with the other byte order. -/
def Cfg.flip (c : Cfg) : Cfg := { c with bigEndian := !c.bigEndian }

theorem flip_flip (c : Cfg) : c.flip.flip = c := by simp [Cfg.flip]

theorem iterNext_flip (c : Cfg) (e : Ty) (it : ArrIter) : iterNext c.flip e it = iterNext c e it := rfl

theorem collectIter_flip (c : Cfg) (e : Ty) (fuel : Nat) : ∀ it, collectIter c.flip e fuel it = collectIter c e fuel it := by
  induction fuel with
  | zero => intro it; rfl
  | succ fuel ih =>
    intro it
    simp only [collectIter, iterNext_flip]
    cases iterNext c e it with
    | fail f => rfl
    | ok p =>
      obtain ⟨o, it'⟩ := p
      cases o with
      | none => rfl
      | some r => simp only [Res.bind_ok, ih]

theorem intoIter_flip (c : Cfg) (e : Ty) (s : Slice) : intoIter c.flip e s = intoIter c e s := rfl

theorem arrRefs_flip (c : Cfg) (e : Ty) (s : Slice) : arrRefs c.flip e s = arrRefs c e s := by
  simp only [arrRefs, intoIter_flip, collectIter_flip]

theorem toOption_flip (c : Cfg) (e : Ty) (s : Slice) : toOption c.flip e s = toOption c e s := rfl

theorem getChildElem_flip (c : Cfg) (t : Ty) (s : Slice) (row : Row) (l : Bool) (n : Nat) :
    getChildElem c.flip t s row l n = getChildElem c t s row l n := rfl

theorem memberRefs_flip (c : Cfg) (s : Slice) (n : Nat) (ts : List Ty) : ∀ rows, memberRefs c.flip s n ts rows = memberRefs c s n ts rows := by
  induction ts with
  | nil => intro rows; cases rows <;> rfl
  | cons t ts ih =>
    intro rows
    cases rows with
    | nil => rfl
    | cons row rows => simp only [memberRefs, getChildElem_flip, ih]

theorem tupRefs_flip (c : Cfg) (gv : Ty) (ts : List Ty) (s : Slice) : tupRefs c.flip gv ts s = tupRefs c gv ts s := by
  simp only [tupRefs, memberRefs_flip]

theorem split_flip (c : Cfg) (s : Slice) : split c.flip s = split c s := rfl

theorem fromAligned_flip (c : Cfg) (t : Ty) (s : Slice) : fromAligned c.flip t s = fromAligned c t s := rfl

theorem leBytes_le (b : Bytes) : leBytes b.length (le b) = b := by
  induction b with
  | nil => rfl
  | cons x xs ih =>
    have hx := x.toNat_lt
    have h : le (x :: xs) = x.toNat + 256 * le xs := rfl
    rw [List.length_cons, leBytes, h]
    have h1 : (x.toNat + 256 * le xs) % 256 = x.toNat := by omega
    have h2 : (x.toNat + 256 * le xs) / 256 = le xs := by omega
    rw [h1, h2, ih, UInt8.ofNat_toNat]

theorem fromNe_flip (c : Cfg) (b : Bytes) (w : Nat) (h : b.length = w) : fromNe c.flip b = swapNum w (fromNe c b) := by
  subst h
  unfold fromNe Cfg.flip swapNum
  simp only [fromLe_eq]
  cases c.bigEndian with
  | true =>
    simp only [Bool.not_true, Bool.false_eq_true, if_false, if_true]
    have := leBytes_le b.reverse
    rw [List.length_reverse] at this
    rw [this, List.reverse_reverse]
  | false => simp [leBytes_le]

/-- Reading on a machine with the other byte order. -/
def SwapOk (c : Cfg) (root : Slice) (t : Ty) : Prop := ∀ r, Good c root t r →
  view c.flip t r = (view c t r >>= fun v => .ok (swap t v))

theorem traverse_swap {c : Cfg} {root : Slice} {e : Ty} (ih : SwapOk c root e) : ∀ rs : List Slice, (∀ r ∈ rs, Good c root e r) →
    Res.traverse (view c.flip e) rs = (Res.traverse (view c e) rs >>= fun vs => .ok (vs.map (swap e))) := by
  intro rs
  induction rs with
  | nil => intro _; rfl
  | cons r rs ihr =>
    intro h
    simp only [Res.traverse, ih r (h r (by simp)), ihr (fun q hq => h q (by simp [hq]))]
    cases view c e r with
    | fail f => rfl
    | ok v =>
      simp only [Res.bind_ok]
      cases Res.traverse (view c e) rs <;> rfl

theorem viewAll_swap {c : Cfg} {root : Slice} (ts : List Ty) : (∀ t ∈ ts, SwapOk c root t) → ∀ rs, List.Forall₂ (Good c root) ts rs →
    viewAll c.flip ts rs = (viewAll c ts rs >>= fun vs => .ok (swapAll ts vs)) := by
  induction ts with
  | nil => intro _ rs h; cases h; rfl
  | cons t ts ih =>
    intro hv rs h
    cases h with
    | cons h1 h2 =>
      rename_i r rs
      simp only [viewAll, hv t (by simp) r h1, ih (fun u hu => hv u (by simp [hu])) rs h2]
      cases view c t r with
      | fail f => rfl
      | ok v =>
        simp only [Res.bind_ok]
        cases viewAll c ts rs <;> rfl

theorem good_size {c : Cfg} {root r : Slice} {t : Ty} {n : Nat} (h : Good c root t r) (hn : size t = some n) : r.bytes.length = n :=
  castBytes_fixed_len hn h.cast

theorem view_swap {c : Cfg} {root : Slice} (t : Ty) : SwapOk c root t := by
  induction t using Ty.ind with
  | a e ih =>
    intro r h
    rw [view, view, arrRefs_flip]
    cases hr : arrRefs c e r with
    | fail f => rfl
    | ok rs =>
      simp only [Res.bind_ok, traverse_swap ih rs ((arrRefs_good h).1 rs hr)]
      cases Res.traverse (view c e) rs <;> rfl
  | m e ih =>
    intro r h
    rw [view, view, toOption_flip]
    cases ho : toOption c e r with
    | fail f => rfl
    | ok o =>
      cases o with
      | none => rfl
      | some x =>
        simp only [Res.bind_ok, ih x ((toOption_good h).1 x ho)]
        cases view c e x <;> rfl
  | tuple ts ih =>
    intro r h
    rw [view, view, tupRefs_flip]
    obtain ⟨hx, d, hd⟩ := expands_tuple.1 h.ex
    cases hr : tupRefs c (.tuple ts) ts r with
    | fail f => rfl
    | ok rs =>
      simp only [Res.bind_ok, viewAll_swap ts ih rs ((tuple_good h rfl rfl rfl hx hd h.sm.shows).1 rs hr)]
      cases viewAll c ts rs with
      | fail f => rfl
      | ok vs => simp only [Res.bind_ok, Res.pure_eq, swap]
  | dict k v ihk ihv =>
    intro r h
    rw [view, view, tupRefs_flip]
    obtain ⟨⟨hk, hv⟩, d, hd⟩ := expands_dict.1 h.ex
    have hx : ∀ t ∈ [k, v], Expands t := by
      intro t ht
      simp only [List.mem_cons, List.not_mem_nil, or_false] at ht
      rcases ht with rfl | rfl <;> assumption
    cases hr : tupRefs c (.dict k v) [k, v] r with
    | fail f => rfl
    | ok rs =>
      have g1 := (tuple_good (ts := [k, v]) h (size_dict_eq k v) (align_dict_eq k v) (castBytes_dict k v _)
        hx hd h.sm.dict).1 rs hr
      cases g1 with
      | cons a1 a2 =>
        cases a2 with
        | cons a2 a3 =>
          cases a3
          rename_i r1 r2
          simp only [Res.bind_ok, ihk _ a1, ihv _ a2]
          cases view c k r1 with
          | fail f => rfl
          | ok x =>
            simp only [Res.bind_ok]
            cases view c v r2 with
            | fail f => rfl
            | ok y => simp only [Res.bind_ok, Res.pure_eq, swap]
  | v =>
    intro r h
    rw [view, view, split_flip]
    cases split c r with
    | fail f => rfl
    | ok p => rfl
  | b => intro r h; rfl
  | y =>
    intro r h
    have h1 := good_size h (n := 1) rfl
    obtain ⟨a, bs⟩ := r
    match bs, h1 with
    | [x], _ => simp [view, fromNe, swap]
  | n => intro r h; simp only [view, Res.bind_ok, swap, fromNe_flip c _ 2 (good_size h rfl)]
  | q => intro r h; simp only [view, Res.bind_ok, swap, fromNe_flip c _ 2 (good_size h rfl)]
  | i => intro r h; simp only [view, Res.bind_ok, swap, fromNe_flip c _ 4 (good_size h rfl)]
  | u => intro r h; simp only [view, Res.bind_ok, swap, fromNe_flip c _ 4 (good_size h rfl)]
  | x => intro r h; simp only [view, Res.bind_ok, swap, fromNe_flip c _ 8 (good_size h rfl)]
  | t => intro r h; simp only [view, Res.bind_ok, swap, fromNe_flip c _ 8 (good_size h rfl)]
  | d => intro r h; simp only [view, Res.bind_ok, swap, fromNe_flip c _ 8 (good_size h rfl)]
  | s => intro r h; rfl
  | o => intro r h; rfl
  | g => intro r h; rfl

/-! ### Encoding -/

theorem numBytes_swap (be : Bool) (w n : Nat) : numBytes (!be) w n = numBytes be w (swapNum w n) := by
  have h : leBytes w (swapNum w n) = (leBytes w n).reverse := by
    have := leBytes_le (leBytes w n).reverse
    rwa [List.length_reverse, leBytes_length] at this
  unfold numBytes
  cases be <;> simp [h]

theorem encAll_swap {be p : Bool} (ts : List Ty) : (∀ t ∈ ts, ∀ v, enc ⟨!be, p⟩ t v = enc ⟨be, p⟩ t (swap t v)) → ∀ vs,
    encAll ⟨!be, p⟩ ts vs = encAll ⟨be, p⟩ ts (swapAll ts vs) := by
  induction ts with
  | nil => intro _ vs; cases vs <;> rfl
  | cons t ts ih =>
    intro h vs
    cases vs with
    | nil => rfl
    | cons v vs => simp only [encAll, swapAll, h t (by simp) v, ih (fun u hu => h u (by simp [hu])) vs]

theorem enc_swap (be p : Bool) (t : Ty) : ∀ v, enc ⟨!be, p⟩ t v = enc ⟨be, p⟩ t (swap t v) := by
  induction t using Ty.ind with
  | a e ih =>
    intro v
    cases v with
    | arr vs =>
      simp only [enc, swap, List.map_map]
      have : vs.map (enc ⟨!be, p⟩ e) = vs.map (enc ⟨be, p⟩ e ∘ swap e) := List.map_congr_left fun v _ => ih v
      rw [this]
      rfl
    | _ => rfl
  | m e ih =>
    intro v
    cases v with
    | just x => simp only [enc, swap, ih]
    | _ => rfl
  | tuple ts ih =>
    intro v
    cases v with
    | tup vs => simp only [enc, swap, encAll_swap ts ih vs]
    | _ => rfl
  | dict k v ihk ihv =>
    intro w
    cases w with
    | tup vs =>
      match vs with
      | [x, y] => simp only [enc, swap, ihk, ihv]
      | [] => rfl
      | [_] => rfl
      | _ :: _ :: _ :: _ => rfl
    | _ => rfl
  | y =>
    intro v
    cases v with
    | num n => simp only [enc, swap, numBytes]; cases be <;> simp [leBytes]
    | _ => rfl
  | n | q | i | u | x | t | d =>
    intro v
    cases v with
    | num n => simp only [enc, swap, numBytes_swap]
    | _ => rfl
  | _ => intro v; cases v <;> rfl

end GV
