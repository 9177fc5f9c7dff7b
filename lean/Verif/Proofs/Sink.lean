import Verif.Model.Sink
import Verif.Proofs.Debug
import Verif.Proofs.Str
/-
The calls that printing makes do not depend on the sink.
-/
namespace GV
open Spec Printer

/-- A printer that works with every sink. -/
abbrev AnyPrinter := (σ : Type) → TextSink σ → Printer σ

/-- The printer makes calls that do not depend on the sink until the sink refuses; their text is the given one,
    or they end in the given panic. -/
def Shows (C : CoreCalls) (p : AnyPrinter) (r : Res Bytes) : Prop :=
  ∃ calls e, (∀ σ w st, p σ w st = feed w calls e st) ∧ (Printable C → ∀ x ∈ calls, Text x) ∧
    (∀ x, r = .ok x → e = none ∧ calls.flatten = x) ∧ ∀ f, r = .fail f → e = some f

theorem feed_append {σ : Type} (w : TextSink σ) (xs ys : List Bytes) (e : Option Fault) : ∀ st, feed w (xs ++ ys) e st =
    Printer.andThen (fun st => feed w xs none st) (fun st => feed w ys e st) st := by
  induction xs with
  | nil => intro st; rfl
  | cons x xs ih =>
    intro st
    simp only [List.cons_append, feed, Printer.andThen]
    rcases h : w st x with ⟨st', b⟩
    cases b with
    | true => simp only [ih]; rfl
    | false => rfl

theorem feed_fault {σ : Type} (w : TextSink σ) (xs : List Bytes) (f : Fault) (q : Printer σ) : ∀ st,
    Printer.andThen (fun st => feed w xs (some f) st) q st = feed w xs (some f) st := by
  induction xs with
  | nil => intro st; rfl
  | cons x xs ih =>
    intro st
    simp only [feed, Printer.andThen]
    rcases h : w st x with ⟨st', b⟩
    cases b with
    | true => exact ih st'
    | false => rfl

variable {C : CoreCalls}

theorem shows_cast {p q : AnyPrinter} {r r' : Res Bytes} (h : Shows C p r) (hp : ∀ σ w, q σ w = p σ w) (hr : r' = r) :
    Shows C q r' := by
  subst hr
  obtain ⟨calls, e, h1, h2⟩ := h
  exact ⟨calls, e, fun σ w st => by rw [hp, h1], h2⟩

theorem shows_say {x : Bytes} (hx : Printable C → Text x) : Shows C (fun _ w => say w x) (.ok x) := by
  refine ⟨[x], none, fun σ w st => ?_, by simpa using hx, fun y h => ?_, nofun⟩
  · simp only [say, feed]
    rcases h : w st x with ⟨st', b⟩
    cases b <;> rfl
  · cases h; simp

theorem shows_done : Shows C (fun _ _ => Printer.done) (.ok []) :=
  ⟨[], none, fun _ _ _ => rfl, by simp, fun _ h => by cases h; simp, nofun⟩

theorem shows_fail (f : Fault) : Shows C (fun _ _ st => (st, .fail f)) (.fail f) :=
  ⟨[], some f, fun _ _ _ => rfl, by simp, nofun, fun g h => by cases h; rfl⟩

theorem shows_then {p q : AnyPrinter} {r r' : Res Bytes} (hp : Shows C p r) (hq : Shows C q r') :
    Shows C (fun σ w => (p σ w).andThen (q σ w)) (r.bind fun x => r'.bind fun y => .ok (x ++ y)) := by
  obtain ⟨cs, e, h1, h2, h3, h4⟩ := hp
  obtain ⟨ds, e', g1, g2, g3, g4⟩ := hq
  cases r with
  | fail f =>
    have he := h4 f rfl
    subst he
    refine ⟨cs, some f, fun σ w st => ?_, h2, nofun, fun g h => ?_⟩
    · rw [← feed_fault w cs f (q σ w) st]
      have : p σ w = fun st => feed w cs (some f) st := funext (h1 σ w)
      simp only [this]
    · cases h; rfl
  | ok x =>
    obtain ⟨he, hx⟩ := h3 x rfl
    subst he
    refine ⟨cs ++ ds, e', fun σ w st => ?_, fun hC y hy => ?_, fun y h => ?_, fun f h => ?_⟩
    · have e1 : p σ w = fun st => feed w cs none st := funext (h1 σ w)
      have e2 : q σ w = fun st => feed w ds e' st := funext (g1 σ w)
      simp only [feed_append, e1, e2]
    · rcases List.mem_append.1 hy with hy | hy
      · exact h2 hC y hy
      · exact g2 hC y hy
    · cases r' with
      | fail f => cases h
      | ok z =>
        cases h
        obtain ⟨k1, k2⟩ := g3 z rfl
        exact ⟨k1, by rw [List.flatten_append, hx, k2]⟩
    · cases r' with
      | ok z => cases h
      | fail g => cases h; exact g4 _ rfl

theorem shows_after {α : Type} {r : Res α} {p : α → AnyPrinter} {k : α → Res Bytes} (h : ∀ a, Shows C (p a) (k a)) :
    Shows C (fun σ w => after r fun a => p a σ w) (r.bind k) := by
  cases r with
  | ok a => exact h a
  | fail f => exact shows_fail f

theorem shows_all {xs : List Bytes} (h : Printable C → ∀ x ∈ xs, Text x) :
    Shows C (fun _ w => sayAll w xs) (.ok xs.flatten) := by
  induction xs with
  | nil => exact shows_done
  | cons x xs ih =>
    exact shows_then (shows_say fun hC => h hC x (by simp)) (ih fun hC y hy => h hC y (by simp [hy]))

theorem text_lit {x : Bytes} (h : utf8Valid x = true) (h0 : (0 : UInt8) ∉ x) : Printable C → Text x :=
  fun _ => ⟨(utf8Valid_iff x).1 h, h0⟩

theorem shows_lossy (b : Bytes) : Shows C (fun _ w => lossyTo C w b) (.ok (lossyDebug C.text b)) := by
  unfold lossyTo lossyDebug
  cases ha : C.alloc with
  | true =>
    have : C.text.alloc = true := ha
    rw [this]
    exact shows_all fun hC => hC.str _ (hC.lossy b)
  | false =>
    have : C.text.alloc = false := ha
    rw [this]
    cases hb : utf8Valid b with
    | true => exact shows_all fun hC => hC.str _ ((utf8Valid_iff b).1 hb)
    | false => exact shows_say (text_lit (by decide) (by decide))

/-- Printers with what they show. -/
abbrev ShownList := List (AnyPrinter × Res Bytes)

/-- What they show, all of it or the first panic. -/
def shownAll (l : ShownList) : Res (List Bytes) := Res.traverse (fun r => r) (l.map fun p => p.2)

theorem shownAll_cons (p : AnyPrinter × Res Bytes) (l : ShownList) : shownAll (p :: l) = (do
    let x ← p.2
    let xs ← shownAll l
    pure (x :: xs)) := rfl

theorem shows_more (l : ShownList) (h : ∀ p ∈ l, Shows C p.1 p.2) :
    Shows C (fun σ w => moreTo w (l.map fun p => p.1 σ w))
      ((shownAll l).bind fun xs => .ok (moreEntries xs)) := by
  induction l with
  | nil => exact shows_done
  | cons p l ih =>
    have := shows_then (shows_say (C := C) (x := [44, 32]) (text_lit (by decide) (by decide)))
      (shows_then (h p (by simp)) (ih fun q hq => h q (by simp [hq])))
    refine shows_cast this (fun _ _ => rfl) ?_
    rw [shownAll_cons]
    cases p.2 with
    | fail f => rfl
    | ok x =>
      cases shownAll l with
      | fail f => rfl
      | ok xs => simp [Res.bind, moreEntries]

theorem shows_list (l : ShownList) (h : ∀ p ∈ l, Shows C p.1 p.2) :
    Shows C (fun σ w => listTo w (l.map fun p => p.1 σ w))
      ((shownAll l).bind fun xs => .ok (debugList xs)) := by
  cases l with
  | nil =>
    exact shows_then (shows_say (C := C) (x := [91]) (text_lit (by decide) (by decide)))
      (shows_say (x := [93]) (text_lit (by decide) (by decide)))
  | cons p l =>
    have := shows_then (shows_say (C := C) (x := [91]) (text_lit (by decide) (by decide)))
      (shows_then (h p (by simp)) (shows_then (shows_more l fun q hq => h q (by simp [hq]))
        (shows_say (x := [93]) (text_lit (by decide) (by decide)))))
    refine shows_cast this (fun _ _ => rfl) ?_
    rw [shownAll_cons]
    cases p.2 with
    | fail f => rfl
    | ok x =>
      cases shownAll l with
      | fail f => rfl
      | ok xs => simp [Res.bind, debugList]

theorem shows_tuple (l : ShownList) (h : ∀ p ∈ l, Shows C p.1 p.2) :
    Shows C (fun σ w => tupleTo w (l.map fun p => p.1 σ w))
      ((shownAll l).bind fun xs => .ok (debugTuple xs)) := by
  cases l with
  | nil => exact shows_say (x := [40, 41]) (text_lit (by decide) (by decide))
  | cons p l =>
    have hc : Shows C (fun σ w => if (l.map fun p => p.1 σ w).isEmpty then say w [44] else done)
        (.ok (if l.isEmpty then [44] else [])) := by
      cases l with
      | nil => exact shows_say (x := [44]) (text_lit (by decide) (by decide))
      | cons q l => exact shows_done
    have := shows_then (shows_say (C := C) (x := []) (text_lit (by decide) (by decide)))
      (shows_then (shows_say (C := C) (x := [40]) (text_lit (by decide) (by decide)))
      (shows_then (h p (by simp)) (shows_then (shows_more l fun q hq => h q (by simp [hq]))
        (shows_then hc (shows_say (x := [41]) (text_lit (by decide) (by decide)))))))
    refine shows_cast this (fun _ _ => rfl) ?_
    rw [shownAll_cons]
    cases p.2 with
    | fail f => rfl
    | ok x =>
      cases hl : shownAll l with
      | fail f => rfl
      | ok xs =>
        have : l.isEmpty = xs.isEmpty := by
          cases l with
          | nil => cases hl; rfl
          | cons q l =>
            simp only [shownAll_cons, Res.bind_eq_ok] at hl
            obtain ⟨y, _, ys, _, hz⟩ := hl
            cases hz; rfl
        simp [Res.bind, debugTuple, this]

theorem shows_loop {c : Cfg} {e : Ty} {f : Slice → AnyPrinter} {g : Slice → Res Bytes} (h : ∀ r, Shows C (f r) (g r))
    (fuel : Nat) : ∀ it, Shows C (fun σ w => loopTo c e w (fun r => f r σ w) fuel it) (debugLoop c e g fuel it) := by
  induction fuel with
  | zero => intro it; exact shows_fail _
  | succ fuel ih =>
    intro it
    have : ∀ a : Option Slice × ArrIter, Shows C (fun σ w => match a with
        | (none, _) => done
        | (some r, it') => ((f r σ w).andThen (say w [44, 32])).andThen (loopTo c e w (fun r => f r σ w) fuel it'))
        (match a with
          | (none, _) => .ok []
          | (some r, it') => (((g r).bind fun x => Res.bind (.ok [44, 32]) fun y => .ok (x ++ y)).bind fun x =>
              (debugLoop c e g fuel it').bind fun y => .ok (x ++ y))) := by
      rintro ⟨o, it'⟩
      cases o with
      | none => exact shows_done
      | some r =>
        exact shows_then (shows_then (h r) (shows_say (x := [44, 32]) (text_lit (by decide) (by decide)))) (ih it')
    refine shows_cast (shows_after (r := iterNext c e it) this) (fun _ _ => ?_) ?_
    · simp only [loopTo]
      congr 1
    · simp only [debugLoop]
      cases iterNext c e it with
      | fail f => rfl
      | ok p =>
        obtain ⟨o, it'⟩ := p
        cases o with
        | none => rfl
        | some r =>
          show (g r).bind _ = ((g r).bind _).bind _
          cases g r with
          | fail f => rfl
          | ok x => simp [Res.bind]; rfl

theorem traverse_pair {α : Type} (f : α → AnyPrinter) (g : α → Res Bytes) : ∀ l : List α,
    shownAll (l.map fun a => (f a, g a)) = Res.traverse g l := by
  intro l
  induction l with
  | nil => rfl
  | cons a l ih => simp only [List.map_cons, shownAll_cons, Res.traverse, ih]

theorem shows_members {c : Cfg} (ts : List Ty) :
    (∀ t ∈ ts, ∀ s, Shows C (fun _ w => debugTo C c w t s) (debug C.text c t s)) → ∀ rs : List Slice,
    ∃ l : ShownList, (∀ p ∈ l, Shows C p.1 p.2) ∧ (∀ σ (w : TextSink σ), debugAllTo C c w ts rs = l.map fun p => p.1 σ w) ∧
      debugAll C.text c ts rs = shownAll l := by
  have hbad : ∃ l : ShownList, (∀ p ∈ l, Shows C p.1 p.2) ∧
      (∀ σ (w : TextSink σ), [fun (st : σ) => (st, (.fail .explicit : Res Bool))] = l.map fun p => p.1 σ w) ∧
      (.fail .explicit : Res (List Bytes)) = shownAll l :=
    ⟨[(fun _ _ st => (st, .fail .explicit), .fail .explicit)], by
      intro p hp; rw [List.mem_singleton] at hp; subst hp; exact shows_fail _, fun _ _ => rfl, rfl⟩
  induction ts with
  | nil =>
    intro _ rs
    cases rs with
    | nil => exact ⟨[], by simp, fun _ _ => by simp [debugAllTo], by simp [debugAll, shownAll, Res.traverse]⟩
    | cons r rs => simpa [debugAllTo, debugAll] using hbad
  | cons t ts ih =>
    intro h rs
    cases rs with
    | nil => simpa [debugAllTo, debugAll] using hbad
    | cons r rs =>
      obtain ⟨l, h1, h2, h3⟩ := ih (fun u hu => h u (by simp [hu])) rs
      refine ⟨(fun _ w => debugTo C c w t r, debug C.text c t r) :: l, ?_, fun σ w => ?_, ?_⟩
      · intro p hp
        rcases List.mem_cons.1 hp with rfl | hp
        · exact h t (by simp) r
        · exact h1 p hp
      · simp [debugAllTo, h2]
      · simp only [debugAll, shownAll_cons, h3]

theorem debug_shows (C : CoreCalls) (c : Cfg) (t : Ty) : ∀ s, Shows C (fun _ w => debugTo C c w t s) (debug C.text c t s) := by
  induction t using Ty.ind with
  | b => intro s; simp only [debugTo, debug]; exact shows_say (by cases toBool s.bytes <;> exact text_lit (by decide) (by decide))
  | y => intro s; simp only [debugTo, debug]; exact shows_all fun hC => hC.num _ _
  | n => intro s; simp only [debugTo, debug]; exact shows_all fun hC => hC.num _ _
  | q => intro s; simp only [debugTo, debug]; exact shows_all fun hC => hC.num _ _
  | i => intro s; simp only [debugTo, debug]; exact shows_all fun hC => hC.num _ _
  | u => intro s; simp only [debugTo, debug]; exact shows_all fun hC => hC.num _ _
  | x => intro s; simp only [debugTo, debug]; exact shows_all fun hC => hC.num _ _
  | t => intro s; simp only [debugTo, debug]; exact shows_all fun hC => hC.num _ _
  | d => intro s; simp only [debugTo, debug]; exact shows_all fun hC => hC.num _ _
  | s => intro s; simp only [debugTo, debug]; exact shows_all fun hC => hC.str _ (toStr_is_text _).1
  | o => intro s; simp only [debugTo, debug]; exact shows_all fun hC => hC.str _ (toStr_is_text _).1
  | g => intro s; simp only [debugTo, debug]; exact shows_all fun hC => hC.str _ (toStr_is_text _).1
  | v =>
    intro s
    simp only [debugTo, debug]
    have : ∀ a : Bytes × Slice, Shows C (fun σ w =>
        (say w [86, 97, 114, 105, 97, 110, 116, 32, 123, 32, 116, 121, 112, 101, 58, 32]).andThen
          ((lossyTo C w a.1).andThen ((say w [44, 32, 100, 97, 116, 97, 58, 32]).andThen
            ((listTo w ((a.2.bytes.map fun x => ((fun _ w => sayAll w (C.num .Y x.toNat) : AnyPrinter),
                (.ok (C.text.num .Y x.toNat) : Res Bytes))).map fun p => p.1 σ w)).andThen (say w [32, 125])))))
        (.ok ([86, 97, 114, 105, 97, 110, 116, 32, 123, 32, 116, 121, 112, 101, 58, 32] ++ lossyDebug C.text a.1 ++
          [44, 32, 100, 97, 116, 97, 58, 32] ++ debugList (a.2.bytes.map fun x => C.text.num .Y x.toNat) ++ [32, 125])) := by
      intro a
      refine shows_cast (shows_then (shows_say (text_lit (by decide) (by decide)))
        (shows_then (shows_lossy a.1) (shows_then (shows_say (text_lit (by decide) (by decide)))
          (shows_then (shows_list _ ?_) (shows_say (text_lit (by decide) (by decide))))))) (fun _ _ => rfl) ?_
      · intro p hp
        obtain ⟨x, _, rfl⟩ := List.mem_map.1 hp
        exact shows_all fun hC => hC.num _ _
      · rw [traverse_pair]
        have : Res.traverse (fun x : UInt8 => (.ok (C.text.num .Y x.toNat) : Res Bytes)) a.2.bytes =
            .ok (a.2.bytes.map fun x => C.text.num .Y x.toNat) := by
          induction a.2.bytes with
          | nil => rfl
          | cons x xs ih => simp [Res.traverse, ih]
        rw [this]
        simp [Res.bind]
    refine shows_cast (shows_after this) (fun σ w => ?_) rfl
    congr 1
    funext a
    simp [List.map_map, Function.comp_def]
  | a e ih =>
    intro s
    simp only [debugTo, debug]
    cases sizeOf e with
    | some k =>
      have : ∀ a : Nat × Nat, Shows C (fun σ w => listTo w ((((sliceElems a.1 s).map fun r =>
          ((fun _ w => debugTo C c w e r : AnyPrinter), debug C.text c e r))).map fun p => p.1 σ w))
          ((shownAll ((sliceElems a.1 s).map fun r =>
          ((fun _ w => debugTo C c w e r : AnyPrinter), debug C.text c e r))).bind fun xs => .ok (debugList xs)) := by
        intro a
        refine shows_list _ fun p hp => ?_
        obtain ⟨r, _, rfl⟩ := List.mem_map.1 hp
        exact ih r
      refine shows_cast (shows_after (r := rustLayout e) this) (fun σ w => ?_) ?_
      · simp only
        congr 1
        funext a
        simp [List.map_map, Function.comp_def]
      · simp only [traverse_pair]
        rfl
    | none =>
      refine shows_cast (shows_then (shows_say (x := [91]) (text_lit (by decide) (by decide)))
        (shows_then (shows_after (r := intoIter c e s) fun it => shows_loop (fun r => ih r) (it.offsets.length + 1) it)
          (shows_say (x := [93]) (text_lit (by decide) (by decide))))) (fun _ _ => rfl) ?_
      simp only
      cases intoIter c e s with
      | fail f => rfl
      | ok it =>
        show (debugLoop c e (debug C.text c e) _ it).bind _ = _
        simp only [Res.bind]
        cases debugLoop c e (debug C.text c e) (it.offsets.length + 1) it with
        | fail f => rfl
        | ok x => simp
  | m e ih =>
    intro s
    simp only [debugTo, debug]
    refine shows_cast (shows_after (r := toOption c e s) (p := fun o σ w => match o with
      | none => say w [78, 111, 110, 101]
      | some r => (say w [83, 111, 109, 101]).andThen ((say w [40]).andThen
        ((debugTo C c w e r).andThen (say w [41])))) (k := fun o => match o with
      | none => .ok [78, 111, 110, 101]
      | some r => Res.bind (.ok [83, 111, 109, 101]) fun x => (Res.bind (.ok [40]) fun x =>
          ((debug C.text c e r).bind fun x => Res.bind (.ok [41]) fun y => .ok (x ++ y)).bind fun y => .ok (x ++ y)).bind
            fun y => .ok (x ++ y)) fun o => ?_) (fun _ _ => rfl) ?_
    · cases o with
      | none => exact shows_say (text_lit (by decide) (by decide))
      | some r =>
        exact shows_then (shows_say (text_lit (by decide) (by decide)))
          (shows_then (shows_say (text_lit (by decide) (by decide)))
            (shows_then (ih r) (shows_say (text_lit (by decide) (by decide)))))
    · cases toOption c e s with
      | fail f => rfl
      | ok o =>
        cases o with
        | none => rfl
        | some r =>
          show (debug C.text c e r).bind _ = _
          simp only [Res.bind]
          cases debug C.text c e r with
          | fail f => rfl
          | ok x => simp
  | tuple ts ih =>
    intro s
    simp only [debugTo, debug]
    refine shows_after fun rs => ?_
    obtain ⟨l, h1, h2, h3⟩ := shows_members ts ih rs
    refine shows_cast (shows_tuple l h1) (fun σ w => by rw [h2]) ?_
    rw [h3]
    rfl
  | dict k l ihk ihl =>
    intro s
    simp only [debugTo, debug]
    refine shows_after fun rs => ?_
    match rs with
    | [rk, rv] =>
      refine shows_cast (shows_tuple [(fun _ w => debugTo C c w k rk, debug C.text c k rk),
        (fun _ w => debugTo C c w l rv, debug C.text c l rv)] ?_) (fun σ w => rfl) ?_
      · intro p hp
        simp only [List.mem_cons, List.not_mem_nil, or_false] at hp
        rcases hp with rfl | rfl
        · exact ihk rk
        · exact ihl rv
      · simp only [shownAll_cons, shownAll, List.map_nil, Res.traverse]
        cases debug C.text c k rk with
        | fail f => rfl
        | ok x =>
          cases debug C.text c l rv with
          | fail f => rfl
          | ok y => rfl
    | [] => exact shows_fail _
    | [_] => exact shows_fail _
    | _ :: _ :: _ :: _ => exact shows_fail _

end GV
