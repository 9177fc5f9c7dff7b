# Formal model of gvariant-rs: design

Target: ostreedev/gvariant-rs as found in /repo (crates `gvariant` and `gvariant-macro`), read as text.
Everything here is Lean 4 (4.33.0) with Mathlib modules imported one at a time.

## Architecture

* `Verif/Model/*`  the model, one definition per function of the code, each citing file and lines.
* `Verif/Spec/*`   small independent specifications (type grammar, layout, normal form encoder, total decoder), written from docs/gvariant-serialisation.pdf and not using model helpers.
* `Verif/Proofs/*` helper lemmas.
* `Verif/Props/*`  the property theorems (named after the property ids), each with a non-vacuity `example`.
* `Verif/Tests/*`  the assertions of the repository's own tests and the examples of the specification document, evaluated on model and specification (a check of these, not part of any claim).

### Modelling conventions

* Bytes are `List UInt8`; `usize` is 64 bit (32-bit targets do not compile because of a pattern literal in `offset_size`): a `Nat` with explicit `2^64` checks. `Cfg` carries build mode: overflow checks on/off, debug assertions on/off, endianness, and link-time addresses. All theorems quantify over `Cfg`.
* A slice is an address plus its bytes, so alignment is a real fact rather than a type-level promise.
* A panic is an explicit error value (`Fault`), and creating a misaligned reference is the distinct fault `ub`.
* `&mut` operations return the new value. The allocator is universally quantified (any address it returns).
* Writers are arbitrary state machines; serializers are polymorphic in them.

### Where things are

| Model file | Code |
| --- | --- |
| `Base` | `usize` arithmetic, faults, build configuration |
| `TypeParser` | gvariant-macro/src/type_parser.rs |
| `Layout` | gvariant-macro/src/generate_impl.rs, gvariant-macro/src/lib.rs: sizes, tables, generated structs |
| `Rust` | which Rust type `gv!` names and its `AlignOf`, `Sized`, size (lib.rs, casting.rs) |
| `Offset`, `Slice` | gvariant/src/aligned_bytes.rs, offset.rs |
| `Buf` | gvariant/src/buf.rs, `copy_to_align` |
| `Str` | `Str`, `GString`, UTF-8 checking |
| `Deser` | casting.rs and the reading half of lib.rs and of the generated code: `view`, `readAs` |
| `Owned` | `Owned`, `Marker::deserialize`, `from_bytes`, `try_cast_mut` |
| `Ser` | the `SerializeTo` implementations and `write_offsets`, `VariantWrap` |
| `Convert` | comparisons and conversions of `AlignedOffset` and `AlignedSlice`, `TryInto` slices of numbers |
| `Stream` | `write_all` and `read_to_end` of the standard library, and `Marker::deserialize` on top |
| `Eq` | the `PartialEq`, `PartialOrd`, `Ord`, `Hash` implementations |
| `Reser` | serializing something that was read |
| `Walk` | a program that goes from a reference to one part along a path |
| `Descend` | a program that goes from variants to the variants in them |
| `Oom` | `GString` and `AlignedBuf` changed in place with allocations that fail (lib.rs:964-1013, buf.rs:54-117) |
| `Fuzz` | fuzz/fuzz_targets/fuzz_target_1.rs |
| `Debug` | the `Debug` and `Display` implementations |
| `Sink` | the same as `write_str` calls into a sink that may refuse |
| `Packed` | building and changing fixed-size structs in memory: `new`, `Default`, assignment to fields, stores through slices of a buffer |
| `Pretty` | printing with flags such as `{:#?}` |
| `ParseError` | type_parser.rs again, with its error messages |
| `Emit` | the source text that `gv!` emits, byte for byte |
| `OwnSer` | the `SerializeTo` implementations again, generic over what the parts do |
| `Client` | a program that reads values through the interface, call by call |
| `Session` | a program that owns, changes, borrows and drops buffers under Rust's borrow rules |
| `OstreeLs` | examples/ostree-ls/src/main.rs; output before a panic and I/O errors are not represented |

| Specification file | Content |
| --- | --- |
| `Grammar` | type strings |
| `Layout` | alignment, size, field offsets |
| `Memory` | byte ranges, alignment, plain vectors |
| `Str` | UTF-8 from the standard, texts |
| `Value`, `Decode` | values; decoder for arbitrary bytes, with the points where crate and specification differ as switches |
| `Encode` | normal form encoder and when a value has one |
| `Tame` | data whose framing offsets are below 2^63, as are those of all encodings and of all data below 4 GiB |
| `Wrap` | the deserialization rules with positions modulo 2^64; whether a position does not fit |
| `Nested`, `Empty` | nested variants; types whose default needs an aligned empty slice |
| `Source`, `Run` | Rust values that can be serialized, and running the serializer against a writer |
| `Back` | what comes back when an array was written with padding after its last element |
| `Settle` | depth of array nesting, for the bound on rounds |
| `Chain` | number of variants on a path and along arrays of variants |
| `Stream` | what writers took, what readers deliver |
| `Feed` | pieces of text given to a sink until it refuses |
| `Roles` | which bytes of fixed-size data are padding or booleans |
| `Normal`, `Clean` | which byte sequences are normal forms; recognising them |
| `Blow` | degree and factor of the bound on re-serialized sizes |
| `Print` | how values look when printed |
| `Update` | replacing a member of a value, and bytes of a byte sequence |
| `Listing` | directory tree objects of OSTree and how they are listed |
| `Endian` | reversing the bytes of the numbers in a value |
| `Alike` | a representative of the types whose values look the same in bytes |
| `Path` | paths into values |
| `Visits` | number of values in a value, of types in a type |
| `Documented` | the decoder that the documentation of the crate describes; data free of the abnormalities for which it departs from the specification |
| `Spot` | where in its encoding each part of a value lies |
| `Bare` | sources made of Rust's own values and `VariantWrap` only |
| `Client`, `Session` | what a program gets to see if all there is to see is values; borrow rules |
| `Coherence`, `Traits` | what implementations of traits consist of, and which types implement which |
| `Extent` | bytes that the simple values in a value take |
| `Local` | which framing offset belongs to which member |
| `Oom` | editing text when any edit may fail to happen |
| `Part` | what a `serialize` written by a user is expected to do |
| `Prefix` | beginnings of type strings |
| `Pretty` | how values look when printed with flags |
| `RustText`, `RustRead`, `RustNames` | reading Rust source text: words, items, functions, names |
| `Single` | types and values without structures of one member |
| `SetPart` | a value with one part replaced |
| `Tree` | values in which variants hold values, not bytes |
| `Compare` | order on options, IEEE 754 equality of doubles |

## Properties: what is modelled and how it is proved

* **C01** Type strings survive parse and print: `Ty` + `Ty.show` model `GVariantType`/`Display`; structural induction: `parseOne (show t) = ok t`.
* **C02** gv! accepts exactly the type-string grammar: inductive grammar `Derives : Bytes -> Ty -> Prop` as independent spec; parser soundness/completeness/termination (fuel shown sufficient).
* **C03** Alignment of types: `alignOf` vs spec table `Spec.align` (max of components); induction on `Ty` and on a `Component` relation.
* **C04** Size of types: `sizeOf` (with the bit-mask `align`) vs `Spec.size` (sequential layout with div/mul rounding); induction.
* **C05** Generated structure names never collide and are always defined: `escape` injective on type strings; names referenced by `markerType` and field types are within the emitted definitions; induction.
* **C06** gv! defines every structure type exactly once: false of the code (duplicates): witness + `_partial` for types whose structure subtrees are pairwise different.
* **C07** Fixed-size structures have the specified memory layout: `packedStruct` generator + repr(C) layout model; expansion success implies spec layout; witness that `(yii)` does not expand; exact characterisation of which types expand.
* **C08** Default values of fixed-size structures type-check: false of the code; typing of the emitted default arguments modelled; witness + `_partial`.
* **C09** Structure member addressing table is correct: `generateTable` vs the sequential walk of the spec; loop invariant.
* **C10** align_offset rounds up; aligned offsets stay aligned: `alignOffset` on 64-bit words; least-multiple law, closure by induction over expression trees of offset operations.
* **C11** Writer and reader agree on framing-offset width: arithmetic over the four widths.
* **C12** Framing offsets read back as written: little-endian encode/decode lemma + list indexing.
* **C13** Slicing keeps the alignment promise: `Slice` = address + bytes; induction over slicing programs.
* **C14** try_as_aligned rejects misaligned data: false of the code; witness + `_partial` (data really aligned).
* **C15** copy_to_align gives aligned data with the same bytes: case split; allocator answers universally quantified.
* **C16** empty_aligned is aligned wherever the linker puts it: arithmetic for any address.
* **C17** Vec to AlignedBuf to Vec is the identity: rotate/resize/truncate on lists; allocator universally quantified.
* **C18** AlignedBuf behaves like a plain byte vector under any history: invariant by induction over operation histories.
* **C19** Owned buffers are always aligned enough to cast: false of the code for the empty buffer; witness + `_partial` for non-empty.
* **C20** Str::to_str is total and always yields a valid C-compatible string: concrete UTF-8 validator; case analysis.
* **C21** Str equality is an equivalence that agrees with to_str: from C20.
* **C22** GString invariant holds under any history: invariant + refinement to list-of-bytes strings by induction on histories.
* **C23** GString comparison agrees with its text: lexicographic order lemma for NUL-terminated NUL-free lists.
* **C24** GString conversions never panic and round-trip: from the invariant.
* **C25** GString capacity requests are honoured: false of the code; witness + `_partial` for reserve (it panics exactly if more than `isize::MAX` bytes would be needed).
* **C26** Strings with NUL are never silently serialized: serializer model.
* **C27** Variant::split is total and locates the last NUL: last-NUL search spec.
* **C28** Wrapping in a variant and getting it back: round trip + `Display` of the type; induction for nesting.
* **C29** Variant equality and re-serialization: from C27.
* **C30** Array length, iteration and indexing agree: invariant over iterator states.
* **C31** Indexing past the end panics: wrapping mode violates it: witness + `_partial`.
* **C32** Array elements never escape the array body: from model of `next`.
* **C33** Reading never panics: false of the code (ragged nested arrays): witness + `_partial` with exact condition on the type.
* **C34** Every reference handed out is in bounds and aligned: reachability relation over references; invariant by induction; explicit `ub` outcome shown unreachable.
* **C35** Decoding follows the specification for all bytes: `view` (model of all reading code) refines `Spec.dec`, an independent decoder written from the specification, and `Spec.decDoc`, one written from the documentation of the crate; false without overflow checks above 4 GiB: witness + `_partial`.
* **C36** Wrong-size fixed data reads as the default: corollaries of the cast model.
* **C37** All ways of reading agree: from C35 and the entry-point models.
* **C38** Arithmetic overflow cannot change what is read: false for data of 2^32 bytes or more with framing offsets near 2^64: witness + `_partial` for all other data.
* **C39** serialize returns the number of bytes written: structural induction over the serializer.
* **C40** Serialize then deserialize is the identity: `Spec.dec (Spec.enc v) = v` plus C35, C41; false for arrays whose last element needs padding: witness + `_partial`. `c40_exact_types_partial`: the types all of whose values survive are those in which the elements of every array of variable-size items always have a size that is a multiple of their alignment.
* **C41** Serialization produces the normal form of the specification: serializer = `Spec.enc`; same exception.
* **C42** A failing writer never produces anything but a prefix: serializer polymorphic in the writer; simulation by a chunk trace.
* **C43** Re-serializing normalizes and is idempotent: from C35, C40.
* **C44** Different values have different serializations: from C40.
* **C45** Booleans are canonicalized: case analysis + containers through C35.
* **C46** Padding bytes never influence the value: layout model, field ranges disjoint from padding.
* **C47** Structure members never escape the structure body: from the model of `calc_offsets`/`get_child_elem`.
* **C48** Mutable casts are available for every type: false (`todo!()` for fixed-width arrays): witness + `_partial`.
* **C49** Maybe comparison, ordering and hashing agree with Option: from to_option models.
* **C50** Equality of read values is equality of what was read: structural equality functions vs `view`; true only after everything was read (`Proofs/EqReads`), and equality of bytes on normal data.
* **C51** gv! compiles for every valid type string: false of the code; conjunction of C06, C07, C08 and the tuple limit of 12 as an exact condition.
* **C52** Serializing a maybe never silently drops items: false of the code; the serializer of `MaybeNonFixedSize` only looks at the first item.
* **C53** gv! names the documented Rust type: table of the documentation as an inductive relation; `AlignOf`, `Sized` and memory size of the named types by induction over the components of the type.
* **C54** Data in normal form is read as the specification says: `Normal` is the image of `Spec.enc`; from the round trip (C40) and `Spec.dec`.
* **C55** The assertions of the fuzz target hold: `Model/Fuzz` follows fuzz_target_1.rs with GLib's `is_normal_form` as an oracle. False of the code because of `ai`; the inputs that pass are characterised exactly.
* **C56** Re-serialized size: induction over the type on decoder and encoder; the lower bound is a family of data with overlapping elements.
* **C57** Debug printing: `debug` (the `fmt` implementations over data) refines `Spec.print` (a function of the value); unambiguity by induction over the type, comparing values followed by arbitrary rest texts.
* **C58** Display of owned values: false of the code (`Display` forwards to `Debug`): witness + what it does show.
* **C59** `new` and `Default`: struct expressions store fields into uninitialized memory at their `repr(C)` offsets; loop invariant: the bytes before the current offset are the specified layout.
* **C60** Assignment through `try_cast_mut`: `placeOf` adds up field offsets along a path; induction over the path, decoding commutes with overlaying the bytes of a member.
* **C61** Stores into part of a buffer: the store goes to an address; window of the slicing program (as C13) composed with C60 and the buffer invariant (C17).
* **C62** The example program ostree-ls: `ostreeLs` follows main.rs; refinement to the listing of what `Spec.dec` gives (C33, C35); hex digits and line structure are unambiguous.
* **C63** Byte order: simulation between a machine and the one with the other byte order, over reading (`view`) and `Spec.enc`.
* **C64** Types that look alike: layout, tables, reading and writing commute with `canon`, by induction over type, respectively source value.
* **C65** Locality of access: casts look at address and length only, and framing offsets enter only by the two or three slots named, so access to a child is a function of those and of its own bytes.
* **C66** All data, also of 4 GiB and more: 2^64 is a multiple of every alignment, so without overflow checks each position is the true one modulo 2^64 (induction over the structure table); with checks, bounds on each sum in the order the code computes it.
* **C67** What comes back from a round trip: `Spec.back`, the value as changed by padding read as framing offsets; one induction over types showing `Spec.dec (Spec.enc v) = Spec.back v` for every encoder and reader; rounds by induction.
* **C68** Exchange with conforming implementations: C67 and the round trip for the pairs of encoder (specification, crate) and reader.
* **C69** Streams: `write_all` and `read_to_end` as loops over calls of arbitrary state machines, by well-founded induction; with the trace of `write_all` calls (C42) and C37, C67.
* **C70** Repeated rounds: the padding of an array does not depend on the default elements that reading puts in front, so their number grows until the framing offsets are wider than the padding; induction over the type with a bound on the rounds.
* **C71** Comparisons and conversions: case analysis; the numbers of a converted slice are characterised by writing their bytes again.
* **C72** Going straight to a part gives that part of the value: paths through values (Spec/Path), induction over the path.
* **C73** Every part can be copied out and read alone: address independence for every reachable reference; witness for empty parts + `_partial`.
* **C74** Number of values visited: `parts v ≤ types t * (n + 1) ^ arrayDepth t`, exponent attained by `pile`, linear on normal forms.
* **C75** normal form is found again in every part: `walkFrom` against `follow` (which part) and `spot` (where the layout rules put it, written from the encoder's layout alone); disjointness for `Parting` paths; parts of what was serialized are what is serialized for the part.
* **C76** overwriting in place: `overlay` of arbitrary bytes of the same length at the `spot` of a path, read back as `setPart` of the old value; into variants; preservation of normal form; and through `poke` (buffers, mutable slicing, cast, assignment).
* **C77** an executable recogniser of normal form (`Spec/Clean.lean`), independent of `enc` and `dec`, equivalent to `Normal`; hence normality does not depend on byte order, and decides whether the crate reads without loss.
* **C78** values whose variants hold values (`Spec/Tree.lean`): the statements of C54, C72, C75, C77, C41 and C44 carried through nested variants, by induction over the tree and over the depth.
* **C79** the parser with its messages (`Model/ParseError.lean`), proved by induction on it: what it answers on a longer string is settled by what it answered on the shorter one; brackets are counted to show that only one thing is open at the end.
* **C80** the same impls over arbitrary parts (`Model/OwnSer.lean`); what a part is expected to do and what may be built from parts is `Spec/Part.lean`; composition by induction on how the serializer is built, the any-part claim by a Hoare-style predicate on writing programs.
* **C81** the format strings of generate_impl.rs copied and filled in (`Model/Emit.lean`), read back with a small reader of Rust (`Spec/RustText.lean`); a template is read once by the kernel, and reading commutes with filling in arguments that read as whole words or whole sequences.
* **C82** readers of calls and statements (`Spec/RustRead.lean`) applied to the trees of C81; the data read off is shown equal to what the model of reading and writing runs.
* **C83** as C82, for the other template.
* **C84** programs are functions from what has been seen to the next call (`Client`); `Spec.call` says what a call shows on values, `callStep` which model functions it runs on slices; `Shows` relates the two and each call preserves it.
* **C85** names are collected from the trees of C81 by a small reader (Spec/RustNames.lean) that knows paths, lifetimes, fields and bindings; what follows `.` (methods, fields) is not resolved, as that takes types. The lists of public names are transcribed from the crate. Types are not checked.
* **C86** Model/Session.lean: cells (buffers, copies, lent bytes) and what is held with the cell it is borrowed from; Rust's borrow rules are part of the model (kill, rehold). `Spec/Session.lean` says which programs are careful. The invariant (Proofs/Sessions.lean) is that buffers are in order and that what is held is good for the bytes now in its cell; every call of C84's interface keeps it (Proofs/Safe.lean); c86_stable is the frame property of single steps (Proofs/Stable.lean).
* **C87** `Spec/Session.lean` has the world without memory (boxes of bytes, values seen, Rust's borrow rules shared with the model), Proofs/Saga.lean the simulation; the values come from C84, the buffers from C18, the soundness of casts from C86.
* **C88** `Model/Pretty.lean` follows DebugTuple, DebugList and PadAdapter of core; `Spec/Pretty.lean` has the layout by depth.
* **C89** `Spec/Traits.lean`: traits, supertraits, `Impls`, `AlignIs`, `Bounds`. Not checked: expressions in function bodies other than the forms read (calls of get_child_elem, field references, comparisons, constructor calls, casts), lifetimes, mutability.
* **C90** `Spec/Coherence.lean`: `itemKind`, `requiredItems`, `optionalItems`, `ImplOf`, `GoodImpl`, `writtenFor`, `noPaths`, `signatures`.
* **C91** `Model/Sink.lean` is printing again, as the sequence of `write_str` calls with `?` after each, for any sink; `Spec.feed` gives pieces to a sink until it refuses. The theorems say that calls and sink are independent, and relate the text to `print` of C57. `GString` is one such sink.
* **C92** `Model/Descend.lean` is the program that counts variants recursively, with fuel; `bomb n` has two elements that are the same bytes at each of `n` levels. `Spec.chained` counts the variants of a `Tree`; `Spec.insides` those that a path goes into, which each take at least two bytes.
* **C93** `Spec/Extent.lean` counts the bytes of simple values (`content`, `bulk`) and the values (`parts`, `units`), by recursion over the value only. Each value is charged to its parent with at most 7 bytes of padding and 8 of offset, and 7 of its own at the end.
* **C94** `Model/Oom.lean` has the code as programs on a state that survives a panic, with a list of answers of the allocator. The invariant (text and NUL within the capacity) is broken between `pop` and `push`; it is shown that nothing is asked for there.
* **C95** The same programs on `Vec`, with the guard's drop after the callback; a panic while unwinding aborts.
* **C96** Reading is reduced to cutting into pieces (`readAs_pieces`); writing to a loop whose count can be shifted (`serFixed_shift`).
* **C97** The comments are found in the text as parts of it; the row of the table that a comment is computed from gives the position of the specification when no row carries, which is when the macro does not panic.
* **C98** `Proofs/Bare` writes down a source for every value, by recursion on the value; that it is accepted and stands for the value is an induction over the value. The rest follows from C07/C08 and C40. Out of this also comes `c40_exact_types_partial`: which types have only values that survive the round trip.
* **C99** `Spec.peel` takes the structures away; `Proofs/Single` shows by induction over types that sizes, decoder and encoder of the specification do not notice, and C33, C35, C41 carry this over to the code.

## Findings: where the code does not do what the property says

Each has a concrete witness in Lean (`…_full_false` or a theorem named below) and a theorem with the exact or a sufficient condition.

1. `NonFixedWidthArray` serialization pads after the last element (`a(si)`, `a{sv}`): the result is not the normal form, and reads back as something else: with extra default elements in front or, if the padding is not a multiple of the framing offset width, as an empty array, so that all elements are lost (e.g. an `a(is)` of 256 bytes or more ending at an odd position); re-serializing keeps growing until that happens; the bytes may even be the normal form of another value (C12, C40, C41, C43, C67, C77).
2. Reading `mai`, `aai` and similar panics on untrusted data: a fixed-width array whose length is no multiple of the element size is cast by `unwrap` (C31, C33).
3. `write_packed_struct` rounds with `|`, so `gv!` panics for `(yii)` and others (C07).
4. `default_ref` of packed structs does not type-check for `b`, `d` and nested fixed-size structures (C08).
5. A structure type that occurs twice is defined twice (C06).
6. `try_as_aligned` never fails: the alignment marker types all have alignment 1 (C14).
7. Empty `AlignedBuf`s and empty results of `copy_to_align` sit at address 1: casting to `ai` fails a debug assertion or is undefined behaviour (C15, C19, C37).
8. Framing offsets near 2^64 (possible in containers of 4 GiB and more) overflow in `align_offset` and in the structure table: panic with overflow checks, wrong child without (C32, C38, C47).
9. `index` wraps for huge indices in release builds (C31).
10. `GString::with_capacity` ignores the capacity (C25).
11. `serialize_to_vec` panics for a `&str` containing NUL (C26).
12. `try_cast_mut` for `[T]` is `todo!()` (C48).
13. A variant without NUL re-serializes as different bytes (but as an equal value) (C29).
14. Structures of more than 12 members do not compile (C51).
15. Serializing `MaybeNonFixedSize` drops all items but the first (C52).
16. `align_offset` panics with overflow checks for some arguments whose result is representable (C10).
17. Reading deviates from the letter of the specification for structures too short for their framing offsets and for children that overlap framing offsets. The crate documents the second, from which the first follows; but without overflow checks data of more than 4 GiB can read as something that neither says (C35).
18. There is no `SerializeTo` for `&MaybeFixedSize<Bool>` and of structs, so some values read cannot be re-serialized directly (noted in `Model/Reser`).
19. The fuzz target itself fails on any input whose length is not a positive multiple of 4, for the type `ai`: nothing is serialized into the `Vec`, and `copy_to_align` does not align an empty one (C55, consequence of 7).
20. Elements of arrays may overlap, so re-serializing `n` bytes of type `as` may take about `n²/64` bytes, with higher powers for nested arrays (C56).
21. `Display for Owned<T>` prints the `Debug` form, so an owned string is displayed in quotes (C58). `NonFixedWidthArray` prints a comma after the last element, unlike slices.
22. Two `AlignedOffset`s cannot be compared with each other although the comparison traits are derived: the derived impls ask for `A: PartialEq`, which the marker types lack (C71).
23. The elements of an array of variants may be the same bytes, at each level of nesting, so that visiting all variants in `27 n` bytes may take `2^n` steps (C92).
24. If the vec that a `with_vec` callback leaves lies at an address that is not a multiple of eight, and there is no memory to realign it, the buffer afterwards hides up to seven bytes, or panics whenever it is looked at (C95). It takes an allocator that gives such addresses.
25. By reading only, not modelled: without the feature `std` the crate cannot compile (`use std::marker::PhantomData` in aligned_bytes.rs:90, `std::fmt` in buf.rs:27 and `std::io` in `SerializeTo`, lib.rs:458, are not conditional), although Cargo.toml lists it under `no-std`.

## Trusted base

The Lean kernel; the axioms `propext`, `Classical.choice`, `Quot.sound` (at most); the reading of the Rust code into the definitions of `Verif/Model`.

### Simplifications

* `Vec` capacities and lengths passed to `AlignedBuf` and `Owned` are at most 2^62; slices are shorter than 2^63 bytes (Rust guarantees `isize::MAX`).
* `Small t` (the type string is shorter than 2^40 bytes) keeps the constants emitted by the macro within `usize`.
* In `Model/Ser`, `Write::write_all` either takes everything or takes a prefix and returns an error; the writer is otherwise arbitrary. `Model/Stream` derives this from single calls of `write`, for writers that are not interrupted forever.
* Sources to serialize (`Src`) are the Rust values the `SerializeTo` implementations accept; delegating implementations (references, iterators) are represented by what they delegate to. Ill-typed combinations, which rustc rejects, fault with `explicit`; theorems assume `Serializable`.
* Serialized encodings are shorter than 2^63 bytes.
* In the fuzz target GLib is an oracle that recognises normal forms; comparing values with those GLib reads is left out.
* In `Model/Debug` formatting is without flags (no `{:#?}`) and into a formatter that does not fail; `Model/Pretty` has the flags and `Model/Sink` formatters that fail. The texts the standard library prints for numbers and strings are parameters, with the laws stated in `Spec.Lawful`.
* Values stored into memory (`new`, assignment) are given by the bytes of their memory; a byte of memory nothing was stored to is `none`.
* Where the specification document is not definite, the encoder follows GLib and the crate: framing offsets of a structure with an empty body take one byte each (by the letter of 2.3.6 they could take none), strings are UTF-8.
* Hashing is the sequence of calls made to the hasher.
* Re-serializing goes through `to_tuple`, `to_option` and iteration where the crate has no direct implementation.

### Axioms per theorem

<!-- axioms begin -->
* no axioms (1): c71_full_false.
* `propext` (16): c05_prefix, c10_full_false, c10_try_new_iff, c14_full_false, c21_eq_iff, c21_equivalence, c22_push_refused, c24_string_round_trip, c26_nothing_written, c31_ragged_panics, c53_unsized, c71_table, c79_empty, c79_texts, c95_full_false, c96_variable.
* `Quot.sound`, `propext` (57): c01_parse_show, c01_show_injective, c02_accepts_iff_derives, c02_rejects_iff, c02_unique, c02_trailing, c03_align_eq_spec, c03_align_range, c03_component_aligned, c03_align_attained, c05_name_injective, c05_identifier, c05_mentioned_is_defined, c05_defined_is_component, c06_full_false, c06_defined_once_iff_partial, c07_full_false, c08_full_false, c12_full_false, c14_try_as_aligned_partial, c15_full_false, c19_full_false, c23_cmp_trans, c25_full_false, c25_with_capacity_ignored, c25_room_kept, c26_full_false, c31_full_false, c33_full_false, c35_letter_false, c37_full_false, c40_full_false, c41_full_false, c43_full_false, c45_written, c47_no_room, c48_full_false, c52_full_false, c55_meaning, c58_full_false, c58_strings, c59_read, c62_tell_apart, c71_offset_partial, c71_slices, c73_full_false, c79_accepts, c79_agrees, c79_more, c79_end, c79_unfinished, c79_settled, c86_full_false, c86_copy, c94_edit, c94_clear, c99_differ.
* `Classical.choice`, `Quot.sound`, `propext` (309): c04_size_eq_spec, c04_size_pos_dvd, c04_dict_as_tuple, c04_size_isSome_iff, c07_layout_partial, c07_expands_iff, c07_expansion_fault, c08_defaults_typecheck_partial, c09_table_starts, c09_table_aligned, c10_align_offset_partial, c10_offsets_aligned, c11_width, c12_index, c12_nth_last, c12_array_partial, c12_struct, c13_step_exact, c13_program_aligned, c13_program_window, c13_no_assertion, c13_to_owned, c15_copy_to_align_partial, c16_empty_aligned, c17_round_trip, c18_history, c18_new, c19_cast_partial, c19_empty_fault, c20_utf8_iff, c20_to_str_text, c20_to_str_normal, c20_to_str_otherwise, c20_as_bytes_iff, c21_eq_str, c22_history, c22_start_refused, c23_compare, c23_cmp_lawful, c23_code_points, c24_conversions, c25_reserve_partial, c25_room_used, c26_error, c26_only_nul, c26_vec_panics, c26_reads_back, c26_str_reads_back, c26_containers_partial, c27_split, c28_wrap, c28_nested, c29_equivalence, c29_meaning, c29_reserialize, c30_iterate, c30_collect, c30_ends, c31_past_end_partial, c31_wrap_partial, c31_below_partial, c32_in_body, c32_rule_partial, c32_full_false, c33_faults_partial, c33_total_partial, c33_exact_partial, c34_refs, c34_no_ub, c35_rules_partial, c35_unframed_partial, c35_full_false, c35_documented_partial, c35_plain_partial, c36_fixed, c36_fixed_exact, c36_maybe, c36_array, c37_agree_partial, c37_address, c38_full_false, c38_overflow_partial, c38_positions_partial, c39_count, c39_outcome, c40_round_trip_partial, c40_types_partial, c40_exact_types_partial, c41_normal_partial, c41_deep_partial, c42_prefix, c42_complete, c43_depends_on_value, c43_stable_partial, c43_again_partial, c44_injective, c44_wrap, c45_read, c45_containers, c45_equal, c46_value, c46_reserialized, c46_equal, c46_equal_padding, c47_full_false, c47_in_body, c47_exact_partial, c47_checked_partial, c48_todo, c48_mut_partial, c49_order, c49_equal, c49_hash, c49_option, c50_equal, c50_equivalence, c50_doubles, c50_array_refs, c50_true, c50_same_value, c50_chain, c50_normal, c51_compiles_iff_partial, c51_full_false, c52_first_partial, c53_documented, c53_well_formed, c53_align, c53_sized, c53_layout, c53_no_padding, c53_same_type_iff, c54_read, c54_agree, c54_recognise, c54_variant, c55_exact_partial, c55_other_types_partial, c55_self, c55_full_false, c56_bound, c56_overlap, c56_attained, c57_value, c57_faults, c57_same, c57_tell_apart, c57_owned, c58_owned_partial, c59_new, c59_to_tuple, c59_value, c59_default, c60_assign, c60_wrong_size, c61_poke, c62_any, c62_tree, c63_read, c63_write, c63_foreign, c64_read, c64_write, c65_element, c65_member, c66_release, c66_checked, c66_tame, c66_element, c66_members, c67_read_back, c67_same, c67_lost, c67_rounds, c68_theirs, c68_ours, c68_types, c69_write, c69_takes, c69_slice, c69_read, c69_pipe, c70_settles, c70_lost, c71_lower, c71_numbers, c72_part, c72_only, c72_panic, c73_alone, c73_bytes, c73_owned_partial, c74_bound, c74_attained, c74_normal, c75_part, c75_variants, c75_normal, c75_apart, c75_written, c76_overwrite, c76_normal, c76_inside, c76_poke, c77_recognise, c77_order, c77_read, c77_written, c77_disguised, c78_part, c78_only, c78_read, c78_recognise, c78_unique, c78_written, c79_brace, c79_unexpected, c80_same, c80_array, c80_struct, c80_value, c80_reads_back, c80_any, c80_any_struct, c81_parses, c81_structs, c81_items, c81_marker, c82_struct, c82_casts, c82_impls, c82_to_tuple, c82_serialize, c82_rest, c83_struct, c83_casts, c83_impls, c83_members, c83_serialize, c84_client, c84_same, c84_panics, c84_determined, c84_deep, c85_names_partial, c85_needs, c85_full_false, c85_renamed_false, c85_marker, c86_sound_partial, c86_stable, c86_empty, c86_unaligned, c87_program, c87_anywhere, c88_value, c88_faults, c88_owned, c88_tell_apart, c88_no_flags, c88_flags_stop, c89_able, c89_sized, c89_structs, c89_eq, c89_bounds, c89_compiles, c90_complete, c90_once, c90_derived, c90_blanket, c90_signatures, c90_parameters, c91_calls, c91_string, c91_room, c91_gstring_any, c91_gstring, c91_display, c92_bomb, c92_full_false, c92_normal_partial, c92_ends, c92_bound, c92_depth, c93_serialized, c93_decides, c93_overhead, c93_normal, c94_history, c95_call_partial, c95_plain_partial, c95_safe, c96_join, c96_read, c96_split, c96_torn, c96_stream, c97_fixed, c97_variable, c98_bare, c98_any, c98_range, c98_normal, c99_layout, c99_values, c99_write, c99_normal, c99_read.
<!-- axioms end -->

### Not modelled

Not modelled: rustc/macro expansion as such (the token stream is modelled by what it computes), lifetimes and borrow checking, `Read`/`Write` implementations other than as abstract state machines (with the default `write_all` and `read_to_end` of the standard library), allocation failure other than in changes in place (`Model/Oom`).

## How to read the log of seeded edits

`seeded/LOG.jsonl` has one line per edit of the model that was tried in a copy.

* Edits made by hand (`failed` has all property theorems that rest on something that broke): each lemma or theorem that no longer compiled was replaced by a gap, and the theorems that depend on a gap were listed. A broken lemma may have another proof, so a theorem in the list need not have become false; where a counterexample was checked it is in `refuted_by_counterexample`.
* Automatic edits (ids with four digits): the build was stopped at the first thing that failed, which may be a lemma. `caught` says no more than that. Edits after which the model itself does not compile are left out.
* `survived at first; caught when run again as …`: the edit went unnoticed, a theorem was tightened, and the same edit was then run again. The line named has the theorems that failed.
* `survived at first; caught since …`: the same, and the line itself has the theorems that failed in the second run.
* `equivalent`, `equivalent program`: nothing failed, and the note says why no claim becomes false. These are judgements made by reading, not proofs.
