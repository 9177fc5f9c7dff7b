{"id": "C01", "title": "Type strings survive parse and print", "statement": "Printing any GVariant type and handing the text to gv! gives back exactly that type.", "quantifier": "every type tree: every nesting depth, every number of structure members", "why_tests_cant": "the set of types is infinite and recursive; the unit test parses two strings", "anchors": ["gvariant-macro/src/type_parser.rs: one, parse_one_type_spec, impl Display for GVariantType"]}
{"id": "C02", "title": "gv! accepts exactly the type-string grammar", "statement": "gv! accepts a byte string exactly when it is derivable from the type grammar (base types, v, m, a, (...), {KV}); the accepted type is the unique derivation, anything else (empty, truncated, trailing bytes, unknown letters) is rejected.", "quantifier": "every byte string and every type tree", "why_tests_cant": "acceptance and rejection range over all byte strings", "anchors": ["gvariant-macro/src/type_parser.rs: one, parse_one_type_spec"]}
{"id": "C03", "title": "Alignment of types", "statement": "Every type's alignment is 1, 2, 4 or 8, equals the alignment the GVariant specification assigns, and is a multiple of the alignment of every type nested inside it, so data aligned for a container is aligned for each of its children.", "quantifier": "every type tree and every (transitive) component of it", "why_tests_cant": "recursive over all types; tests check four types", "anchors": ["gvariant-macro/src/generate_impl.rs: align_of"]}
{"id": "C04", "title": "Size of types", "statement": "A type is fixed-size exactly when the specification says so; its size is what laying its members out in sequence gives, is never zero and is a multiple of the type's alignment. Dictionary entries are laid out exactly as two-member structures.", "quantifier": "every type tree", "why_tests_cant": "recursive over all types", "anchors": ["gvariant-macro/src/generate_impl.rs: size_of, align"]}
{"id": "C05", "title": "Generated structure names never collide and are always defined", "statement": "Two different structure types never get the same generated Rust name, every generated name is a Rust identifier other than that of the trait Structure, and every structure name that a gv! expansion refers to is defined by that same expansion.", "quantifier": "every pair of type trees; every type string", "why_tests_cant": "injectivity is a statement about all pairs of types", "anchors": ["gvariant-macro/src/generate_impl.rs: escape, generate_types", "gvariant-macro/src/lib.rs: marker_type, define_gv, gv_type"]}
{"id": "C06", "title": "gv! defines every structure type exactly once", "statement": "For every valid type string the gv! expansion contains one definition per structure type (no duplicate item definitions, which rustc rejects).", "quantifier": "every type tree", "why_tests_cant": "depends on coincidences between subtrees anywhere in the type", "anchors": ["gvariant-macro/src/generate_impl.rs: generate_types"]}
{"id": "C07", "title": "Fixed-size structures have the specified memory layout", "statement": "gv! expands for every fixed-size structure type, and in the generated repr(C) struct field n is at the offset the specification gives item n, with total size and alignment as specified.", "quantifier": "every list of fixed-size member types, nested to any depth", "why_tests_cant": "layout depends on every prefix of the member list", "anchors": ["gvariant-macro/src/generate_impl.rs: write_packed_struct, generate_table, align"]}
{"id": "C08", "title": "Default values of fixed-size structures type-check", "statement": "The default_ref code generated for any fixed-size structure type passes to the generated constructor arguments of the member types, so the expansion compiles.", "quantifier": "every fixed-size structure type", "why_tests_cant": "quantifies over all member types", "anchors": ["gvariant-macro/src/generate_impl.rs: write_packed_struct (defaults)", "gvariant/src/lib.rs: Bool"]}
{"id": "C09", "title": "Structure member addressing table is correct", "statement": "For a variable-size structure, the constant-time (i, a, b, c) formula yields for each member exactly the start the specification's sequential walk gives, for whatever values the framing offsets have; b and c are multiples of the member's alignment.", "quantifier": "every member list and every assignment of framing offsets", "why_tests_cant": "infinite families of member lists and offsets", "anchors": ["gvariant-macro/src/generate_impl.rs: generate_table", "gvariant/src/lib.rs: calc_offsets, get_child_elem"]}
{"id": "C10", "title": "align_offset rounds up; aligned offsets stay aligned", "statement": "align_offset::<A>(i) is the least multiple of A not below i whenever it is representable, and every way of making or combining AlignedOffset values (try_new, align_offset, |, +, narrowing) yields a multiple of the declared alignment, also when arithmetic wraps.", "quantifier": "every usize, every alignment", "why_tests_cant": "2^64 inputs per alignment and closure under arbitrary operation sequences", "anchors": ["gvariant/src/offset.rs: AlignedOffset, align_offset, try_new, BitOr, Add, narrowing"]}
{"id": "C11", "title": "Writer and reader agree on framing-offset width", "statement": "Whatever the body size and number of offsets, the offset width chosen when serializing is the one the reader infers from the total size, no offset is truncated by the narrowing casts, and no smaller width would have been possible (normal form).", "quantifier": "every body size and offset list (offsets within the body)", "why_tests_cant": "the interesting sizes are at 255/256, 65535/65536, 2^32 and interact with the number of offsets", "anchors": ["gvariant/src/lib.rs: offset_size, write_offsets, read_uint"]}
{"id": "C12", "title": "Framing offsets read back as written", "statement": "Each framing offset stored by the serializer is read back by the reader with its original value at its original index.", "quantifier": "every offset list and index", "why_tests_cant": "all widths and values", "anchors": ["gvariant/src/lib.rs: write_offsets, read_uint, nth_last_frame_offset, read_last_frame_offset"]}
{"id": "C13", "title": "Slicing keeps the alignment promise", "statement": "Every AlignedSlice obtained by indexing, split_at, narrowing or copying from AlignedSlices whose data is aligned as their type promises is itself aligned as its type promises and shows exactly the selected bytes.", "quantifier": "every slice address, contents, index range and sequence of slicing operations", "why_tests_cant": "addresses and ranges are unbounded; tests see whatever the allocator returns", "anchors": ["gvariant/src/aligned_bytes.rs: Index impls, split_at, as_aligned, AsRef"]}
{"id": "C14", "title": "try_as_aligned rejects misaligned data", "statement": "try_as_aligned / try_as_aligned_mut return Ok only if the data is aligned to the requested alignment, and Misaligned otherwise.", "quantifier": "every address, source alignment and target alignment", "why_tests_cant": "tests run on allocator-aligned buffers, where the wrong answer cannot be seen", "anchors": ["gvariant/src/aligned_bytes.rs: TryAsAligned for AlignedSlice, TryAsAligned for [u8]"]}
{"id": "C15", "title": "copy_to_align gives aligned data with the same bytes", "statement": "copy_to_align::<A>(d) yields a slice aligned to A with exactly the bytes of d, borrowing when d is already aligned and copying otherwise, whatever address the allocator hands out.", "quantifier": "every byte string, every source address, every allocator answer, every alignment", "why_tests_cant": "depends on addresses that tests do not control", "anchors": ["gvariant/src/aligned_bytes.rs: copy_to_align, is_aligned_to", "gvariant/src/buf.rs: From<Vec<u8>> for AlignedBuf"]}
{"id": "C16", "title": "empty_aligned is aligned wherever the linker puts it", "statement": "empty_aligned::<A>() never panics and gives an empty slice at an address that is a multiple of A.", "quantifier": "every address of the backing literal, every alignment", "why_tests_cant": "a test sees one link address", "anchors": ["gvariant/src/aligned_bytes.rs: align_bytes, empty_aligned"]}
{"id": "C17", "title": "Vec to AlignedBuf to Vec is the identity", "statement": "Converting a Vec<u8> into an AlignedBuf and back returns the original bytes, and dereferencing the AlignedBuf in between shows exactly those bytes.", "quantifier": "every byte string, every vec address, every reallocation behaviour", "why_tests_cant": "the padding path runs only for unaligned allocations, which system allocators never produce", "anchors": ["gvariant/src/buf.rs: align, unalign, align_cold, unalign_cold, offset_to_align, Deref"]}
{"id": "C18", "title": "AlignedBuf behaves like a plain byte vector under any history", "statement": "After any sequence of with_vec calls (including callbacks that panic, shrink, grow or reallocate the vec) the visible bytes are what applying the callbacks to a plain Vec<u8> would give, and non-empty contents are 8-byte aligned.", "quantifier": "every operation sequence, every allocator behaviour", "why_tests_cant": "histories and allocator choices are unbounded", "anchors": ["gvariant/src/buf.rs: with_vec, RealignGuard, Deref, DerefMut"]}
{"id": "C19", "title": "Owned buffers are always aligned enough to cast", "statement": "Casting the contents of any AlignedBuf (hence Marker::deserialize, from_bytes and Owned) to any type never fails an alignment check nor creates a misaligned reference.", "quantifier": "every buffer contents including the empty one, every type", "why_tests_cant": "the failing case depends on the dangling address of an empty Vec and on build mode", "anchors": ["gvariant/src/buf.rs: Deref for AlignedBuf, offset_to_align", "gvariant/src/casting.rs: cast_slice", "gvariant/src/lib.rs: Owned, Marker::deserialize, Marker::from_bytes"]}
{"id": "C20", "title": "Str::to_str is total and always yields a valid C-compatible string", "statement": "to_str returns, for any bytes, valid UTF-8 without NUL; it is the content before the final NUL when the data is a NUL-terminated, NUL-free UTF-8 string and the empty string otherwise; as_bytes_non_conformant agrees with it exactly on data in normal form and on unterminated data (where both are empty).", "quantifier": "every byte string", "why_tests_cant": "all byte strings", "anchors": ["gvariant/src/lib.rs: Str::to_str, Str::as_bytes_non_conformant"]}
{"id": "C21", "title": "Str equality is an equivalence that agrees with to_str", "statement": "Two Str values are equal exactly when their to_str are equal (in particular == is reflexive, symmetric and transitive as Eq promises), and comparison with a plain str agrees.", "quantifier": "every pair/triple of byte strings, normal or not", "why_tests_cant": "quantifies over all pairs of malformed strings", "anchors": ["gvariant/src/lib.rs: PartialEq for Str, PartialEq<str> for Str"]}
{"id": "C22", "title": "GString invariant holds under any history", "statement": "After any sequence of operations a GString holds valid UTF-8 with exactly one NUL, at the end; its text is what the same operations on a plain String give, with pushes containing NUL rejected and leaving the string unchanged.", "quantifier": "every operation sequence and every argument", "why_tests_cant": "unbounded histories", "anchors": ["gvariant/src/lib.rs: gstring::GString"]}
{"id": "C23", "title": "GString comparison agrees with its text", "statement": "GString equality and ordering are those of the text it holds, and equal those of the Str it borrows as. The ordering is the alphabetic order by the numbers of the characters, and a total order.", "quantifier": "every pair of GStrings, all texts", "why_tests_cant": "the stored trailing NUL takes part in the derived comparison; all pairs matter", "anchors": ["gvariant/src/lib.rs: GString derive(PartialEq, Ord), Borrow<Str> for GString"]}
{"id": "C24", "title": "GString conversions never panic and round-trip", "statement": "From any reachable GString, conversions to CString/CStr, str, Str and String never panic, and String to GString to String is the identity on NUL-free strings and an error otherwise.", "quantifier": "every reachable GString, every String", "why_tests_cant": "the unwraps rely on the invariant holding in every history", "anchors": ["gvariant/src/lib.rs: From<GString> for CString, AsRef<CStr>, TryFrom<String>, From<GString> for String, Deref"]}
{"id": "C25", "title": "GString capacity requests are honoured", "statement": "GString::with_capacity(n) has capacity at least n, and after reserve(n) the capacity is at least len + n.", "quantifier": "every requested capacity, every allocator", "why_tests_cant": "a test sees the allocator's generosity, not the guarantee", "anchors": ["gvariant/src/lib.rs: GString::with_capacity, reserve, capacity"]}
{"id": "C26", "title": "Strings with NUL are never silently serialized", "statement": "Serializing a str containing NUL returns an error and writes nothing for it; any serialized string reads back as the same string.", "quantifier": "every str, at any position in any container", "why_tests_cant": "all strings in all containers", "anchors": ["gvariant/src/lib.rs: SerializeTo<Str> for &str, for &Str, serialize_to_vec"]}
{"id": "C27", "title": "Variant::split is total and locates the last NUL", "statement": "split never panics; it returns the bytes after and before the last NUL, or the unit type with empty data if there is none; the returned data keeps the 8-byte alignment of the variant.", "quantifier": "every byte string", "why_tests_cant": "all byte strings, with any number of embedded NULs", "anchors": ["gvariant/src/lib.rs: Variant::split"]}
{"id": "C28", "title": "Wrapping in a variant and getting it back", "statement": "After serializing VariantWrap(gv!(T), x), get(gv!(T)) returns the value as if the payload had been cast to T, and get of any other type string returns None; this nests to any depth.", "quantifier": "every type, value and nesting depth, every other type", "why_tests_cant": "payloads may contain NULs and type-like text; nesting is unbounded", "anchors": ["gvariant/src/lib.rs: VariantWrap, Variant::get, Variant::split"]}
{"id": "C29", "title": "Variant equality and re-serialization", "statement": "Variant equality is an equivalence relation, and serializing any variant read from any bytes gives bytes that read back as an equal variant.", "quantifier": "every byte string", "why_tests_cant": "all byte strings", "anchors": ["gvariant/src/lib.rs: PartialEq for Variant, SerializeTo<Variant> for &Variant"]}
{"id": "C30", "title": "Array length, iteration and indexing agree", "statement": "For any bytes, an array of variable-size elements gives a len() equal to the number of items the iterator yields and to every size_hint along the way, a[i] equals the i-th iterated item, and first/last are the ends.", "quantifier": "every byte string, element type and index", "why_tests_cant": "non-normal data reaches this through arbitrary framing offsets; fuzzing found bugs here before", "anchors": ["gvariant/src/lib.rs: NonFixedWidthArray::len, iter, first, last, Index, NonFixedWidthArrayIterator"]}
{"id": "C31", "title": "Indexing past the end panics", "statement": "a[i] panics exactly when i >= len().", "quantifier": "every byte string and every usize index, with and without overflow checks", "why_tests_cant": "2^64 indices; the wrong ones are near 2^63", "anchors": ["gvariant/src/lib.rs: Index<usize> for NonFixedWidthArray, read_uint"]}
{"id": "C32", "title": "Array elements never escape the array body", "statement": "Each element of an array of variable-size items is either a subrange of the array body (before the framing offsets), starting at an aligned offset after the previous end, or the default value; which one it is is the rule in the specification.", "quantifier": "every byte string", "why_tests_cant": "arbitrary framing offsets", "anchors": ["gvariant/src/lib.rs: NonFixedWidthArrayIterator::next, Index"]}
{"id": "C33", "title": "Reading never panics", "statement": "Casting any bytes to any type and reading everything reachable (iterating, to_option, to_tuple, to_str, split) terminates without panicking.", "quantifier": "every type accepted by gv!, every byte string, every build mode", "why_tests_cant": "untrusted input; the fuzz target covers twenty-two fixed types", "anchors": ["gvariant/src/lib.rs: Cast, NonFixedWidthArrayIterator::next, Index, MaybeNonFixedSize::to_option, get_child_elem", "gvariant/src/casting.rs: cast_slice, try_cast_slice_to"]}
{"id": "C34", "title": "Every reference handed out is in bounds and aligned", "statement": "From data aligned for its type, every reference reachable through the API points to bytes inside the given data (showing exactly those bytes) or to a static default, and is aligned for its type; no undefined behaviour occurs.", "quantifier": "every type, every byte string, every address, every access path", "why_tests_cant": "memory safety on untrusted input; paths and inputs are unbounded", "anchors": ["gvariant/src/lib.rs: get_child_elem, calc_offsets, to_option, Index, next, split", "gvariant/src/casting.rs: try_cast_slice_to, cast_slice"]}
{"id": "C35", "title": "Decoding follows the specification for all bytes", "statement": "The value read from any bytes is the one given by the GVariant deserialization rules with the deviations that the documentation of the crate describes (strings that are not text are empty, children overlapping framing offsets have default values), including for malformed data. Where none of these deviations applies it is the one given by the letter of the specification.", "quantifier": "every type, every byte string", "why_tests_cant": "two implementations must agree on all malformed inputs, or filters can be bypassed", "anchors": ["gvariant/src/lib.rs: all reading code", "gvariant-macro/src/generate_impl.rs: generate_table, size_of, align_of", "gvariant/src/lib.rs:104-158: documented deviations"]}
{"id": "C36", "title": "Wrong-size fixed data reads as the default", "statement": "A fixed-size type cast from data of any other length is the default value (all zero); a fixed-size maybe of any other length is Nothing; a fixed-width array whose length is not a multiple of the element size is empty.", "quantifier": "every fixed type, every length", "why_tests_cant": "all lengths", "anchors": ["gvariant/src/lib.rs: Cast::from_aligned_slice, MaybeFixedSize::to_option, Cast for [T]", "gvariant/src/casting.rs: try_cast_slice_to, cast_slice"]}
{"id": "C37", "title": "All ways of reading agree", "statement": "cast on aligned data, from_bytes, deserialize and Owned give the same value for the same bytes; the value does not depend on addresses.", "quantifier": "every type and byte string, every address and allocator behaviour", "why_tests_cant": "address-dependence is invisible to a single run", "anchors": ["gvariant/src/lib.rs: Marker::cast, from_bytes, deserialize, Owned, ToOwned impls"]}
{"id": "C38", "title": "Arithmetic overflow cannot change what is read", "statement": "Reading gives the same result with overflow checks on and off.", "quantifier": "every type and byte string", "why_tests_cant": "differences need framing offsets near 2^64", "anchors": ["gvariant/src/offset.rs: align_offset", "gvariant/src/lib.rs: calc_offsets, NonFixedWidthArrayIterator::next, Index"]}
{"id": "C39", "title": "serialize returns the number of bytes written", "statement": "Whenever serialization succeeds the returned count is the number of bytes given to the writer.", "quantifier": "every type and value, every writer", "why_tests_cant": "recursive over all values", "anchors": ["gvariant/src/lib.rs: SerializeTo impls", "gvariant-macro/src/generate_impl.rs: generated serialize"]}
{"id": "C40", "title": "Serialize then deserialize is the identity", "statement": "Reading back serialized data yields the value that was serialized.", "quantifier": "every type and value of that type", "why_tests_cant": "unbounded values; sizes at the offset-width boundaries", "anchors": ["gvariant/src/lib.rs: SerializeTo impls, write_offsets, reading code", "gvariant-macro/src/generate_impl.rs: generated serialize / to_tuple"]}
{"id": "C41", "title": "Serialization produces the normal form of the specification", "statement": "The bytes written for a value are exactly the normal form the specification defines.", "quantifier": "every type and value", "why_tests_cant": "unbounded values", "anchors": ["gvariant/src/lib.rs: SerializeTo impls, write_offsets", "gvariant-macro/src/generate_impl.rs: generated serialize"]}
{"id": "C42", "title": "A failing writer never produces anything but a prefix", "statement": "If the writer fails at any point, serialize returns an error, stops writing, and what was handed to the writer is a prefix of the full serialization.", "quantifier": "every type, value, writer behaviour and failure point", "why_tests_cant": "all failure points of all values", "anchors": ["gvariant/src/lib.rs: SerializeTo impls, write_offsets, write_padding", "gvariant-macro/src/generate_impl.rs: generated serialize"]}
{"id": "C43", "title": "Re-serializing normalizes and is idempotent", "statement": "Reading any bytes and serializing what was read gives bytes that read as the same value, and doing it again changes nothing.", "quantifier": "every type, every byte string (normal or not)", "why_tests_cant": "all malformed inputs", "anchors": ["gvariant/src/lib.rs: SerializeTo impls for read types", "gvariant-macro/src/generate_impl.rs: generated serialize"]}
{"id": "C44", "title": "Different values have different serializations", "statement": "Two values of a type that serialize to the same bytes are the same value.", "quantifier": "every type and pair of values", "why_tests_cant": "all pairs", "anchors": ["gvariant/src/lib.rs: SerializeTo impls"]}
{"id": "C45", "title": "Booleans are canonicalized", "statement": "Every non-zero byte reads as true; booleans serialize as exactly 0 or 1; Bool equality is boolean equality.", "quantifier": "all 256 byte values, and every container position", "why_tests_cant": "covered per value by tests but not in every container", "anchors": ["gvariant/src/lib.rs: Bool, SerializeTo<Bool>"]}
{"id": "C46", "title": "Padding bytes never influence the value", "statement": "Changing the padding bytes inside a fixed-size structure changes neither any field nor equality nor the re-serialized bytes.", "quantifier": "every fixed-size structure type, all padding contents", "why_tests_cant": "all padding contents", "anchors": ["gvariant-macro/src/generate_impl.rs: write_packed_struct (eq, to_tuple, serialize)"]}
{"id": "C47", "title": "Structure members never escape the structure body", "statement": "Each member of a variable-size structure is either the range the specification assigns, entirely before the framing offsets, or the default value; missing framing offsets give defaults.", "quantifier": "every member list, every byte string", "why_tests_cant": "arbitrary framing offsets", "anchors": ["gvariant/src/lib.rs: calc_offsets, get_child_elem, nth_last_frame_offset"]}
{"id": "C48", "title": "Mutable casts are available for every type", "statement": "try_cast_mut returns the mutable view exactly when the immutable one would not be a default, and never panics.", "quantifier": "every type and byte string", "why_tests_cant": "quantifies over all types", "anchors": ["gvariant/src/lib.rs: Marker::try_cast_mut, try_from_aligned_slice_mut"]}
{"id": "C49", "title": "Maybe comparison, ordering and hashing agree with Option", "statement": "Equality, ordering and hashing of maybe values are those of the Option they hold; Nothing sorts first; equal values hash equally.", "quantifier": "every pair of byte strings", "why_tests_cant": "all pairs, including malformed ones", "anchors": ["gvariant/src/lib.rs: PartialEq/PartialOrd/Hash for MaybeFixedSize, PartialEq for MaybeNonFixedSize"]}
{"id": "C50", "title": "Equality of read values is equality of what was read", "statement": "For types without doubles, == between two values of the same GVariant type is true exactly when everything observable in them is equal; it is an equivalence.", "quantifier": "every type, every pair of byte strings", "why_tests_cant": "all pairs", "anchors": ["gvariant/src/lib.rs: PartialEq impls", "gvariant-macro/src/generate_impl.rs: generated PartialEq"]}
{"id": "C51", "title": "gv! compiles for every valid type string", "statement": "For every valid GVariant type string the code emitted by gv! compiles (no macro panic, no duplicate definitions, defaults type-check, member tuples implement the traits used).", "quantifier": "all types", "why_tests_cant": "Each type string is a separate expansion; tests cover a handful of the infinitely many types.", "anchors": ["gvariant-macro/src/generate_impl.rs: generate_types, generate_tuple, write_non_fixed_size_structure, escape, align_of, size_of, generate_table, write_packed_struct (lines 6-527)", "gvariant-macro/src/lib.rs: gv_type, define_gv, type_for_typestr, marker_type (lines 14-61)"]}
{"id": "C52", "title": "Serializing a maybe never silently drops items", "statement": "When something iterable is serialized as a maybe of a non-fixed-size type, every item it yields is represented in the output, or an error is raised.", "quantifier": "every element type, every iterable, every writer", "why_tests_cant": "Tests only pass sources that yield zero or one item.", "anchors": ["gvariant/src/lib.rs: impl SerializeTo<MaybeNonFixedSize<GvT>> for T (lines 1945-1960)"]}
{"id": "C53", "title": "gv! names the documented Rust type with the right memory properties", "statement": "The Rust type gv! chooses for a type string is the one in the table of its documentation; in the expansion it is well-formed, its AlignOf is the alignment of the GVariant specification, it is Sized exactly when the type has a fixed size and then has exactly that size in memory, generated structs leave no implicit padding, and two type strings share a Rust type exactly when they differ only in s, o, g outside structures.", "quantifier": "every type string for which gv! expands and every type nested in it", "why_tests_cant": "Infinitely many type strings; each expansion is a separate compilation.", "anchors": ["gvariant/src/lib.rs: Marker, impl $crate::Marker for Marker (lines 543-607)", "gvariant-macro/src/generate_impl.rs: write_packed_struct (lines 406-472)", "gvariant/src/casting.rs: AllBitPatternsValid, AlignOf, impl AlignOf for [T] (lines 32-55)"]}
{"id": "C54", "title": "Data in normal form is read as the specification says", "statement": "The normal form of every value of every type is read without panic as that value, wherever it is placed; crate and specification agree on it; no other value has the same normal form; data is in normal form exactly if what is read from it encodes to the same bytes; and a variant holding it hands it out as that value.", "quantifier": "every type gv! expands for, every value, every address with the right alignment", "why_tests_cant": "Infinitely many types and values; the test suite has about thirty.", "anchors": ["gvariant/src/lib.rs: impl AllBitPatternsValid for Variant, impl Cast for Variant, impl SerializeTo<Variant> for &Variant, impl Debug for Variant (lines 1125-1162)", "gvariant/src/lib.rs: impl ToOwned for NonFixedWidthArray<T>, impl AlignOf for NonFixedWidthArray<T>, impl AllBitPatternsValid for NonFixedWidthArray<T>, impl Cast for NonFixedWidthArray<T>, impl NonFixedWidthArray<T>, impl PartialEq for NonFixedWidthArray<T>, impl Eq for NonFixedWidthArray<T>, NonFixedWidthArrayIterator, impl PartialEq<[&T]> for NonFixedWidthArray<Item>, impl PartialEq<NonFixedWidthArray<Item>> for [&T], impl Iterator for NonFixedWidthArrayIterator<'a, Item>, impl ExactSizeIterator for NonFixedWidthArrayIterator<'a, Item>, impl IntoIterator for &'a NonFixedWidthArray<Item>, impl core::ops::Index<usize> for NonFixedWidthArray<Item> (lines 1440-1620)", "gvariant-macro/src/generate_impl.rs: write_non_fixed_size_structure (lines 96-240)"]}
{"id": "C55", "title": "The assertions of the fuzz target hold", "statement": "Whatever bytes the fuzzer supplies, the fuzz target does not panic: for each of its types the re-serialized bytes cast and compare equal to the original, iterating agrees with indexing, strings in normal form are shown unchanged, data in normal form re-serializes to itself, and fuzz_struct produces normal form.", "quantifier": "every input below 256 MiB, every allocator, both build modes, given that GLib recognises exactly the normal forms", "why_tests_cant": "The fuzzer itself only samples inputs; the allocator and the address of an empty vec are not under its control.", "anchors": ["fuzz/fuzz_targets/fuzz_target_1.rs: test_cmp, fuzz_struct (lines 293-384)", "gvariant/src/aligned_bytes.rs: is_aligned_to, is_aligned, Misaligned (lines 551-563)", "gvariant/src/casting.rs: WrongSize, impl Error for WrongSize, impl Display for WrongSize, cast_slice (lines 57-80)"]}
{"id": "C56", "title": "Re-serialized size is polynomial in the size of the data", "statement": "Re-serializing what was read from n bytes takes at most c*(n+1)^d bytes, where d is the nesting depth of arrays and strings in the type and c depends on the type only; because elements may overlap the exponent is needed: data of m+1+16*k*d bytes for arrays nested d deep can re-serialize to k^d*(m+1) bytes.", "quantifier": "every type gv! expands for, all data below 4 GiB", "why_tests_cant": "Worst cases are crafted data with overlapping elements.", "anchors": ["gvariant/src/lib.rs: <NonFixedWidthArray<T> as Cast>::try_from_aligned_slice_mut, impl NonFixedWidthArray<T>, impl PartialEq for NonFixedWidthArray<T>, impl Eq for NonFixedWidthArray<T>, NonFixedWidthArrayIterator (lines 1463-1530)", "gvariant/src/lib.rs: impl Iterator for NonFixedWidthArrayIterator<'a, Item>, impl ExactSizeIterator for NonFixedWidthArrayIterator<'a, Item>, impl IntoIterator for &'a NonFixedWidthArray<Item>, impl core::ops::Index<usize> for NonFixedWidthArray<Item>, impl SerializeTo<NonFixedWidthArray<GvT>> for It (lines 1555-1640)"]}
{"id": "C57", "title": "Debug printing shows exactly the value that is read", "statement": "Printing anything with {:?} prints a text determined by the type and the value that reading the data gives; it panics exactly if reading panics; and for types without doubles and values whose variant type strings are UTF-8, two values that print the same are the same.", "quantifier": "every type gv! expands for, all bytes at every aligned address, both build modes, every rendering of numbers and strings that has the stated laws of the standard library", "why_tests_cant": "Needs an unambiguity argument over all pairs of values of all types, including strings that contain quotes and brackets.", "anchors": ["gvariant/src/lib.rs: impl Display for Str, impl Debug for Str, impl From<&'a Str> for &'a str, impl From<&Str> for String, impl ToOwned for Str, DisplayUtf8Lossy, impl core::fmt::Display for DisplayUtf8Lossy<'_>, impl core::fmt::Debug for DisplayUtf8Lossy<'_> (lines 846-906)", "gvariant/src/lib.rs: impl Debug for Variant (lines 1152-1162)", "gvariant/src/lib.rs: impl Debug for NonFixedWidthArray<T> (lines 1431-1439)", "gvariant/src/lib.rs: impl Debug for MaybeFixedSize<T> (lines 1721-1725)", "gvariant/src/lib.rs: impl Debug for MaybeNonFixedSize<T> (lines 1858-1862)", "gvariant/src/lib.rs: impl Debug for Bool (lines 1994-1998)", "gvariant-macro/src/generate_impl.rs: generate_tuple (lines 42-49)"]}
{"id": "C58", "title": "Display of an owned value shows what Display of its content shows", "statement": "Displaying an Owned string shows the text of the string it holds, like displaying the borrowed string or the GString made from it.", "quantifier": "all buffers, both build modes", "why_tests_cant": "No test prints an Owned value; the claim ranges over all contents.", "anchors": ["gvariant/src/lib.rs: impl Debug for Owned<T>, impl Display for Owned<T> (lines 475-485)", "gvariant/src/lib.rs: impl Display for Str (lines 846-850)", "gvariant/src/lib.rs: impl Display for GString, impl Debug for GString (lines 1021-1032)"]}
{"id": "C59", "title": "Structures built with new() have the bytes of the normal form", "statement": "Structure\u2026::new stores each argument at the place the specification gives the member, writes every padding byte as zero and leaves no byte uninitialized; to_tuple returns the arguments; reading the memory gives the structure of the arguments' values; and Default is all zero bytes, the same as default_ref.", "quantifier": "every fixed-size structure type gv! expands for, all arguments, both build modes", "why_tests_cant": "Padding positions depend on the type; tests construct a handful of structures.", "anchors": ["gvariant-macro/src/generate_impl.rs: write_packed_struct (lines 402)", "gvariant-macro/src/generate_impl.rs: write_packed_struct (lines 431-434)", "gvariant-macro/src/generate_impl.rs: write_packed_struct (lines 442-463)", "gvariant-macro/src/generate_impl.rs: write_packed_struct (lines 474-494)"]}
{"id": "C60", "title": "Assigning to a field through try_cast_mut changes that field and nothing else", "statement": "Casting bytes mutably to a fixed-size type and assigning to a member, or a member of a member, changes exactly the bytes of that member and leaves all others alone; afterwards the data reads as the old value with the member replaced; data of the wrong size is rejected unchanged.", "quantifier": "every fixed-size type gv! expands for, every path to a member, all data at every aligned address", "why_tests_cant": "No test writes through a nested member; the claim ranges over all types and paths.", "anchors": ["gvariant/src/lib.rs: Marker::try_cast_mut (lines 357-362)", "gvariant-macro/src/generate_impl.rs: write_packed_struct (lines 442)", "gvariant-macro/src/generate_impl.rs: write_packed_struct (lines 492-494)", "gvariant/src/casting.rs: try_cast_slice_to_mut (lines 118-127)"]}
{"id": "C61", "title": "Writing through a mutable part of an AlignedBuf changes exactly the bytes it names", "statement": "Making a buffer from a vec, slicing it mutably in any number of steps, casting the part to a fixed-size type and assigning to a member changes just the bytes of that member in the buffer and in the vec it converts to; every other part is unchanged and the part written reads as before with the member replaced.", "quantifier": "every vec and allocator, every slicing program, every fixed-size type gv! expands for, every path to a member", "why_tests_cant": "The shift by which the buffer aligns its contents depends on the allocator.", "anchors": ["gvariant/src/buf.rs: impl DerefMut for AlignedBuf (lines 143-153)", "gvariant/src/aligned_bytes.rs: impl IndexMut<usize> for AlignedSlice<A>, impl IndexMut<RangeTo<usize>> for AlignedSlice<A>, impl IndexMut<RangeToInclusive<usize>> for AlignedSlice<A>, impl IndexMut<Range<usize>> for AlignedSlice<A>, impl IndexMut<RangeInclusive<usize>> for AlignedSlice<A>, impl IndexMut<RangeFrom<usize>> for AlignedSlice<A>, impl IndexMut<RangeFull> for AlignedSlice<A>, impl IndexMut<Range<AlignedOffset<A>>> for AlignedSlice<A>, impl IndexMut<RangeInclusive<AlignedOffset<A>>> for AlignedSlice<A>, impl IndexMut<RangeFrom<AlignedOffset<A>>> for AlignedSlice<A> (lines 460-532)", "gvariant/src/lib.rs: Marker::try_cast_mut (lines 357-362)"]}
{"id": "C62", "title": "The example program ostree-ls lists exactly the directory the file holds", "statement": "Given any file contents, the example program does not panic and prints the listing of the directory tree object that the specification reads from them: its directories with their checksums and then its files. For a file in normal form this lists exactly its entries, and different directories (with names free of newlines and slashes) give different output.", "quantifier": "every file contents below 4 GiB (or any size without oversized framed containers), both build modes; every directory tree object", "why_tests_cant": "The program has no tests; its input is untrusted and unbounded.", "anchors": ["examples/ostree-ls/src/main.rs: ostree_ls (lines 4-27)", "README.md:29-59", "gvariant/src/lib.rs: Marker::deserialize (lines 376-385)", "gvariant/src/lib.rs: impl Iterator for NonFixedWidthArrayIterator<'a, Item>, impl ExactSizeIterator for NonFixedWidthArrayIterator<'a, Item>, impl IntoIterator for &'a NonFixedWidthArray<Item> (lines 1555-1598)", "gvariant/src/lib.rs: impl Display for Str (lines 846-850)"]}
{"id": "C63", "title": "Byte order affects the bytes of numbers and nothing else", "statement": "Reading the same data on a machine of the other byte order panics in the same cases and otherwise gives the same value with the bytes of every number reversed (contents of variants untouched); the other machine writes the bytes of the value so reversed; and what one machine writes, the other reads as the value so reversed.", "quantifier": "every type gv! expands for, all data at every aligned address, every serializable value, both byte orders and build modes", "why_tests_cant": "Tests run on one machine, practically always little-endian.", "anchors": ["gvariant/src/lib.rs: Cast::from_aligned_slice, Cast::default_ref, impl Cast for $t, impl SerializeTo<$t> for $t, impl SerializeTo<$t> for &$t (lines 640-691)", "gvariant/src/lib.rs: read_uint (lines 1384-1393)", "gvariant/src/lib.rs: write_offsets (lines 1644-1671)"]}
{"id": "C64", "title": "Types that differ only in signedness, kind of string, or entry versus pair are read and written alike", "statement": "Two types equal up to signed/unsigned/floating point of the same width, s/o/g, and dictionary entry versus structure of two members read every input to the same value (or the same panic) and write every value to the same bytes; in particular object paths and signatures are never validated, as documented.", "quantifier": "all types, all data (normal form or not), all values, all writers, both build modes", "why_tests_cant": "Tests compare a few types; the claim covers all nestings and malformed data.", "anchors": ["gvariant/src/lib.rs:112-130", "gvariant-macro/src/generate_impl.rs: generate_types, generate_tuple, write_non_fixed_size_structure (lines 7-60)", "gvariant-macro/src/generate_impl.rs: write_non_fixed_size_structure, escape (lines 100-260)"]}
{"id": "C65", "title": "Access to one element or member depends on its framing offsets and its own bytes only", "statement": "Indexing element i of a variable-width array gives the same reference (or the same panic) whatever the rest of the array is changed to, as long as the last framing offset, the element's own framing offset, the one before it and the element's own bytes stay; likewise member k of a structure is decided by the framing offset of the nearest earlier variable-size member, its own framing offset if it has one, and its own bytes. In particular damage elsewhere in a container does not spread to it.", "quantifier": "all types, all data up to 2^63 bytes (normal form or not), all indices below len(), all replacements of the other bytes, both build modes", "why_tests_cant": "Tests read a few well-formed arrays and structures; the claim quantifies over all ways to change the other bytes.", "anchors": ["gvariant/src/lib.rs: read_last_frame_offset (lines 1395-1415)", "gvariant/src/lib.rs: impl core::ops::Index<usize> for NonFixedWidthArray<Item> (lines 1600-1622)", "gvariant/src/lib.rs: nth_last_frame_offset, calc_offsets, get_child_elem (lines 2053-2129)", "gvariant-macro/src/generate_impl.rs: generate_table (lines 368-395)"]}
{"id": "C66", "title": "What is read is determined for all data, huge framing offsets included", "statement": "In builds without overflow checks, reading any data panics exactly if an element of an array or the content of a maybe is a ragged array of fixed-size items, and otherwise gives the value of the deserialization rules with all positions taken modulo 2^64. In builds with overflow checks a position of 2^64 or more or a ragged array always makes reading panic, only those and positions less than 8 below 2^64 do, and whatever is read is the value of the rules without wrap-around. Below 4 GiB, or without framing offsets of 2^63 or more, no position is that large and both agree.", "quantifier": "all types, all data up to 2^63 bytes, both build modes", "why_tests_cant": "Positions near 2^64 need containers of more than 4 GiB with malformed framing offsets.", "anchors": ["gvariant/src/offset.rs: align_offset (lines 43-49)", "gvariant/src/lib.rs: impl Iterator for NonFixedWidthArrayIterator<'a, Item> (lines 1553-1580)", "gvariant/src/lib.rs: impl core::ops::Index<usize> for NonFixedWidthArray<Item> (lines 1600-1622)", "gvariant/src/lib.rs: nth_last_frame_offset, calc_offsets, get_child_elem (lines 2053-2129)"]}
{"id": "C67", "title": "What comes back from a round trip is determined for every value", "statement": "Serializing any value and reading the bytes back never panics and gives a value determined by the one serialized: the same, except that an array of variable-size items whose last item needs p bytes of padding to its alignment comes back with p/w default items in front (w is the framing offset width), or empty if p is no multiple of w; in particular every array of 256 bytes or more whose items need alignment and whose last item ends at an odd position comes back empty. The same rule gives the value after any number of rounds of reading and re-serializing, whatever data one starts from.", "quantifier": "every type gv! expands for, every value, every aligned address, any number of rounds", "why_tests_cant": "the outcome depends on sizes and alignments deep inside the value; small test values show extra items or none, not the loss of everything", "anchors": ["gvariant/src/lib.rs: SerializeTo<NonFixedWidthArray<GvT>> for It", "gvariant/src/lib.rs: NonFixedWidthArray"]}
{"id": "C68", "title": "Exchange with implementations that follow the specification", "statement": "Data in normal form written by a conforming implementation is read as the value it stands for, and re-serializing gives the same bytes exactly if no array in it ends with an item that would need padding. What the crate writes is read by a conforming reader exactly as by the crate itself, and as the value written exactly under the same condition. For types whose arrays have items of fixed size, without alignment, or whose only part of variable size is an array or maybe of fixed-size items at their end, with sizes that are multiples of the alignment, the exchange is always faithful in both directions.", "quantifier": "every type gv! expands for, every value, every aligned address", "why_tests_cant": "needs two independent implementations and all values", "anchors": ["gvariant/src/lib.rs: SerializeTo", "gvariant/src/lib.rs: read_last_frame_offset"]}
{"id": "C69", "title": "Streams: how bytes are split into calls makes no difference", "statement": "Serializing to any writer, however little it takes per call and however often it is interrupted, hands it the encoding in order: what it took is always a prefix, it is not called again after failing, its error is returned, and without failure it got everything and the count returned is right. Serializing into a byte slice succeeds exactly if the encoding fits and otherwise fills it. Deserializing from any reader, whatever pieces it gives, reads what a cast of all the bytes reads, or returns an error of the reader. Together, what is written through one and read through the other comes back.", "quantifier": "every type gv! expands for, every value, every writer and reader (any state machine that is not interrupted forever), every buffer size the standard library chooses", "why_tests_cant": "writers and readers may behave in infinitely many ways; tests use Vec and slices", "anchors": ["gvariant/src/lib.rs: Marker::serialize", "gvariant/src/lib.rs: Marker::deserialize"]}
{"id": "C70", "title": "Reading and writing again and again comes to rest", "statement": "Whatever data one starts from, if it can be read, then after at most 2^32+1 rounds of reading and re-serializing per level of array nesting the bytes no longer change, and are the normal form of the value they read as. An array of tidy elements whose last element needs padding comes to rest only when all its elements are lost.", "quantifier": "every type gv! expands for, every byte string, any addresses, any number of rounds", "why_tests_cant": "billions of rounds, all data", "anchors": ["gvariant/src/lib.rs: SerializeTo<NonFixedWidthArray<GvT>> for It", "gvariant/src/lib.rs: read_last_frame_offset"]}
{"id": "C71", "title": "Offsets, aligned slices and slices of numbers compare and convert as what they hold", "statement": "AlignedOffsets compare with each other and with usize as their numbers, in both directions, and convert to and from usize without change, failing exactly for numbers that are no multiple. Aligned slices are equal exactly if their bytes are, wherever they are in memory. Converting an aligned slice to a slice of numbers with try_into never panics, fails exactly if the bytes do not divide into numbers, and otherwise gives numbers whose bytes are the bytes of the slice.", "quantifier": "every alignment, offset, usize, pair of slices, number type and aligned slice", "why_tests_cant": "infinitely many numbers, slices and addresses; that offsets cannot be compared with each other is a missing impl, which no test that compiles can show", "anchors": ["gvariant/src/offset.rs: PartialEq, PartialOrd, TryFrom, Borrow, From", "gvariant/src/aligned_bytes.rs: PartialEq for AlignedSlice, Index<usize>", "gvariant/src/casting.rs: cast_slice, TryInto, unsafe_fixed_bytes_to_type"]}
{"id": "C72", "title": "Going straight to a part gives that part of the value", "statement": "If data can be read as a whole, then following any path of indexing, to_option, to_tuple and get from the cast reference gives a reference that shows exactly the part of the value the path leads to, and gives a reference only where the value has such a part.", "quantifier": "every type gv! expands for, all data at every aligned address, every path of any length through arrays, maybes, structures, dictionary entries and variants, both build modes (indices below 2^61 - 1 without overflow checks)", "why_tests_cant": "each access recomputes positions from other framing offsets than reading in order does; paths and data are unbounded", "anchors": ["gvariant/src/lib.rs: NonFixedWidthArray::index, MaybeFixedSize::to_option, MaybeNonFixedSize::to_option, Variant::get", "gvariant-macro/src/generate_impl.rs: write_non_fixed_size_structure, write_packed_struct"]}
{"id": "C73", "title": "Every part can be copied out and read alone", "statement": "Every reference reachable from data reads as the same value (or panics likewise) as its bytes alone cast to its type at any aligned address; references of one type to equal bytes read equally wherever they come from; and to_owned of it reads as the same value.", "quantifier": "every type gv! expands for, all data at every aligned address, every chain of operations that leads to a reference, every allocator", "why_tests_cant": "quantifies over all references reachable in all data and over all addresses of the copy", "anchors": ["gvariant/src/lib.rs: Owned::from_bytes, Owned::deref, ToOwned for Str, Variant, NonFixedWidthArray, MaybeFixedSize, MaybeNonFixedSize", "gvariant-macro/src/generate_impl.rs: ToOwned of generated structures"]}
{"id": "C74", "title": "The number of values that reading comes upon is polynomial, linear for normal data", "statement": "Reading everything in n bytes (iterating all arrays, unpacking all maybes and structures, not opening variants) comes upon at most k*(n+1)^d values, where k is the number of types in the type and d the depth of array nesting; for arrays nested d deep there is data of at most 1+16*m*d bytes with at least m^d values, since elements may overlap at each level; on data in normal form there are at most k*(n+1).", "quantifier": "every type gv! expands for, all data (below 2^63 bytes) at any aligned address, all build modes; the lower bound for every depth and number of elements", "why_tests_cant": "The worst cases are crafted data with overlapping elements at several levels; a bound over all types and data cannot be sampled.", "anchors": ["gvariant/src/lib.rs: <NonFixedWidthArray<T> as Cast>::try_from_aligned_slice_mut, impl NonFixedWidthArray<T>, impl PartialEq for NonFixedWidthArray<T>, impl Eq for NonFixedWidthArray<T>, NonFixedWidthArrayIterator (lines 1463-1530)", "gvariant/src/lib.rs: impl Iterator for NonFixedWidthArrayIterator<'a, Item>, impl ExactSizeIterator for NonFixedWidthArrayIterator<'a, Item>, impl IntoIterator for &'a NonFixedWidthArray<Item>, impl core::ops::Index<usize> for NonFixedWidthArray<Item>, impl SerializeTo<NonFixedWidthArray<GvT>> for It (lines 1555-1640)", "gvariant/src/lib.rs: impl core::ops::Index<usize> for NonFixedWidthArray<Item> (lines 1600-1622)"]}
{"id": "C75", "title": "Parts of data in normal form are in normal form, in place, and do not overlap", "statement": "Going to any part of data in normal form - elements, members, contents of maybes and of variants that hold normal form - does not panic and gives a reference to exactly the bytes of the normal form of that part, at the place that the layout rules give it; whatever part a program reaches is itself in normal form and lies in the data; references reached by paths that part do not share a byte; and in what the crate serialized (where that is the normal form) each part is what the crate serializes for the part alone.", "quantifier": "every type gv! expands for, every value, every path, every aligned address", "why_tests_cant": "Overlap and wrong places depend on combinations of alignments, sizes and offset widths at every depth of nesting; tests compare values read, not where the references point.", "anchors": ["gvariant/src/lib.rs: NonFixedWidthArrayIterator, impl PartialEq<[&T]> for NonFixedWidthArray<Item>, impl PartialEq<NonFixedWidthArray<Item>> for [&T], impl Iterator for NonFixedWidthArrayIterator<'a, Item>, impl ExactSizeIterator for NonFixedWidthArrayIterator<'a, Item>, impl IntoIterator for &'a NonFixedWidthArray<Item>, impl core::ops::Index<usize> for NonFixedWidthArray<Item>, impl SerializeTo<NonFixedWidthArray<GvT>> for It (lines 1520-1625)", "gvariant/src/lib.rs: MaybeFixedSize<T>::to_option (lines 1731-1748)", "gvariant/src/lib.rs: Variant::get, Variant::split (lines 1180-1219)", "gvariant-macro/src/generate_impl.rs: write_non_fixed_size_structure (lines 60-226)"]}
{"id": "C76", "title": "Overwriting a part of data in normal form changes just that part", "statement": "Overwriting a part of data in normal form (reached through elements, members and contents of maybes) with any bytes of the same length makes the whole read as before with that part replaced by what the new bytes read as on their own - a panic only if they panic on their own; within a variant only the bytes in that variant change; if the new bytes are the normal form of a value, the whole is the normal form of the changed value; and so a buffer that is sliced mutably to a fixed-size part found by reading, cast and assigned to, reads as before with just what was assigned changed.", "quantifier": "every type gv! expands for, every value, every path, every replacement of the same length, every aligned address", "why_tests_cant": "That a write cannot disturb siblings depends on framing offsets, paddings and element places at every depth; tests mutate a few fixed layouts.", "anchors": ["gvariant/src/lib.rs: NonFixedWidthArrayIterator, impl PartialEq<[&T]> for NonFixedWidthArray<Item>, impl PartialEq<NonFixedWidthArray<Item>> for [&T], impl Iterator for NonFixedWidthArrayIterator<'a, Item>, impl ExactSizeIterator for NonFixedWidthArrayIterator<'a, Item>, impl IntoIterator for &'a NonFixedWidthArray<Item>, impl core::ops::Index<usize> for NonFixedWidthArray<Item>, impl SerializeTo<NonFixedWidthArray<GvT>> for It (lines 1520-1625)", "gvariant/src/lib.rs: MaybeFixedSize<T>::to_option (lines 1731-1748)", "gvariant/src/buf.rs: impl DerefMut for AlignedBuf (lines 143-153)", "gvariant/src/aligned_bytes.rs: impl IndexMut<usize> for AlignedSlice<A>, impl IndexMut<RangeTo<usize>> for AlignedSlice<A>, impl IndexMut<RangeToInclusive<usize>> for AlignedSlice<A>, impl IndexMut<Range<usize>> for AlignedSlice<A>, impl IndexMut<RangeInclusive<usize>> for AlignedSlice<A>, impl IndexMut<RangeFrom<usize>> for AlignedSlice<A>, impl IndexMut<RangeFull> for AlignedSlice<A>, impl IndexMut<Range<AlignedOffset<A>>> for AlignedSlice<A>, impl IndexMut<RangeInclusive<AlignedOffset<A>>> for AlignedSlice<A>, impl IndexMut<RangeFrom<AlignedOffset<A>>> for AlignedSlice<A> (lines 460-532)", "gvariant-macro/src/generate_impl.rs: write_non_fixed_size_structure (lines 60-226)"]}
{"id": "C77", "title": "Normal form can be told from the bytes alone", "statement": "A check written from the list of abnormalities in section 2.7.3 of the specification (plus the few it leaves out: framing offsets wider than needed, bytes of a structure that belong to no member, variants without a zero byte, strings that are not UTF-8) accepts exactly the byte sequences that the encoding rules produce, whatever the byte order; it accepts exactly the data that the crate reads as a value whose encoding is that data; what the crate writes passes it if no array ends with a padded item, but may also pass it as the normal form of a different value.", "quantifier": "every type, every byte sequence shorter than 2^64 bytes (reading: every type gv! expands for, every aligned address)", "why_tests_cant": "The check decides membership in an infinite set defined by existence of a value; that nothing is missing from the list (the printed one is incomplete) cannot be seen from samples.", "anchors": ["docs/gvariant-serialisation.pdf", "gvariant/src/lib.rs: impl AllBitPatternsValid for NonFixedWidthArray<T>, impl Cast for NonFixedWidthArray<T>, impl NonFixedWidthArray<T>, impl PartialEq for NonFixedWidthArray<T>, impl Eq for NonFixedWidthArray<T>, NonFixedWidthArrayIterator, impl PartialEq<[&T]> for NonFixedWidthArray<Item>, impl PartialEq<NonFixedWidthArray<Item>> for [&T], impl Iterator for NonFixedWidthArrayIterator<'a, Item>, impl ExactSizeIterator for NonFixedWidthArrayIterator<'a, Item>, impl IntoIterator for &'a NonFixedWidthArray<Item>, impl core::ops::Index<usize> for NonFixedWidthArray<Item>, impl SerializeTo<NonFixedWidthArray<GvT>> for It (lines 1450-1625)", "gvariant/src/lib.rs: MaybeFixedSize<T>::to_option, impl From<&'a MaybeFixedSize<T>> for Option<&'a T>, impl PartialEq for MaybeFixedSize<T>, impl Eq for MaybeFixedSize<T>, impl PartialEq<Option<&T>> for &MaybeFixedSize<T>, impl PartialEq<&MaybeFixedSize<T>> for Option<&T>, impl PartialOrd for MaybeFixedSize<T>, impl Hash for MaybeFixedSize<T>, impl AlignOf for MaybeFixedSize<T>, impl AllBitPatternsValid for MaybeFixedSize<T>, impl Cast for MaybeFixedSize<T> (lines 1731-1800)", "gvariant-macro/src/generate_impl.rs: write_non_fixed_size_structure (lines 60-226)"]}
{"id": "C78", "title": "Values with variants inside survive to any depth", "statement": "Take values in which a variant holds a type and a value (not bytes), nested to any depth. Going to any part of the normal form, through any number of variants, gives a reference to exactly the normal form of that part, and going along any other path gives none; reading, and reading the data of every variant found with the type it names, gives back the whole value; a check of the bytes that looks into variants accepts exactly the normal forms of such values; different values have different normal forms; and what the crate writes for a value made with VariantWraps is (if no array ends with a padded item) that normal form.", "quantifier": "every type gv! expands for, every value, every depth of nesting of variants, every path, every aligned address, both build modes", "why_tests_cant": "Depth of nesting, types named in variants and paths are all unbounded.", "anchors": ["gvariant/src/lib.rs: Variant, impl AlignOf for Variant, impl AllBitPatternsValid for Variant, impl Cast for Variant, impl SerializeTo<Variant> for &Variant, impl Debug for Variant, impl ToOwned for Variant, impl Variant, impl PartialEq for Variant, VariantWrap, impl SerializeTo<Variant> for VariantWrap<M, T>, impl Cast for [T], impl SerializeTo<[GvT]> for It (lines 1100-1330)", "docs/gvariant-serialisation.pdf"]}
{"id": "C79", "title": "Type string errors name the true cause", "statement": "gv! rejects a malformed type string with the message that fits: 'empty' only for the empty string; 'more than one type' exactly if a whole type string comes first and something follows; the five messages about a missing rest exactly if the string can still be completed, each according to what is open at its end (a, m, an unclosed tuple, a dictionary entry with fewer than two types, or with two); 'Expected }' and 'Unexpected charactor' exactly if at some byte the string ceases to be completable, and then whatever follows that byte makes no difference.", "quantifier": "every byte string", "why_tests_cant": "Strings are unbounded in length and nesting; that a string cannot be completed is a statement about all continuations.", "anchors": ["gvariant-macro/src/type_parser.rs: ParseError, impl fmt::Display for ParseError, impl Error for ParseError (lines 4-13)", "gvariant-macro/src/type_parser.rs: one, parse_one_type_spec (lines 69-161)"]}
{"id": "C80", "title": "User-written SerializeTo implementations compose", "statement": "The containers (arrays, maybes, VariantWrap, tuples, dictionary entries) know of the things they serialize only the action of their serialize. If each such action, be it the crate's or a user's, writes the bytes of a value of its type in whatever pieces and returns their number (or writes a beginning of them and refuses), then the whole, nested in any way to any depth, does the same for the whole value, refuses exactly if a part does, and reads back as C67 says. Around parts that write anything and return any number, a container still only appends, returns a usize, and panics only where a part panics or, with overflow checks, because the numbers add up to too much: the padding computed from those numbers is never out of range.", "quantifier": "every writer and its failures, every list of parts, every nesting, all byte contents and returned numbers, both build modes", "why_tests_cant": "The parts are arbitrary programs of the users of the crate.", "anchors": ["gvariant/src/lib.rs: SerializeTo (lines 446-462)", "gvariant/src/lib.rs: VariantWrap, impl SerializeTo<Variant> for VariantWrap<M, T> (lines 1256-1283)", "gvariant/src/lib.rs: impl SerializeTo<[GvT]> for It (lines 1315-1326)", "gvariant/src/lib.rs: impl SerializeTo<NonFixedWidthArray<GvT>> for It, write_offsets (lines 1624-1671)", "gvariant/src/lib.rs: impl SerializeTo<MaybeFixedSize<GvT>> for &Option<T> (lines 1819-1832)", "gvariant/src/lib.rs: impl SerializeTo<MaybeNonFixedSize<GvT>> for T (lines 1946-1960)", "gvariant-macro/src/generate_impl.rs: write_non_fixed_size_structure (lines 148-240)", "gvariant-macro/src/generate_impl.rs: write_packed_struct (lines 397-527)"]}
{"id": "C81", "title": "The text gv! emits is well formed Rust items, one structure per structure type", "statement": "For every type for which generate_types succeeds, the emitted text is a sequence of Rust tokens with matching brackets (comments and string literals closed), and cut into items it is the items of the definitions in order: each definition ends where its text ends. Every item is a structure definition with a body or an implementation with a body. The structures defined are, in order, one for every occurrence of a structure type in the type, under the name C05 gives it. The text of the marker type parses as that type.", "quantifier": "all GVariant types, of any size and nesting", "why_tests_cant": "The tests compile a handful of type strings; whether the format strings fit together depends on the number and kinds of members, on padding and on the table.", "anchors": ["gvariant-macro/src/generate_impl.rs: generate_types, generate_tuple, write_non_fixed_size_structure (lines 8-255)", "gvariant-macro/src/generate_impl.rs: escape (lines 257-269)", "gvariant-macro/src/generate_impl.rs: write_packed_struct (lines 397-527)", "gvariant-macro/src/lib.rs: marker_type (lines 34-66)"]}
{"id": "C82", "title": "The emitted text of a variable-size structure says what the model says", "statement": "Read off the emitted text, the definition of a structure type of variable size is a repr(transparent) structure around an AlignedSlice of the alignment of the type; AlignOf and all three pointer casts name that same slice type and structure. RefTuple, to_tuple and From use the tuple of references to the marker types of the members (with the comma that makes a single one a tuple). to_tuple is one get_child_elem call per member with its type, its size, its row of the table, whether it is last and the number of framing offsets, and doing those calls is what the model of reading does. serialize declares as many framing offsets as it initialises, runs the statements the model of writing runs, and ends with write_offsets. Comparison and printing go by to_tuple.", "quantifier": "all definitions emitted for all types, all data, all writers", "why_tests_cant": "A swapped argument or wrong number shows only for particular member lists and data.", "anchors": ["gvariant-macro/src/generate_impl.rs: generate_tuple, write_non_fixed_size_structure (lines 30-255)", "gvariant/src/lib.rs: get_child_elem (lines 2105-2140)"]}
{"id": "C83", "title": "The emitted text of a fixed-size structure says what the model says", "statement": "Read off the emitted text, the definition of a structure type of fixed size is a repr(C) structure whose fields are the members in order with their marker types and padding where the generator decided it, no two fields of the same name; new takes the members in order and gives every field exactly once its own parameter or the declared number of zeros; to_tuple refers to every member in order; default_ref passes a zero per parameter; == compares each member with the same member; serialize runs the statements the model runs and returns the size; casts are the checked ones of the library and AlignOf is the alignment of the type.", "quantifier": "all definitions emitted for all types, all writers", "why_tests_cant": "Which paddings occur and how they are numbered depends on the member list.", "anchors": ["gvariant-macro/src/generate_impl.rs: write_packed_struct (lines 397-527)"]}
{"id": "C84", "title": "A program that reads through the interface sees the values and nothing else", "statement": "Take any program that opens aligned data and then calls, in any order, as often as it likes and depending on all it has seen so far, to_bool, number access, to_str, split, len, size_hint, indexing, first, last, iter, next, to_option, to_tuple, get, ==, partial_cmp, {:?}, serialization and to_owned on the references and iterators it has got. What it sees is what it would see if instead of bytes there were just the values: so no program can tell apart data that reads as the same values, whatever the addresses, the padding, the framing offsets or the allocator. Panics come from an index out of range only. Whenever variants are not opened, nor serialized, nor copied, the values determine all; if the data is in normal form to any depth, also when variants are opened. Not determined by the value are: reading variants whose data cannot be read as a whole, copying an empty value that is not fixed-size (the panic of C19), serializations of 2^63 bytes, indices from 2^61-1 on (C31).", "quantifier": "all adaptive client programs, all lists of types and aligned data up to 2^62 bytes, all allocators, all numbers of calls, debug and release, both byte orders", "why_tests_cant": "A test is one client on one input; the claim is about all programs over the interface, including those that interleave iterators and decide by what they have read.", "anchors": ["gvariant/src/lib.rs: Str::to_str (lines 758-766)", "gvariant/src/lib.rs: Variant::split, impl PartialEq for Variant (lines 1208-1265)", "gvariant/src/lib.rs: impl NonFixedWidthArray<T>, impl PartialEq for NonFixedWidthArray<T>, impl Eq for NonFixedWidthArray<T>, NonFixedWidthArrayIterator, impl PartialEq<[&T]> for NonFixedWidthArray<Item>, impl PartialEq<NonFixedWidthArray<Item>> for [&T], impl Iterator for NonFixedWidthArrayIterator<'a, Item>, impl ExactSizeIterator for NonFixedWidthArrayIterator<'a, Item>, impl IntoIterator for &'a NonFixedWidthArray<Item>, impl core::ops::Index<usize> for NonFixedWidthArray<Item> (lines 1469-1622)", "gvariant/src/lib.rs: MaybeFixedSize<T>::to_option, impl From<&'a MaybeFixedSize<T>> for Option<&'a T>, impl PartialEq for MaybeFixedSize<T>, impl Eq for MaybeFixedSize<T>, impl PartialEq<Option<&T>> for &MaybeFixedSize<T>, impl PartialEq<&MaybeFixedSize<T>> for Option<&T>, impl PartialOrd for MaybeFixedSize<T>, impl Hash for MaybeFixedSize<T>, impl AlignOf for MaybeFixedSize<T>, impl AllBitPatternsValid for MaybeFixedSize<T>, <MaybeFixedSize<T> as Cast>::default_ref (lines 1740-1790)", "gvariant/src/lib.rs: MaybeNonFixedSize<T>::to_option, impl AlignOf for MaybeNonFixedSize<T>, impl AllBitPatternsValid for MaybeNonFixedSize<T>, impl Cast for MaybeNonFixedSize<T>, impl IntoIterator for &'a MaybeNonFixedSize<T>, impl From<&'a MaybeNonFixedSize<T>> for Option<&'a T>, impl PartialEq for MaybeNonFixedSize<T>, impl Eq for MaybeNonFixedSize<T>, impl PartialEq<Option<&T>> for MaybeNonFixedSize<T>, impl PartialEq<MaybeNonFixedSize<T>> for Option<&T>, impl SerializeTo<MaybeNonFixedSize<GvT>> for T, Bool, impl Bool (lines 1880-1977)"]}
{"id": "C85", "title": "Every name in the emitted text resolves where gv! puts it", "statement": "Read off the emitted text, every path, name and lifetime it uses stands for something at the place gv! puts the text: a name imported or defined in the module around it, a public name of the crate, a name of Rust itself, a structure defined beside it, a parameter, variable or lifetime of the item it is in, or a function or type that belongs to the structure. In full this should hold whether or not the program has std and whatever it calls the crate in its Cargo.toml.", "quantifier": "all types, all programs (with and without std, any name for the crate)", "why_tests_cant": "The tests all run with std and under the crate's own name; which names occur depends on the structure and member list of the type.", "anchors": ["gvariant-macro/src/generate_impl.rs: generate_tuple (lines 31-52)", "gvariant-macro/src/generate_impl.rs: write_non_fixed_size_structure (lines 54-255)", "gvariant-macro/src/generate_impl.rs: write_packed_struct (lines 397-527)", "gvariant/src/lib.rs: Marker, impl $crate::Marker for Marker (lines 572-607)", "gvariant/src/lib.rs:74"]}
{"id": "C86", "title": "A program without unsafe cannot get undefined behaviour, or a dangling, stale or misaligned reference, out of the crate", "statement": "Take any program without unsafe that makes, fills, changes, assigns through mutable casts of parts of, and drops aligned buffers, casts them, parts of them or bytes from elsewhere to types of gv!, and calls anything on the references, iterators and copies it gets, in any order and for any number of steps; references are dropped when what they borrow from is changed, moved or dropped, as the compiler demands. At every point, every reference it holds is borrowed from something that is still there, shows the bytes that are there now (or a static default), is aligned for its type and of a length its type has; and whatever it does next, it may panic, but not with a failed internal assertion, and nothing is undefined behaviour. While it holds a reference, neither the reference nor the memory it borrows from changes or moves, and only changing or dropping that ends it.", "quantifier": "all sequences of steps, all states reached, all allocators, all types that gv! takes, all byte contents up to 2^62 bytes, with and without debug assertions and overflow checks", "why_tests_cant": "Tests run single short sequences with one allocator; that no interleaving of changes, copies and reads breaks the conditions that the unsafe blocks rely on needs an invariant over all of them.", "anchors": ["gvariant/src/buf.rs: AlignedBuf, impl Debug for AlignedBuf, impl AlignedBuf, RealignGuard, impl Drop for RealignGuard<'a>, impl Default for AlignedBuf, offset_to_align, is_aligned, align, align_cold, unalign, unalign_cold, impl From<Vec<u8>> for AlignedBuf, impl From<AlignedBuf> for Vec<u8>, and others (lines 22-160)", "gvariant/src/aligned_bytes.rs: impl ToOwned for AlignedSlice<A>, copy_to_align (lines 225-246)", "gvariant/src/aligned_bytes.rs: impl AsAligned<ToA> for AlignedSlice<FromA>, impl AsAlignedMut<ToA> for AlignedSlice<FromA>, impl TryAsAligned<ToA> for AlignedSlice<FromA>, impl TryAsAlignedMut<ToA> for AlignedSlice<FromA> (lines 312-361)", "gvariant/src/lib.rs: Marker::cast (lines 351-353)", "gvariant/src/lib.rs: Owned, impl Debug for Owned<T>, impl Display for Owned<T>, impl Owned<T>, impl Borrow<T> for Owned<T>, impl Deref for Owned<T>, impl From<Vec<u8>> for Owned<T> (lines 470-521)", "gvariant/src/casting.rs: cast_slice, try_cast_slice_to, try_cast_slice_to_mut (lines 74-128)", "gvariant/src/lib.rs: Marker::try_cast_mut (lines 357-362)", "gvariant/src/aligned_bytes.rs: impl Index<usize> for AlignedSlice<A>, impl Index<RangeTo<usize>> for AlignedSlice<A>, impl Index<RangeToInclusive<usize>> for AlignedSlice<A>, impl Index<Range<usize>> for AlignedSlice<A>, impl Index<RangeInclusive<usize>> for AlignedSlice<A>, impl Index<RangeFrom<usize>> for AlignedSlice<A>, impl Index<RangeFull> for AlignedSlice<A>, impl Index<Range<AlignedOffset<A>>> for AlignedSlice<A>, impl Index<RangeInclusive<AlignedOffset<A>>> for AlignedSlice<A>, impl Index<RangeFrom<AlignedOffset<A>>> for AlignedSlice<A>, impl IndexMut<usize> for AlignedSlice<A>, impl IndexMut<RangeTo<usize>> for AlignedSlice<A>, impl IndexMut<RangeToInclusive<usize>> for AlignedSlice<A>, impl IndexMut<Range<usize>> for AlignedSlice<A>, and others (lines 380-532)"]}
{"id": "C87", "title": "Programs that own, change and drop buffers see bytes and values, not memory", "statement": "Take any program that makes buffers, changes them through with_vec or by assigning to bytes or, through a mutable cast of a part, to a value or a member of a structure, looks at their bytes, takes bytes from elsewhere, casts all of these and parts of buffers to types of gv!, reads through references and iterators, copies values and drops what it owns, where each step may depend on all it has seen so far. What it sees, panics included, is what it would see if buffers were plain byte vectors and references were the values that the bytes stand for; so neither the allocator nor the addresses make a difference, and a copy is not affected by what happens to what it was made from.", "quantifier": "all programs (adaptive, any number of steps), all allocators and addresses, all types that gv! takes, all byte contents up to 2^62 bytes", "why_tests_cant": "Tests run a few fixed programs in one memory layout; this is about all programs and all layouts, and about which values survive which changes.", "anchors": ["gvariant/src/buf.rs: AlignedBuf, impl Debug for AlignedBuf, impl AlignedBuf, RealignGuard, impl Drop for RealignGuard<'a>, impl Default for AlignedBuf, offset_to_align, is_aligned, align, align_cold, unalign, unalign_cold, impl From<Vec<u8>> for AlignedBuf, impl From<AlignedBuf> for Vec<u8>, and others (lines 22-160)", "gvariant/src/aligned_bytes.rs: impl ToOwned for AlignedSlice<A>, copy_to_align (lines 225-246)", "gvariant/src/lib.rs: Marker::cast (lines 351-353)", "gvariant/src/lib.rs: Owned, impl Debug for Owned<T>, impl Display for Owned<T>, impl Owned<T>, impl Borrow<T> for Owned<T>, impl Deref for Owned<T>, impl From<Vec<u8>> for Owned<T> (lines 470-521)", "gvariant/src/lib.rs: impl ToOwned for Variant, impl Variant, impl PartialEq for Variant, VariantWrap, impl SerializeTo<Variant> for VariantWrap<M, T>, impl Cast for [T], impl SerializeTo<[GvT]> for It, OffsetSize, offset_size, read_uint, read_last_frame_offset, NonFixedWidthArray, impl Debug for NonFixedWidthArray<T>, impl ToOwned for NonFixedWidthArray<T>, and others (lines 1164-1720)", "gvariant/src/lib.rs: Marker::try_cast_mut (lines 357-362)"]}
{"id": "C88", "title": "Printing with {:#?} and other flags shows the value, laid out by fixed rules", "statement": "Printing anything with {:#?}, a width, {:x?} or other flags prints a text determined by the type and the value that reading the data gives, and panics exactly if reading panics. The flags apply inside structures, maybes and arrays of fixed-size elements, where # puts each entry on a line of its own, indented by four spaces per level; they do not apply inside variants and arrays of non-fixed-size elements, which are printed in one line as with {:?}. Without flags the text is that of {:?}. For types without doubles and values whose variant type strings are UTF-8, two values that print the same are the same.", "quantifier": "every type gv! expands for, all bytes at every aligned address, both build modes, every rendering of numbers, strings and booleans for the flags that has the stated laws", "why_tests_cant": "Nesting depth, flags and values are unbounded, and telling values apart is about all pairs of values.", "anchors": ["gvariant/src/lib.rs: impl Debug for Owned<T>, impl Display for Owned<T> (lines 475-485)", "gvariant/src/lib.rs: impl Debug for Str (lines 851-855)", "gvariant/src/lib.rs: impl Debug for Variant (lines 1152-1162)", "gvariant/src/lib.rs: impl Debug for NonFixedWidthArray<T> (lines 1431-1439)", "gvariant/src/lib.rs: impl Debug for MaybeFixedSize<T> (lines 1721-1725)", "gvariant/src/lib.rs: impl Debug for MaybeNonFixedSize<T> (lines 1858-1862)", "gvariant/src/lib.rs: impl Debug for Bool (lines 1994-1998)", "gvariant-macro/src/generate_impl.rs: generate_tuple (lines 42-49)"]}
{"id": "C89", "title": "What the emitted text asks of types is the case exactly when gv! compiles", "statement": "Reading which traits are implemented off the emitted text (derives, impl heads) and off the crate and the standard library: the marker type of every type inside the one given may be written where it is written, implements Cast with all its supertraits, AlignOf with the alignment of the type, SerializeTo's bound, comparison, printing and ToOwned; it is Sized and Copy exactly if the type has a fixed size, and Eq exactly if no double, variant or structure is inside. The bounds, references, calls, comparisons and constructor calls in the text of a structure are met by those types exactly if it has at most twelve members and, when of fixed size, only integer members; together with names being defined once this is when gv! compiles.", "quantifier": "every type for which gv! gives a text, every component of it", "why_tests_cant": "A compiler run checks one type; nesting, member lists and the interplay of bounds through nested generics are unbounded.", "anchors": ["gvariant-macro/src/generate_impl.rs: generate_tuple (lines 31-50)", "gvariant-macro/src/generate_impl.rs: write_non_fixed_size_structure (lines 80-240)", "gvariant-macro/src/generate_impl.rs: generate_table, write_packed_struct (lines 380-500)", "gvariant/src/lib.rs: SerializeTo (lines 457)", "gvariant/src/lib.rs: Cast (lines 631-633)", "gvariant/src/lib.rs: impl Cast for [T] (lines 1299)", "gvariant/src/lib.rs: NonFixedWidthArray (lines 1427)", "gvariant/src/lib.rs: MaybeFixedSize (lines 1704)", "gvariant/src/lib.rs: MaybeNonFixedSize (lines 1854)", "gvariant/src/lib.rs: Structure (lines 2042)", "gvariant/src/lib.rs: get_child_elem (lines 2105-2116)", "gvariant/src/casting.rs: try_cast_slice_to, try_cast_slice_to_mut (lines 103-120)", "gvariant/src/aligned_bytes.rs: impl AlignedTo<A1> for A1, A2, impl Alignment for A2, impl AlignedTo<A1> for A2, impl AlignedTo<A2> for A2, A4, impl Alignment for A4, impl AlignedTo<A1> for A4, impl AlignedTo<A2> for A4, impl AlignedTo<A4> for A4, A8, impl Alignment for A8, impl AlignedTo<A> for A8 (lines 136-165)", "gvariant/src/offset.rs: impl From<AlignedOffset<$big>> for AlignedOffset<$small> (lines 126-144)"]}
{"id": "C90", "title": "Implementations in the emitted text are complete and do not overlap", "statement": "Every impl in the text emitted by gv! either only adds functions, each once, or implements a known trait and has all the items this trait requires, no item the trait does not have, and none twice. No trait is implemented twice for a structure exactly if no structure occurs twice in the type; a derived trait is not also implemented; ToOwned is implemented exactly for the structures for which the standard library's implementation for Clone types does not apply. The functions in them have the signatures the traits declare, up to the paths that lead to names; to_tuple returns the RefTuple of its impl and from takes the parameter of its impl.", "quantifier": "every type for which gv! gives a text, every impl in the text, every structure inside the type", "why_tests_cant": "Compiling a sample shows this for one type; which impls are emitted depends on the size of each nested structure and on repetitions inside the type.", "anchors": ["gvariant-macro/src/generate_impl.rs: generate_tuple (lines 44-50)", "gvariant-macro/src/generate_impl.rs: write_non_fixed_size_structure (lines 80-240)", "gvariant-macro/src/generate_impl.rs: write_packed_struct (lines 402)", "gvariant-macro/src/generate_impl.rs: write_packed_struct (lines 469-515)", "gvariant/src/lib.rs: SerializeTo (lines 457-459)", "gvariant/src/lib.rs: Cast (lines 631-658)", "gvariant/src/lib.rs: Structure (lines 2042-2050)", "gvariant/src/casting.rs: AllBitPatternsValid, AlignOf (lines 39-53)"]}
{"id": "C91", "title": "Printing into sinks that refuse, and into GString", "statement": "The write_str calls that {:?} makes for a value do not depend on where they go, and stop at the first that is refused; the result is Ok exactly if none was. Together they are the text of the value that reading gives. A sink with limited room gets a beginning of that text and Ok exactly if all of it fits. write! of any value read from any data into a GString succeeds and appends the text, since no piece of it contains NUL; write! of arbitrary pieces into a GString appends those before the first with a NUL, reports an error exactly if there is one, and leaves a valid GString.", "quantifier": "every type, all bytes, every build configuration, every sink (any state machine), every room, every GString and every allocator", "why_tests_cant": "Tests print into a String, which never refuses; where a sink may refuse depends on the pieces, which depend on type and data.", "anchors": ["gvariant/src/lib.rs: impl Display for Str, impl Debug for Str (lines 846-855)", "gvariant/src/lib.rs: impl core::fmt::Debug for DisplayUtf8Lossy<'_> (lines 893-906)", "gvariant/src/lib.rs: impl core::fmt::Write for GString (lines 1045-1049)", "gvariant/src/lib.rs: impl Debug for Variant (lines 1152-1162)", "gvariant/src/lib.rs: impl Debug for NonFixedWidthArray<T> (lines 1431-1439)", "gvariant/src/lib.rs: impl Debug for MaybeFixedSize<T> (lines 1721-1725)", "gvariant/src/lib.rs: impl Debug for MaybeNonFixedSize<T> (lines 1858-1862)", "gvariant/src/lib.rs: impl Debug for Bool (lines 1994-1998)", "gvariant-macro/src/generate_impl.rs: generate_tuple (lines 42-49)"]}
{"id": "C92", "title": "Going from variants to the variants in them", "statement": "A program that goes from a variant to the variants in the array of variants (av) that it holds, and so on, ends on any data without panic (below 4 GiB), and the number of variants that it comes upon is at most polynomial in the number of bytes. In data in normal form it comes upon exactly the variants of the value, at most half as many as there are bytes. No path through a value of any type leads deeper into variants than half the number of bytes, and one.", "quantifier": "all bytes, every build configuration, every value in normal form, every type and path", "why_tests_cant": "Data that makes the work grow exponentially must be built on purpose, with elements that overlap at each level; a bound for all data cannot be tested.", "anchors": ["gvariant/src/lib.rs: Variant::get (lines 1180-1191)", "gvariant/src/lib.rs: Variant::split (lines 1208-1219)", "gvariant/src/lib.rs: NonFixedWidthArray<T>::iter (lines 1485-1487)", "gvariant/src/lib.rs: <NonFixedWidthArrayIterator<'a, Item> as Iterator>::next, <NonFixedWidthArrayIterator<'a, Item> as Iterator>::size_hint, impl ExactSizeIterator for NonFixedWidthArrayIterator<'a, Item>, impl IntoIterator for &'a NonFixedWidthArray<Item> (lines 1573-1598)", "gvariant/src/lib.rs: impl core::ops::Index<usize> for NonFixedWidthArray<Item> (lines 1602-1621)"]}
{"id": "C93", "title": "How long the serialized form of a value is", "statement": "The bytes that serialize_to_vec makes of a value are at least as many as its simple values (booleans, numbers, strings with their zero bytes, type strings of variants) take by themselves, and beyond that at most 22 for each value in it, to any depth and through variants. A value for which this sum is below 2^63 is serialized without panic exactly if none of the strings in it contains a NUL. The same bounds hold for normal form.", "quantifier": "all types, all values of any shape and depth that can be given to the serializer, every build configuration", "why_tests_cant": "A bound over all types and all depths of nesting, with offsets of eight bytes that need values above 4 GiB, cannot be covered by samples.", "anchors": ["gvariant/src/lib.rs: VariantWrap, impl SerializeTo<Variant> for VariantWrap<M, T> (lines 1274-1283)", "gvariant/src/lib.rs: impl SerializeTo<[GvT]> for It (lines 1315-1326)", "gvariant/src/lib.rs: impl SerializeTo<NonFixedWidthArray<GvT>> for It (lines 1624-1640)", "gvariant/src/lib.rs: impl SerializeTo<MaybeFixedSize<GvT>> for &'a MaybeFixedSize<GvT>, impl SerializeTo<MaybeFixedSize<GvT>> for &Option<T> (lines 1811-1831)", "gvariant/src/lib.rs: impl SerializeTo<MaybeNonFixedSize<GvT>> for T (lines 1946-1960)", "gvariant-macro/src/generate_impl.rs: write_non_fixed_size_structure (lines 232-240)", "gvariant-macro/src/generate_impl.rs: write_packed_struct (lines 507-512)"]}
{"id": "C94", "title": "Running out of memory leaves a GString as it was", "statement": "When an allocation inside GString::try_push_str, write_str, clear or reserve fails by panicking, the string keeps the text it had, with its terminating NUL, and its capacity. After any sequence of such calls, failed ones among them, it holds exactly what those that did not fail make of the text and can be converted in all ways. clear never needs memory.", "quantifier": "all texts, all sequences of calls, every pattern of answers and refusals of the allocator", "why_tests_cant": "A test cannot make each allocation in turn fail, nor show that none happens while the string is without its NUL, whatever capacities the allocator has given.", "anchors": ["gvariant/src/lib.rs: GString::reserve (lines 964-966)", "gvariant/src/lib.rs: GString::clear (lines 970-973)", "gvariant/src/lib.rs: GString::try_push_str (lines 1003-1013)", "gvariant/src/lib.rs: impl core::fmt::Write for GString (lines 1045-1049)"]}
{"id": "C95", "title": "with_vec when memory runs out", "statement": "After AlignedBuf::with_vec, whether the callback returned or panicked and whichever allocation failed, the buffer shows the bytes that the callback left, or the process has been aborted. With blocks at multiples of eight the buffer is always exactly the plain vec. Looking at the buffer never shows anything but aligned bytes of the vec.", "quantifier": "all callbacks, all buffers, every pattern of answers and refusals of the allocator, every sequence of calls", "why_tests_cant": "Needs allocators that give odd addresses and then refuse; the state after a panic in a destructor is not reached by ordinary tests.", "anchors": ["gvariant/src/buf.rs: AlignedBuf::with_vec (lines 54-63)", "gvariant/src/buf.rs: impl Drop for RealignGuard<'a> (lines 66-70)", "gvariant/src/buf.rs: align, align_cold (lines 92-104)", "gvariant/src/buf.rs: unalign, unalign_cold (lines 106-117)", "gvariant/src/buf.rs: impl Deref for AlignedBuf, impl DerefMut for AlignedBuf (lines 131-153)"]}
{"id": "C96", "title": "Arrays of fixed-size items join and split as their bytes do", "statement": "The bytes of two arrays of fixed-size items, one after the other, are the bytes of the array of all the items, and any two byte strings of whole items put together read as the items of the first and then those of the second. Cutting between items gives two arrays in place. Writing the items in two goes into one writer is the same as writing them in one, whatever the writer does. Bytes of an incomplete item at the end make the whole array read as empty. None of this holds for items of variable size.", "quantifier": "all fixed-size item types, all lists of items, all bytes, all places to cut, all writers, every build configuration", "why_tests_cant": "The item type, the number of items, the place of the cut and the behaviour of the writer range over infinite sets; a test sees a few of them.", "anchors": ["gvariant/src/lib.rs: impl Cast for [T], impl SerializeTo<[GvT]> for It (lines 1299-1327)", "gvariant/src/casting.rs: cast_slice, try_cast_slice_to, try_cast_slice_to_mut (lines 75-127)", "gvariant/src/lib.rs: impl SerializeTo<NonFixedWidthArray<GvT>> for It (lines 1624-1640)"]}
{"id": "C97", "title": "Comments in the emitted code tell the truth", "statement": "In the code that gv! emits, the comment before each field of a fixed-size structure names the type string of the member and the byte range that the member has in the serialized form, and the comment before the expression for each member of a variable-size structure names the type string of that member; they stand right before what they describe.", "quantifier": "all types that gv! takes, all structures in them, all members", "why_tests_cant": "Types and members are infinitely many, and comments are dropped by the compiler, so no test of compiled code can see them.", "anchors": ["gvariant-macro/src/generate_impl.rs: write_non_fixed_size_structure (lines 154-175)", "gvariant-macro/src/generate_impl.rs: write_packed_struct (lines 419-459)"]}
{"id": "C98", "title": "Every value can be serialized", "statement": "Every value of every type, with variants that hold values of any types to any depth, can be serialized from plain Rust values (numbers, bool, str, Option, tuples, things to iterate over, VariantWrap) without any existing GVariant data, and what is written is the encoding of that value. Values whose variants hold arbitrary type strings and data can be serialized with references to such variants. The byte strings that serializing can give for a type are exactly the crate's encodings of values of the type; among them are all normal forms, except those of values with an array whose last element does not end at a multiple of its alignment.", "quantifier": "Every type that gv! expands for, and every value of it whose encoding is shorter than 2^63 bytes.", "why_tests_cant": "Tests serialize a few values from a few Rust types. That no value is out of reach is a statement about all values of all types, and that nothing else can be produced is one about all things that can be handed to serialize.", "anchors": ["gvariant/src/lib.rs: <&$t as SerializeTo<$t>>::serialize (lines 686-691)", "gvariant/src/lib.rs: impl SerializeTo<Str> for &Str, impl SerializeTo<Str> for &str, impl SerializeTo<Str> for &T, impl SerializeTo<Str> for &Box<Str>, impl SerializeTo<Str> for &String (lines 790-828)", "gvariant/src/lib.rs: VariantWrap, impl SerializeTo<Variant> for VariantWrap<M, T> (lines 1275-1283)", "gvariant/src/lib.rs: impl SerializeTo<[GvT]> for It (lines 1315-1326)", "gvariant/src/lib.rs: impl SerializeTo<NonFixedWidthArray<GvT>> for It (lines 1624-1640)", "gvariant/src/lib.rs: <&Option<T> as SerializeTo<MaybeFixedSize<GvT>>>::serialize (lines 1824-1831)", "gvariant/src/lib.rs: impl SerializeTo<MaybeNonFixedSize<GvT>> for T (lines 1946-1960)", "gvariant/src/lib.rs: impl SerializeTo<Bool> for &Bool, impl SerializeTo<Bool> for &bool (lines 2024-2035)", "gvariant-macro/src/generate_impl.rs: write_non_fixed_size_structure (lines 174-240)", "gvariant-macro/src/generate_impl.rs: write_packed_struct (lines 507-512)"]}
{"id": "C99", "title": "Structures of one member look like their member", "statement": "A type in which structures of one member occur, to any depth, has the same alignment, size and normal forms as the type with each of them replaced by its member, and gv! accepts the one exactly if it accepts the other. Values of the two types correspond one to one, corresponding values are serialized to the same bytes, and the same bytes, in normal form or not, read as corresponding values; except that reading an array of fixed-size items of impossible size inside an array or maybe, which panics, gives an empty array if there is a structure of one member around it.", "quantifier": "Every type that gv! expands for, every value with an encoding below 2^63 bytes, all data below 4 GiB or with framing offsets below 2^63, at every aligned address, all build modes.", "why_tests_cant": "The types form an infinite family, and the layout of structures is worked out by code that treats the last member, padding and framing offsets specially; that for one member all of it cancels out, at any depth and for malformed data too, needs an induction over types.", "anchors": ["gvariant-macro/src/generate_impl.rs: write_non_fixed_size_structure (lines 54-255)", "gvariant-macro/src/generate_impl.rs: align_of, size_of, generate_table (lines 271-395)", "gvariant-macro/src/generate_impl.rs: write_packed_struct (lines 397-527)", "gvariant/src/lib.rs: nth_last_frame_offset, calc_offsets, get_child_elem (lines 2053-2129)", "gvariant/src/lib.rs: write_offsets (lines 1644-1671)"]}
