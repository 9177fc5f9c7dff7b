{
 "claims": [
  {
   "property": "C01",
   "status": "proved",
   "theorems": [
    "GV.Props.c01_parse_show",
    "GV.Props.c01_show_injective"
   ],
   "note": ""
  },
  {
   "property": "C02",
   "status": "proved",
   "theorems": [
    "GV.Props.c02_accepts_iff_derives",
    "GV.Props.c02_rejects_iff",
    "GV.Props.c02_unique",
    "GV.Props.c02_trailing"
   ],
   "note": ""
  },
  {
   "property": "C03",
   "status": "proved",
   "theorems": [
    "GV.Props.c03_align_eq_spec",
    "GV.Props.c03_align_range",
    "GV.Props.c03_component_aligned",
    "GV.Props.c03_align_attained"
   ],
   "note": ""
  },
  {
   "property": "C04",
   "status": "proved",
   "theorems": [
    "GV.Props.c04_size_eq_spec",
    "GV.Props.c04_size_pos_dvd",
    "GV.Props.c04_dict_as_tuple",
    "GV.Props.c04_size_isSome_iff"
   ],
   "note": ""
  },
  {
   "property": "C05",
   "status": "proved",
   "theorems": [
    "GV.Props.c05_name_injective",
    "GV.Props.c05_prefix",
    "GV.Props.c05_identifier",
    "GV.Props.c05_mentioned_is_defined",
    "GV.Props.c05_defined_is_component"
   ],
   "note": ""
  },
  {
   "property": "C06",
   "status": "partial",
   "theorems": [
    "GV.Props.c06_full_false",
    "GV.Props.c06_defined_once_iff_partial"
   ],
   "note": "False of the code when a structure type occurs twice; c06_full_false is the witness ((si)(si)), the partial theorem gives the exact condition."
  },
  {
   "property": "C07",
   "status": "partial",
   "theorems": [
    "GV.Props.c07_full_false",
    "GV.Props.c07_layout_partial",
    "GV.Props.c07_expands_iff",
    "GV.Props.c07_expansion_fault"
   ],
   "note": "False of the code: gv! panics for e.g. (yii). Proved: layout whenever it expands, and exactly which types expand."
  },
  {
   "property": "C08",
   "status": "partial",
   "theorems": [
    "GV.Props.c08_full_false",
    "GV.Props.c08_defaults_typecheck_partial"
   ],
   "note": "False of the code for b, d and nested fixed-size structures; exact condition proved."
  },
  {
   "property": "C09",
   "status": "proved",
   "theorems": [
    "GV.Props.c09_table_starts",
    "GV.Props.c09_table_aligned"
   ],
   "note": ""
  },
  {
   "property": "C10",
   "status": "partial",
   "theorems": [
    "GV.Props.c10_full_false",
    "GV.Props.c10_align_offset_partial",
    "GV.Props.c10_offsets_aligned",
    "GV.Props.c10_try_new_iff"
   ],
   "note": "Full statement is false (witness: align_offset::<A8>(2^64-8) with overflow checks); exact behaviour proved for all inputs; closure of AlignedOffset expressions proved without exceptions."
  },
  {
   "property": "C11",
   "status": "proved",
   "theorems": [
    "GV.Props.c11_width"
   ],
   "note": ""
  },
  {
   "property": "C12",
   "status": "partial",
   "theorems": [
    "GV.Props.c12_index",
    "GV.Props.c12_nth_last",
    "GV.Props.c12_full_false",
    "GV.Props.c12_array_partial",
    "GV.Props.c12_struct"
   ],
   "note": "Each offset written is read back at its index, from the front and from the end, for all bodies and offsets, and in structures. At the level of whole arrays it fails: a last element that needs padding makes the reader find other offsets (c12_full_false, a(si)); c12_array_partial says exactly when it works."
  },
  {
   "property": "C13",
   "status": "proved",
   "theorems": [
    "GV.Props.c13_step_exact",
    "GV.Props.c13_program_aligned",
    "GV.Props.c13_program_window",
    "GV.Props.c13_no_assertion",
    "GV.Props.c13_to_owned"
   ],
   "note": "Steps and programs of slicing; copying via c13_to_owned."
  },
  {
   "property": "C14",
   "status": "partial",
   "theorems": [
    "GV.Props.c14_full_false",
    "GV.Props.c14_try_as_aligned_partial"
   ],
   "note": "Full statement is false: try_as_aligned never fails, since the marker structs all have alignment 1."
  },
  {
   "property": "C15",
   "status": "partial",
   "theorems": [
    "GV.Props.c15_full_false",
    "GV.Props.c15_copy_to_align_partial"
   ],
   "note": "Full statement is false for empty misaligned data (dangling address 1); everything else proved."
  },
  {
   "property": "C16",
   "status": "proved",
   "theorems": [
    "GV.Props.c16_empty_aligned"
   ],
   "note": ""
  },
  {
   "property": "C17",
   "status": "proved",
   "theorems": [
    "GV.Props.c17_round_trip"
   ],
   "note": ""
  },
  {
   "property": "C18",
   "status": "proved",
   "theorems": [
    "GV.Props.c18_history",
    "GV.Props.c18_new"
   ],
   "note": ""
  },
  {
   "property": "C19",
   "status": "partial",
   "theorems": [
    "GV.Props.c19_full_false",
    "GV.Props.c19_cast_partial",
    "GV.Props.c19_empty_fault"
   ],
   "note": "Fails for empty buffers: AlignedBuf::new() sits at address 1, so casting it to ai fails a debug assertion or is undefined behaviour (c19_full_false, c19_empty_fault gives all such cases). Proved for all non-empty buffers and, for empty ones, for all types that need no array of fixed-size items at that address."
  },
  {
   "property": "C20",
   "status": "proved",
   "theorems": [
    "GV.Props.c20_utf8_iff",
    "GV.Props.c20_to_str_text",
    "GV.Props.c20_to_str_normal",
    "GV.Props.c20_to_str_otherwise",
    "GV.Props.c20_as_bytes_iff"
   ],
   "note": ""
  },
  {
   "property": "C21",
   "status": "proved",
   "theorems": [
    "GV.Props.c21_eq_iff",
    "GV.Props.c21_equivalence",
    "GV.Props.c21_eq_str"
   ],
   "note": ""
  },
  {
   "property": "C22",
   "status": "proved",
   "theorems": [
    "GV.Props.c22_history",
    "GV.Props.c22_push_refused",
    "GV.Props.c22_start_refused"
   ],
   "note": "reserve requests that take more than isize::MAX bytes in total panic as String's do and are excluded; c25_reserve_partial says exactly when."
  },
  {
   "property": "C23",
   "status": "proved",
   "theorems": [
    "GV.Props.c23_compare",
    "GV.Props.c23_cmp_lawful",
    "GV.Props.c23_code_points",
    "GV.Props.c23_cmp_trans"
   ],
   "note": ""
  },
  {
   "property": "C24",
   "status": "proved",
   "theorems": [
    "GV.Props.c24_conversions",
    "GV.Props.c24_string_round_trip"
   ],
   "note": ""
  },
  {
   "property": "C25",
   "status": "partial",
   "theorems": [
    "GV.Props.c25_full_false",
    "GV.Props.c25_reserve_partial",
    "GV.Props.c25_with_capacity_ignored",
    "GV.Props.c25_room_used",
    "GV.Props.c25_room_kept"
   ],
   "note": "Full statement is false: with_capacity discards the reserved string; reserve proved, with the exact condition for its capacity-overflow panic."
  },
  {
   "property": "C26",
   "status": "partial",
   "theorems": [
    "GV.Props.c26_full_false",
    "GV.Props.c26_nothing_written",
    "GV.Props.c26_error",
    "GV.Props.c26_only_nul",
    "GV.Props.c26_vec_panics",
    "GV.Props.c26_reads_back",
    "GV.Props.c26_str_reads_back",
    "GV.Props.c26_containers_partial"
   ],
   "note": "Full statement is false: serialize_to_vec panics for a &str containing NUL. Exact behaviour proved."
  },
  {
   "property": "C27",
   "status": "proved",
   "theorems": [
    "GV.Props.c27_split"
   ],
   "note": ""
  },
  {
   "property": "C28",
   "status": "proved",
   "theorems": [
    "GV.Props.c28_wrap",
    "GV.Props.c28_nested"
   ],
   "note": ""
  },
  {
   "property": "C29",
   "status": "proved",
   "theorems": [
    "GV.Props.c29_equivalence",
    "GV.Props.c29_meaning",
    "GV.Props.c29_reserialize"
   ],
   "note": ""
  },
  {
   "property": "C30",
   "status": "proved",
   "theorems": [
    "GV.Props.c30_iterate",
    "GV.Props.c30_collect",
    "GV.Props.c30_ends"
   ],
   "note": ""
  },
  {
   "property": "C31",
   "status": "partial",
   "theorems": [
    "GV.Props.c31_full_false",
    "GV.Props.c31_past_end_partial",
    "GV.Props.c31_wrap_partial",
    "GV.Props.c31_below_partial",
    "GV.Props.c31_ragged_panics"
   ],
   "note": "Full statement is false: without overflow checks a huge index wraps round (witness 2^63+1), and elements that are ragged fixed-size arrays panic below len(). Exact conditions proved, for indices past the end too: with overflow checks a panic, without them the index counts modulo 2^64 / offset width."
  },
  {
   "property": "C32",
   "status": "partial",
   "theorems": [
    "GV.Props.c32_in_body",
    "GV.Props.c32_rule_partial",
    "GV.Props.c32_full_false"
   ],
   "note": "Full statement is false in builds without overflow checks for arrays of 4 GiB and more with framing offsets near 2^64 (align_offset wraps; witness of type aax). Proved with overflow checks, below 4 GiB, or when all framing offsets are below 2^63; always within the body. What the elements are in the remaining case is c66_element."
  },
  {
   "property": "C33",
   "status": "partial",
   "theorems": [
    "GV.Props.c33_full_false",
    "GV.Props.c33_faults_partial",
    "GV.Props.c33_total_partial",
    "GV.Props.c33_exact_partial"
   ],
   "note": "Full statement is false: ragged nested fixed-size arrays (aai, mai) make reading panic, and builds with overflow checks can panic for data of 4 GiB and more with framing offsets of 2^63 or more. All other panics are excluded for every type and all data; exact condition for all data without such offsets. The remaining case is C66."
  },
  {
   "property": "C34",
   "status": "proved",
   "theorems": [
    "GV.Props.c34_refs",
    "GV.Props.c34_no_ub"
   ],
   "note": ""
  },
  {
   "property": "C35",
   "status": "partial",
   "theorems": [
    "GV.Props.c35_letter_false",
    "GV.Props.c35_rules_partial",
    "GV.Props.c35_unframed_partial",
    "GV.Props.c35_full_false",
    "GV.Props.c35_documented_partial",
    "GV.Props.c35_plain_partial"
   ],
   "note": "Full statement is false: without overflow checks, data of more than 4 GiB with a framing offset near 2^64 reads as something else (c35_full_false). Proved against a decoder written from the documentation of the crate (c35_documented_partial) for builds with overflow checks, and for others below 4 GiB or with all framing offsets below 2^63; the value in the remaining case is c66_release. Under the same conditions c35_plain_partial gives the value of the letter of the specification for all data free of the documented abnormalities, and c35_unframed_partial for types without framing offsets. c35_letter_false: the letter alone fails on the example that the specification itself gives."
  },
  {
   "property": "C36",
   "status": "proved",
   "theorems": [
    "GV.Props.c36_fixed",
    "GV.Props.c36_fixed_exact",
    "GV.Props.c36_maybe",
    "GV.Props.c36_array"
   ],
   "note": ""
  },
  {
   "property": "C37",
   "status": "partial",
   "theorems": [
    "GV.Props.c37_full_false",
    "GV.Props.c37_agree_partial",
    "GV.Props.c37_address"
   ],
   "note": "Fails for no bytes at a misaligned address and types with an array of items of alignment above 1 (c37_full_false). Proved for all other bytes and types, including equality of faults; vecs of at most 2^62 bytes."
  },
  {
   "property": "C38",
   "status": "partial",
   "theorems": [
    "GV.Props.c38_full_false",
    "GV.Props.c38_overflow_partial",
    "GV.Props.c38_positions_partial"
   ],
   "note": "Fails for containers of at least 4 GiB with huge framing offsets (c38_full_false). Proved for any data: the checked build panics with overflow or gives the same result; equality below 4 GiB or when all framing offsets are below 2^63. c38_positions_partial: equal if all positions are more than 8 below 2^64, different if one is 2^64 or more."
  },
  {
   "property": "C39",
   "status": "proved",
   "theorems": [
    "GV.Props.c39_count",
    "GV.Props.c39_outcome"
   ],
   "note": "Encodings of less than 2^63 bytes; also shows that serialize never panics."
  },
  {
   "property": "C40",
   "status": "partial",
   "theorems": [
    "GV.Props.c40_full_false",
    "GV.Props.c40_round_trip_partial",
    "GV.Props.c40_types_partial",
    "GV.Props.c40_exact_types_partial"
   ],
   "note": "False of the code: arrays whose last element is padded, e.g. a(si) (c40_full_false). Proved with the exact condition on values, and c40_exact_types_partial says exactly which types have only values that survive; encodings of any size below 2^63."
  },
  {
   "property": "C41",
   "status": "partial",
   "theorems": [
    "GV.Props.c41_full_false",
    "GV.Props.c41_normal_partial",
    "GV.Props.c41_deep_partial"
   ],
   "note": "False of the code: the last element of an array is padded (c41_full_false). Proved: what is written is the specified encoding with just that change, and exactly when it is the normal form."
  },
  {
   "property": "C42",
   "status": "proved",
   "theorems": [
    "GV.Props.c42_prefix",
    "GV.Props.c42_complete"
   ],
   "note": "The log records every write_all call with its result; the theorem covers all writers."
  },
  {
   "property": "C43",
   "status": "partial",
   "theorems": [
    "GV.Props.c43_full_false",
    "GV.Props.c43_depends_on_value",
    "GV.Props.c43_stable_partial",
    "GV.Props.c43_again_partial"
   ],
   "note": "Full statement is false: re-serializing an array whose elements end unaligned grows. Stability proved where the read value is written tidily; c43_again_partial covers a second round."
  },
  {
   "property": "C44",
   "status": "proved",
   "theorems": [
    "GV.Props.c44_injective",
    "GV.Props.c44_wrap"
   ],
   "note": "Holds in full, also for arrays that do not read back. Values of fewer than 2^63 encoded bytes."
  },
  {
   "property": "C45",
   "status": "proved",
   "theorems": [
    "GV.Props.c45_read",
    "GV.Props.c45_written",
    "GV.Props.c45_containers",
    "GV.Props.c45_equal"
   ],
   "note": "Reading, writing, containers and equality of booleans."
  },
  {
   "property": "C46",
   "status": "proved",
   "theorems": [
    "GV.Props.c46_value",
    "GV.Props.c46_reserialized",
    "GV.Props.c46_equal",
    "GV.Props.c46_equal_padding"
   ],
   "note": "Padding bytes never influence values, re-serialized bytes or equality (fixed-size types and structs)."
  },
  {
   "property": "C47",
   "status": "partial",
   "theorems": [
    "GV.Props.c47_full_false",
    "GV.Props.c47_in_body",
    "GV.Props.c47_exact_partial",
    "GV.Props.c47_checked_partial",
    "GV.Props.c47_no_room"
   ],
   "note": "Containment in the body is proved for every size (c47_in_body). Equality with the range the specification assigns fails in release builds for structures of at least 4 GiB with huge framing offsets (c47_full_false); proved otherwise, and in builds with overflow checks up to an overflow panic (c47_checked_partial). The members in the remaining case are c66_members."
  },
  {
   "property": "C48",
   "status": "partial",
   "theorems": [
    "GV.Props.c48_full_false",
    "GV.Props.c48_todo",
    "GV.Props.c48_mut_partial"
   ],
   "note": "try_cast_mut of arrays of fixed-size items is todo!() (c48_full_false, c48_todo); proved for all other types."
  },
  {
   "property": "C49",
   "status": "proved",
   "theorems": [
    "GV.Props.c49_order",
    "GV.Props.c49_equal",
    "GV.Props.c49_hash",
    "GV.Props.c49_option"
   ],
   "note": "Order, equality and hash of maybes of numbers are those of options; equality with Option for any type."
  },
  {
   "property": "C50",
   "status": "proved",
   "theorems": [
    "GV.Props.c50_equal",
    "GV.Props.c50_equivalence",
    "GV.Props.c50_doubles",
    "GV.Props.c50_array_refs",
    "GV.Props.c50_true",
    "GV.Props.c50_same_value",
    "GV.Props.c50_chain",
    "GV.Props.c50_normal"
   ],
   "note": "== is true exactly if both byte strings can be read and the values are the same (c50_true, any bytes); doubles compare as IEEE 754 numbers. Without doubles it is equality of the values read (c50_equal, c50_same_value), on data in normal form equality of bytes (c50_normal). Reflexivity is only for readable data: comparing unreadable data with itself panics (example)."
  },
  {
   "property": "C51",
   "status": "partial",
   "theorems": [
    "GV.Props.c51_compiles_iff_partial",
    "GV.Props.c51_full_false"
   ],
   "note": "False of the code; exact condition for compiling proved."
  },
  {
   "property": "C52",
   "status": "partial",
   "theorems": [
    "GV.Props.c52_full_false",
    "GV.Props.c52_first_partial"
   ],
   "note": "Full statement is false: only the first item is written. Proved that exactly the first item counts."
  },
  {
   "property": "C53",
   "status": "proved",
   "theorems": [
    "GV.Props.c53_documented",
    "GV.Props.c53_well_formed",
    "GV.Props.c53_align",
    "GV.Props.c53_sized",
    "GV.Props.c53_layout",
    "GV.Props.c53_no_padding",
    "GV.Props.c53_same_type_iff",
    "GV.Props.c53_unsized"
   ],
   "note": "The expansion is the one of C05 to C07; types for which gv! panics have no expansion."
  },
  {
   "property": "C54",
   "status": "proved",
   "theorems": [
    "GV.Props.c54_read",
    "GV.Props.c54_agree",
    "GV.Props.c54_recognise",
    "GV.Props.c54_variant"
   ],
   "note": "Normal form is the image of the independent encoder Spec.enc."
  },
  {
   "property": "C55",
   "status": "partial",
   "theorems": [
    "GV.Props.c55_exact_partial",
    "GV.Props.c55_other_types_partial",
    "GV.Props.c55_meaning",
    "GV.Props.c55_self",
    "GV.Props.c55_full_false"
   ],
   "note": "Full statement is false: ai without elements re-serializes to an empty vec whose dangling address is not aligned. Proved exactly which data passes, and that all other types pass on all data. GLib is an oracle for normal forms; comparisons with GLib values are not modelled."
  },
  {
   "property": "C56",
   "status": "proved",
   "theorems": [
    "GV.Props.c56_bound",
    "GV.Props.c56_overlap",
    "GV.Props.c56_attained"
   ],
   "note": "Upper bound for all types; lower bound with the same exponent for arrays nested any number deep."
  },
  {
   "property": "C57",
   "status": "proved",
   "theorems": [
    "GV.Props.c57_value",
    "GV.Props.c57_faults",
    "GV.Props.c57_same",
    "GV.Props.c57_tell_apart",
    "GV.Props.c57_owned"
   ],
   "note": "The texts core prints for numbers and strings are parameters with the laws of Spec.Lawful; toyFmt shows the laws can be met. Plain {:?} only, not {:#?}."
  },
  {
   "property": "C58",
   "status": "partial",
   "theorems": [
    "GV.Props.c58_full_false",
    "GV.Props.c58_owned_partial",
    "GV.Props.c58_strings"
   ],
   "note": "Full statement is false: Display for Owned forwards to Debug, so strings appear in quotes. Proved what Display of an Owned shows for every type, and that borrowed and GString displays agree."
  },
  {
   "property": "C59",
   "status": "proved",
   "theorems": [
    "GV.Props.c59_new",
    "GV.Props.c59_read",
    "GV.Props.c59_to_tuple",
    "GV.Props.c59_value",
    "GV.Props.c59_default"
   ],
   "note": "c59_new: the memory of new() is the specified layout of the arguments with zero padding and no uninitialized byte; c59_to_tuple; c59_value: it reads as the structure of the values of the arguments; c59_default: Default is all zeros and equals default_ref. Arguments are given by the bytes of their memory."
  },
  {
   "property": "C60",
   "status": "proved",
   "theorems": [
    "GV.Props.c60_assign",
    "GV.Props.c60_wrong_size"
   ],
   "note": "c60_assign: any path to a member; byte-exact frame condition and the value read afterwards; c60_wrong_size: data of another size is rejected."
  },
  {
   "property": "C61",
   "status": "proved",
   "theorems": [
    "GV.Props.c61_poke"
   ],
   "note": "c61_poke: from the vec through buffer, slicing program and cast to the store; the bytes of buffer and vec afterwards, the value read back and the frame condition."
  },
  {
   "property": "C62",
   "status": "proved",
   "theorems": [
    "GV.Props.c62_any",
    "GV.Props.c62_tree",
    "GV.Props.c62_tell_apart"
   ],
   "note": "c62_any: arbitrary file contents, in terms of the decoder of the specification; c62_tree: files in normal form; c62_tell_apart: different trees print differently. Output before a panic and I/O errors are not represented."
  },
  {
   "property": "C63",
   "status": "proved",
   "theorems": [
    "GV.Props.c63_read",
    "GV.Props.c63_write",
    "GV.Props.c63_foreign"
   ],
   "note": "c63_read: all data, including which panics; c63_write; c63_foreign: written on one machine, read on the other."
  },
  {
   "property": "C64",
   "status": "proved",
   "theorems": [
    "GV.Props.c64_read",
    "GV.Props.c64_write"
   ],
   "note": "Unconditional equality of the model's reading and writing for types with the same canonical representative."
  },
  {
   "property": "C65",
   "status": "proved",
   "theorems": [
    "GV.Props.c65_element",
    "GV.Props.c65_member"
   ],
   "note": "Indexing and structure members; c65_member assumes both structures are read without an overflow panic in some other member."
  },
  {
   "property": "C66",
   "status": "proved",
   "theorems": [
    "GV.Props.c66_release",
    "GV.Props.c66_checked",
    "GV.Props.c66_tame",
    "GV.Props.c66_element",
    "GV.Props.c66_members"
   ],
   "note": "Release builds exact for all data below 2^63 bytes; checked builds exact except for positions in the last 8 below 2^64, where the order of the additions decides."
  },
  {
   "property": "C67",
   "status": "proved",
   "theorems": [
    "GV.Props.c67_read_back",
    "GV.Props.c67_same",
    "GV.Props.c67_lost",
    "GV.Props.c67_rounds"
   ],
   "note": "All values; the rule Spec.back is stated separately. Serialized size below 2^63."
  },
  {
   "property": "C68",
   "status": "proved",
   "theorems": [
    "GV.Props.c68_theirs",
    "GV.Props.c68_ours",
    "GV.Props.c68_types"
   ],
   "note": "The conforming implementation is the independent encoder and decoder of Spec; contents of variants are taken as they are."
  },
  {
   "property": "C69",
   "status": "proved",
   "theorems": [
    "GV.Props.c69_write",
    "GV.Props.c69_takes",
    "GV.Props.c69_slice",
    "GV.Props.c69_read",
    "GV.Props.c69_pipe"
   ],
   "note": "write_all and read_to_end of the standard library are modelled as loops over single calls; devices interrupted forever are excluded, as those calls do not return. Reading nothing at all is subject to the condition of C37."
  },
  {
   "property": "C70",
   "status": "proved",
   "theorems": [
    "GV.Props.c70_settles",
    "GV.Props.c70_lost"
   ],
   "note": "Assumes that the encodings of the intermediate values stay below 2^63 bytes."
  },
  {
   "property": "C71",
   "status": "partial",
   "theorems": [
    "GV.Props.c71_full_false",
    "GV.Props.c71_offset_partial",
    "GV.Props.c71_slices",
    "GV.Props.c71_lower",
    "GV.Props.c71_numbers",
    "GV.Props.c71_table"
   ],
   "note": "Two AlignedOffsets cannot be compared with each other: derive(PartialEq) asks for A: PartialEq, which no marker type has (c71_full_false). Everything else is proved."
  },
  {
   "property": "C72",
   "status": "proved",
   "theorems": [
    "GV.Props.c72_part",
    "GV.Props.c72_only",
    "GV.Props.c72_panic"
   ],
   "note": "Exceptions stated in c72_only: huge indices without overflow checks (C31), and variants on the way whose data cannot be read as a whole."
  },
  {
   "property": "C73",
   "status": "partial",
   "theorems": [
    "GV.Props.c73_full_false",
    "GV.Props.c73_alone",
    "GV.Props.c73_bytes",
    "GV.Props.c73_owned_partial"
   ],
   "note": "False for empty parts whose type asks for an array of aligned items (c73_full_false: to_owned of an empty (ais) element, same cause as C37). c73_owned_partial excludes exactly those; c73_alone and c73_bytes hold without exception."
  },
  {
   "property": "C74",
   "status": "proved",
   "theorems": [
    "GV.Props.c74_bound",
    "GV.Props.c74_attained",
    "GV.Props.c74_normal"
   ],
   "note": "Bound for all types, data and build modes; matching exponent by nested overlapping arrays; linear for normal forms."
  },
  {
   "property": "C75",
   "status": "proved",
   "theorems": [
    "GV.Props.c75_part",
    "GV.Props.c75_variants",
    "GV.Props.c75_normal",
    "GV.Props.c75_apart",
    "GV.Props.c75_written"
   ],
   "note": "c75_part and c75_apart go into variants as far as these hold normal form, by any rd with ReadsNormal; c75_variants: reading provides one. c75_normal is for paths that do not go into variants. c75_written needs even ends (else what is written is not the normal form, C41) and does not go into variants, whose data is serialized with the padding of the crate."
  },
  {
   "property": "C76",
   "status": "proved",
   "theorems": [
    "GV.Props.c76_overwrite",
    "GV.Props.c76_normal",
    "GV.Props.c76_inside",
    "GV.Props.c76_poke"
   ],
   "note": "view on data overwritten in one part, by induction over the path; overwritten bytes arbitrary. c76_normal is about the encoding rules alone and ties overwriting to serializing anew; c76_poke runs through AlignedBuf, IndexMut and try_cast_mut."
  },
  {
   "property": "C77",
   "status": "proved",
   "theorems": [
    "GV.Props.c77_recognise",
    "GV.Props.c77_order",
    "GV.Props.c77_read",
    "GV.Props.c77_written",
    "GV.Props.c77_disguised"
   ],
   "note": "clean looks at bytes only: no value, no encoder. c77_recognise is an equivalence; c77_disguised is a concrete value of type aa(is) that the crate writes as the normal form of another one."
  },
  {
   "property": "C78",
   "status": "proved",
   "theorems": [
    "GV.Props.c78_part",
    "GV.Props.c78_only",
    "GV.Props.c78_read",
    "GV.Props.c78_recognise",
    "GV.Props.c78_unique",
    "GV.Props.c78_written"
   ],
   "note": "Tree replaces the bytes in a variant by a type and a value. c78_only excludes everything a path could find besides the parts (indices above 2^61-1 only with overflow checks, see C31). c78_written needs sources without &Variant and without padded last items, see C41."
  },
  {
   "property": "C79",
   "status": "proved",
   "theorems": [
    "GV.Props.c79_accepts",
    "GV.Props.c79_agrees",
    "GV.Props.c79_empty",
    "GV.Props.c79_more",
    "GV.Props.c79_end",
    "GV.Props.c79_unfinished",
    "GV.Props.c79_brace",
    "GV.Props.c79_unexpected",
    "GV.Props.c79_settled",
    "GV.Props.c79_texts"
   ],
   "note": "Completable, complete and open are said with the grammar alone (Spec/Prefix). c79_agrees ties the parser with messages to the one used everywhere else."
  },
  {
   "property": "C80",
   "status": "proved",
   "theorems": [
    "GV.Props.c80_same",
    "GV.Props.c80_array",
    "GV.Props.c80_struct",
    "GV.Props.c80_value",
    "GV.Props.c80_reads_back",
    "GV.Props.c80_any",
    "GV.Props.c80_any_struct"
   ],
   "note": "The contract (Spec/Part) is stated with write_all calls alone. c80_same shows that the model of C26-C70 is an instance. A part returning its own io error or panicking is covered by c80_any."
  },
  {
   "property": "C81",
   "status": "proved",
   "theorems": [
    "GV.Props.c81_parses",
    "GV.Props.c81_structs",
    "GV.Props.c81_items",
    "GV.Props.c81_marker"
   ],
   "note": "The reader of Rust (Spec/RustText) knows words, punctuation, literals, comments, brackets, items; it is not a full Rust parser, so well formed means tokens, brackets and items, not every expression. What the expressions that matter say is C82 and C83."
  },
  {
   "property": "C82",
   "status": "proved",
   "theorems": [
    "GV.Props.c82_struct",
    "GV.Props.c82_casts",
    "GV.Props.c82_impls",
    "GV.Props.c82_to_tuple",
    "GV.Props.c82_serialize",
    "GV.Props.c82_rest"
   ],
   "note": "This connects the macro's output text with the model used by C12, C32-C50 and C67; name resolution and type checking by rustc are not modelled beyond C08 and C51."
  },
  {
   "property": "C83",
   "status": "proved",
   "theorems": [
    "GV.Props.c83_struct",
    "GV.Props.c83_casts",
    "GV.Props.c83_impls",
    "GV.Props.c83_members",
    "GV.Props.c83_serialize"
   ],
   "note": "With C59 and C07 (layout of these fields) and C08 (whether the zeros type-check)."
  },
  {
   "property": "C84",
   "status": "proved",
   "theorems": [
    "GV.Props.c84_client",
    "GV.Props.c84_same",
    "GV.Props.c84_panics",
    "GV.Props.c84_determined",
    "GV.Props.c84_deep"
   ],
   "note": "A representation-independence theorem: simulation between what is held as slices and iterators and what is held as values, preserved by each call, then induction on the number of calls."
  },
  {
   "property": "C85",
   "status": "partial",
   "theorems": [
    "GV.Props.c85_names_partial",
    "GV.Props.c85_needs",
    "GV.Props.c85_full_false",
    "GV.Props.c85_renamed_false",
    "GV.Props.c85_marker"
   ],
   "note": "False in full: the text of every structure names std and ::gvariant, so it does not resolve without std (which the documentation of the feature `std` offers) nor when the dependency is renamed; c85_needs says exactly when it resolves. With std and the crate's own name it is proved for all types."
  },
  {
   "property": "C86",
   "status": "partial",
   "theorems": [
    "GV.Props.c86_sound_partial",
    "GV.Props.c86_stable",
    "GV.Props.c86_full_false",
    "GV.Props.c86_empty",
    "GV.Props.c86_unaligned",
    "GV.Props.c86_copy"
   ],
   "note": "False in full: an empty AlignedBuf is at address 1, so casting it to an array of any fixed-size type with alignment above 1 is undefined behaviour (c86_empty, all such types); so is casting bytes that try_as_aligned should have refused (c86_unaligned, all such types and addresses), and using a copy of an empty value (c86_copy). For programs that avoid these three it is proved (c86_sound_partial)."
  },
  {
   "property": "C87",
   "status": "proved",
   "theorems": [
    "GV.Props.c87_program",
    "GV.Props.c87_anywhere"
   ],
   "note": "A simulation between the program in memory and the program on bytes and values. Steps that bytes and values do not determine (casts of empty buffers and of unaligned bytes, see C86; data that cannot be read as a whole; buffers over 2^62 bytes) end the comparison and are listed at Spec.deed and Spec.call."
  },
  {
   "property": "C88",
   "status": "proved",
   "theorems": [
    "GV.Props.c88_value",
    "GV.Props.c88_faults",
    "GV.Props.c88_owned",
    "GV.Props.c88_tell_apart",
    "GV.Props.c88_no_flags",
    "GV.Props.c88_flags_stop"
   ],
   "note": "The indentation of the standard library (PadAdapter) is modelled as it works, on the text printed so far; the specification has a nesting depth instead. Numbers, strings and booleans with flags are parameters with laws."
  },
  {
   "property": "C89",
   "status": "proved",
   "theorems": [
    "GV.Props.c89_able",
    "GV.Props.c89_sized",
    "GV.Props.c89_structs",
    "GV.Props.c89_eq",
    "GV.Props.c89_bounds",
    "GV.Props.c89_compiles"
   ],
   "note": "Spec/Traits.lean lists the implementations for the types of the crate, core and alloc, one constructor each with the lines; for structures they are read off the text. This derives the conditions of C51 that the model had by inspection (typechecks) from the text itself."
  },
  {
   "property": "C90",
   "status": "proved",
   "theorems": [
    "GV.Props.c90_complete",
    "GV.Props.c90_once",
    "GV.Props.c90_derived",
    "GV.Props.c90_blanket",
    "GV.Props.c90_signatures",
    "GV.Props.c90_parameters"
   ],
   "note": "The items a trait requires and allows are a table in Spec/Coherence.lean written from the trait declarations. Overlap is decided for impls of the form `impl Trait for Name`; From and SerializeTo, whose heads carry tuples, are covered by completeness and by C82 and C83 only."
  },
  {
   "property": "C91",
   "status": "proved",
   "theorems": [
    "GV.Props.c91_calls",
    "GV.Props.c91_string",
    "GV.Props.c91_room",
    "GV.Props.c91_gstring_any",
    "GV.Props.c91_gstring",
    "GV.Props.c91_display"
   ],
   "note": "How the standard library cuts numbers and quoted strings into calls is arbitrary (CoreCalls); assumed for the GString theorems only: the calls pass UTF-8 without NUL. Without flags."
  },
  {
   "property": "C92",
   "status": "partial",
   "theorems": [
    "GV.Props.c92_bomb",
    "GV.Props.c92_full_false",
    "GV.Props.c92_normal_partial",
    "GV.Props.c92_ends",
    "GV.Props.c92_bound",
    "GV.Props.c92_depth"
   ],
   "note": "False: 27 n bytes can hold 2^n variants, since elements of arrays may overlap (c92_bomb, c92_full_false; GLib had the same, CVE-2023-32665). Proved instead: linear in normal form (c92_normal_partial), it ends (c92_ends), at most 2^len (c92_bound), depth at most len/2+1 (c92_depth)."
  },
  {
   "property": "C93",
   "status": "proved",
   "theorems": [
    "GV.Props.c93_serialized",
    "GV.Props.c93_decides",
    "GV.Props.c93_overhead",
    "GV.Props.c93_normal"
   ],
   "note": "Proved (c93_serialized, c93_decides, c93_normal); c93_overhead gives values where the overhead grows with the number of values. Also turns the condition `Bounded` of other claims, which speaks of the length of the result, into one on the value alone (bounded_bulk)."
  },
  {
   "property": "C94",
   "status": "proved",
   "theorems": [
    "GV.Props.c94_edit",
    "GV.Props.c94_history",
    "GV.Props.c94_clear"
   ],
   "note": "Proved (c94_edit, c94_history, c94_clear). Unwinding happens with capacity overflow, and with refusals where the allocation error hook panics."
  },
  {
   "property": "C95",
   "status": "partial",
   "theorems": [
    "GV.Props.c95_full_false",
    "GV.Props.c95_call_partial",
    "GV.Props.c95_plain_partial",
    "GV.Props.c95_safe"
   ],
   "note": "False: if the vec lies badly, has no spare room and more is refused, the guard's drop panics and leaves it without padding; then up to seven bytes are hidden (c95_full_false and examples). Proved instead: right in all other cases, and what happens in this one (c95_call_partial); equal to a plain vec with aligned blocks (c95_plain_partial); looking is safe in any state (c95_safe)."
  },
  {
   "property": "C96",
   "status": "proved",
   "theorems": [
    "GV.Props.c96_join",
    "GV.Props.c96_read",
    "GV.Props.c96_split",
    "GV.Props.c96_torn",
    "GV.Props.c96_stream",
    "GV.Props.c96_variable"
   ],
   "note": "Proved (c96_join, c96_read, c96_split, c96_torn, c96_stream; c96_variable is a counterexample for strings). Total length below 2^63."
  },
  {
   "property": "C97",
   "status": "proved",
   "theorems": [
    "GV.Props.c97_fixed",
    "GV.Props.c97_variable"
   ],
   "note": "Proved (c97_fixed, c97_variable). Positions are those of the specification (startsFrom)."
  },
  {
   "property": "C98",
   "status": "proved",
   "theorems": [
    "GV.Props.c98_bare",
    "GV.Props.c98_any",
    "GV.Props.c98_range",
    "GV.Props.c98_normal"
   ],
   "note": "Proved in full. c98_bare: from plain Rust values; c98_any: any value; c98_range: exactly the encodings; c98_normal: which normal forms."
  },
  {
   "property": "C99",
   "status": "proved",
   "theorems": [
    "GV.Props.c99_layout",
    "GV.Props.c99_values",
    "GV.Props.c99_write",
    "GV.Props.c99_normal",
    "GV.Props.c99_read",
    "GV.Props.c99_differ"
   ],
   "note": "Proved in full. c99_layout, c99_values, c99_normal, c99_write, c99_read; c99_differ is the exception named in the statement."
  }
 ]
}