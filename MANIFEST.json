{
 "claims": [
  {
   "property": "C01",
   "status": "proved",
   "theorems": [
    "JBytes.C01_take_bytes_exact"
   ],
   "note": "Full statement, for every buffer state."
  },
  {
   "property": "C02",
   "status": "partial",
   "theorems": [
    "JBytes.C02_no_panic_partial",
    "JBytes.C02_panic_iff",
    "JBytes.C02_violated"
   ],
   "note": "Violated by the code past the end of the data (zero-length reads, empty needles) and for over-wide little-endian reads; C02_panic_iff characterises exactly when a read panics."
  },
  {
   "property": "C03",
   "status": "proved",
   "theorems": [
    "JBytes.C04_u24_value",
    "JBytes.C03_scalar_value",
    "JBytes.C03_bool_char"
   ],
   "note": ""
  },
  {
   "property": "C04",
   "status": "partial",
   "theorems": [
    "JBytes.C04_uint_value",
    "JBytes.C04_u24_value",
    "JBytes.C04_wide_be_partial",
    "JBytes.C04_wide_le_violated"
   ],
   "note": "Widths over 8: the big-endian read reports an error, the little-endian read panics (violation)."
  },
  {
   "property": "C05",
   "status": "proved",
   "theorems": [
    "JBytes.C05_untake_eq_take"
   ],
   "note": ""
  },
  {
   "property": "C06",
   "status": "proved",
   "theorems": [
    "JBytes.C06_scalar_roundtrip",
    "JBytes.C06_small_roundtrip",
    "JBytes.C06_wide_char_truncated"
   ],
   "note": ""
  },
  {
   "property": "C07",
   "status": "partial",
   "theorems": [
    "JBytes.C07_uint_roundtrip",
    "JBytes.C07_wide_refused",
    "JBytes.C07_int_roundtrip_partial",
    "JBytes.C07_int_iff",
    "JBytes.C07_int_violated"
   ],
   "note": "Unsigned values in full; signed values only if non-negative: take_int does not sign-extend (violation)."
  },
  {
   "property": "C08",
   "status": "proved",
   "theorems": [
    "JBytes.C08_write_reverse",
    "JBytes.C08_read_reverse"
   ],
   "note": ""
  },
  {
   "property": "C09",
   "status": "proved",
   "theorems": [
    "JBytes.C09_find_leftmost",
    "JBytes.C09_find_needle",
    "JBytes.C09_find_needle_none"
   ],
   "note": ""
  },
  {
   "property": "C10",
   "status": "proved",
   "theorems": [
    "JBytes.C10_finds_earliest",
    "JBytes.C10_line"
   ],
   "note": ""
  },
  {
   "property": "C11",
   "status": "proved",
   "theorems": [
    "JBytes.C11_data_unchanged",
    "JBytes.C11_failed_read_stays"
   ],
   "note": ""
  },
  {
   "property": "C12",
   "status": "proved",
   "theorems": [
    "JBytes.C12_push_window"
   ],
   "note": ""
  },
  {
   "property": "C13",
   "status": "partial",
   "theorems": [
    "JBytes.C13_no_panic_partial",
    "JBytes.C13_panic_iff",
    "JBytes.C13_violated"
   ],
   "note": "Violated: an empty push beyond the end of the data panics; C13_panic_iff is exact."
  },
  {
   "property": "C14",
   "status": "proved",
   "theorems": [
    "JBytes.C14_history"
   ],
   "note": ""
  },
  {
   "property": "C15",
   "status": "proved",
   "theorems": [
    "JBytes.C15_file_refinement",
    "JBytes.C15_refused_seek",
    "JBytes.C15_write_too_far"
   ],
   "note": ""
  },
  {
   "property": "C16",
   "status": "partial",
   "theorems": [
    "JBytes.C16_seek_partial",
    "JBytes.C16_iff",
    "JBytes.C16_violated"
   ],
   "note": "Violated: seek returns the position before the seek."
  },
  {
   "property": "C17",
   "status": "partial",
   "theorems": [
    "JBytes.C17_slice_sim_partial",
    "JBytes.C17_search_exact",
    "JBytes.C17_search_iff",
    "JBytes.C17_search_violated"
   ],
   "note": "All reads and peeks except the searches, which index the already advanced slice (violation); C17_search_exact and C17_search_iff say what they return instead and when that agrees."
  },
  {
   "property": "C18",
   "status": "partial",
   "theorems": [
    "JBytes.C18_byteorder_uint_eight",
    "JBytes.C18_cursor_eq_bytes_partial",
    "JBytes.C18_byteorder_uint_violated"
   ],
   "note": "All reads and peeks; take_byteorder_uint/int of BufReadMut take no width and read 8 bytes (violation)."
  },
  {
   "property": "C19",
   "status": "proved",
   "theorems": [
    "JBytes.C19_byteorder"
   ],
   "note": "Integers, floats, IP and MAC addresses; both directions."
  },
  {
   "property": "C20",
   "status": "proved",
   "theorems": [
    "JBytes.C20_length_roundtrip",
    "JBytes.C20_length_too_large"
   ],
   "note": ""
  },
  {
   "property": "C21",
   "status": "partial",
   "theorems": [
    "JBytes.C21_full_width_partial",
    "JBytes.C21_iff",
    "JBytes.C21_violated"
   ],
   "note": "Violated for negative values with a length below the type size."
  },
  {
   "property": "C22",
   "status": "proved",
   "theorems": [
    "JBytes.C22_bits_value"
   ],
   "note": ""
  },
  {
   "property": "C23",
   "status": "partial",
   "theorems": [
    "JBytes.C23_signed_bits_partial",
    "JBytes.C23_iff",
    "JBytes.C23_violated"
   ],
   "note": "Violated for masks containing the sign bit."
  },
  {
   "property": "C24",
   "status": "proved",
   "theorems": [
    "JBytes.C24_group_roundtrip"
   ],
   "note": "Any number of members; unsigned types up to 8 bytes."
  },
  {
   "property": "C25",
   "status": "partial",
   "theorems": [
    "JBytes.C25_word_exact",
    "JBytes.C25_neighbours_partial",
    "JBytes.C25_iff",
    "JBytes.C25_violated"
   ],
   "note": "Violated: encode does not mask the value. C25_word_exact gives the exact effect for every value."
  },
  {
   "property": "C26",
   "status": "proved",
   "theorems": [
    "JBytes.C26_framing_roundtrip"
   ],
   "note": "All combinations of modifiers; framing conditions as a separate specification (framingOf, Framing.Fits)."
  },
  {
   "property": "C27",
   "status": "partial",
   "theorems": [
    "JBytes.C27_prefix_truncates",
    "JBytes.C27_wide_refused_partial",
    "JBytes.C27_bytes_violated",
    "JBytes.C27_list_truncates",
    "JBytes.C27_list_violated",
    "JBytes.C27_map_violated"
   ],
   "note": "Violated: the length (byte strings) or count (lists, maps) is written modulo 256^k; C27_prefix_truncates and C27_list_truncates give the exact effect. Prefixes over 8 bytes are refused."
  },
  {
   "property": "C28",
   "status": "proved",
   "theorems": [
    "JBytes.C28_text_decode",
    "JBytes.C28_text_roundtrip"
   ],
   "note": "The UTF-8 acceptor is proved to accept exactly the encodings of lists of Unicode scalar values (Utf8.utf8Valid_iff)."
  },
  {
   "property": "C29",
   "status": "proved",
   "theorems": [
    "JBytes.C29_vec_roundtrip",
    "JBytes.C29_array_roundtrip",
    "JBytes.C29_tuple_roundtrip"
   ],
   "note": "Arbitrary element codecs and lists; CountFits is the separate condition on the length."
  },
  {
   "property": "C30",
   "status": "partial",
   "theorems": [
    "JBytes.C30_counts_agree_partial",
    "JBytes.C30_conflict",
    "JBytes.C30_violated"
   ],
   "note": "Violated when count/try_count is combined with byte_count_outside; C30_conflict gives the exact effect."
  },
  {
   "property": "C31",
   "status": "proved",
   "theorems": [
    "JBytes.C31_try_count",
    "JBytes.C31_runs_prefix"
   ],
   "note": "Element codecs that panic or loop are excluded (a panic is not turned into a shorter list)."
  },
  {
   "property": "C32",
   "status": "partial",
   "theorems": [
    "JBytes.C32_position_kept_partial",
    "JBytes.C32_position_of_failure",
    "JBytes.C32_violated",
    "JBytes.C32_try_violated"
   ],
   "note": "Violated for composite elements; holds for elements that leave the position alone when they fail."
  },
  {
   "property": "C33",
   "status": "proved",
   "theorems": [
    "JBytes.C33_loop_terminates",
    "JBytes.C33_loop_roundtrip"
   ],
   "note": ""
  },
  {
   "property": "C34",
   "status": "partial",
   "theorems": [
    "JBytes.C34_terminates_partial",
    "JBytes.C34_violated",
    "JBytes.C34_offset_violated"
   ],
   "note": "Violated by an empty loop_skip_starts with zero-size elements and by an offset that wraps backwards inside a list without a count; proved for every derivable type without offset and with non-empty loop prefixes."
  },
  {
   "property": "C35",
   "status": "proved",
   "theorems": [
    "JBytes.C35_list_bounded",
    "JBytes.C35_prefixed_bounded",
    "JBytes.C35_set_bounded",
    "JBytes.C35_map_bounded"
   ],
   "note": ""
  },
  {
   "property": "C36",
   "status": "proved",
   "theorems": [
    "JBytes.C36_lines",
    "JBytes.C36_map_inserts",
    "JBytes.C36_map_roundtrip",
    "JBytes.C36_set"
   ],
   "note": ""
  },
  {
   "property": "C37",
   "status": "proved",
   "theorems": [
    "JBytes.C37_fixed_addresses",
    "JBytes.C37_ip_addr",
    "JBytes.C37_ip_addr_length",
    "JBytes.C37_net_addr"
   ],
   "note": "NetAddress integers: widths 1,2,3,5,7,8 (4, 6 and 16 name the other variants)."
  },
  {
   "property": "C38",
   "status": "proved",
   "theorems": [
    "JBytes.C38_bits",
    "JBytes.C38_predicates"
   ],
   "note": ""
  },
  {
   "property": "C39",
   "status": "proved",
   "theorems": [
    "JBytes.C39_mac_text",
    "JBytes.C39_mac_text_injective"
   ],
   "note": ""
  },
  {
   "property": "C40",
   "status": "partial",
   "theorems": [
    "JBytes.C40_mac_parse_exact",
    "JBytes.C40_mac_parse_partial",
    "JBytes.C40_violated"
   ],
   "note": "Violated: fewer than six groups and a plus sign are accepted; C40_mac_parse_exact is the exact language."
  },
  {
   "property": "C41",
   "status": "proved",
   "theorems": [
    "JBytes.C41_hex_parse",
    "JBytes.C41_hex_accepts",
    "JBytes.C41_hex_roundtrip",
    "JBytes.C41_hex_case"
   ],
   "note": ""
  },
  {
   "property": "C42",
   "status": "proved",
   "theorems": [
    "JBytes.C42_modifiers_told",
    "JBytes.C42_in_order",
    "JBytes.C42_later_fields_irrelevant",
    "JBytes.C42_failure",
    "JBytes.C42_offset",
    "JBytes.C42_plain",
    "JBytes.C42_skip",
    "JBytes.C42_decoded",
    "JBytes.C42_if_false",
    "JBytes.C42_error"
   ],
   "note": ""
  },
  {
   "property": "C43",
   "status": "proved",
   "theorems": [
    "JBytes.C43_struct_roundtrip",
    "JBytes.C43_field_segment",
    "JBytes.C43_field_plain",
    "JBytes.C43_field_skip",
    "JBytes.C43_field_untake",
    "JBytes.C43_field_with",
    "JBytes.C43_group_segment",
    "JBytes.C43_excluded_modifiers"
   ],
   "note": "The condition (every field or bit-field group round trips in its place) is derived per modifier; C43_excluded_modifiers shows from_str, skip+offset, untake+offset and with+offset do not meet it."
  },
  {
   "property": "C44",
   "status": "proved",
   "theorems": [
    "JBytes.C44_numbers",
    "JBytes.C44_dispatch",
    "JBytes.C44_tag",
    "JBytes.C44_words"
   ],
   "note": ""
  },
  {
   "property": "C45",
   "status": "partial",
   "theorems": [
    "JBytes.C45_enum_roundtrip_partial",
    "JBytes.C45_words_roundtrip_partial",
    "JBytes.C45_iff",
    "JBytes.C45_violated"
   ],
   "note": "Violated for tags cut to u8, different widths on field and container, byte_count_disable, branch_bits, exclusive ranges, discriminant with branch value, default variants matched by words; proved when the tag survives and the variant accepts it first."
  },
  {
   "property": "C46",
   "status": "partial",
   "theorems": [
    "JBytes.C46_decode_own_partial",
    "JBytes.C46_encode_own_partial",
    "JBytes.C46_decode_exact",
    "JBytes.C46_encode_exact",
    "JBytes.C46_violated"
   ],
   "note": "Violated: fattr_new of the variant or of an earlier field leaks into fields without modifiers; proved when no unmodified field follows a modified one; C46_decode_exact and C46_encode_exact say which modifiers are in force at every field."
  },
  {
   "property": "C47",
   "status": "partial",
   "theorems": [
    "JBytes.C47_count_partial",
    "JBytes.C47_struct_exact",
    "JBytes.C47_enum_exact",
    "JBytes.C47_struct_iff",
    "JBytes.C47_bits_exact",
    "JBytes.C47_bits_iff",
    "JBytes.C47_violated"
   ],
   "note": "Violated by offset (bytes of padding not counted) and bits (word counted by every member); proved for every other encodable type; with offset the count is short by exactly the filler bytes (C47_struct_exact, C47_enum_exact), with words of bit fields it is too large by exactly the words the later members report again (C47_bits_exact, C47_bits_iff)."
  },
  {
   "property": "C48",
   "status": "proved",
   "theorems": [
    "JBytes.C48_only_appends",
    "JBytes.C48_kept_on_failure"
   ],
   "note": "Every encodable type whose bit-field groups start a word; successful encodes, and failing ones for values that fit in memory."
  },
  {
   "property": "C49",
   "status": "partial",
   "theorems": [
    "JBytes.C49_no_panic_partial",
    "JBytes.C49_total_partial",
    "JBytes.C49_violated"
   ],
   "note": "Violated by little-endian widths above the type size, byteorder expressions other than 0 and 1, and offset past the end followed by an empty take; proved for every other derivable type."
  },
  {
   "property": "C50",
   "status": "proved",
   "theorems": [
    "JBytes.C50_stays_inside"
   ],
   "note": "Every derivable type without offset, success and failure."
  },
  {
   "property": "C51",
   "status": "partial",
   "theorems": [
    "JBytes.C51_suffix_irrelevant_partial",
    "JBytes.C51_consumed_suffices_partial",
    "JBytes.C51_extension",
    "JBytes.C51_violated",
    "JBytes.C51_lookahead"
   ],
   "note": "violated by an offset that wraps around (C51_violated). Replacing the rest: proved for every derivable type without offset and without modifiers that look at the rest of the input; C51_lookahead shows what those do. Extending the data: also with offset (C51_extension)."
  },
  {
   "property": "C52",
   "status": "proved",
   "theorems": [
    "JBytes.C52_prefix_free",
    "JBytes.C52_derivable"
   ],
   "note": ""
  },
  {
   "property": "C53",
   "status": "proved",
   "theorems": [
    "JBytes.C53_top_roundtrip",
    "JBytes.C53_struct",
    "JBytes.C53_decode_total",
    "JBytes.C53_encode_error"
   ],
   "note": "decode never panicking is for types within the limits of C49."
  },
  {
   "property": "C54",
   "status": "proved",
   "theorems": [
    "JBytes.C54_stream",
    "JBytes.C54_written_buffer"
   ],
   "note": ""
  },
  {
   "property": "C55",
   "status": "partial",
   "theorems": [
    "JBytes.C55_some_partial",
    "JBytes.C55_none_partial",
    "JBytes.C55_violated"
   ],
   "note": "violated when None is followed by anything readable as a value, and for Some under length = 0; the exact condition is proved for every element codec"
  },
  {
   "property": "C56",
   "status": "partial",
   "theorems": [
    "JBytes.C56_visible_partial",
    "JBytes.C56_local",
    "JBytes.C56_length_variable",
    "JBytes.C56_encode_zero",
    "JBytes.C56_violated"
   ],
   "note": "violated when encoding (variables are never assigned, all are 0) and for types nested deeper than one level; proved for decoding direct fields, and the round trip of the documented use (length of a nested string) for all values"
  },
  {
   "property": "C57",
   "status": "partial",
   "theorems": [
    "JBytes.C57_container_reaches_partial",
    "JBytes.C57_struct_closed",
    "JBytes.C57_enum_closed",
    "JBytes.C57_enum_tag_order",
    "JBytes.C57_violated"
   ],
   "note": "violated for the tag of an enum, which is in the byte order of the surroundings"
  },
  {
   "property": "C58",
   "status": "proved",
   "theorems": [
    "JBytes.C58_hex_text",
    "JBytes.C58_hex_normal"
   ],
   "note": "from_utf8_lossy is a parameter with two laws (returns text; returns text unchanged); isLossy_sample shows such a function exists"
  },
  {
   "property": "C59",
   "status": "proved",
   "theorems": [
    "JBytes.C59_net_text",
    "JBytes.C59_net_text_injective",
    "JBytes.C59_net_parse",
    "JBytes.C59_short_mac"
   ],
   "note": "texts of Ipv4Addr and Ipv6Addr are the standard library's: a parameter with the laws IpText.Lawful (sampleText_lawful: satisfiable); decimal numerals are modelled. C59_short_mac: inherits C40's acceptance of short MAC texts"
  },
  {
   "property": "C60",
   "status": "proved",
   "theorems": [
    "JBytes.C60_predicates"
   ],
   "note": ""
  },
  {
   "property": "C61",
   "status": "partial",
   "theorems": [
    "JBytes.C61_no_panic_partial",
    "JBytes.C61_violated"
   ],
   "note": "violated by byteorder expressions other than 0 and 1 and by little-endian u128 members sharing a word; proved for every other storable type and value"
  },
  {
   "property": "C62",
   "status": "proved",
   "theorems": [
    "JBytes.C62_position_independent",
    "JBytes.C62_failure_everywhere"
   ],
   "note": ""
  },
  {
   "property": "C63",
   "status": "partial",
   "theorems": [
    "JBytes.C63_reencode_partial",
    "JBytes.C63_top_partial",
    "JBytes.C63_one_encoding_partial",
    "JBytes.C63_violated"
   ],
   "note": "proved for all types of the universe Faithful; fails for bool, maps, offset, bits with unused bits, key, default and range variants, options of types that move the position on failure (C63_violated)"
  },
  {
   "property": "C64",
   "status": "partial",
   "theorems": [
    "JBytes.C64_stays_inside",
    "JBytes.C64_no_panic_partial",
    "JBytes.C64_terminates_partial",
    "JBytes.C64_total_partial",
    "JBytes.C64_suffix_irrelevant_partial",
    "JBytes.C64_extension",
    "JBytes.C64_encode_partial",
    "JBytes.C64_encode_no_panic_partial",
    "JBytes.C64_reencode_partial",
    "JBytes.C64_tree_roundtrip",
    "JBytes.C64_depth_attained",
    "JBytes.C64_violated"
   ],
   "note": "violated by a constant count on a recursive Vec, which calls itself for ever (C64_violated); proved when each recursive use stands after at least one byte. C64_depth_attained: the bound on the stack is attained, so deeply nested input overflows any fixed stack. Round trip from values: for trees of any shape; for all recursive types from bytes (C64_reencode_partial)"
  },
  {
   "property": "C65",
   "status": "partial",
   "theorems": [
    "JBytes.C65_number_exact",
    "JBytes.C65_number",
    "JBytes.C65_expression",
    "JBytes.C65_name_kept",
    "JBytes.C65_violated"
   ],
   "note": "numbers are taken at their value and names are kept; violated by 0x0x10 and 0x+10, which are taken for 16"
  },
  {
   "property": "C66",
   "status": "partial",
   "theorems": [
    "JBytes.C66_string_partial",
    "JBytes.C66_bare",
    "JBytes.C66_iff",
    "JBytes.C66_violated"
   ],
   "note": "only the escape of a quote is resolved; violated by every other escape"
  },
  {
   "property": "C67",
   "status": "partial",
   "theorems": [
    "JBytes.C67_items_partial",
    "JBytes.C67_order",
    "JBytes.C67_order_container",
    "JBytes.C67_aliases",
    "JBytes.C67_others",
    "JBytes.C67_number",
    "JBytes.C67_expression",
    "JBytes.C67_bytes",
    "JBytes.C67_code",
    "JBytes.C67_flags",
    "JBytes.C67_byteorder",
    "JBytes.C67_known",
    "JBytes.C67_type",
    "JBytes.C67_violated"
   ],
   "note": "proved for one attribute; a second one is ignored without an error (C67_violated)"
  },
  {
   "property": "C68",
   "status": "partial",
   "theorems": [
    "JBytes.C68_names_partial",
    "JBytes.C68_iff",
    "JBytes.C68_violated"
   ],
   "note": "proved for lists without spaces; violated with a space after the comma"
  },
  {
   "property": "C69",
   "status": "partial",
   "theorems": [
    "JBytes.C69_name_partial",
    "JBytes.C69_enum_partial",
    "JBytes.C69_iff",
    "JBytes.C69_violated"
   ],
   "note": "proved for names that do not contain get_; violated by target_id (get_tarid) and by id beside get_id"
  },
  {
   "property": "C70",
   "status": "proved",
   "theorems": [
    "JBytes.C70_format",
    "JBytes.C70_top",
    "JBytes.C70_one_image",
    "JBytes.C70_one_value",
    "JBytes.C70_recursive"
   ],
   "note": "relation between values and bytes written without the codecs (Format.lean); skip, peeked and custom fields with offset have no image; functions a user writes for a field are assumed to have one"
  },
  {
   "property": "C71",
   "status": "proved",
   "theorems": [
    "JBytes.C71_write",
    "JBytes.C71_history",
    "JBytes.C71_buffer",
    "JBytes.C71_fixed"
   ],
   "note": "implementations are given by the laws of their required methods (WriteImpl.Lawful), shown to hold for Buffer and for memory of fixed size"
  },
  {
   "property": "C72",
   "status": "partial",
   "theorems": [
    "JBytes.C72_roundtrip_partial",
    "JBytes.C72_hex_form",
    "JBytes.C72_violated"
   ],
   "note": "proved for deserializers that lend the string; violated by all others (C72_violated): from_str infers &str"
  },
  {
   "property": "C73",
   "status": "partial",
   "theorems": [
    "JBytes.C73_struct_partial",
    "JBytes.C73_container",
    "JBytes.C73_accepts",
    "JBytes.C73_enum_partial",
    "JBytes.C73_enum_accepts",
    "JBytes.C73_violated_attrs",
    "JBytes.C73_violated_types"
   ],
   "note": "proved for at most one attribute for the macro per field and variant, and acceptance for path types; violated otherwise"
  },
  {
   "property": "C74",
   "status": "partial",
   "theorems": [
    "JBytes.C74_decode",
    "JBytes.C74_encode",
    "JBytes.C74_roundtrip_partial",
    "JBytes.C74_violated"
   ],
   "note": "round trip proved for fields that also have untake; violated by all others (C74_violated): the field is written a second time"
  },
  {
   "property": "C75",
   "status": "partial",
   "theorems": [
    "JBytes.C75_name",
    "JBytes.C75_list_partial",
    "JBytes.C75_default",
    "JBytes.C75_numbers_exact",
    "JBytes.C75_numbers_partial",
    "JBytes.C75_vec_partial",
    "JBytes.C75_enum_partial",
    "JBytes.C75_list_violated",
    "JBytes.C75_raw_violated",
    "JBytes.C75_violated",
    "JBytes.C75_path_violated"
   ],
   "note": "proved for types without commas, names that are not raw, and numbers that fit the stated type; violated otherwise"
  },
  {
   "property": "C76",
   "status": "partial",
   "theorems": [
    "JBytes.C76_number_exact",
    "JBytes.C76_repr_partial",
    "JBytes.C76_range_partial",
    "JBytes.C76_violated"
   ],
   "note": "proved for unsigned reprs, decimal and hexadecimal literals without suffix and decimal ranges; the macro rejects or panics on the others (C76_violated)"
  },
  {
   "property": "C77",
   "status": "partial",
   "theorems": [
    "JBytes.C77_agree_partial",
    "JBytes.C77_struct_partial",
    "JBytes.C77_field_partial",
    "JBytes.C77_on_variant",
    "JBytes.C77_violated"
   ],
   "note": "the numbers agree wherever both directions accept the expression, unless it begins with a number and stands in a struct; accepted exactly if it begins with a name and has no other (structs), if it is so on fields of variants; the code violates the rest (C77_violated, C77_on_variant)"
  },
  {
   "property": "C78",
   "status": "partial",
   "theorems": [
    "JBytes.C78_vec",
    "JBytes.C78_undefined_iff",
    "JBytes.C78_iff",
    "JBytes.C78_array_partial",
    "JBytes.C78_result",
    "JBytes.C78_vec_result",
    "JBytes.C78_violated"
   ],
   "note": "proved for vectors and for arrays of types without destructor; for arrays of types with a destructor the first assignment drops uninitialised memory (C78_violated); C78_iff gives the exact cases"
  },
  {
   "property": "C79",
   "status": "proved",
   "theorems": [
    "JBytes.C79_bufread",
    "JBytes.C79_provided",
    "JBytes.C79_slice",
    "JBytes.C79_needs"
   ],
   "note": "C79_needs: what a take_bytes written outside the crate has to meet"
  },
  {
   "property": "C80",
   "status": "proved",
   "theorems": [
    "JBytes.C80_struct",
    "JBytes.C80_sheet",
    "JBytes.C80_integers",
    "JBytes.C80_own_codec",
    "JBytes.C80_own_decoder_enum"
   ],
   "note": "tuple structs: a field without modifiers is read with those of the field before (C46), which C80_sheet says"
  },
  {
   "property": "C81",
   "status": "partial",
   "theorems": [
    "JBytes.C81_derivable",
    "JBytes.C81_encode",
    "JBytes.C81_decode",
    "JBytes.C81_words",
    "JBytes.C81_sheet_derivable",
    "JBytes.C81_sheet_encode",
    "JBytes.C81_sheet_decode",
    "JBytes.C81_sheet_words",
    "JBytes.C81_roundtrip_partial",
    "JBytes.C81_violated"
   ],
   "note": "encoding, decoding and rejection for every text that gives code; C81_derivable says exactly which do (the variants must suit the way tags are written), the code violates the rest (C81_violated); fields without a modifier after fields with one: see C46; the C81_sheet theorems say what they get"
  },
  {
   "property": "C82",
   "status": "proved",
   "theorems": [
    "JBytes.C82_faithful",
    "JBytes.C82_position"
   ],
   "note": ""
  },
  {
   "property": "C83",
   "status": "partial",
   "theorems": [
    "JBytes.C83_struct_partial",
    "JBytes.C83_rename_partial",
    "JBytes.C83_violated",
    "JBytes.C83_encode_partial",
    "JBytes.C83_encode_rename_partial",
    "JBytes.C83_encode_violated",
    "JBytes.C83_enum_partial",
    "JBytes.C83_enum_encode_partial",
    "JBytes.C83_enum_rename_partial",
    "JBytes.C83_enum_violated",
    "JBytes.C83_enum_refused",
    "JBytes.C83_names"
   ],
   "note": "decoders and encoders of structs and enums, for names that are not those of the locals of the generated code; a field called position violates it (C83_violated)"
  },
  {
   "property": "C84",
   "status": "partial",
   "theorems": [
    "JBytes.C84_struct_iff",
    "JBytes.C84_violated",
    "JBytes.C84_encode_iff",
    "JBytes.C84_encode_violated",
    "JBytes.C84_enum_iff",
    "JBytes.C84_enum_encode_iff",
    "JBytes.C84_enum_violated"
   ],
   "note": "decoders and encoders of structs and enums with hygienic names: the exact condition; the code violates the rest (C84_violated)"
  },
  {
   "property": "C85",
   "status": "partial",
   "theorems": [
    "JBytes.C85_iff",
    "JBytes.C85_text",
    "JBytes.C85_text_iff",
    "JBytes.C85_violated"
   ],
   "note": "holds exactly for types without :: and ->"
  },
  {
   "property": "C86",
   "status": "partial",
   "theorems": [
    "JBytes.C86_borrow_iff",
    "JBytes.C86_decode_iff",
    "JBytes.C86_encode_iff",
    "JBytes.C86_violated"
   ],
   "note": "the exact conditions: the borrowing decoder only for types without parameters or with one bare lifetime, the others unless a type or constant is called I or B; the code violates the rest (C86_violated)"
  },
  {
   "property": "C87",
   "status": "partial",
   "theorems": [
    "JBytes.C87_agree_partial",
    "JBytes.C87_struct_iff",
    "JBytes.C87_length",
    "JBytes.C87_variant_iff",
    "JBytes.C87_violated"
   ],
   "note": "same number wherever both accept; accepted exactly as C87_struct_iff and C87_variant_iff say; violated by variables outside of length or inside of larger expressions, and by fields whose name is part of the name of a variable"
  },
  {
   "property": "C88",
   "status": "partial",
   "theorems": [
    "JBytes.C88_struct_iff",
    "JBytes.C88_variant",
    "JBytes.C88_violated"
   ],
   "note": "structs: exactly if the first argument begins with a field and no other has names; variants: all lists of fields; violated by a second field in a struct"
  },
  {
   "property": "C89",
   "status": "partial",
   "theorems": [
    "JBytes.C89_read",
    "JBytes.C89_peek",
    "JBytes.C89_write",
    "JBytes.C89_write_iff",
    "JBytes.C89_io_iff",
    "JBytes.C89_decode_int",
    "JBytes.C89_encode_int_iff",
    "JBytes.C89_offset_iff",
    "JBytes.C89_decode",
    "JBytes.C89_decode_offset",
    "JBytes.C89_decoder_exists",
    "JBytes.C89_encode",
    "JBytes.C89_encode_bits",
    "JBytes.C89_encoder_exists",
    "JBytes.C89_violated"
   ],
   "note": "reading, peeking, decoding of every type without offset, encoding with bits only on the first member of a word: the same; otherwise the same or a panic; writing, io, encoding integers and offset: the exact conditions; the code violates the rest (C89_violated)"
  },
  {
   "property": "C90",
   "status": "partial",
   "theorems": [
    "JBytes.C90_contents",
    "JBytes.C90_eq_iff",
    "JBytes.C90_from_iff",
    "JBytes.C90_encode_iff",
    "JBytes.C90_from_push_iff",
    "JBytes.C90_read_behind",
    "JBytes.C90_violated"
   ],
   "note": "contents: for all histories of writes; equality, appending and reading on: the exact conditions; the code violates the rest (C90_violated)"
  },
  {
   "property": "C91",
   "status": "proved",
   "theorems": [
    "JBytes.C91_truncated",
    "JBytes.C91_threshold",
    "JBytes.C91_encoding"
   ],
   "note": "for all derivable types within the stated limits; types that adapt to the end of the data are outside of the statement (example in PropTruncate.lean)"
  },
  {
   "property": "C92",
   "status": "proved",
   "theorems": [
    "JBytes.C92_read",
    "JBytes.C92_peek",
    "JBytes.C92_write",
    "JBytes.C92_decode",
    "JBytes.C92_recursive",
    "JBytes.C92_struct",
    "JBytes.C92_inside",
    "JBytes.C92_top",
    "JBytes.C92_encode",
    "JBytes.C92_mut",
    "JBytes.C92_slice",
    "JBytes.C92_cursor"
   ],
   "note": "position of the error = position of the buffer for all methods, decoders and encoders, from any state; inside of the input without offset; with user-written codecs if those keep to it (C92_struct)"
  },
  {
   "property": "C93",
   "status": "proved",
   "theorems": [
    "JBytes.C93_decode",
    "JBytes.C93_recursive",
    "JBytes.C93_recursive_exists",
    "JBytes.C93_decoder_exists",
    "JBytes.C93_encode",
    "JBytes.C93_encoder_exists",
    "JBytes.C93_bytes",
    "JBytes.C93_buffer",
    "JBytes.C93_own_exists"
   ],
   "note": "all implementors that do what the required methods are meant to do; decoders without offset and user-written codecs; encoders with bits on the first member of a word (a later member steps back over what was written, C89)"
  },
  {
   "property": "C94",
   "status": "partial",
   "theorems": [
    "JBytes.C94_read",
    "JBytes.C94_write",
    "JBytes.C94_decode_partial",
    "JBytes.C94_encode_partial",
    "JBytes.C94_modifiers",
    "JBytes.C94_usize_read",
    "JBytes.C94_usize_write",
    "JBytes.C94_length_iff",
    "JBytes.C94_width_violated",
    "JBytes.C94_modifiers_violated",
    "JBytes.C94_seek_violated",
    "JBytes.C94_seek_partial",
    "JBytes.C94_net_violated",
    "JBytes.C94_usize_decode",
    "JBytes.C94_usize_encode",
    "JBytes.C94_int_encode",
    "JBytes.C94_int_iff"
   ],
   "note": "violated by usize/isize/NetAddress, by lengths, counts, tags and modifier expressions of 2^32 and above, and by Seek; proved for everything else but offset and, inside other types, bits on later members of a word (an integer by itself: C94_int_encode, C94_int_iff)"
  },
  {
   "property": "C95",
   "status": "partial",
   "theorems": [
    "JBytes.C95_decode",
    "JBytes.C95_encode",
    "JBytes.C95_order",
    "JBytes.C95_exact_partial",
    "JBytes.C95_iff",
    "JBytes.C95_violated"
   ],
   "note": "violated: the value is computed in the type of the fields and wraps around there, then again in usize; proved that this is all that happens, and exactly when it is exact (C95_iff, unsigned types)"
  },
  {
   "property": "C96",
   "status": "partial",
   "theorems": [
    "JBytes.C96_decode_partial",
    "JBytes.C96_top_partial",
    "JBytes.C96_recursive_partial",
    "JBytes.C96_mark_violated",
    "JBytes.C96_width_violated",
    "JBytes.C96_untake_violated"
   ],
   "note": "violated: list elements that consume nothing (Mark, PhantomData, integers of length 0, where the length may come from the input) and untake; proved, with the factors counted from the definition, for all other types including recursive ones"
  },
  {
   "property": "C97",
   "status": "partial",
   "theorems": [
    "JBytes.C97_ip4_text",
    "JBytes.C97_tcp_text",
    "JBytes.C97_udp",
    "JBytes.C97_ip4_held_partial",
    "JBytes.C97_tcp_held_partial",
    "JBytes.C97_ethernet_partial",
    "JBytes.C97_standard_partial",
    "JBytes.C97_violated"
   ],
   "note": "violated: IPv4 and TCP headers that claim fewer than five words are accepted (header_length - 20 wraps around), and the names of the Ethernet addresses are exchanged; proved what each type accepts exactly, UDP in full, and that all headers of the standards are written and read back"
  },
  {
   "property": "C98",
   "status": "proved",
   "theorems": [
    "JBytes.C98_layer3_text",
    "JBytes.C98_layer4_text",
    "JBytes.C98_layer_text",
    "JBytes.C98_layers",
    "JBytes.C98_restored",
    "JBytes.C98_headers_restored"
   ],
   "note": ""
  },
  {
   "property": "C99",
   "status": "partial",
   "theorems": [
    "JBytes.C99_final_partial",
    "JBytes.C99_value_final",
    "JBytes.C99_cut_off_partial",
    "JBytes.C99_stream_partial",
    "JBytes.C99_recursive_final_partial",
    "JBytes.C99_terminator",
    "JBytes.C99_unknown_tag",
    "JBytes.C99_violated"
   ],
   "note": "violated: a missing terminator, or a word of an enum that has arrived in part, is reported as Fail, and an unknown tag as InvalidByteLength; proved for all standalone types without terminators that other errors are final and cut-off messages give InvalidByteLength; for a value that is refused also with terminators"
  },
  {
   "property": "C100",
   "status": "partial",
   "theorems": [
    "JBytes.C100_header_text",
    "JBytes.C100_text",
    "JBytes.C100_exact",
    "JBytes.C100_written",
    "JBytes.C100_message_partial",
    "JBytes.C100_body_iff",
    "JBytes.C100_violated"
   ],
   "note": "violated: a body with \": \" in it is consumed, as header lines or without a trace, a header line that breaks off is lost without an error, and headers after the 20th are left unread; proved exactly what is read and consumed on every input, when a body is left alone, and what is written"
  },
  {
   "property": "C101",
   "status": "partial",
   "theorems": [
    "JBytes.C101_map_text",
    "JBytes.C101_methods_text",
    "JBytes.C101_method_text",
    "JBytes.C101_map_exact",
    "JBytes.C101_map_written",
    "JBytes.C101_map_message_partial",
    "JBytes.C101_method_exact",
    "JBytes.C101_method_written",
    "JBytes.C101_method_message_partial",
    "JBytes.C101_violated"
   ],
   "note": "violated: of header lines with one key only the last is kept, and the map type reads 10 lines where the other reads 20; proved exactly what both types read on every input and write, and that requests with distinct keys, or one of the nine methods, come back"
  },
  {
   "property": "C102",
   "status": "partial",
   "theorems": [
    "JBytes.C102_grouped_decode",
    "JBytes.C102_grouped_encode",
    "JBytes.C102_wrapper",
    "JBytes.C102_array_tuple_decode",
    "JBytes.C102_array_tuple_encode",
    "JBytes.C102_vec_array_decode",
    "JBytes.C102_vec_array_encode",
    "JBytes.C102_vec_array_int",
    "JBytes.C102_set",
    "JBytes.C102_map_decode",
    "JBytes.C102_map_encode",
    "JBytes.C102_violated"
   ],
   "note": "violated: the container byte order of the outer struct does not reach a group, the modifiers of a field do not reach a wrapped type, count reaches the elements of a vector, loop_skip_starts is for vectors only; proved with equal container modifiers, without modifiers on wrappers, and for elements to which count means nothing"
  },
  {
   "property": "C103",
   "status": "partial",
   "theorems": [
    "JBytes.C103_older_decode",
    "JBytes.C103_older_message",
    "JBytes.C103_newer_decode",
    "JBytes.C103_option_absent",
    "JBytes.C103_try_count_absent",
    "JBytes.C103_remaining_absent",
    "JBytes.C103_condition_absent",
    "JBytes.C103_enum_decode",
    "JBytes.C103_enum_encode",
    "JBytes.C103_violated"
   ],
   "note": "violated: an added Option takes the bytes of the next message, a field that takes the rest swallows added fields, variants behind branch_default are never read, variants in the middle shift the tags; proved for messages that stand alone, for Option, try_count, remaining and if_expr fields, and for variants added at the end"
  },
  {
   "property": "C104",
   "status": "partial",
   "theorems": [
    "JBytes.C104_window",
    "JBytes.C104_decode_partial",
    "JBytes.C104_top_partial",
    "JBytes.C104_recursive_partial",
    "JBytes.C104_violated"
   ],
   "note": "violated with untake and with an offset that wraps: two fields hold the same bytes; proved for all types without them: windows, subsequence of the consumed bytes, no byte used twice; not for custom decoders and for the bytes of numbers with bits or length"
  },
  {
   "property": "C105",
   "status": "partial",
   "theorems": [
    "JBytes.C105_body_text",
    "JBytes.C105_message_text",
    "JBytes.C105_messages",
    "JBytes.C105_written",
    "JBytes.C105_delivered",
    "JBytes.C105_server_partial",
    "JBytes.C105_client_partial",
    "JBytes.C105_exchange",
    "JBytes.C105_cut",
    "JBytes.C105_long",
    "JBytes.C105_write_request",
    "JBytes.C105_violated"
   ],
   "note": "violated: a part of a message is taken for another message, the write request is never answered, long responses do not fit the buffer of the client; proved: the message type is exact, messages delivered whole are understood, and what both sides do for every result of read"
  },
  {
   "property": "C106",
   "status": "partial",
   "theorems": [
    "JBytes.C106_chunks_partial",
    "JBytes.C106_recursive_partial",
    "JBytes.C106_messages_partial",
    "JBytes.C106_socket",
    "JBytes.C106_violated"
   ],
   "note": "violated for types that adapt to where the data ends (Option, try_count, remaining); proved for all other types, recursive ones too, and that every message sent is received in time"
  },
  {
   "property": "C107",
   "status": "partial",
   "theorems": [
    "JBytes.C107_body_text",
    "JBytes.C107_command_text",
    "JBytes.C107_simple_body_text",
    "JBytes.C107_simple_text",
    "JBytes.C107_tagged_text",
    "JBytes.C107_commands",
    "JBytes.C107_written",
    "JBytes.C107_consistent",
    "JBytes.C107_simple",
    "JBytes.C107_tagged",
    "JBytes.C107_tagged_roundtrip",
    "JBytes.C107_tagged_again",
    "JBytes.C107_violated",
    "JBytes.C107_tagged_violated"
   ],
   "note": "violated: a number that does not belong to the body is written without an error and read as another message, and the tag of an unknown body is not kept; proved: exactly which inputs are read as which message, and exactly which values and bytes come back"
  },
  {
   "property": "C108",
   "status": "partial",
   "theorems": [
    "JBytes.C108_body_text",
    "JBytes.C108_text",
    "JBytes.C108_fallback",
    "JBytes.C108_unknown",
    "JBytes.C108_default",
    "JBytes.C108_default_sent",
    "JBytes.C108_messages",
    "JBytes.C108_roundtrip",
    "JBytes.C108_again_partial",
    "JBytes.C108_violated",
    "JBytes.C108_violated_choice"
   ],
   "note": "violated: the two variants cannot be chosen separately (the enum then has no default value), and the tag of an unknown body is not kept; proved: if both macros accept an enum the variant for unknown tags is the default's, and for the example which inputs are read as which message and exactly which values and bytes come back"
  },
  {
   "property": "C109",
   "status": "partial",
   "theorems": [
    "JBytes.C109_decode",
    "JBytes.C109_encode",
    "JBytes.C109_bytes_decode_partial",
    "JBytes.C109_bytes_encode_partial",
    "JBytes.C109_same_iff",
    "JBytes.C109_violated"
   ],
   "note": "violated for Vec<u8> and &[u8] under the same modifiers (C109_same_iff says which agree); proved: the borrowing codecs of all containers and of texts equal the owning ones, and Vec<u8> and &[u8] have the same format under corresponding modifiers"
  },
  {
   "property": "C110",
   "status": "partial",
   "theorems": [
    "JBytes.C110_encode",
    "JBytes.C110_struct",
    "JBytes.C110_enum",
    "JBytes.C110_number",
    "JBytes.C110_text",
    "JBytes.C110_decode_partial",
    "JBytes.C110_decode_struct_partial",
    "JBytes.C110_decode_enum_partial",
    "JBytes.C110_outcome_partial",
    "JBytes.C110_outcome_struct_partial",
    "JBytes.C110_outcome_enum_partial",
    "JBytes.C110_decode_violated",
    "JBytes.C110_lookahead_violated"
   ],
   "note": "encoding: same result for all values, and the image with the numbers turned round; decoding: what is accepted in one order is accepted in the other with its numbers turned round, for types that do not depend on where the input ends, and every input has the same outcome for types that consume what they look at; violated: what is an error in one order can be a panic in the other (length = 9 of u128), and loop_skip_starts looks at bytes of the number after the list"
  },
  {
   "property": "C111",
   "status": "partial",
   "theorems": [
    "JBytes.C111_decode",
    "JBytes.C111_checked",
    "JBytes.C111_window",
    "JBytes.C111_top",
    "JBytes.C111_field",
    "JBytes.C111_contained",
    "JBytes.C111_encode_partial",
    "JBytes.C111_both_partial",
    "JBytes.C111_tcp",
    "JBytes.C111_violated"
   ],
   "note": "decoding: proved for every type of the universe Fixed (numbers, addresses, byte strings and texts of stated length, arrays, lists, sets and maps of stated count, tuples, structs with offset, untake, skip, check_value, value_decode, nested, enums with variants of one size); encoding: the same for values of the declared lengths; violated: byte strings and texts are written with the length of the value, not the declared one"
  },
  {
   "property": "C112",
   "status": "partial",
   "theorems": [
    "JBytes.C112_renew_partial",
    "JBytes.C112_top_partial",
    "JBytes.C112_compare_partial",
    "JBytes.C112_map_partial",
    "JBytes.C112_violated",
    "JBytes.C112_follow_violated",
    "JBytes.C112_map_violated"
   ],
   "note": "proved for every type of the universe Renewable (numbers, flags, addresses, byte strings and texts of every framing, key, split, lists, arrays, tuples, a last Option, last lists with try_count or loop_skip_starts, enums told apart by words, structs with words of bit fields, offset, skip, if_expr, check_value, inverse value_decode/value_encode, enums selected by number or word with ranges and default variants), for every input; violated: a default variant or range whose number belongs to no or another variant, a last untake field, a default variant under branch_starts_with, an Option or marked list that something follows, a map with count; maps of such types come back in any order (C112_map_partial); missing: from_str, with, variable_name, try_count before other fields"
  },
  {
   "property": "C113",
   "status": "partial",
   "theorems": [
    "JBytes.C113_prefix",
    "JBytes.C113_patch_partial",
    "JBytes.C113_plain_partial",
    "JBytes.C113_number_partial",
    "JBytes.C113_element",
    "JBytes.C113_entry",
    "JBytes.C113_variant_partial",
    "JBytes.C113_violated"
   ],
   "note": "proved for every field of every struct of the universe Encodable (all types of the crate and derived types, nested to any depth) with any modifiers that start a word, for every field of an enum variant, for every element of a list and the value of every entry of a map; integer fields take any new number; violated: members of a word of bit fields; missing: user-written with_encode"
  },
  {
   "property": "C114",
   "status": "partial",
   "theorems": [
    "JBytes.C114_sorted_partial",
    "JBytes.C114_violated"
   ],
   "note": "proved for every type of the universe Sortable (unsigned big-endian numbers, numbers of signed types that are not negative, flags, IP and MAC addresses, byte strings of one length under any framing or behind a big-endian length, lists behind a big-endian length, arrays, tuples, structs whose fields have modifiers for their codec, length on numbers, offset, or a value_encode that keeps the order, enums with ascending numbers in which no field takes over modifiers of another); violated: little-endian order, negative numbers, terminated byte strings, enums with descending or truncated numbers; missing: bits, skipped fields, byte orders given by an expression, user-written encoders, modifiers taken over in enum variants"
  },
  {
   "property": "C115",
   "status": "partial",
   "theorems": [
    "JBytes.C115_list_partial",
    "JBytes.C115_marked",
    "JBytes.C115_array",
    "JBytes.C115_map_partial",
    "JBytes.C115_bytes_partial",
    "JBytes.C115_struct_partial",
    "JBytes.C115_nested_partial",
    "JBytes.C115_shrink_partial",
    "JBytes.C115_shrink_map_partial",
    "JBytes.C115_shrink_bytes_partial",
    "JBytes.C115_shrink_nested_partial",
    "JBytes.C115_read",
    "JBytes.C115_violated"
   ],
   "note": "proved for lists, maps, byte strings and texts of all encodable types, also at the end of structs, tuples and enum variants nested to any depth; the last elements can be taken away, of all these again; violated where the new number does not fit the count, and behind a terminator; missing: members of a word of bit fields and user-written encoders"
  }
 ]
}
