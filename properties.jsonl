{"id": "C01", "title": "Reading n bytes is exact", "statement": "take_bytes(n) on a reader whose position is within its data succeeds iff at least n bytes remain; on success it returns exactly the n bytes at the old position and moves the position by n; on failure it returns InvalidByteLength carrying the current position and leaves the position where it was. The data is never changed.", "quantifier": "every byte string, every position inside it, every n", "why_tests_cant": "unbounded space of data, positions and lengths; boundary between success and failure must be exact everywhere", "anchors": ["src/buf_traits.rs: BufRead::take_bytes, remaining, remaining_len", "src/bytes.rs: Bytes", "src/buffer.rs: Buffer"]}
{"id": "C02", "title": "Reads never panic, whatever the position", "statement": "No primitive read (take_bytes, take_bool, take_u8, fixed width integers, n-byte integers, find_subsequence, prefix match) panics, whatever the current position (including one moved past the end by advance/set_position/offset) and whatever the requested width; bad requests are reported as errors.", "quantifier": "every data, every position (also beyond the end), every requested length/width and byte order", "why_tests_cant": "the panics sit at isolated corners (zero-length read past the end, little-endian width above 8) a sample of inputs will not hit", "anchors": ["src/buf_traits.rs: take_bytes, untake_bytes, find_subsequence*", "src/buf_mut_traits.rs: macro_take_bytes, macro_untake_bytes"]}
{"id": "C03", "title": "Fixed-width reads return the positional value of the bytes", "statement": "Reading a u8/u16/u24/u32/u64/u128/usize (or the signed/float type with the same width) in a given byte order returns the number whose base-256 digits are the bytes read, most significant first for big-endian and least significant first for little-endian, and consumes exactly the width of the type.", "quantifier": "every data, position, width and byte order", "why_tests_cant": "2^128 values per width; tests sample a handful", "anchors": ["src/buf_traits.rs: take_*_u16 .. take_*_f64, take_*_u24", "src/buf_mut_traits.rs: macro_take_bytes"]}
{"id": "C04", "title": "n-byte integer reads", "statement": "take_uint(n)/take_byteorder_uint(n, order) for n <= 8 returns the positional value of the next n bytes in that order and consumes n bytes; for n > 8 it returns InvalidByteLength and consumes nothing, in either byte order.", "quantifier": "every data, position, n and byte order", "why_tests_cant": "both width and data are unbounded; the two byte orders are separate code paths and must agree", "anchors": ["src/buf_traits.rs: take_uint, take_be_uint, take_le_uint, take_byteorder_uint", "src/buf_mut_traits.rs: macro_take_bytes"]}
{"id": "C05", "title": "Peeking equals reading without moving", "statement": "Every untake_x returns the same result (value or error) as take_x at the same state and leaves position and data unchanged.", "quantifier": "every data, position, width and byte order", "why_tests_cant": "two independent copies of ~60 methods must agree on every input", "anchors": ["src/buf_traits.rs: untake_*", "src/buf_mut_traits.rs: macro_untake_bytes"]}
{"id": "C06", "title": "Scalar write/read round trip", "statement": "Writing any fixed-width scalar (bool, u8..u128, i8..i128, usize, isize, f32/f64 bit patterns, u24 below 2^24, char below U+0100) with push_x in some byte order and reading it back with take_x in the same order from where it was written returns the same value and consumes exactly what was written.", "quantifier": "every value of every scalar type, both byte orders, every buffer state", "why_tests_cant": "value spaces up to 2^128", "anchors": ["src/buf_traits.rs: push_*, take_*"]}
{"id": "C07", "title": "n-byte integer round trip", "statement": "push_uint(v, n) then take_uint(n) in the same byte order returns v reduced modulo 256^n (so v itself whenever it fits) for n <= 8; for n > 8 push_uint fails without writing. The signed pair push_int/take_int returns the value whenever it fits in n bytes as a two's complement number.", "quantifier": "every 64-bit v, every n, both byte orders", "why_tests_cant": "2^64 values times widths; sign handling only shows for negative values in narrow widths", "anchors": ["src/buf_traits.rs: push_be_uint, push_le_uint, push_int, take_uint, take_int"]}
{"id": "C08", "title": "Little-endian is the byte reversal of big-endian", "statement": "For every value and width, the little-endian encoding is the reverse of the big-endian one, and decoding bytes as little-endian equals decoding the reversed bytes as big-endian.", "quantifier": "every value and width, for integers, n-byte integers, arrays and addresses", "why_tests_cant": "unbounded values", "anchors": ["src/buf_traits.rs: push_le_*, push_be_*, push_byteorder_array, take_byteorder_array"]}
{"id": "C09", "title": "Terminator search returns the first occurrence", "statement": "find_subsequence(needle) returns the bytes before the leftmost occurrence of needle at or after the current position and moves just past that occurrence; it fails, without moving, exactly when the needle does not occur. The include-needle variants return/skip the bytes up to or through the same leftmost occurrence.", "quantifier": "every data, position inside it and needle", "why_tests_cant": "needles and haystacks are unbounded; overlapping and repeated occurrences matter", "anchors": ["src/buf_traits.rs: find_subsequence, find_subsequence_needle"]}
{"id": "C10", "title": "Multi-terminator search", "statement": "find_subsequences(needles) stops at the occurrence that ends earliest; with the line terminators CRLF, LF and NUL the returned line contains none of LF and NUL, a CRLF is removed as a whole, and the position moves just past the terminator.", "quantifier": "every data and position", "why_tests_cant": "unbounded data", "anchors": ["src/buf_traits.rs: find_subsequences, find_subsequences_needle", "src/decode/impls_bytes.rs: find_subsequence"]}
{"id": "C11", "title": "Reads never alter the data, failed primitive reads never move", "statement": "No read primitive changes the underlying bytes, and a read primitive that returns an error leaves the position unchanged.", "quantifier": "every primitive, data and position", "why_tests_cant": "universal over primitives and states", "anchors": ["src/buf_traits.rs: BufRead"]}
{"id": "C12", "title": "A write changes exactly the bytes at the position", "statement": "push(bytes) on a buffer whose position is within its data overwrites/extends exactly the bytes [position, position+len): bytes before and after that window are unchanged, the length becomes max(old length, position+len), the position moves by len and len is returned. Written past the end, the gap is zero filled.", "quantifier": "every buffer, position and byte string (total size below the address-space limit)", "why_tests_cant": "unbounded buffers; off-by-one errors at the window boundary", "anchors": ["src/buf_traits.rs: BufWrite::push", "src/buffer.rs: remaining_mut, resize"]}
{"id": "C13", "title": "Writes never panic", "statement": "push/push_* never panic, whatever the position of the buffer and the data written (sizes within the address space).", "quantifier": "every buffer, position (also past the end) and byte string (also empty)", "why_tests_cant": "corner: empty write past the end", "anchors": ["src/buf_traits.rs: BufWrite::push", "src/buffer.rs: remaining_mut, resize"]}
{"id": "C14", "title": "A history of writes is the concatenation of what was written", "statement": "Starting from an empty buffer, any sequence of successful pushes leaves the buffer equal to the concatenation of the pushed byte strings in order, with the position at its end and the returned counts summing to its length.", "quantifier": "every finite sequence of writes", "why_tests_cant": "induction over unbounded histories", "anchors": ["src/buf_traits.rs: BufWrite", "src/buffer.rs: Buffer"]}
{"id": "C15", "title": "Buffer behaves as a file for read/write/seek histories", "statement": "For any sequence of std::io read, write and seek calls, Buffer behaves as an abstract in-memory file with a cursor: same bytes delivered, same contents, same cursor; seek to a negative position fails and changes nothing.", "quantifier": "every finite history of io operations (offsets within the 63-bit range)", "why_tests_cant": "unbounded operation histories", "anchors": ["src/buffer.rs: impl Read, impl Write, impl Seek for Buffer"]}
{"id": "C16", "title": "Seek returns the new position", "statement": "As required by std::io::Seek, a successful seek returns the new position measured from the start of the buffer.", "quantifier": "every buffer, current position and seek request", "why_tests_cant": "only holds by accident when old and new position coincide", "anchors": ["src/buffer.rs: impl Seek for Buffer"]}
{"id": "C17", "title": "Slice reader agrees with Bytes reader", "statement": "Reading through the mutable-slice reader (BufReadMut for &[u8]) gives the same values and leaves the same remaining bytes as reading through Bytes, for every read operation.", "quantifier": "every data and every read operation", "why_tests_cant": "two separate implementations of the whole reading API", "anchors": ["src/impls.rs: BufReadMut for &[u8]", "src/buf_mut_traits.rs: BufReadMut"]}
{"id": "C18", "title": "Cursor reader agrees with Bytes reader", "statement": "Reading through BufReadMut for std::io::Cursor gives the same values, errors and positions as reading through Bytes, for every shared read operation; the n-byte readers honour their width.", "quantifier": "every data, position and read operation", "why_tests_cant": "two separate implementations of the whole reading API", "anchors": ["src/impls.rs: BufReadMut for Cursor", "src/buf_mut_traits.rs"]}
{"id": "C19", "title": "Byte-order precedence", "statement": "The byte order applied to a field is the field's own if given, else its container's if given, else big-endian; it is the same on encode and decode.", "quantifier": "every combination of container and field modifiers", "why_tests_cant": "must hold for every type that consults it", "anchors": ["src/modifiers.rs: get_byteorder"]}
{"id": "C20", "title": "length modifier on integers", "statement": "An integer field with length=n occupies exactly n bytes; encoding then decoding returns the value whenever it is non-negative and below 256^n (n at most 8); n larger than the type is rejected with an error on both sides, without panicking.", "quantifier": "every integer type, n, value and byte order", "why_tests_cant": "product of 12 types, widths and 2^128 values", "anchors": ["src/decode/impls_int.rs", "src/encode/impls_int.rs"]}
{"id": "C21", "title": "Narrow signed integers keep their sign", "statement": "A signed integer field with length=n that fits in n bytes as two's complement is decoded back to the same (possibly negative) value.", "quantifier": "every signed type, n and value", "why_tests_cant": "only negative values in narrow widths show it", "anchors": ["src/decode/impls_int.rs", "src/encode/impls_int.rs"]}
{"id": "C22", "title": "bits extracts a right-aligned field", "statement": "Decoding an unsigned integer with bits=mask (mask non-zero) yields (word AND mask) shifted right by the number of trailing zeros of the mask, whatever the word.", "quantifier": "every unsigned integer type, word and mask", "why_tests_cant": "2^64 masks times 2^64 words", "anchors": ["src/decode/impls_int.rs"]}
{"id": "C23", "title": "bits on signed types never sign-fills", "statement": "Decoding a signed integer with bits=mask yields the same right-aligned, non-negative field value as the unsigned type when the mask has trailing zeros.", "quantifier": "every signed type, word and mask", "why_tests_cant": "only masks that include the sign bit show it", "anchors": ["src/decode/impls_int.rs"]}
{"id": "C24", "title": "Bit-field groups round trip", "statement": "A run of bit-field members sharing one word (first marked bits_start, disjoint masks, each value fitting its mask) encodes to one word holding every member at its mask, and decodes back to the same members.", "quantifier": "every unsigned type up to 64 bits, any number of members, masks and values", "why_tests_cant": "unbounded number of members and mask layouts", "anchors": ["src/encode/impls_int.rs", "src/decode/impls_int.rs", "derive/src/jbytes/encode.rs"]}
{"id": "C25", "title": "Bit-field values cannot corrupt their neighbours", "statement": "Encoding a bit-field member whose value does not fit its mask never changes the other members of the word.", "quantifier": "every mask and value", "why_tests_cant": "only oversized values show it", "anchors": ["src/encode/impls_int.rs"]}
{"id": "C26", "title": "Byte-string framing round trip", "statement": "For every framing of a byte string (default 1-byte length, byte_count=k prefix, fixed length, linend/end_with terminator, remaining, with optional key and split prefixes), encode followed by decode returns the same bytes and consumes exactly the encoding, provided the length fits the prefix / equals the fixed length / the terminator does not occur earlier.", "quantifier": "every byte string, framing, prefix bytes before and suffix bytes after", "why_tests_cant": "unbounded strings and terminators; overlap of data and terminator", "anchors": ["src/encode/impls_bytes.rs", "src/decode/impls_bytes.rs", "src/encode/impls_hex.rs", "src/decode/impls_hex.rs"]}
{"id": "C27", "title": "A length prefix that cannot represent the length is reported", "statement": "Encoding a byte string, list or map whose length does not fit its length prefix fails instead of writing an encoding that decodes to something else.", "quantifier": "every length and prefix width", "why_tests_cant": "needs lengths of at least 256", "anchors": ["src/encode/impls_bytes.rs", "src/encode/mod.rs: push_count_and_try_count"]}
{"id": "C28", "title": "Strings decode to valid UTF-8 and round trip", "statement": "Decoding a String/&str returns either an error or bytes that are valid UTF-8, and agrees with decoding the same framing as raw bytes; encode followed by decode returns the string under the framing conditions of byte strings.", "quantifier": "every data, framing and string", "why_tests_cant": "unbounded inputs, malformed sequences", "anchors": ["src/decode/impls_string.rs", "src/encode/impls_string.rs"]}
{"id": "C29", "title": "List round trip", "statement": "If an element codec round-trips, so do Vec (count prefix of 1 byte, byte_count_outside=k, count=n), fixed arrays and tuples built from it, consuming exactly the encoding; Vec needs its length to fit the prefix.", "quantifier": "every element codec that round trips, every list", "why_tests_cant": "quantifies over all element types and unbounded lists", "anchors": ["src/encode/impls_vec.rs", "src/decode/impls_vec.rs", "src/encode/impls_array.rs", "src/decode/impls_array.rs", "src/encode/impls_tuple.rs", "src/decode/impls_tuple.rs", "src/encode/mod.rs", "src/decode/mod.rs"]}
{"id": "C30", "title": "Count modifiers agree between encode and decode", "statement": "For every combination of count, try_count and byte_count_outside modifiers, the decoder looks for the element count where the encoder put it (and nowhere else).", "quantifier": "every combination of modifiers and list", "why_tests_cant": "combination of optional modifiers, precedence differs silently", "anchors": ["src/encode/mod.rs: push_count_and_try_count", "src/decode/mod.rs: get_count_and_try_count"]}
{"id": "C31", "title": "try_count keeps the longest decodable run", "statement": "With try_count=n, decoding a list never fails: it returns the first min(n, k) elements where k is the number of consecutive elements that decode from the current position.", "quantifier": "every element codec, data, position and n", "why_tests_cant": "unbounded data and element types", "anchors": ["src/decode/impls_vec.rs", "src/decode/impls_hashset.rs"]}
{"id": "C32", "title": "An optional or tried element that fails leaves the position where it was", "statement": "When an Option decodes to None because its content could not be decoded, or a try_count list stops, the position is the one before the failed element, so following fields decode from there.", "quantifier": "every element codec, data and position", "why_tests_cant": "only partial failures of multi-part elements show it", "anchors": ["src/decode/impls_option.rs", "src/decode/impls_vec.rs", "src/decode/impls_hashmap.rs"]}
{"id": "C33", "title": "Prefix-marked lists round trip and terminate", "statement": "With loop_skip_starts=p (p not empty) and an element that never moves backwards, decoding terminates on every input within one iteration per remaining byte; and encode/decode round trip when what follows does not start with p.", "quantifier": "every data, non-empty prefix and element codec", "why_tests_cant": "termination on every input; unbounded lists", "anchors": ["src/decode/impls_vec.rs", "src/encode/impls_vec.rs"]}
{"id": "C34", "title": "Decoding always terminates", "statement": "Decoding any data with any modifiers terminates.", "quantifier": "every data, prefix and element type", "why_tests_cant": "non-termination is not observable by a finite test", "anchors": ["src/decode/impls_vec.rs"]}
{"id": "C35", "title": "Decoded lists are no longer than the bytes consumed", "statement": "If every element occupies at least one byte, the number of elements decoded for a list is at most the number of bytes consumed, so a hostile count cannot produce a large result from a small input.", "quantifier": "every data, count and element codec consuming at least one byte", "why_tests_cant": "counts up to 2^64 from the wire", "anchors": ["src/decode/impls_vec.rs", "src/decode/impls_hashset.rs", "src/decode/impls_hashmap.rs"]}
{"id": "C36", "title": "Maps and sets", "statement": "Decoding a map performs the inserts in wire order (a later duplicate key wins, one entry per key); encoding a map in any iteration order and decoding it gives a map with the same lookups. A decoded set contains exactly the decoded elements, each once.", "quantifier": "every key/value codec that round trips, every map and every iteration order", "why_tests_cant": "iteration order is nondeterministic and unbounded", "anchors": ["src/encode/impls_hashmap.rs", "src/decode/impls_hashmap.rs", "src/decode/impls_hashset.rs"]}
{"id": "C37", "title": "Network and hardware addresses round trip", "statement": "Ipv4Addr, Ipv6Addr, IpAddr, MacAddress and NetAddress encode to 4/16/4-or-16/6/variant-dependent bytes in the chosen byte order and decode back to the same address when the length modifier names the variant's size.", "quantifier": "every address, both byte orders, every surrounding data", "why_tests_cant": "2^128 addresses", "anchors": ["src/encode/impls_ipaddress.rs", "src/decode/impls_ipaddress.rs", "src/encode/impls_macaddress.rs", "src/decode/impls_macaddress.rs", "src/encode/impls_netaddress.rs", "src/decode/impls_netaddress.rs"]}
{"id": "C38", "title": "MAC address numeric view", "statement": "to_bits/from_bits are mutually inverse on 48-bit values (from_bits ignores higher bits); is_unicast/is_multicast are complementary and equal to the low bit of the first byte; is_broadcast/is_zero hold exactly for ff:ff:ff:ff:ff:ff / 00:00:00:00:00:00.", "quantifier": "every address and every 64-bit number", "why_tests_cant": "2^48 addresses, 2^64 numbers", "anchors": ["src/types/mac_address.rs: to_bits, from_bits, is_unicast, is_multicast, is_broadcast, is_zero"]}
{"id": "C39", "title": "MAC address text round trip", "statement": "Formatting a MAC address and parsing the text returns the same address.", "quantifier": "every address", "why_tests_cant": "2^48 addresses", "anchors": ["src/types/mac_address.rs: FromStr, Display"]}
{"id": "C40", "title": "MAC address parsing accepts exactly six hex pairs", "statement": "from_str succeeds exactly on six colon-separated pairs of hexadecimal digits.", "quantifier": "every string", "why_tests_cant": "all strings; short inputs and sign characters are corner cases", "anchors": ["src/types/mac_address.rs: FromStr"]}
{"id": "C41", "title": "Hex text round trip", "statement": "Formatting bytes as lower or upper case hex and parsing gives the bytes back; the text has two digits per byte; parsing accepts exactly the even-length strings of hex digits and is case-insensitive.", "quantifier": "every byte string and every text", "why_tests_cant": "unbounded strings", "anchors": ["src/types/hex_string.rs: HexString::from_str, to_hex_lowercase, to_hex_uppercase", "src/types/hex_bytes.rs: Hex"]}
{"id": "C42", "title": "Derived struct: fields in declaration order", "statement": "Decoding a derived struct decodes its fields in declaration order, each starting where the previous one ended (plus its offset); a field's modifiers may depend only on earlier fields; an untake field leaves the position unchanged; a skipped field takes its default and consumes nothing; a check_value mismatch is an error.", "quantifier": "every struct definition, data and position", "why_tests_cant": "quantifies over all struct definitions", "anchors": ["derive/src/jbytes/derive_struct.rs", "derive/src/jbytes/decode.rs", "derive/src/jbytes/attribute.rs"]}
{"id": "C43", "title": "Derived struct round trip", "statement": "For every derived struct whose fields round trip under their modifiers, encode followed by decode returns the value and consumes exactly the encoding.", "quantifier": "every struct definition (any number of fields, nesting) and value", "why_tests_cant": "quantifies over all struct definitions and values", "anchors": ["derive/src/jbytes/derive_struct.rs", "derive/src/jbytes/encode.rs", "derive/src/jbytes/decode.rs"]}
{"id": "C44", "title": "Derived enum dispatch", "statement": "Decoding a derived enum selects the first variant whose pattern (explicit value, range, bit test, position, default) matches the tag; if none matches decoding fails; the tag comes from branch if given, otherwise from the wire with the configured width.", "quantifier": "every enum definition, tag and data", "why_tests_cant": "quantifies over all enum definitions and 2^64 tags", "anchors": ["derive/src/jbytes/derive_enum.rs"]}
{"id": "C45", "title": "Derived enum round trip", "statement": "For every derived enum, encoding a variant and decoding returns the same variant and fields.", "quantifier": "every enum definition and value", "why_tests_cant": "quantifies over all enum definitions and values", "anchors": ["derive/src/jbytes/derive_enum.rs"]}
{"id": "C46", "title": "Enum variant fields are coded with their own modifiers", "statement": "Each field of an enum variant is encoded and decoded with its own modifiers only: the modifiers of the variant or of a neighbouring field do not leak into it.", "quantifier": "every variant definition", "why_tests_cant": "only certain combinations of modified and unmodified neighbours show it", "anchors": ["derive/src/jbytes/derive_enum.rs: generate_byte_encode_body", "derive/src/jbytes/derive_struct.rs: generate_decode_struct_body"]}
{"id": "C47", "title": "encode reports the number of bytes it produced", "statement": "The count returned by encode equals the number of bytes by which the buffer grew.", "quantifier": "every type definition, modifiers and value", "why_tests_cant": "quantifies over all types and values", "anchors": ["src/encode/*.rs", "derive/src/jbytes/encode.rs"]}
{"id": "C48", "title": "Encoding only appends", "statement": "Encoding into a buffer positioned at its end keeps every byte already in the buffer and leaves the position at the new end (bit-field members excepted, which complete the word they belong to).", "quantifier": "every type definition, value and prior buffer content", "why_tests_cant": "quantifies over all types and values", "anchors": ["src/encode/*.rs", "derive/src/jbytes/encode.rs"]}
{"id": "C49", "title": "Decoding never panics on untrusted input", "statement": "Decoding arbitrary bytes with any derived type returns a value or an error; it never panics.", "quantifier": "every type definition and every input", "why_tests_cant": "all inputs and types", "anchors": ["src/decode/*.rs", "derive/src/jbytes/decode.rs", "src/buf_traits.rs"]}
{"id": "C50", "title": "Decoding stays inside the input", "statement": "After a successful or failed decode of a type without offset modifiers, the position is between the starting position and the end of the data, and the data is unchanged.", "quantifier": "every type definition and every input", "why_tests_cant": "all inputs and types", "anchors": ["src/decode/*.rs", "derive/src/jbytes/decode.rs"]}
{"id": "C51", "title": "Decoding depends only on the bytes consumed", "statement": "If decoding succeeds, replacing or extending the bytes after the final position does not change the result (for types that do not look ahead to the end of input).", "quantifier": "every type definition, input and replacement suffix", "why_tests_cant": "quantifies over all suffixes", "anchors": ["src/decode/*.rs", "derive/src/jbytes/decode.rs"]}
{"id": "C52", "title": "Encodings are unambiguous", "statement": "Two different values of the same type (under the round-trip conditions) never have encodings one of which is a prefix of the other.", "quantifier": "every pair of values", "why_tests_cant": "pairs of unbounded values", "anchors": ["src/encode/*.rs", "src/decode/*.rs"]}
{"id": "C53", "title": "encode and decode of the crate root are inverse", "statement": "For every value whose codec round trips, jbytes::encode returns a fresh buffer holding exactly the wire image, and jbytes::decode of those bytes (also followed by bytes the codec tolerates) returns the value. encode fails exactly when the encoder fails, with the same error; decode of any input returns a value or an error.", "quantifier": "every codec, derived struct and value; every input", "why_tests_cant": "unbounded values, types and inputs", "anchors": ["src/lib.rs:153-313", "src/buffer.rs", "src/bytes.rs"]}
{"id": "C54", "title": "Values written one after the other are read back one after the other", "statement": "Encoding values of any types one after the other into a buffer with any contents and decoding the same types in that order from where the first began returns the values and ends where the last one ends. The buffer returned by encode is positioned at its end: it must be reset (or turned into Bytes) before it is decoded.", "quantifier": "every list of codecs and values, every earlier contents and following bytes", "why_tests_cant": "unbounded lists of types and values", "anchors": ["src/encode/mod.rs:47-86", "src/decode/mod.rs:51-104", "src/buffer.rs:46-120"]}
{"id": "C55", "title": "Option fields come back", "statement": "Some(v) is encoded exactly as v and None as nothing; decoding returns Some(v) for the first and None for the second, wherever v itself would round trip and whatever follows.", "quantifier": "every element type, value, modifiers and following data", "why_tests_cant": "whether None comes back depends on the bytes that follow it, which are arbitrary", "anchors": ["src/decode/impls_option.rs:8", "src/encode/impls_option.rs"]}
{"id": "C56", "title": "Variables reach the nested types that ask for them", "statement": "A variable cached with variable_name is visible under get_variable_name, with the value assigned last, in every type nested in a later field, when decoding and when encoding; a name that was not assigned is 0; other names and other types are not affected.", "quantifier": "every struct definition, values, names, data", "why_tests_cant": "quantifies over all struct definitions; the test covers one type at nesting depth one", "anchors": ["derive/src/jbytes/decode.rs:83", "derive/src/jbytes/derive_struct.rs:174", "derive/src/jbytes/derive_enum.rs:95"]}
{"id": "C57", "title": "Reach of container modifiers", "statement": "The byte order of a derived struct or enum applies to all of its own data (every field without a byteorder of its own, and the tag of an enum) and to nothing else: a type is coded the same way whatever the container modifiers around it.", "quantifier": "every struct and enum definition, data and surroundings", "why_tests_cant": "quantifies over all definitions and surroundings", "anchors": ["derive/src/jbytes/attribute.rs:36", "derive/src/jbytes/derive_enum.rs:273", "derive/src/jbytes/derive_enum.rs:495"]}
{"id":"C58","title":"hex_string::encode and hex_string::decode are inverse on text","statement":"For every byte string d, hex_string::decode(hex_string::encode(d)) succeeds, and it returns d itself exactly when d is UTF-8 text. For every text s, hex_string::decode(s) fails exactly when s has odd length or contains a character that is not a hexadecimal digit; when the bytes denoted by s are UTF-8 text t, decode returns t and encode(t) is s up to the case of the letters.","quantifier":"all byte strings d, all texts s","why_tests_cant":"the tests check two strings; the claim is about every byte string, including those that are not UTF-8 and go through from_utf8_lossy","anchors":["src/types/hex_string.rs:161","src/types/hex_string.rs:223","src/types/hex_string.rs:237"]}
{"id":"C59","title":"The text of a NetAddress determines the address and its kind","statement":"For every NetAddress a (IPv4, IPv6, MAC or usize), a.to_string().parse::<NetAddress>() returns a: same kind and same octets. No two addresses have the same text. A text is read as a number exactly when it is a decimal numeral (optionally with a plus sign) below 2^64, as an IPv6 address exactly when it contains a colon and Ipv6Addr accepts it, as a MAC address exactly when it contains a colon, Ipv6Addr refuses it and MacAddress accepts it, as an IPv4 address exactly when it contains a dot, no colon, and Ipv4Addr accepts it.","quantifier":"all 2^32 + 2^128 + 2^48 + 2^64 addresses, all texts","why_tests_cant":"MAC and IPv6 texts share an alphabet, so the order of attempts matters for every text; only a proof covers the space of addresses","anchors":["src/types/net_address.rs:84","src/types/net_address.rs:113"]}
{"id":"C60","title":"NetAddress predicates agree with the octets","statement":"is_broadcast holds exactly for 255.255.255.255 and ff:ff:ff:ff:ff:ff. is_multicast holds exactly for IPv4 addresses whose first octet is 224..=239, IPv6 addresses whose first octet is 255, and MAC addresses whose first octet is odd.","quantifier":"all addresses","why_tests_cant":"the address space cannot be enumerated","anchors":["src/types/net_address.rs:55","src/types/net_address.rs:65"]}
{"id":"C61","title":"Encoding never panics","statement":"For every type built from the codecs of the crate and derived structs and enums, nested without bound, with any modifiers, and every value of it whose byte strings and texts fit in memory, encode at any position inside any buffer returns Ok or Err: it comes to an end and does not panic, as long as the buffer does not outgrow the address space.","quantifier":"all type definitions (nested without bound), all values, all modifiers, all buffers and positions","why_tests_cant":"tests encode a handful of types; the claim ranges over every type definition and every expression in a modifier, including those whose value comes from other fields","anchors":["derive/src/jbytes/encode.rs","src/encode/*.rs"]}
{"id":"C62","title":"What is encoded does not depend on the buffer or the position","statement":"If encoding a value succeeds at one position of one buffer, then there are bytes w, depending only on the value and its modifiers, such that at every position inside every buffer (with room for w in the address space) encode succeeds with the same count, overwrites exactly the window of length |w| at the position with w, extends the buffer as needed, changes nothing before or after the window, and moves the position by |w|. A value that cannot be encoded into an empty buffer cannot be encoded anywhere. (Modifiers offset and bits, which refer to the bytes before the position, are excluded, except bits on the first member of a word.)","quantifier":"all encodable types (nested without bound), all values, all buffers and positions","why_tests_cant":"tests always encode into an empty buffer; the claim relates runs in two arbitrary buffers","anchors":["derive/src/jbytes/encode.rs","src/encode/*.rs"]}
{"id":"C63","title":"Encoding what was decoded gives back the consumed bytes","statement":"For every type, if decode succeeds at some position of some input and moves the position by n, then encoding the decoded value with the same modifiers appends exactly those n bytes of the input. In particular encode(decode(input)) is the prefix of the input that was read, and no two byte strings are read in full as the same value.","quantifier":"all type definitions (nested without bound), all inputs, positions and modifiers","why_tests_cant":"round-trip tests start from values or from inputs the author thought of; the claim starts from arbitrary bytes and every type definition, so it shows there is no second encoding of any value","anchors":["derive/src/jbytes/decode.rs","derive/src/jbytes/encode.rs","src/decode/*.rs","src/encode/*.rs"]}
{"id": "C64", "title": "Recursive types decode every input in bounded stack, and round trip", "statement": "For types that contain themselves (through Vec, sets or maps; also mutually), decoding every input ends with a value or an error, calls itself at most once per remaining byte plus one deep, stays inside the buffer and depends only on the bytes it consumes; encoding appends bytes that depend only on the value and reports their number, without panic; encoding what was decoded gives back the consumed bytes, and a tree of any shape and height is decoded to itself from what it was encoded to.", "quantifier": "all recursive type definitions, all inputs, all values of any nesting depth", "why_tests_cant": "tests nest a few levels deep; the claim is about unbounded nesting and about all recursive definitions, and non-termination cannot be observed by a test", "anchors": ["derive/src/jbytes/decode.rs", "derive/src/jbytes/encode.rs", "derive/src/jbytes/derive_struct.rs", "derive/src/jbytes/derive_enum.rs", "src/decode/impls_vec.rs"]}
{"id": "C65", "title": "Numbers in attributes mean what they mean in Rust", "statement": "A modifier that takes a number accepts a decimal numeral or a 0x numeral, quoted or not, and means its value; every other text is kept unchanged as a Rust expression, so that no text that is not a number is taken for one.", "quantifier": "all literals, of any length", "why_tests_cant": "tests use a few small numbers; the claim fixes the meaning of every literal", "anchors": ["derive/src/jbytes/parse.rs"]}
{"id": "C66", "title": "String literals in attributes mean what they mean in Rust", "statement": "The text of an expression or byte string in an attribute is the text that the string literal denotes, with all escapes of Rust resolved; a literal that is not a string is taken as it is.", "quantifier": "all string literals", "why_tests_cant": "tests contain no literal with a backslash escape; there are infinitely many literals", "anchors": ["derive/src/jbytes/parse.rs"]}
{"id": "C67", "title": "Modifiers of a field: order, aliases and attributes do not matter", "statement": "Each modifier sets exactly what its name (or alias) says and nothing else; the order of modifiers and the attributes of other macros do not matter; an unknown modifier is an error wherever it stands; modifiers spread over several #[jbytes(..)] attributes all apply.", "quantifier": "all lists of modifiers and attributes", "why_tests_cant": "there are more combinations and orders of 40 modifiers than can be compiled one by one", "anchors": ["derive/src/jbytes/attribute.rs", "derive/src/jbytes/parse.rs"]}
{"id": "C68", "title": "Variable names in a list are the names written", "statement": "variable_name=\"a, b\" stores the values of a and b under the names a and b, and get_variable_name=\"a, b\" looks them up under these names.", "quantifier": "all lists of names", "why_tests_cant": "tests use one spelling of the list; spaces and any number of names are covered by the claim", "anchors": ["derive/src/jbytes/parse.rs", "derive/src/jbytes/derive_struct.rs"]}
{"id": "C69", "title": "Getters return the field of their name", "statement": "The getter of a field x is get_x (also for r#x); for an enum get_x returns the marked field x of the present variant and None when it has none; every marked field can be had through its getter.", "quantifier": "all struct and enum definitions with named fields, all values", "why_tests_cant": "the name of a getter depends on the text of the field name, so any finite sample of names misses the ones that are mangled", "anchors": ["crates/jget-rs/derive/src/jget/derive_struct.rs", "crates/jget-rs/derive/src/jget/derive_enum.rs"]}
{"id": "C70", "title": "The wire format of a type", "statement": "Every type built from the codecs of the crate and from derived structs and enums, nested to any depth, has a wire format: a value that has an image in it is encoded as exactly these bytes, and decoding these bytes, wherever they stand, returns the value and consumes exactly them. A value has one image, and no bytes begin with the images of two values. The same holds for recursive types.", "quantifier": "all types built from the codecs and derives (attributes included), all values with an image, all preceding and following bytes", "why_tests_cant": "the types form an infinite family with attributes that interact; a test fixes one type and some values", "anchors": ["src/lib.rs", "src/decode", "src/encode", "src/types", "derive/src/jbytes/derive_struct.rs", "derive/src/jbytes/derive_enum.rs"]}
{"id": "C71", "title": "Writing through any buffer implementation", "statement": "A write method of BufWrite or BufWriteMut, over any implementation whose required methods do what they are documented to do, either puts exactly the documented bytes at the position, keeps everything else and returns their number, or (when the implementation refuses to grow) returns PushFail and changes nothing. After any history of writes, the bytes before the position are those that were there and then the bytes of the successful writes in order. The methods of Buffer are these.", "quantifier": "all implementations, all states, all write methods and histories of them", "why_tests_cant": "the traits are open: users write their own buffers, of which there are none in the crate to test", "anchors": ["src/buf_mut_traits.rs: BufWriteMut", "src/buf_traits.rs: BufWrite", "src/buffer.rs: BufWrite for Buffer"]}
{"id": "C72", "title": "serde round trip", "statement": "A MacAddress, NetAddress or HexString that was serialized with serde is deserialized to the same value; a hex string is serialized as its lower case digits.", "quantifier": "all values, all deserializers", "why_tests_cant": "tests use one format, which lends its strings; and the values cannot be enumerated", "anchors": ["src/types/mac_address.rs", "src/types/net_address.rs", "src/types/hex_string.rs", "src/types/hex_bytes.rs"]}
{"id": "C73", "title": "Defaults of types deriving Jdefault", "statement": "Default::default() of a struct deriving Jdefault gives every field the default written in its attributes and every other field the default of its type; a default written on the struct gives the constructor's arguments. Of an enum it gives the one variant that is marked, with the defaults of its fields or made from the marked value. A type whose fields all have a default gets one.", "quantifier": "all structs and enums, all attributes on types, variants and fields, all field types", "why_tests_cant": "types, attributes and their order form an infinite family; the tests use one attribute per field and path types", "anchors": ["crates/jdefault-rs/src/jdefault/attribute.rs", "crates/jdefault-rs/src/jdefault/derive_struct.rs", "crates/jdefault-rs/src/jdefault/derive_enum.rs"]}
{"id": "C74", "title": "from_str fields", "statement": "A field with from_str has the value that its type parses from the text which the field's modifiers frame; a text without a value is the error Fail behind it. Encoding writes the text of the value in the same framing and nothing else, so a value that its type parses back is decoded to itself.", "quantifier": "all types, field modifiers, values, data and positions", "why_tests_cant": "quantifies over all types with FromStr and all modifiers; the tests only decode", "anchors": ["derive/src/jbytes/decode.rs: generate_decode_body", "derive/src/jbytes/encode.rs: generate_encode_body"]}
{"id": "C75", "title": "Getters have the stated names and types and give the numbers of the field", "statement": "A list w1:T1, w2:T2, ... in get or get_option declares exactly the getters get_x it names, in order, where w is x, get_x() or a path that ends in one of them; the return type is T, under get_option Option<T>; the getter gives the same numbers as what it reads, and None exactly when an Option field is None. An enum's getter gives the value for the variants that ask for it and None for all others. get_default declares get_x of type Option<T>.", "quantifier": "all names, types, lists with any white space, fields, values, enums and variants", "why_tests_cant": "the conversions are chosen by the text of types and the tests use empty vectors and zeros; lists, paths and types combine without bound", "anchors": ["crates/jget-rs/derive/src/jget/attribute.rs: parse_value_string_list", "crates/jget-rs/derive/src/jget/derive_struct.rs: get_function_name, get_return_type_string, get_code_string, generate_struct_body, generate_create_get_default", "crates/jget-rs/derive/src/jget/derive_enum.rs: generate_create_get_function"]}
{"id": "C76", "title": "The tags of an enum are the numbers written", "statement": "An enum of unit variants with #[repr(uN)] is written as the Rust discriminant of its variant in N/8 bytes in the byte order that applies, is read back from these bytes, and no other number is read. A variant with branch_range a..=b (a..b) accepts the numbers of this range and no others. This holds for every way to write the integers and for every repr that Rust accepts.", "quantifier": "all reprs, lists of variants, discriminants, contexts, numbers and texts of literals", "why_tests_cant": "goes from the text of the type to the bytes for all numbers up to 2^64 and all lists of variants", "anchors": ["derive/src/jbytes/attribute.rs: ContainerAttributes::parse", "derive/src/jbytes/derive_enum.rs: EnumVariantIterator::next, generate_decode, generate_encode"]}
{"id": "C77", "title": "Expressions in attributes mean the same in both directions", "statement": "An expression in a modifier (length, count, try_count, branch, bits, byte_count, byte_count_outside, offset, byteorder) that the generated decoder accepts is accepted by the generated encoder, and on the same fields it gives the same number in both. This holds on fields of structs, on named and unnamed fields of variants, and on variants.", "quantifier": "all expressions built from names, field accesses, literals, + - *, dereferences, casts and parentheses, of any size; all records of fields and values; all places and modifiers", "why_tests_cant": "quantifies over all expressions and all values of the fields; a test fixes one expression, and expressions that one direction rejects cannot be put into a test that compiles", "anchors": ["derive/src/jbytes/parse.rs: AttrValue::to_code, to_code2, to_byteorder", "derive/src/jbytes/attribute.rs: FieldAttributes::to_code", "derive/src/jbytes/encode.rs: generate_encode_body2", "derive/src/jbytes/decode.rs: generate_decode_body2", "derive/src/jbytes/derive_struct.rs", "derive/src/jbytes/derive_enum.rs"]}
{"id": "C78", "title": "Decoding an array or a vector handles the memory of its elements properly", "statement": "Decoding [T; N] or Vec<T> never does anything undefined. If all elements decode they are returned in order and no destructor runs; if an element fails or panics the failure is passed on and, when T has a destructor, it has run exactly once on each element that had been decoded.", "quantifier": "all element types and decoders (also those that fail or panic), all N and counts, all inputs", "why_tests_cant": "undefined behaviour need not show; the tests decode arrays of integers only, and a leak or a double drop has no effect a test asserts on", "anchors": ["src/decode/impls_array.rs: decode_inner (both traits)", "src/decode/impls_vec.rs: decode_inner"]}
{"id": "C79", "title": "Numbers are read inside the slice", "statement": "take_X and untake_X of the scalar types read SIZE bytes through a raw pointer made from the slice that take_bytes or untake_bytes returned; this never reads outside the slice and gives the number of exactly these bytes. This holds for Bytes, Buffer, &[u8] and Cursor, and for every reader that keeps the provided take_bytes, in every state.", "quantifier": "all scalar types, byte orders, reader states (position inside, at or past the end of the data), and implementations of the required methods", "why_tests_cant": "a read outside the slice usually returns a neighbouring byte without any sign; the states and implementations are unbounded", "anchors": ["src/buf_mut_traits.rs: macro_take_bytes, macro_untake_bytes, take_bytes, untake_bytes", "src/buf_traits.rs: take_bytes, untake_bytes", "src/impls.rs: take_bytes"]}
{"id": "C80", "title": "The bytes of a struct are those its text says", "statement": "A derived struct with named fields is encoded as the images of its fields one after the other, each under the modifiers written on it (byteorder, length, count, try_count, byte_count, byte_count_outside, bits, branch, key, split, linend, loop_skip_starts, remaining, offset, full; as numbers, byte strings or expressions over the earlier fields and the variables of get_variable_name; of two for the same thing the later counts) and on the struct, and decoding these bytes gives the fields back. With the other modifiers of a field (untake, skip, skip_encode, skip_decode, if_expr, value_encode, value_decode, check_value, from_str, variable_name, with_decode, with_encode, with, with_args, default) the bytes written and the values read are still exactly those the text says: a skipped field has no bytes and its default, a peeked field reads the bytes of the fields after it and writes none, a field parsed from a text is written as the text and then once more as itself, and variables reach the types of later fields only. A codec named on the type with with_decode/with_encode, or else with, is the one that is used.", "quantifier": "all structs, lists of modifiers, spellings of the literals, field types whose codecs round trip under the stated modifiers, values, surrounding modifiers and following bytes", "why_tests_cant": "the tests fix some dozens of structs; the combinations of modifiers, spellings, repetitions and values are unbounded", "anchors": ["derive/src/jbytes/attribute.rs: ContainerAttributes, FieldAttributes", "derive/src/jbytes/parse.rs", "derive/src/jbytes/derive_struct.rs: generate_byte_decode, generate_byte_encode", "derive/src/jbytes/derive_enum.rs"]}
{"id": "C81", "title": "The bytes of an enum are those its text says", "statement": "A value of a derived enum is encoded as the tag of its variant followed by the images of its fields under the modifiers written on them (as in C80). The tag is what the text says: the number of the variant (its discriminant, its branch_value, the end of its branch_range, or one more than the variant before) in as many bytes as byte_count or repr states; or its byte string under branch_take_bytes and branch_starts_with; or nothing under branch, byte_count_disable and branch_starts_with_untake. Decoding takes the first variant that stands for the tag – number, byte string, range, bits, or default – and fails with InvalidByteLength (or Fail, for branch_starts_with) if there is none. What a variant says for its fields – a gap, a byte order, a length – holds for those of them that say nothing.", "quantifier": "all enums, modifiers of the enum, of its variants and fields in any spelling, tags, values, surrounding modifiers and following bytes", "why_tests_cant": "the tests fix some dozens of enums; the combinations of ways to mark a variant, numbers, widths, orders and inputs are unbounded", "anchors": ["derive/src/jbytes/derive_enum.rs: generate_byte_decode_body, generate_byte_decode_body2, generate_byte_encode_body, EnumVariantIterator", "derive/src/jbytes/attribute.rs: ContainerAttributes, FieldAttributes", "derive/src/jbytes/parse.rs"]}
{"id": "C82", "title": "An error can be told from its text", "statement": "The text of an error ends in its position in decimal after a space, and two errors with the same text have the same position, the same kind (with the same number for an invalid position) and, for an invalid value, the same text of the value.", "quantifier": "all errors, positions and texts of values", "why_tests_cant": "texts of values are arbitrary and may themselves look like the end of a message", "anchors": ["src/errors.rs: Display for Error", "src/errors.rs: ErrorKind"]}
{"id": "C83", "title": "What the fields are called does not matter", "statement": "The functions derived for a type do what its modifiers say, whatever names its fields have: renaming the fields consistently (in the declaration and in the expressions of its modifiers) changes neither the values that are decoded nor the bytes that are encoded nor whether the derived code compiles.", "quantifier": "all declarations, names of fields and variables, modifiers, inputs and surrounding modifiers", "why_tests_cant": "the tests use a few dozen harmless names; the generated code has locals of its own, and whether a name collides with them shows only for those names in certain combinations with modifiers", "anchors": ["derive/src/jbytes/decode.rs: generate_decode_body", "derive/src/jbytes/encode.rs: generate_encode_body", "derive/src/jbytes/derive_struct.rs: generate_decode_struct_body, generate_byte_decode_body, generate_byte_encode", "derive/src/jbytes/attribute.rs: to_code"]}
{"id": "C84", "title": "Derived code compiles", "statement": "If the derive macros take a declaration (every attribute is known and well-formed, every type has the codec that is asked for) the code they emit is accepted by the compiler: every local it reads is in scope with the right type, no immutable local is assigned to, and the text of types stands only where it may.", "quantifier": "all declarations of structs and enums and their modifiers", "why_tests_cant": "the tests contain only declarations that compile; which combinations of shape, type and modifiers give ill-formed code is not seen by running anything", "anchors": ["derive/src/jbytes/derive_struct.rs: generate_decode_return, generate_decode_struct_body, get_field_type", "derive/src/jbytes/derive_enum.rs: generate_byte_decode_body2, generate_byte_encode_body", "derive/src/jbytes/decode.rs", "derive/src/jbytes/encode.rs"]}
{"id": "C85", "title": "The type of a field is written back as it was", "statement": "The text the macros write for the type of a field is read by the compiler as the type that was declared.", "quantifier": "all types, as lists of tokens", "why_tests_cant": "the types in the tests are a few fixed ones, none of them with a path", "anchors": ["derive/src/jbytes/derive_struct.rs: get_field_type"]}
{"id": "C86", "title": "Deriving works whatever the generic parameters of the type", "statement": "For every list of generic parameters a type can be declared with, the header of each derived implementation matches the declaration of the trait: the decoders and encoders are implemented for the type with its parameters, the borrowing decoder for a lifetime that is the one of the reader, and no parameter of the method has the name of one of the type.", "quantifier": "all lists of lifetimes, types and constants with any bounds and defaults, with and without a comma at the end; all derives", "why_tests_cant": "a type whose derive does not compile cannot be put into a test; the tests have no parameters or one lifetime", "anchors": ["derive/src/lib.rs: derive_borrow_decode", "derive/src/jbytes/derive_struct.rs: generate_borrow_decode, generate_byte_decode, generate_byte_encode", "derive/src/jbytes/derive_enum.rs: generate_borrow_decode"]}
{"id": "C87", "title": "Variables can be used in expressions in both directions", "statement": "On a type with get_variable_name, an expression in a modifier that uses fields and those variables, and that the generated decoder accepts, is accepted by the generated encoder; with the same fields and the same values of the variables it gives the same number.", "quantifier": "all expressions of C77 with any names; all sets of variables with any names and values; all fields; all modifiers with numbers", "why_tests_cant": "quantifies over names of variables and fields; which of them are confused depends on one being part of another", "anchors": ["derive/src/jbytes/attribute.rs: FieldAttributes::to_code", "derive/src/jbytes/derive_struct.rs: generate_byte_encode", "derive/src/jbytes/derive_enum.rs"]}
{"id": "C88", "title": "Arguments of user functions are the same in both directions", "statement": "The arguments in with_args that the generated decoder hands to the function of a field are accepted by the generated encoder, which hands over the same: the value in a struct, a reference to it in an enum.", "quantifier": "all lists of arguments, each any expression of C77; all fields and values", "why_tests_cant": "quantifies over all lists of arguments; lists one direction rejects cannot be put into a test that compiles", "anchors": ["derive/src/jbytes/encode.rs: generate_encode_body", "derive/src/jbytes/decode.rs: generate_decode_body"]}
{"id": "C89", "title": "Overflow checks make no difference", "statement": "Every read, peek, write, io call and integer codec, and the offset of a derived decoder, returns the same in a build with overflow checks (a user's debug build; the profile of the crate does not apply there) as in one without.", "quantifier": "all operations, arguments, modifiers, data and positions, also past the end", "why_tests_cant": "quantifies over all positions up to usize::MAX and all lengths; a test runs in one profile", "anchors": ["Cargo.toml: profile.dev", "src/buf_traits.rs: BufRead", "src/buffer.rs: resize, Read, Write, Seek", "src/encode/impls_int.rs: encode_inner", "derive/src/jbytes/decode.rs: generate_decode_body2"]}
{"id": "C90", "title": "A buffer stands for its contents", "statement": "Buffers with the same contents are equal, however they came about; bytes written to a buffer made from a vector stand behind those of the vector; and what was written to a buffer can be read from it, from the reader to_bytes gives and after reset_position, and is what the buffer lends as a slice.", "quantifier": "all histories of writes, all vectors, all lengths read", "why_tests_cant": "quantifies over all histories of writes and all contents; the tests compare slices, not buffers", "anchors": ["src/buffer.rs: Buffer, From, Deref, AsRef, ToBytes", "src/buf_traits.rs: reset_position, push, take_bytes", "src/lib.rs: encode"]}
{"id": "C91", "title": "Truncated input is refused", "statement": "For a type that does not adapt to where the data ends (no Option, try_count, remaining, loop_skip_starts, branch_starts_with, untake or offset, widths of at most 8 bytes), if decoding an input succeeds after q bytes, then every input with the same first q bytes decodes to the same value, and every input cut off before q is refused with an error: it gives no value, no panic and no endless loop. In particular no proper part of an encoding decodes.", "quantifier": "all such types built from the types of the crate and derived structs and enums, all inputs, all places to cut", "why_tests_cant": "quantifies over all type definitions, all inputs and every truncation point", "anchors": ["src/lib.rs: decode", "src/buf_traits.rs: take_bytes", "src/decode", "derive/src/jbytes/decode.rs"]}
{"id": "C92", "title": "An error says where", "statement": "The position in an error is the position at which the reader, or the buffer written to, stands when the error is returned; for types without offset it lies between the position decoding began at and the end of the input.", "quantifier": "all reads, peeks and writes, all decoders and encoders built from the types of the crate and derived structs and enums (recursive ones too), all modifiers, inputs and positions", "why_tests_cant": "quantifies over all type definitions, all inputs and all ways to fail", "anchors": ["src/errors.rs: make_error", "src/buf_traits.rs: BufRead, BufWrite", "src/decode", "src/encode", "derive/src/jbytes/decode.rs", "derive/src/jbytes/derive_enum.rs"]}
{"id": "C93", "title": "Any implementation of the buffer traits will do", "statement": "Take any type that implements the required methods of BufRead (or BufWrite) in the way these are meant: it keeps its data, stands where it is told to, moves over as many bytes as it is told to, writes where it stands and makes room when asked. Then decoding from it returns the same value or the same error, and stops at the same position, as decoding from a Bytes with the same data; and encoding to it returns the same and produces the same bytes as encoding to a Buffer.", "quantifier": "all implementations, all types built from the types of the crate and derived structs and enums (recursive ones too), all modifiers but offset, all inputs, values and positions", "why_tests_cant": "quantifies over all implementations of a public trait, which exist outside of the crate, and over all type definitions", "anchors": ["src/buf_traits.rs: BufRead, BufWrite", "src/decode", "src/encode", "derive/src/jbytes/decode.rs", "derive/src/jbytes/encode.rs", "derive/src/jbytes/derive_enum.rs"]}
{"id": "C94", "title": "The word size of the platform makes no difference", "statement": "A program compiled for a 32-bit platform and the same program compiled for a 64-bit platform understand one another: from the same bytes (that fit in the memory of both) they decode the same values or report the same errors, and stop at the same position; from the same value they encode the same bytes.", "quantifier": "all type definitions, all inputs and values, all positions, all read and write methods", "why_tests_cant": "the test suite runs on one platform; the difference shows only on inputs with large numbers or for types whose size depends on the platform", "anchors": ["src/decode/impls_int.rs:69,76", "src/encode/impls_int.rs:73,80", "src/decode/impls_bytes.rs:28", "src/decode/mod.rs:120", "derive/src/jbytes/derive_enum.rs:279-295", "derive/src/jbytes/parse.rs:93-115", "src/buffer.rs:184-200", "src/buf_traits.rs:11-1993"]}
{"id": "C95", "title": "Expressions in attributes have their arithmetic value", "statement": "The number that an expression in a modifier (length, count, try_count, branch, bits, byte_count, byte_count_outside, offset, byteorder) gives is the value of that expression in ordinary arithmetic on the values of the fields it names, with the usual precedence and grouping, when decoding and when encoding; in particular a length or count that fits in a usize is passed on unchanged.", "quantifier": "all expressions built from fields, fields of fields, literals, + - *, casts and parentheses, of any size; all values of the fields; all places and modifiers", "why_tests_cant": "quantifies over all expressions and all values; a test fixes one expression and small values, while sums that exceed the type of the fields need large ones", "anchors": ["derive/src/jbytes/parse.rs:80-135", "derive/src/jbytes/decode.rs:10-12", "derive/src/jbytes/encode.rs:13-15", "Cargo.toml:38-40"]}
{"id": "C96", "title": "A short input does not decode to a huge value", "statement": "The size of a decoded value is bounded by a multiple of the number of bytes consumed that depends only on the type: counting one part for every number, address, list, struct, enum and option and one for every byte of a byte string or text, a value decoded from c bytes has at most A*c + C parts, where A and C are read off the definition of the type. So whoever chooses the input cannot make the decoder allocate more than in proportion to what was sent, whatever counts and lengths the input claims.", "quantifier": "all type definitions (nested, recursive), all inputs, all positions, all counts and lengths found in the input", "why_tests_cant": "the worst case is over all inputs and all nestings; the failing inputs need counts near the largest ones and would exhaust the memory of a test", "anchors": ["src/decode/impls_vec.rs:11-48", "src/decode/impls_array.rs:9-26", "src/decode/impls_hashset.rs:14-41", "src/decode/impls_hashmap.rs:14-74", "src/decode/impls_bytes.rs:10-59", "src/decode/impls_int.rs:15-50", "src/decode/impls_mark.rs:9-18", "derive/src/jbytes/decode.rs:18-81", "derive/src/jbytes/derive_struct.rs:80-195", "derive/src/jbytes/derive_enum.rs:85-355"]}
{"id": "C97", "title": "Packet headers have the layout of their standards", "statement": "The types for IPv4, TCP, UDP and Ethernet headers in the example programs implement the layouts of RFC 791, RFC 9293, RFC 768 and IEEE 802.3: encoding a header gives its bytes as laid out there, with sub-byte parts packed into shared words and lengths in words converted to bytes; decoding succeeds exactly if the input begins with a header of the standard, gives its parts under their names and stops behind it; any other input is refused with InvalidByteLength.", "quantifier": "all headers, all inputs, all positions, all modifiers from outside, any data behind the header", "why_tests_cant": "the examples assert one header each; the claim is over all values of all parts, all options, all truncations, and all malformed length fields", "anchors": ["examples/packet_ipv4_example.rs:9-29", "examples/packet_tcp_example.rs:6-21", "examples/packet_ethernet_example.rs:8-13", "examples/packet_parse_example.rs:49-106", "derive/src/jbytes/decode.rs:18-81", "derive/src/jbytes/encode.rs:22-60"]}
{"id": "C98", "title": "A packet taken apart is put together again", "statement": "Decoding a packet with the type Layer of the example program finds the network layer by the Ethernet type and the transport layer by the IPv4 protocol, takes the rest as payload, and loses nothing: whatever the input, if it decodes then the whole of it is consumed and the value encodes to exactly that input; it decodes if and only if it is a sequence of headers that fit together, followed by anything; otherwise the error is InvalidByteLength, and it never panics.", "quantifier": "all byte sequences, all packets, all positions, all modifiers from outside", "why_tests_cant": "the example asserts it for one packet; the claim is over all inputs, including truncated and malformed ones and every type and protocol number", "anchors": ["examples/packet_parse_example.rs:7-106", "derive/src/jbytes/derive_enum.rs:85-355", "derive/src/jbytes/derive_enum.rs:367-567", "derive/src/jbytes/derive_struct.rs:164-261"]}
{"id": "C99", "title": "Lack of bytes and malformed bytes are told apart", "statement": "A program that decodes a message arriving in pieces can tell from the error what to do. An error other than InvalidByteLength is final: whatever bytes follow, decoding fails with the same error at the same position. A message cut off anywhere fails with InvalidByteLength. So, as a stream grows, the answer is InvalidByteLength for a while and from then on always the same value or the same error; and InvalidByteLength is not returned for bytes that are wrong whatever follows.", "quantifier": "all types the derive macros can build that do not adapt to the end of the data (recursive ones too), all inputs, all positions, all ways to cut a stream", "why_tests_cant": "the tests decode complete inputs; the claim relates the results on all prefixes of all inputs, for an infinite family of types", "anchors": ["src/errors.rs:44-58", "src/buf_traits.rs:79-121", "src/buf_traits.rs:692-755", "src/decode/impls_bytes.rs:9-59", "src/decode/impls_string.rs:11-57", "derive/src/jbytes/decode.rs:18-81", "derive/src/jbytes/derive_enum.rs:301-352"]}
{"id": "C100", "title": "An HTTP request is read up to its body", "statement": "With the type Http of the example program, a request is written as its request line and one line per header, and a request of the protocol is read back exactly, leaving the blank line and whatever body follows unread. Whatever the input, the value that is read encodes to exactly the bytes consumed; an input that is not a request, or that breaks off in a header line, is refused with an error and never panics.", "quantifier": "all byte sequences, all requests with any number of headers, all bodies, all positions, all modifiers from outside", "why_tests_cant": "the example asserts one request without a body; the claim is over all inputs, including bodies that look like headers and truncated lines", "anchors": ["examples/packet_http_example_2.rs:6-39", "src/decode/impls_vec.rs:11-48", "src/decode/mod.rs:107-132", "src/decode/impls_bytes.rs:9-59", "src/decode/impls_string.rs:11-57", "src/encode/impls_vec.rs:11-33"]}
{"id": "C101", "title": "Headers in a map, and methods parsed to an enum", "statement": "The HTTP type that keeps its headers in a HashMap, and the one whose method is an enum read with from_str, accept the same requests as the plain type of C100. In the map every header line of the input is an entry; the parsed method is one of the nine methods, any other text is refused with an error, and it is written once, as its name. What is read is written as the same text, up to the order of the map.", "quantifier": "all byte sequences, all requests, all orders of iteration of the map, all positions, every FromStr/to_string pair of the method", "why_tests_cant": "the examples print one request, and do not compare the map version because its order varies; the claim is over all inputs and all orders", "anchors": ["examples/packet_http_example.rs:12-23", "examples/packet_http_example_3.rs:9-44", "src/decode/impls_hashmap.rs:14-74", "src/encode/impls_hashmap.rs:11-57", "derive/src/jbytes/decode.rs:35-50", "derive/src/jbytes/encode.rs:39-57", "derive/src/jbytes/derive_enum.rs:495-520"]}
{"id": "C102", "title": "Types that hold the same data are interchangeable on the wire", "statement": "Declaring the same data in another way changes neither which bytes are read, refused or left, nor which are written: consecutive fields gathered into a struct of their own (with the same container modifiers), a type wrapped in a struct of one field, an array and the tuple of as many values, a Vec with count = n and the array of n, a HashMap<K, V> and a Vec<(K, V)>, a HashSet<T> and a Vec<T>. The values correspond: those of the group are gathered, the map has the last value of each key, the set has each value once.", "quantifier": "all field lists before, in and behind the group with all their modifiers and expressions, all element codecs (also user-written ones), all sizes, all inputs, positions and values", "why_tests_cant": "the claim compares two programs for all declarations and all inputs; a test compares one pair of declarations on one message", "anchors": ["derive/src/jbytes/derive_struct.rs:80-103", "derive/src/jbytes/derive_struct.rs:164-261", "src/decode/impls_array.rs:9-26", "src/decode/impls_tuple.rs:14-24", "src/decode/impls_vec.rs:11-48", "src/decode/impls_hashset.rs:14-41", "src/decode/impls_hashmap.rs:14-74", "src/encode/impls_array.rs:8-20", "src/encode/impls_tuple.rs:15-58", "src/encode/impls_vec.rs:11-33", "src/encode/impls_hashmap.rs:11-57"]}
{"id": "C103", "title": "Types can grow at their end", "statement": "Adding fields at the end of a struct, or variants at the end of an enum, keeps old and new programs able to talk. The older program reads a newer message: it gives the values of its own fields and stops before the added ones; what it refuses the newer program refuses in the same way. The newer program reads an older message: the added fields are absent (None for Option, empty for try_count and remaining). A value of an older variant is read and written by the newer enum exactly as by the older one.", "quantifier": "all structs and enums, all lists of added fields and variants with all their modifiers, all messages, positions and contexts", "why_tests_cant": "a test fixes one pair of versions and one message; the claim is over all pairs of declarations and all inputs of both programs", "anchors": ["derive/src/jbytes/derive_struct.rs:80-103", "derive/src/jbytes/derive_struct.rs:164-261", "derive/src/jbytes/derive_enum.rs:85-355", "derive/src/jbytes/derive_enum.rs:571-624", "src/decode/impls_option.rs:8-31", "src/decode/impls_vec.rs:11-48", "src/decode/impls_bytes.rs:10-48"]}
{"id": "C104", "title": "A byte of the input is in one place of the value", "statement": "The byte strings and texts of a decoded value are windows of the input, inside the part decode consumed. Taken together in the order of the fields and elements, they are a subsequence of the consumed bytes: nothing is made up, nothing is taken from before or behind the value, and no byte is given to two fields. With addresses, numbers and maps, whose bytes may be reordered, no byte value occurs more often in the value than in the consumed bytes.", "quantifier": "all types built from byte strings, texts, numbers, addresses, collections, options, tuples, derived structs and enums (also recursive ones), all modifiers but untake, offset and custom decoders, all inputs and positions", "why_tests_cant": "a test sees that some value came out right; that no two borrowed parts of any value of any type overlap is a claim about all compositions and all inputs", "anchors": ["src/decode/impls_bytes.rs:10-48", "src/decode/impls_string.rs:11-57", "src/decode/impls_vec.rs:11-48", "src/decode/impls_hashmap.rs:14-74", "src/decode/impls_ipaddress.rs:11-74", "src/decode/impls_macaddress.rs:11-19", "derive/src/jbytes/decode.rs:8-106"]}
{"id": "C105", "title": "The two sides of the socket example understand each other", "statement": "The message type of the socket example writes every message as its version, the kind, the address, the number of bytes and the bytes, and reads exactly the inputs that begin with such a message. A message that one read yields whole is understood despite the zeros behind it in the buffer. However the network delivers a message, the receiver understands it or refuses it, and never takes a part of it for another message; the server answers every request of the protocol and the client understands the answer.", "quantifier": "all messages with any bytes, all results of read (any part of what was sent, anything behind it), all buffer sizes", "why_tests_cant": "the example sends one request over the loopback device, where read yields it whole; the other deliveries and the other requests are never run", "anchors": ["examples/socket_example.rs:8-39", "examples/socket_example.rs:42-82", "examples/socket_example.rs:98-116", "derive/src/jbytes/derive_enum.rs:85-355", "derive/src/jbytes/derive_enum.rs:571-624", "src/lib.rs:201-210", "src/lib.rs:306-313"]}
{"id": "C106", "title": "How a stream is cut into pieces makes no difference", "statement": "A receiver that keeps the bytes that have arrived, decodes messages from the front as long as that succeeds and drops what each consumed, gets the same messages and is left with the same bytes however the stream is cut into pieces. Messages encoded one after the other are received, all of them and in order, as soon as their last byte has arrived; a message that has arrived in part yields nothing and is kept.", "quantifier": "all types, recursive ones too, all sequences of messages, all ways to cut the stream into pieces (also empty ones), all lengths", "why_tests_cant": "the tests decode complete inputs; there are exponentially many ways to cut a stream, and infinitely many types and streams", "anchors": ["src/lib.rs:153-156", "src/lib.rs:201-210", "src/buf_traits.rs:79-121", "src/bytes.rs:31-68", "examples/socket_example.rs:42-46", "derive/src/jbytes/decode.rs:8-106"]}
{"id": "C107", "title": "The introductory examples read and write the messages they describe", "statement": "The types of enum_example, simple_example and simple_example2 write a message as the layout that their attributes and comments describe: a body is preceded by nothing or by its tag, a text by its length, a number by the higher byte. An input is read as a message exactly if it begins with the layout of one, the number in front of the body being one of those which the variant stands for (the one written there, the next one, a range, or any other), the stated number of bytes being there and the text being UTF-8; otherwise an error is reported. What was encoded is decoded to the same value, and what was decoded is encoded to the same bytes.", "quantifier": "all values of the three types (all numbers, addresses, byte strings and texts of any length), all inputs, all positions", "why_tests_cant": "each example runs one to four literal messages; there are infinitely many values, and none of the programs tries an inconsistent one or an unknown tag", "anchors": ["examples/enum_example.rs:6-35", "examples/simple_example.rs:6-29", "examples/simple_example2.rs:6-26", "derive/src/jbytes/derive_enum.rs:85-355", "derive/src/jbytes/derive_enum.rs:571-624", "src/decode/impls_vec.rs:11-48", "src/decode/impls_array.rs:9-26", "src/decode/impls_string.rs:11-57"]}
{"id": "C108", "title": "Default values and unknown tags", "statement": "Jdefault and the codec macros read the same attributes. The variant that Jdefault makes the default value and the one that stands for unknown tags can be chosen separately; where both are given by branch_default they are the same, so that a message under a tag no other variant has is read as a value of the default's variant. In examples/default_value_example.rs the default value is the one its attributes give, it is sent as 03 31 32 33 03 0a, and it is read back. Every input is read as a message exactly if it begins with the layout of one (text with a length of one byte, UTF-8; tag; fields). What was encoded is decoded to the same value, and what was decoded is encoded to the same bytes.", "quantifier": "all enums with all attributes, all tags and inputs; all values of the example's types, all positions", "why_tests_cant": "the example runs one value; the agreement of two macros concerns all declarations, and no test looks at an unknown tag together with a default value", "anchors": ["examples/default_value_example.rs:7-52", "crates/jdefault-rs/src/jdefault/attribute.rs:89-134", "crates/jdefault-rs/src/jdefault/derive_enum.rs:25-68", "crates/jdefault-rs/src/jdefault/derive_struct.rs:14-97", "derive/src/jbytes/attribute.rs:228-315", "derive/src/jbytes/derive_enum.rs:305-345"]}
{"id": "C109", "title": "Owning and borrowing types have the same format", "statement": "Whether a type is read and written through ByteDecode/ByteEncode or through BorrowByteDecode/BorrowByteEncode makes no difference to the format: vectors, arrays, tuples, options, sets, maps and texts give the same value or error, stop at the same position and write the same bytes. A field may be changed between the owning type (String, HexString, Vec<u8>) and the borrowing one (&str, HexBytes, &[u8]) under the same modifiers without a change of the messages.", "quantifier": "all element types (any decoder or encoder), all modifiers, all values, all inputs and positions", "why_tests_cant": "the tests use the owning types almost throughout, each with a few literal inputs; that two implementations agree concerns all element types, modifiers and inputs", "anchors": ["src/decode/impls_vec.rs:51-87", "src/decode/impls_array.rs:29-46", "src/decode/impls_tuple.rs:29-43", "src/decode/impls_option.rs:34-57", "src/decode/impls_hashset.rs:44-71", "src/decode/impls_hashmap.rs:77-137", "src/decode/impls_string.rs:28-57", "src/decode/impls_bytes.rs:10-59", "src/encode/impls_vec.rs:36-59", "src/encode/impls_array.rs:23-35", "src/encode/impls_tuple.rs:30-44", "src/encode/impls_option.rs:21-31", "src/encode/impls_hashmap.rs:60-106", "src/encode/impls_bytes.rs:10-53"]}
{"id": "C110", "title": "The byte order changes only the order of bytes inside numbers", "statement": "Changing the declared byte order of a struct or enum changes nothing but the order of the bytes inside its numbers and addresses. Encoding a value gives the same result (count, error or panic) and the two images have the same length and differ only in that each number, address, length prefix, tag and word of bit fields is written backwards; text, terminators, keys, single bytes and fields with a byte order of their own stay the same. Decoding accepts an input in the one order exactly if it accepts it in the other after the numbers are turned round, with the same value.", "quantifier": "all types built from the crate's codecs and derived structs and enums (nested, with modifiers, with words of bit fields), all values, all inputs, positions and surroundings", "why_tests_cant": "the tests have single little-endian fields with literal inputs; that nothing but the order of the bytes changes is a relation between two runs, for all declarations and values", "anchors": ["src/modifiers.rs:65-79", "src/encode/impls_int.rs:15-54", "src/decode/impls_int.rs:15-50", "src/encode/impls_bytes.rs:10-53", "src/decode/impls_bytes.rs:10-59", "derive/src/jbytes/derive_struct.rs:164-261", "derive/src/jbytes/derive_enum.rs:199-202", "derive/src/jbytes/derive_enum.rs:469-554"]}
{"id": "C111", "title": "Types of fixed layout", "statement": "A type built from numbers, flags, addresses, byte strings and texts of a stated length, arrays, and lists, sets and maps of a stated count, and structs and enums of these (with skipped bytes, fields that are read without being consumed, words of bit fields, skipped fields), takes a number of bytes that can be computed from its declaration alone. If it has no checks, an input is decoded exactly if it has that many bytes, whatever they are; otherwise the error is about missing bytes. With checks, texts or tags, the outcome is an error or a value behind that many bytes. The value depends on these bytes only, wherever they stand. Each field of a struct stands at a distance from the beginning that does not depend on the input, can be decoded there by itself, and changes to bytes outside it do not change it. Every value is encoded to the same number of bytes, which can be decoded.", "quantifier": "all such declarations (nested to any depth), all inputs, positions and surroundings, all values", "why_tests_cant": "the tests decode literal inputs that are long enough; that the layout does not depend on the content is a statement about all inputs and declarations", "anchors": ["src/decode/impls_int.rs:15-50", "src/decode/impls_bytes.rs:10-59", "src/decode/impls_array.rs", "src/decode/impls_vec.rs", "derive/src/jbytes/decode.rs:1-81", "derive/src/jbytes/derive_struct.rs:164-261", "derive/src/jbytes/derive_enum.rs:199-297", "src/encode/impls_bytes.rs:10-53", "examples/packet_tcp_example.rs"]}
{"id": "C112", "title": "Decoding, encoding and decoding again gives the same value", "statement": "Whatever the decoder of a type returns, for any input it accepts, also one that the encoder would not have written (any non-zero byte for a true flag, bytes in front of a key, bits outside the masks, bytes jumped over by offset, any tag of a range), can be encoded; decoding the result returns the same value and consumes all of it, and encoding once more returns the same bytes. So what encode makes of decoded values is a normal form: two decoded values are equal exactly if their encodings are.", "quantifier": "all inputs and positions, all types built from the codecs of the crate and derived structs and enums (nested to any depth), all modifiers", "why_tests_cant": "the tests begin with values or with inputs in normal form; that every accepted input leads to a value that comes back is a statement about all inputs and declarations", "anchors": ["src/decode/impls_bool.rs", "src/decode/impls_bytes.rs:10-59", "src/encode/impls_bytes.rs:10-53", "src/decode/impls_int.rs:15-50", "src/encode/impls_int.rs", "derive/src/jbytes/decode.rs:1-81", "derive/src/jbytes/encode.rs:1-81", "derive/src/jbytes/derive_struct.rs:164-261", "derive/src/jbytes/derive_enum.rs:85-521"]}
{"id": "C113", "title": "A field of an encoded message can be overwritten where it stands", "statement": "After a struct is encoded, each field has its own stretch of bytes, which begins where encoding the fields before it alone ends. Moving the buffer to its beginning and encoding another value of the field there, of the same encoded length, leaves the buffer holding exactly what encoding the struct with the new value would have given, provided no modifier of a later field looks at this field. So a checksum or a counter can be put in after the rest is written. The same holds for the elements of a list.", "quantifier": "all struct declarations over the codecs of the crate (nested to any depth), all modifiers and expressions, all fields, all old and new values, all buffers and positions", "why_tests_cant": "it relates two encodings of different values and a write into the middle of the first one, for every declaration and value; tests encode a message once, from the beginning, into an empty buffer", "anchors": ["derive/src/jbytes/derive_struct.rs:164-261", "derive/src/jbytes/encode.rs:1-81", "derive/src/jbytes/attribute.rs", "src/encode/impls_int.rs:15-54", "src/encode/impls_vec.rs", "src/buffer.rs"]}
{"id": "C114", "title": "Big-endian encodings are ordered like the values", "statement": "Comparing two encodings byte by byte (as memcmp and ordered stores do) gives the same answer as comparing the values: numbers by size, byte strings and lists by length and then element by element, structs and tuples field by field in the order of declaration, enums by variant and then by the fields. Different values never have encodings of which one is the beginning of the other, and bytes behind the encodings decide only if the values are equal. So encodings can serve as keys.", "quantifier": "all types built from unsigned numbers, flags, addresses, byte strings, lists, arrays, tuples, structs and enums (nested to any depth) with their modifiers, all pairs of values, all that may follow", "why_tests_cant": "it is about the order of the encodings of all pairs of values, including carries between bytes and fields of different lengths; the tests look at single encodings", "anchors": ["src/encode/impls_int.rs:15-54", "src/encode/impls_bytes.rs:10-53", "src/encode/impls_vec.rs:11-33", "src/encode/impls_array.rs", "src/encode/impls_tuple.rs", "src/encode/impls_ipaddress.rs", "src/encode/impls_macaddress.rs", "derive/src/jbytes/derive_struct.rs:198-261", "derive/src/jbytes/derive_enum.rs:367-567"]}
{"id": "C115", "title": "An encoded list can be extended where it stands", "statement": "A list, map, byte string or text at the end of a buffer, also as the last field of a message, is extended without encoding it again: the new elements are written behind it with their own encoder and the count (or length) in front is overwritten with the new number. The buffer then holds exactly what encoding the longer value from the start gives, and decodes to it. Under loop_skip_starts, count or try_count nothing has to be overwritten. The last elements are taken away the same way: overwrite the count and go back to where they begin. Reading n + m elements is reading n and then m elements, with the same result or error.", "quantifier": "all element types, all modifiers, all lists and additions, all buffers and positions, all fields before the list", "why_tests_cant": "it relates encodings of all lists and their extensions; a log of messages is extended any number of times", "anchors": ["src/encode/impls_vec.rs:11-33", "src/encode/impls_hashmap.rs:11-57", "src/encode/impls_bytes.rs:10-53", "src/encode/impls_array.rs:8-20", "src/encode/mod.rs:91-109", "src/decode/impls_array.rs:9-26", "derive/src/jbytes/derive_struct.rs:198-261"]}
