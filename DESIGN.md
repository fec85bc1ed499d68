# Formal model of jbytes: design

The model lives in `lean/Verif/` (Lean 4.33, a few Mathlib modules).  It is a hand transcription of the Rust source
at the pinned commit; nothing is executed.  This file says what is modelled, how each property is proved, what was
found, and what is trusted.

## 1. The model

* **State.** `Buf = {data : List UInt8, pos : Nat}` models `Bytes`, `Buffer` and `Cursor` (data plus a cell holding
  the position).  `usize` arithmetic on positions wraps modulo 2^64 (`wadd`, `wsub`): this is the release profile;
  with overflow checks the same places panic instead (`Checked.lean`, C89).
* **Outcomes.** `Out α = ok | err | panic | timeout`.  A Rust panic (slice index out of range, `unwrap` on `None`,
  capacity overflow, ...) is the explicit value `panic`.  `timeout` only comes from the fuel of the one `while` loop
  whose termination is not structural (`whileStarts`).
* **Monad.** `M α = Buf → Out α × Buf`.  The position survives an error, as it does through the Rust `Cell`.
* **Integers** are bit patterns: naturals below 2^(8·size), with an `IntKind` giving size and signedness; `toInt` and
  `ofInt` are the two's complement reading.  Floats are their bit patterns, `char` its scalar value, a string its
  UTF-8 bytes.
* **Generic code** (`Vec<T>`, `Option<T>`, tuples, maps, ...) is modelled by functions taking the element codec as an
  argument, as the Rust generics do; theorems about them quantify over *every* element codec, including user-written
  ones.
* **Derived code** (`derive/src/jbytes`): a struct is a `StructDef V` (container modifiers, list of `Field V`), an
  enum an `EnumDef V` (container modifiers, list of `Variant V`).  `V` is one Lean type for all field values (a sum
  type when the Rust types differ).  A field carries its modifiers (`FieldAttrs`), the codec of its type and its
  defaults.  A modifier that is an expression is a total function of the environment (`Env`: the earlier fields and
  the `get_variable_name` locals).  `decStruct`, `encStruct`, `decEnum`, `encEnum` are the generated function bodies.
* **All type definitions at once**: `Derivable L α d` (`Universe.lean`) says that `d` is the decoder of a type built
  from the codecs of the crate, its generic types and derived structs and enums, nested without bound, whose modifiers
  respect the limits `L`.  `Encodable flush α e` is the same for encoders.  C34 and C47 - C52 are proved by induction
  on these.  Recursive types: `decRec F depth` (`Recursive.lean`), where `F` defines the decoder from the decoders of
  the family and `depth` is the stack; exhausting it is the outcome `timeout`.

Modules.  Model: `Basic` (outcomes, monad), `Num` (positional values, casts), `Read`, `ReadOps`, `Write`, `WriteOps`,
`Search`, `IO`, `MutRead`, `MutWrite`, `Modifiers`, `CodecInt`, `CodecBytes`, `CodecSeq`, `CodecAddr`, `Text`, `Derive`,
`Top`, `NetText`, `Serde`, `Universe`, `Storable` (its universe of values), `Faithful` (types whose decoders lose nothing), `Recursive`,
`AttrText` (the text of attributes), `DeriveText` (the text of types and enums), `AttrExpr` (expressions in attributes), `Default` (the `Jdefault` derive), `Getter` (the `Jget` derive), `ErrorText` (the texts of errors),
`Lent` (the borrowing codecs of containers), `Memory` (the `unsafe` code on explicit memory), `GenCode`, `GenEncode`, `GenEnum`, `GenHeader` (the generated functions as statements, and their headers), `Checked` (arithmetic with overflow checks), `IoCodecs` (the codecs over an arbitrary implementation of the buffer traits), `AnyIo` (an implementation given by its required methods), `Word32` (the buffer methods on a 32-bit platform), `Packets`, `Http`, `Socket`, `Commands`, `DefaultExample` (the packet types, HTTP requests, socket messages, commands and default values of the example programs), `Same` (two ways to declare the same fields).  Vocabulary of the statements: `RoundTrip` (`Appends`, `Reads`), `Utf8`, `Format` (the
wire format as a relation), and small specifications at the head of the `Prop*` files.  Helpers: `*Lemmas`, `Tame`, `Safe`, `Good`, `Local`, `Emits`, `EncLogic`, `Placed`, `Stands`, `Extend`, `Final`, `IoSim`, `Size`, `Held`, `Layout`, `LayoutWrite`, `Renew`, `RenewFields`, `RenewLoop`, `Patch`, `Sorting`, `Renewable` (types whose values come back).  Property theorems, with
concrete instances (`example`) beside them: `Prop*`.

### The vocabulary of the statements

* `Appends e w`: at the end of any buffer (below the size limit) `e` succeeds, appends exactly the bytes `w` and
  returns `w.length`.  `Writes e w`: the same without the count (bit-fields and padding are miscounted, see C47).
* `Reads d v w suf`: on any data `pre ++ w ++ suf`, at position `pre.length`, `d` returns `v` and stops exactly after
  `w`.
* `Runs m b as b'`: the elements `as` decode one after the other from state `b`, ending in `b'`.
* `Inside`, `Consumes`, `Restores`: the decoder stays inside the data / moves forward / does not move when it fails.
* `IsValueOf o bytes v`: `v` is the number with these base-256 digits (not defined through `from_be_bytes`).
* `framingOf`, `Framing.Fits`, `CountFits`, `statedCount`, `TagWire`, `HasNumber`, `Accepts`, `HexText`, `Groups`,
  `FileSpec`, ...: specifications local to a property file, written without the functions of the model.

## 2. Trusted base

* Lean's kernel, and at most the axioms `propext`, `Classical.choice`, `Quot.sound`.  No axioms of our own, no `sorry`,
  no `native_decide`, no `bv_decide`.
* That the transcription is faithful: every definition cites the file and lines it models.  As a check on it, the
  assertions of the crate's own tests are restated about the model and evaluated: `Vectors` (unit tests in `src`),
  `VectorsDerive` (`tests`, `examples`, `crates/jdefault-rs/tests`) and `VectorsGet` (`crates/jget-rs/tests`).  All of them hold.  These are tests of the model,
  not proofs; no property rests on them.
* Rust core/std used as specified: `from_be_bytes`/`to_be_bytes`, slice indexing and its panics, `Vec::resize`,
  `str::from_utf8` (an acceptor transcribed from the Unicode table and *proved* to accept exactly the encodings of
  lists of Unicode scalar values), `u8::from_str_radix`, `str::split`, `{:02x}`, `HashMap`/`HashSet` (finite map, set;
  iteration order arbitrary), wrapping arithmetic of the release profile, 64-bit `usize` (C94 compares it with 32 bits).
* External crates used as specified: `memchr::memmem::find` (leftmost occurrence; the recursive definition is proved
  to be that), `AhoCorasick` with default match kind (the match that ends first, the longest of those; proved of the
  scan in the model).  `ByteOrder::parse_int` (derived by `jkcenum`) accepts 0 and 1, `ByteOrder::parse` the names and
  aliases of src/byteorder.rs.  `virtue`'s `get_attribute` gives the first attribute that parses to a value.
* Texts of `Ipv4Addr`/`Ipv6Addr` (`IpText.Lawful`) and `String::from_utf8_lossy` (`IsLossy`): hypotheses of C58, C59.
* `BorrowByteDecode`/`BorrowByteEncode`: those of containers and texts are modelled a second time, with loops that change a collection
  (`Lent`), and proved equal to the others (C109).  The remaining bodies are the same text up to the trait name, or delegate; one
  model stands for both.
* What rustc makes of the generated statements (`GenCode`, `GenEncode`, `GenEnum`, for C83 - C85): scopes, shadowing, mutability and types of locals,
  and that a type whose tokens are spelled apart is another type or none.
* How `syn` prints generic parameters and `virtue` repeats them on an impl (`GenHeader`, for C86).
* What rustc makes of the expressions in the packet types of the examples (`header_length << 2`, `header_length - 20`,
  `layer12.r#type`, ...; `Packets`, for C97 and C98): arithmetic in the type of the field, wrapping.  What it makes of the byte
  string literals in the HTTP examples (`Http`).  `FromStr` and `to_string` of `HttpMethodEnum`, which `jkcenum` derives, are a parameter
  of C101 (`MethodText`; its law is a hypothesis where needed).
* Allocation never fails below `isize::MAX` bytes (`isizeMax` appears as a hypothesis on sizes).

Not modelled: `no_std` variants, `Debug` of errors, `Debug`/`Display` of buffers, the splitting of an attribute
into tags and properties (`virtue`'s `parse_tagged_attribute`; what the macros make of these is modelled in `AttrText`,
what rustc makes of the expressions in them is the parameter `Interp`), lifetimes and borrowing, and drops other than
those of C78.  Of the code that `Jget` writes, how the value is borrowed and cloned; its `.into()` is a parameter that keeps
numbers.

Definitions rustc rejects (so nothing but C84 is claimed about them): a tuple struct whose first field has no attribute; an
enum under `branch_starts_with` whose first variant has no word; container modifiers together with `variable_name`;
a container-level `with_encode` on an enum.

## 3. Where the code does not meet the property

For each of these the negation is proved with a concrete witness (`*_violated`), and the strongest true part
(`*_partial`), often with an exact description of what happens.  For C07, C16, C21, C23, C45, C66 and C69 the cases in
which the code meets the property are given as an equivalence (`*_iff`, module `PropExact`).

| | finding |
|---|---|
| C02, C49 | a little-endian n-byte read with n > 8 panics; `take_bytes(0)` past the end panics |
| C04 | `take_le_uint(n)`, n > 8, panics instead of returning an error |
| C07, C21 | negative numbers in fewer bytes than the type come back positive |
| C13 | an empty `push` past the end panics |
| C16 | `Seek::seek` returns the old position |
| C17 | the searches on `&[u8]` index the slice after re-slicing it: wrong bytes, or a panic |
| C18 | `BufReadMut::take_byteorder_uint` has no width and reads 8 bytes |
| C23 | `bits` masks containing the sign bit sign-fill |
| C25 | a bit-field value is not masked when encoding, so it can change its neighbours |
| C27 | lengths and counts are cut to the width of the prefix without an error |
| C30 | `count` with `byte_count_outside`: a count is written that is never read |
| C32 | `None` and a stopped `try_count` list leave the position wherever the failed element left it |
| C34 | an empty `loop_skip_starts` with zero-size elements, or an offset that wraps, loops for ever |
| C40 | MAC text with fewer than six groups, or with a plus sign, is accepted |
| C45 | eight kinds of derived enums that do not round trip (listed at `C45_violated`) |
| C46 | `fattr_new` of a variant or of an earlier field leaks into fields without modifiers |
| C47 | `offset` padding is not counted, every bit-field member counts a whole word |
| C49 | also: `byteorder` expressions other than 0 and 1; an offset past the end followed by an empty read |
| C51 | an `offset` that wraps around moves back, so bytes after the final position have been read |
| C55 | `None` followed by readable bytes comes back as `Some`; `Some` under `length = 0` comes back as `None` |
| C56 | variables are not assigned when encoding (always 0), nor passed on below the first level |
| C57 | the tag of an enum ignores the byte order of the enum |
| C61 | `byteorder` expressions other than 0 and 1; little-endian `u128` members sharing a word |
| C63 | `bool`, maps, default and range variants, `offset`, `key`, unused bits of a word, options of types that move the position when they fail |
| C64 | a constant `count` on a `Vec` of the type itself never ends; nested input needs stack in proportion to its length |
| C65 | `0x0x10` and `0x+10` are taken for 16 |
| C66 | escapes other than `\"` are not resolved |
| C67 | a second `#[jbytes(..)]` on a field is ignored, as is `#[jbytes(..)]` on a type after `#[repr(..)]` |
| C68 | `variable_name = "a, b"` stores under `" b"` |
| C69 | the getter of `target_id` is `get_tarid`; of `id` and `get_id` in an enum only the first can be had |
| C72 | `Deserialize` of `MacAddress`, `NetAddress`, `HexString` asks for a `&str`: it fails on every string that cannot be borrowed (readers, owned values) |
| C73 | `#[jbytes(..)]` before `#[jd(default=..)]` makes the default vanish; fields of types like `Vec<u8>` and `[u8; 4]` (and tuples with names) give code that rustc rejects, as do two marked variants; a discriminant such as `0b1` makes the macro panic |
| C74 | a `from_str` field is written twice, as text and then as itself, unless `untake` is given |
| C75 | a type that is stated with a comma is torn apart; the getter of `r#type` reads `self.type`; `get = "list:Vec<u8>"` on a `Vec<u16>` drops the high bytes; a path to a vector is converted as if it led to a number |
| C76 | `#[repr(C)]` and `#[repr(i16)]` are rejected; the macro panics on the discriminants `0b11`, `1_000`, `3u8`, `b'a'` and on ranges with hexadecimal numbers |
| C77 | in a tuple struct `length = "1 + 1"` is 2 when decoding and field 1 plus 1 when encoding; `2 * n`, `(n)`, `a + b` are accepted in a struct that only decodes and rejected by rustc when it also encodes, as are names in `length` on unnamed fields of variants and in `byteorder` on fields of variants; on a variant no expression is accepted |
| C78 | `[T; N]::decode_inner` assigns through `&mut T` to memory that is not initialised, which drops the old contents: undefined for every `T` with a destructor (`[String; 1]`, `[Vec<u8>; 4]`) as soon as the first element decodes |
| C81 | under `branch_starts_with` an enum whose first variant has no `branch_value`, or whose default is not last, gives an `else` without `if`, which rustc rejects (derive_enum.rs:163-190); so does an enum without variants (`Ok(Self {{}})`, 152-155 and 258-261); on a byte string with `..` in it (`b"a..b"`) the macro panics (602-608) |
| C83 | with a field `position: usize` a later `untake` gives it the position of the reader instead of its value, and `untake` on it sends the reader to its value; other names of locals (`input`, `cattr_new`, ...) give code that does not compile; in encoders a variable called `r_nbytes` is added to the count that is returned, and a converted field may not be called `buffer` or `r_nbytes`; in enums a field may not be called `cr_byte_count` |
| C84 | the decoder is not accepted for `struct S;`, for a tuple struct whose first field has no modifiers, for `skip` on types like `Vec<u8>`, for `variable_name` in a type with modifiers; the encoder is not accepted for `value_encode` in a tuple struct (`let 0 = &self.0;`); for an enum without variants neither function is, with `from_str` on a field of a variant or `with_encode` on the enum the encoder is not |
| C85 | `std::net::Ipv4Addr` is written back as `std : : net : : Ipv4Addr`, so no field may have a type with a path |
| C86 | the borrowing decoder uses the text of the generic parameters as the argument of the trait and, without its brackets, as the lifetime of the reader: `struct S<'a, T>`, `struct S<T>`, `struct S<'a: 'static>` and `struct S<'a,>` do not compile; neither does a decoder for `struct S<I>` or an encoder for `struct S<B>`, whose parameter has the name of that of the method |
| C87 | in the encoder of a struct a variable of `get_variable_name` can only stand alone in a `length`, or behind a field: `count = "k"` and `length = "k + 1"` become `self.k`; and `length = "id"` becomes the local `id` if `id` is part of the name of a variable (`width`), which does not compile; with a field and a variable of one name the decoder takes the field, the encoder the variable |
| C88 | `with_args = "a, b"` becomes `self.a, b` in the encoder of a struct, `with_args = "2"` becomes `self.2` |
| C89 | a `bits` field without `bits_start` at the beginning of a buffer is an error, in a debug build of the user a panic; the same for a seek beyond `isize::MAX`; `push` at position `usize::MAX` throws the data away and returns `PushFail`, in a debug build it panics; an `offset` taken from the input can move backwards, in a debug build it panics |
| C90 | `==` on `Buffer` compares the position too: what `encode` returns is never equal to `Buffer::from` of the same bytes (unless empty); writing to a `Buffer::from(v)` overwrites `v` from its start; a buffer just written to is at its end and has to be reset before it can be read |
| C94 | `usize` and `isize` fields have four bytes on a 32-bit platform and eight on a 64-bit one (so has the number in a `NetAddress`); lengths, counts and tags read from more than four bytes, modifier expressions and seek offsets lose their upper half on a 32-bit platform (`as usize`, `as isize`) without an error: an input with length `2^32 + 1` is refused by the one and accepted by the other |
| C95 | `length = "n + 60000"` on a `u16` field `n` of 5600 is 64, not 65600: the sum is computed in the type of the fields (and wraps around, or panics where the crate that derives is built with overflow checks); a field of a signed type with value -1 gives a length of `2^64 - 1` |
| C96 | `struct Samples { width: u8, #[length = "width", byte_count_outside = 4] xs: Vec<u32> }` decodes the five bytes `0, n` to `n` elements for any `n < 2^32` (16 GB): an element of length 0 consumes nothing; likewise lists of `Mark`/`PhantomData`; structs with an `untake` field of `remaining` bytes in a list grow with the square of the input |
| C97 | the IPv4 and TCP types of the examples accept headers that claim fewer than five words: `header_length - 20` wraps around (a panic with overflow checks), so 236 + 4·ihl, or 65516 + 4·offset, bytes behind the header are taken as options; `Ethernet`/`EthernetHeader` call the first address `smac`, but in a frame the destination is first |
| C99 | a field whose terminator (`linend`) has not arrived yet gives `Fail`, the error for malformed bytes (`ErrorKind::SubSequence` exists but is never returned), and so does the first part of a word of a `branch_starts_with` enum; an enum tag that no variant has gives `InvalidByteLength`, the error for lack of bytes, whatever follows, so a reader that waits for more waits for ever |
| C100 | `Http` of packet_http_example_2.rs takes a body in which `: ` and later CRLF occur for header lines (with the blank line as part of the first key); of a last header line that breaks off, and of a body with `: `, the bytes up to the `: ` are consumed and lost without an error; header lines after the 20th are not read; method and URI may contain CRLF |
| C101 | `Http` of packet_http_example.rs keeps only the last of several header lines with the same key (`Cookie`), so what is written is not what was read; header lines after the 10th are not read |
| C102 | grouping fields into a struct changes the bytes when the outer struct has a container byte order (it does not reach the group); modifiers of a field do not reach the type inside a wrapper struct; `count` on a `Vec<Vec<T>>` is also the count of the inner vectors, so it is not `[Vec<T>; n]`; `loop_skip_starts` has no effect on a `HashSet` |
| C103 | an added `Option` field takes the first byte of whatever follows an older message; where the last field has `remaining`, the older program takes the added fields for a part of it and the newer program cannot read its own messages; a variant behind a `branch_default` is written but read back as the default; a variant put in the middle changes the tags of those behind it |
| C104 | a field with `untake`, or behind an `offset` near `usize::MAX` (the position wraps round), holds the same bytes as its neighbour |
| C105 | the socket example decodes its whole zeroed buffer, so a part of a message is taken for another message; the write request is never answered (`b"\x00\01\x02"` is four bytes: `\01` is not an octal escape), a response of more than six bytes does not fit the buffer of the client |
| C106 | types that adapt to where the data ends: a pair with an optional second number, cut behind the first, is received as two messages |
| C107 | enum_example: `cmd` and the body are independent, a read command under the number of `Start` is written without an error and read as `Start`; simple_example2: an unknown body is read under every tag but 1 and 2 and always written under 3 |
| C108 | an enum with `branch_default` on one variant and `default` on another one is accepted by the codec macros, but `Jdefault` takes both as marks and writes two expressions, so it has no default value; default_value_example: an unknown body is read under every tag but 1 and 2 and always written under 3 |
| C109 | under the same modifiers `Vec<u8>` and `&[u8]` are different formats: `length`, `count` and `remaining` always mean something else, `byte_count = k` and `byte_count_outside = k` agree only for `k = 1` (`C109_same_iff`, `C109_violated`) |
| C110 | a `u128` with `length = 9` is refused with an error in a big-endian declaration and is a panic, for every input, in a little-endian one (`C110_decode_violated`); a list with `loop_skip_starts` before a number: the little-endian message of a value is not read, because the number begins like an item (`C110_lookahead_violated`) |
| C111 | `#[jbytes(length = 4)]` on a byte string or text asks for four bytes of the input, but not of the value: a value of two bytes is written as two bytes, so the size of what is written is not fixed, and reading it back is refused or takes bytes of the next field (`C111_violated`) |
| C112 | A `branch_default` variant is written with the number after that of the variant before it, even if that number is one of an earlier variant, and a range without its end is written as its end: what was decoded comes back as another variant or is refused.  A last `untake` field is decoded but not written, so its own encoding is refused.  A default variant under `branch_starts_with` gets its name in front, which is then data (`C112_violated`).  An `Option` is `None` for an input it consumes but does not write, so the next field is read as its content; a flag behind a `loop_skip_starts` list may be rewritten as the marker (`C112_follow_violated`).  A map with `count` and a repeated key comes back one entry short (`C112_map_violated`) |
| C113 | the members of a word of bit fields cannot be overwritten one by one: the first one clears the others, and a later one is or-ed with its old value (`C113_violated`); `flags` also counts the byte of the word twice in the number it returns (C47) |
| C114 | with little-endian numbers, negative numbers (they come behind the positive ones), byte strings with a terminator (`A` behind `A\t` because CR is above tab), or enums whose numbers do not ascend or do not fit their tag, encodings are not ordered like the values (`C114_violated`) |
| C115 | a list that gets its 256th element (or does not fit its count otherwise) is read as an empty or shorter one, without an error; bytes added behind a terminator do not belong to the byte string (`C115_violated`) |

## 4. Properties

One entry for each property of `properties.jsonl`; the theorem names are in `MANIFEST.json`.

* **C01** `takeBytes` in every state with the position inside; direct computation with the wrapping arithmetic.
* **C02** every reading method is a constructor of `ReadOp`; `C02_panic_iff` is the exact set of panics, by cases on
  the method.  Violated; the part inside the data and for widths the type holds is proved.
* **C03** `takeScalar` against `IsValueOf` (digits), for all 14 scalar types, bool and char.
* **C04** `takeUint`, `takeU24` likewise; widths over 8 exactly.  Violated for little-endian.
* **C05** every method with an `untake_` twin is a `PeekOp`; equality of outcomes in every state, panics included.
* **C06** `pushScalar` then `takeScalar` at any position of any buffer; positional inverses by induction on the width.
* **C07** `pushUint`/`takeUint`: result modulo 256^n; signed part via `toInt`/`ofInt`.  Violated for negative numbers.
* **C08** `toLE = reverse toBE`, `leVal = beVal reverse`, lifted to every method.
* **C09** `findSub` against "splits as line ++ needle ++ rest with the shortest line".
* **C10** `acFind` against "occurrence that ends first, longest among those"; then the three line ends.
* **C11** by cases over `ReadOp`.
* **C12** `push` byte by byte (`data'[i]?`), gap, length, position, count.
* **C13** every writing method is a `WriteOp` with a separately specified `payload`; exact set of panics.
* **C14** induction on the history.
* **C15** refinement of an abstract file (`FileSpec`), induction on the history; offsets in the `isize` range.  Writes beyond it
  panic (`C15_write_too_far`).
* **C16** as C15; the returned number is the old position.
* **C17**, **C18** the provided methods of `BufReadMut` over an arbitrary implementation, instantiated with `&[u8]` and
  `Cursor`; simulation resp. equality for every method.  For the searches on slices, which fail, `C17_search_exact` and
  `C17_search_iff` give the answer in terms of that of `Bytes`.
* **C19** separate definition `effectiveOrder`; every codec that depends on the order.
* **C20** - **C23** `decInt`, `encInt` with `length`, `bits`; a mask is given as 2^t · odd.
* **C24**, **C25** any number of members: invariant of the word over the list of members, bit by bit.
* **C26** `framingOf` is the table of framings, `Framing.Fits` the condition for each; all combinations of modifiers.
* **C27** exact effect modulo 256^k for byte strings and lists, concrete map.
* **C28** `decStr` against `∃ text : List Char, v = utf8Of text`.
* **C29** over arbitrary element codecs, by induction on the list.
* **C30** `pushCount`/`getCount` over all modifiers.
* **C31**, **C32** over arbitrary element codecs; `Runs`.
* **C33**, **C34** the fuelled loop: a measure (bytes left) for termination; the fuel does not matter above it.
* **C35** induction over the runs.
* **C36** maps are lists with distinct keys; the iteration order is any permutation.
* **C37** - **C41** octets, numbers and text of addresses and hex strings; the accepted languages exactly.
* **C42** a struct decodes to `vs` iff there is a chain of states, one step for each field, whose modifiers see only
  the earlier fields; then one theorem for each modifier on what a step does.
* **C43** segments (one field, or one bit-field group) that round trip in their place; then one theorem for each kind of
  field showing that it is such a segment (members of bit-field groups may have value conversions and checks).  `C43_excluded_modifiers`: the modifiers for which this is impossible.
* **C44** numbers, patterns (`Accepts`) and tags specified apart from the code; first match.
* **C45**, **C46** see section 3.  C46: `InForce` (`PropLeak.lean`) says which modifiers are in force at each field;
  the exact theorems hold for every list of fields.
* **C47**, **C48** induction on `Encodable` with the invariant `Emits`.  Successful encodes; user-written codecs
  (`with_encode`) are excluded, they can do anything.  `PropPadding.lean`: with `offset`, the count is short by
  exactly `totalFillers`; `PropShared.lean`: with words of bit fields it is too large by exactly `sharedBytes`.
* **C49**, **C50**, **C34** induction on `Derivable` with the invariant `Good` (data unchanged, position inside and not
  moving back, no panic, no timeout with enough fuel).
* **C51** induction on `Derivable` with the invariant `Loc` (equal prefixes up to the final position give equal
  results).  `C51_lookahead` shows why the excluded modifiers are excluded.  `C51_extension` allows `offset`: the
  invariant `Ext` (appended bytes do not change a success) holds at every position, also past the end.
* **C52** from the round trips, and separately from C51.
* **C53** the functions of src/lib.rs over any codec; with C43 for derived structs and C49 for totality.
* **C54** `Stream`: a list of codecs, values and images; induction on it.
* **C55** over arbitrary element codecs, exact conditions in both directions.
* **C56** the cache against the list of assignments (`LastAssigned`), by induction on the fields; the round trip of the
  crate's test struct through the two-scope form of C43.
* **C57** equality of decoders and encoders under changed surroundings.
* **C58** - **C60** `NetText.lean`; std's IP texts and `from_utf8_lossy` are parameters with stated laws, each shown
  satisfiable; the decimal numerals are modelled and characterised.
* **C61** `Storable M starts α P e`: encoders with the set `P` of values whose byte strings have at most `M` bytes;
  induction with the invariant `Sound`.  `C48_kept_on_failure` comes from the same induction.
* **C62** one induction over all encodable types, generic in what is shown of them (`EncLogic`), with the invariant
  `Placed`: an encoder either fails in every buffer or writes the same window in every buffer.
* **C63** `Faithful A α d e`: decoder and encoder of a type none of whose parts accepts two encodings, under modifiers in
  `A`; induction with the invariant `Re` (`Reencode.lean`): what was consumed is what the encoder appends.
* **C64** `Guarded L Γ`: definitions in which each use of `Γ` stands after a byte; induction on the stack depth with the
  invariants of C49 (`Good`), C51 (`Local`), C47/C62, C61 and C63, the terminating part with the number of remaining
  bytes as measure.  `Among d` are the decoders of the family.  `C64_tree_roundtrip`: induction on the height.
* **C65** `RustNumber s n`: decimal or `0x` numeral with its positional value; `C65_number_exact` says exactly which texts
  are taken for numbers, by induction on the digits.
* **C66** `Escaped esc src v`: the literal `src` denotes `v` when `esc` are the escapes.
* **C67** tables of modifiers with what they set (`numberModifiers`, ...); the loop over items assigns, and the result is
  the last assignment to each field, from which order (`List.Perm`) follows for items with different targets.
* **C68** `joinComma`, `IsName`: splitting at commas is the inverse of joining.
* **C69** `PlainName`: nothing to remove; the arms of a getter are searched in order.
* **C70** `Format.lean` relates values and bytes without the codecs (`intRel`, `vecRel`, `FieldsWire`, `enumRel`, ...), with
  what follows as a third argument for the forms that depend on it; induction on `Format α d e R` (all types, nested
  without bound) from the round trips of C03 - C46; the uniqueness of images and values follows.
* **C71** the provided methods over an arbitrary `WriteImpl` and the laws of the required ones (`Lawful`, with a view of
  the state as memory and position); `Buffer` and memory of a fixed size are instances.
* **C72** serde as what the implementations see of it: a string to write, a value offered that is a string which can be
  borrowed, one which cannot, or neither; from C39, C41 and C59.
* **C73** `Default.lean`: attributes to `DText`, then the expression written for each field and variant (`none`: not
  accepted); the specification finds the default among all attributes as written (`States`, `Marks`), by induction over
  items, attributes, fields and variants.
* **C74** `parse` and `print` of the type are parameters; from C26 and C28.  The part that holds is used as one of the
  kinds of fields in C70.
* **C75** `Getter.lean`: literals to lists of getters, then name, return type and conversion of each, decided on the text
  of types as the macro does; run on values in which numbers, vectors and options are told apart.  `Names`,
  `EntryText`, `RetElem` and `FitsInt` are the specification; `.into()` is any function that keeps numbers (`Lossless`).
* **C76** `DeriveText.lean` goes from the text of attributes and discriminants to the `EnumDef` of C44–C46; `rustDiscs` are
  the discriminants as the Rust reference counts them, `UnitVariants` ties them to the text.  Induction over the variants,
  then C44 for the dispatch.
* **C77** `AttrExpr.lean`: the tokens that are emitted around an expression for each place, use and direction, and what rustc
  makes of them on a fragment (names, fields, literals, `+ - *`, dereference, casts, parentheses): a parser, checked by
  `parse_print`, and typed evaluation with references.  Agreement by simulation of the parser up to dereferences and
  `self.` (`rest_plain`, `eval_plain`); acceptance by substitution for names (`rest_subst`, `eval_subst`); rejection
  because what was read stays a part of the expression (`rest_none`).  It is what entitles `Interp` to have one meaning
  of an expression for both directions.
* **C78** `Memory.lean`: places that may be uninitialised and a list of what was dropped; assignment drops the old contents,
  `assume_init` needs all places, an early exit from the `MaybeUninit` drops nothing, one from the `Vec` drops its elements.
  `Run` (the runs of the element decoder) and `Careful` are the specification.  `C78_result` ties it to `decArray`.
* **C79** the read through the pointer is undefined outside the slice (`readArray`); the length of what `take_bytes` gives is
  computed in every state, with wrapping arithmetic (`wsub_window`, `wadd_window`).
* **C80** `Says`, `TypeSays`, `NumberSays`, `TextSays` read the text of modifiers without the parsers of the model; `Lays` puts
  the images of the fields side by side.  Induction over the items (`says_means`: the parsed record amounts to the column
  said), then over the fields into the segments of C43.  `C80_integers` leaves no codec open.  `C80_sheet` (`PropSheet`)
  has every modifier of a field: `SheetSays` adds the others to `Says`, `RowsWritten` and `RowsRead` say apart what is written and
  what is read (a struct with these need not come back).  Members of a word are written together (`RowsWritten.word`).
  `Row.inForce` is the leak of C46: in tuple structs a field without modifiers is read with those of the field before.
* **C81** `Mark`, `MarkSays`, `HeaderSays` read the text of variants and of the enum without the parsers of the model;
  `Mark.Takes` says which tags a variant stands for, `TagWritten` and `TagRead` which bytes carry the tag.  By induction over
  the variants into the `EnumDef` of C44/C45 (`Built`), then by their dispatch theorems.  `enumOf` is none for code that
  rustc does not accept (`EnumDef.accepted`), and `C81_derivable` gives the exact condition (`Suits`).  `PropEnumSheet`
  has the same with every modifier on the fields and on the variants (`C81_sheet_*`): the items of a variant fall into those
  that tell it (`AttrItem.tells`) and those for its fields, and the two do not meet (`assign_merged`).  Not in `MarkSays`: several
  of the markers at once.
* **C82** `ErrorText.lean` prints an error; the digits at the end are split off at the last character that is no digit, the
  kinds differ in their first letters, and decimal texts are unique.
* **C83, C84** `GenCode.lean` has the generated function as a list of statements over locals with names, what it does (`run`)
  and what rustc accepts (`types`, `accepted`).  `C83_struct_partial`: with names of their own the statements do what
  `Derive.lean` says, by induction over the fields with the locals in view (`Sees`); `C84_struct_iff`: by the same induction
  on types of locals.  `GenEncode.lean`, `C83_encode_partial`, `C84_encode_iff`: the same for encoders, where the fields are
  reached through `self`.  `GenEnum.lean`, `C83_enum_partial`, `C84_enum_iff`: decoders of enums, where each branch is proved
  like a struct.  `C83_enum_encode_partial`, `C84_enum_encode_iff`: encoders of enums, where the fields are locals that
  `value_encode` overwrites: later modifiers see the converted value, so the theorem is about variants in which none looks at
  one (`Unconverted`).  Simplification: the expressions of modifiers are functions of the environment, so that they are well
  typed (what is made of `*x`, `x` and `self.x` is C77) is not part of `types`.
* **C85** types as lists of tokens, of which rustc makes words, signs, `::` and `->`; induction over the tokens.
  `C85_text` (`PropTypeWords`): a lexer of its own (`tokens`) reads the text of a type (`typeText`) as those tokens.
* **C86** `GenHeader.lean` has the header as tokens; what the compiler asks of it is said from the declarations of the traits.
* **C87** the model of C77 with variables in scope (`PropExprVars.lean`), again by replacing names in expressions; `src` is the
  text of the expression, which the macro searches in the names of the variables.  Missing in `C87_variant_iff`: expressions
  longer than a name.
* **C88** the same for the arguments of `with_args` (`PropExprArgs.lean`).  Missing for variants: arguments that are not names.
* **C89** `Checked.lean` has the same functions with operators that panic on overflow.  Reading, peeking and decoding of integers
  agree everywhere; for the rest `PropChecked.lean` has the exact conditions.  The other codecs do no arithmetic on positions of
  their own.  Not included: the sums of byte counts that encoders return (bytes that are in memory).
  `PropCheckedAll.lean` lifts this to all types: `C89_decode` (no `offset`) and `C89_encode` (`bits` only on the first member of a
  word, from inside the buffer) are equalities, `C89_decode_offset` and `C89_encode_bits` say "the same or a panic"; every type
  of `Derivable`/`Storable` has a checked decoder/encoder (`C89_decoder_exists`, `C89_encoder_exists`).
* **C90** `PropBuffer.lean`: `C90_contents`: after every history of writes the slice, the reader of `to_bytes` and the buffer after
  `reset_position` show exactly what was written.  `C90_eq_iff`, `C90_from_iff`, `C90_encode_iff`: when buffers are equal;
  `C90_from_push_iff`: what a write to `Buffer::from(v)` leaves, which is appending only if one of both is empty;
  `C90_read_behind`: without a reset every read of at least one byte fails.  `C90_violated` has the witnesses.
* **C91** `PropTruncate.lean`, for all `Derivable` types within the limits of the statement.  `C91_truncated`: a decode that succeeded up to
  position `q` fails with an error on the same data cut off anywhere before `q` (a success would, by C51, also be the result on the
  whole data; totality is C49).  `C91_threshold`: for a stream of bytes there is one length from which on all parts decode, to the
  same value, and below which all are refused.  `C91_encoding`: no proper part of an encoding decodes.
* **C92** `PropErrorPos.lean`, with `Stands m` (if `m` fails, the error has the position the buffer is at) proved by induction over
  all methods, decoders and encoders in `Stands.lean`, without any limits.  `C92_inside`, `C92_top`: with C50, the position lies in
  the input.  `C92_struct`: also with user-written codecs that keep to it.
  `PropErrorPosMut.lean`: the same for implementations of `BufReadMut` (`C92_mut`), with `&[u8]` and `Cursor` as instances.
* **C93** `IoCodecs.lean` states every decoder and encoder again over a record `Io` of the methods of the two traits, and
  `AnyIo.lean` builds that record from the required methods with the provided bodies.  `Twin`/`EncTwin` (`IoSim.lean`) are the
  type definitions, each with its codec at the implementation and at `Bytes`/`Buffer`; `C93_decode`, `C93_recursive` and
  `C93_encode` compare the two, `C93_decoder_exists`, `C93_recursive_exists` and `C93_encoder_exists` say that all definitions
  of `Derivable`/`Storable` are among them, and `C93_bytes`, `C93_buffer`, `C93_own_exists` that for the implementation of the crate the new
  functions are the old ones.  Instance: a buffer kept as two lists around the position (`zipper`).  Left out: user-written
  codecs; `offset` (which can move behind the data, where implementations may differ); `bits` on later members of a word, in
  encoders; implementations that refuse to grow (C71 has those, for single writes).
* **C94** `Word32.lean` states the methods of the buffers with 32-bit arithmetic, casts and memory; the codecs over them are those
  of `IoCodecs` (as for C93).  `C94_read`, `C94_write`: the methods.  `C94_decode_partial`, `C94_encode_partial`: all type
  definitions without `usize`, `isize` and `NetAddress`, with widths of at most four bytes and without `offset` (decoding) and
  `bits` on later members of a word (encoding); an encoder may run out of memory on the smaller platform, which is a panic.
  The definitions have the same modifiers on both, which is so when the expressions are below `2^32` (`C94_modifiers`).
  Violated by the rest: `C94_usize_read`, `C94_usize_write` (for every value), `C94_length_iff` (exactly when),
  `C94_width_violated`, `C94_modifiers_violated`, `C94_seek_violated` with `C94_seek_partial`, `C94_net_violated`.
  `C94_usize_decode`, `C94_usize_encode`: `usize` there is `u32` here, with any modifiers.  `C94_int_encode`, `C94_int_iff`:
  integers with any modifiers, `bits` on later members of a word included, and exactly when they differ.
* **C95** on the model of C77 (`AttrExpr.lean`).  What an expression says is a grammar over its tokens with integers (`Says95` in
  `PropExprValue.lean`), without the parser and the evaluator of the model.  `C95_decode`, `C95_encode`, `C95_order`: the number
  is what it says, wrapped around in the type of the fields and then in `usize` (`isize` for byte orders), whatever wraps around
  on the way.  `C95_exact_partial`, `C95_iff`: when it is exact.  `C95_violated`.  The unary `*` is not in the grammar; that an
  expression is accepted is a hypothesis (C77 says which are).
* **C96** (`Size`, `PropLinear`) — the universe `Bounded Γ K P α d μ A C` follows the definition of a type and counts: `μ` the
  parts of a value, `A` the parts per consumed byte, `C` the parts besides, `P` the modifiers the decoder is given.  A list needs
  elements that consume a byte (or have nothing fixed), a struct or enum may pay for itself with a field or tag that consumes one.
  `C96_decode_partial` (any state), `C96_top_partial` (`jbytes::decode`), `C96_recursive_partial` (recursive families, any depth): by
  induction over the universe with the invariant `Costs`.  Not covered: `offset`, `untake`, user-written decoders, and elements that
  consume nothing, for which the bound is false: `C96_mark_violated`, `C96_width_violated`, `C96_untake_violated`.  Parts are
  counted, not bytes of memory; the capacity a `Vec` reserves is not modelled.
* **C97** (`Packets`, `PropPackets`) — the types are transcribed as attribute texts, and what the macro makes of them is proved
  (`C97_ip4_text`, `C97_tcp_text`, `C98_layer_text`, ...).  The standards are written as structures with a `wire` function from `oct1`, `oct2`, `oct4`;
  `Implements S P value wire` says that `S` writes the layout of every header in `P`, reads one exactly if the input begins with
  one, and otherwise reports `InvalidByteLength`.  Proved for UDP (`C97_udp`), and for IPv4, TCP and Ethernet with the set of
  headers that the code really takes (`Held`) or the names it uses (`C97_ip4_held_partial`, `C97_tcp_held_partial`,
  `C97_ethernet_partial`); the standard headers are those of at least five words among them (`C97_standard_partial`).  By C43
  (segments, bit-field groups with value conversions) for the round trip, and `Needs`/`Covers` for arbitrary input.  With the
  standards themselves the claim is false: `C97_violated`.
* **C98** (`PropFrames`) — `Packet` is a sequence of headers, `Packet.Fits` says that type and protocol numbers agree with what
  follows (headers as the code takes them, see C97).  `C98_layers`: exactly these packets are read, the whole input, and
  written as the sequence of their headers; everything else gives `InvalidByteLength`.  `C98_restored`: decoding and encoding gives
  the input back.  `C98_headers_restored`: the same for the single headers.
* **C99** (`Final`, `PropFinal`) — `Keeps C m`: besides successes, failures with a code of `C` are the same when bytes are
  appended; by induction over `DerivableIn`, like C51.  `C99_final_partial`, `C99_recursive_final_partial`: for standalone types
  without searches (`Limits.searchless`) every error but `InvalidByteLength` is final.  `C99_value_final`: `InvalidValue` is final
  for all standalone types.  `C99_cut_off_partial`: a message cut off gives `InvalidByteLength`.  `C99_stream_partial`: of two
  pieces of a stream the shorter gives `InvalidByteLength` or the longer the same as the shorter.  Violated:
  `C99_terminator` (any terminator, any data without it), `C99_unknown_tag` (any enum, any tag without a variant, any data
  behind), `C99_violated`.
* **C100** (`Http`, `PropHttp`) — `Http` is checked against the text of the attributes like the types of C97.  `Request.text`
  is the layout; `EndsFirst x a` says that the separator is found behind `a` and not earlier; `Broken r n` that no header line is taken
  from `r` although `n` bytes are consumed.  `C100_exact`: for every input, what is read is the request with the most header lines
  (at most 20) that the input begins with, or `Fail` if there is none.  `C100_written`: every request is written as its text.
  `C100_message_partial`: a clean request is read back in front of data without `: `.  `C100_body_iff`: exactly then (or with 20
  header lines) a body behind the blank line is left alone.  Induction over the loop of `try_count`; the search is C09, texts C28.
  `C100_violated`: the full claim is false.
* **C101** (`Http`, `PropHttpMore`) — the other two HTTP types, likewise checked against the text of the attributes.
  `C101_map_exact`: on every input the type with a `HashMap` reads a request with at most 10 header lines, as in C100, and its map has the
  last value of each key (`IsMapOf`).  `C101_map_written`, `C101_map_message_partial`: it is written line by line in the order of
  iteration, and read back if the keys are distinct.  `C101_method_exact`: the type with a parsed method accepts what the type of
  C100 accepts, if the method is one, with the same value and position, and refuses everything else.  `C101_method_written`,
  `C101_method_message_partial`: the method is written once, and read back.  `C101_violated`: repeated keys, and the 11th line.
* **C102** (`Same`, `PropSame`) `grouped` and `flat` are the two declarations, for arbitrary fields before, in and behind the group;
  `Field.within` reads the expressions of one declaration in the scope of the other.  `C102_grouped_decode`,
  `C102_grouped_encode`: equal outcome (value, error, position, bytes, count) on every buffer, if the group has the container
  modifiers of the outer struct; `variable_name` only behind the group.  `C102_wrapper`: a struct of one field is the type without modifiers.
  `C102_array_tuple_decode/encode`: under all modifiers.  `C102_vec_array_decode/encode`, `C102_vec_array_int`: `count = n`.
  `C102_set`, `C102_map_decode/encode`.  `C102_violated`: the four differences of section 3.
* **C103** (`PropGrow`) `StructDef.grown`, `EnumDef.grown`: more fields, more variants at the end.  `C103_older_decode`: on every input,
  what the newer struct accepts the older one reads, with the first values, and what the older one refuses the newer one
  refuses in the same way.  `C103_older_message`: a newer message is the older one followed by the added fields.
  `C103_newer_decode`: with the added fields `Missing`, i.e. each `Absent` at the end of the data; `C103_option_absent`,
  `C103_try_count_absent`, `C103_remaining_absent`, `C103_condition_absent`: which fields are.  `C103_enum_decode`
  (an iff, in all three tag modes), `C103_enum_encode`.  `C103_violated`: section 3.
* **C104** (`Held`, `PropHeld`) `raw v` lists the bytes a value holds; `Holding` is the family of types (as `Bounded` of C96) with
  the bytes they hold, in the order of the input (`k = true`) or counted (`k = false`: numbers, addresses, maps).
  `C104_window`: byte strings and texts are windows, with every framing.  `C104_decode_partial`: the bytes held are a
  subsequence of the bytes consumed (a sub-multiset when `k = false`); `C104_top_partial` for `jbytes::decode`,
  `C104_recursive_partial` for recursive types of any depth.  Missing: `untake`, `offset`, custom decoders and numbers with
  `bits` or `length` (which are said to hold nothing).  `C104_violated`: section 3.
* **C105** (`Socket`, `PropSocket`) the types from the text of their attributes, `handle_connection` and the client as functions of
  the bytes that `read` yields (connections, threads and socket errors are not modelled; `assert_eq!` and `unwrap` are panics).
  `C105_messages`: exactly the protocol is read and written.  `C105_delivered`: a message delivered whole is understood, whatever is behind it.
  `C105_server_partial`, `C105_client_partial`: what both sides do for every result of `read`; `C105_exchange`: the exchange of the
  example.  `C105_cut`: a part of a message, from two bytes on, is taken for a message, the same one exactly if only zeros are missing;
  `C105_long`, `C105_write_request`, `C105_violated`: section 3.
* **C106** (`PropStream`) `feed` is the receiver, a fold over the pieces.  `C106_chunks_partial`, `C106_recursive_partial`: for the types of C51
  two ways to cut the same stream give the same messages and the same rest, by induction on the pieces and on the bytes held
  (`drain_append`).  `C106_messages_partial`: the messages sent are those received, none late and none early (with C91).
  `C106_socket`: for the messages of C105, where the program of the example fails.  Missing: types that adapt to the end of the
  data, for which it is false (`C106_violated`).
* **C107** (`Commands`, `PropCommands`) the types of examples/enum_example.rs, simple_example.rs and simple_example2.rs from the text of their
  attributes.  `C107_commands`, `C107_simple`, `C107_tagged`: for every input which message is read and what is left, or that there is
  none; what is written for every value.  `C107_consistent`: exactly the values whose number belongs to their body are read back.
  `C107_tagged_again`: exactly which accepted inputs are written again as they were.  Violations in section 3.
* **C108** (`DefaultExample`, `PropDefaultExample`) one declaration under both macros (`Attribute.toDefault`).  `C108_fallback`: if both accept it,
  the variant for unknown tags is the default's, and `C108_unknown`: what is read under a tag that no other variant has is a value of
  this variant.  `#[default]`, a mark to the codec macros only, is excluded by a hypothesis: no derive of the crate declares it, so rustc
  accepts it only beside `derive(Default)`, which excludes `Jdefault`.  `#[jd(...)]` on the variants is not modelled here.
  The example from the text of its attributes: `C108_default`, `C108_default_sent`, `C108_messages` (for every input which message is
  read, or that there is none), `C108_roundtrip`, `C108_again_partial` (exactly which accepted inputs are written again as they were).
* **C109** (`Lent`, `PropLent`).  The bodies of `BorrowByteDecode` and `BorrowByteEncode` of containers as loops over a collection or a
  number of bytes: `C109_decode`, `C109_encode` (equal to the owning ones for every element codec, modifier and input, by induction on
  the number of rounds).  `Vec<u8>` against `&[u8]`: `Paired` lists the modifiers that correspond (`count`/`length`,
  `byte_count_outside`/`byte_count`, none); under them the same inputs are read and refused and the same bytes written
  (`C109_bytes_decode_partial`, `C109_bytes_encode_partial`).  With the same modifier on both: `C109_same_iff`.
* **C110** (`PropOrder`, `PropOrderRead`, `PropOrderExact`).  An encoding as a list of pieces, each turned round by the other byte order or not (`image`,
  `imageTurned`).  `C110_encode`, `C110_struct`, `C110_enum`: for every type of the universe `Turnable` (words of bit fields and nesting
  included), value and buffer written up to its end, the same result, and the images of the same pieces.  `C110_number` and `C110_text` say
  which pieces are turned.  `C110_decode_partial` and its struct and enum versions: whatever is accepted in one order consists of pieces that
  are accepted, turned, in the other order, anywhere, with the same value.  `C110_outcome_partial` and its versions (`PropOrderExact`):
  for types that consume every byte they look at, every input has the same outcome (value, error and its position, panic), `Option`,
  `try_count` and `remaining` included.  Missing: `offset`, custom codecs, `branch_starts_with`; refused inputs of types with searches or words
  of bit fields; `loop_skip_starts` and widths above 8 are violated (section 3).
* **C111** (`Layout`, `LayoutWrite`, `PropLayout`).  `Fixed total G need size d`: an inductive universe of decoders, under modifiers
  that meet `G`; `need` and `size` are computed from the declaration (`layNeed`, `laySize`: fields one after the other, `untake` needs bytes
  without moving, `offset` moves without needing).  `C111_decode`: without checks, decoded exactly if the bytes are there.  `C111_checked`:
  with checks, an error or a value behind the same number of bytes.  `C111_window`, `C111_top`: the value depends on these bytes only.
  `C111_field`: each field can be decoded by itself at its place; `C111_contained`: and other bytes make no difference to it.
  `C111_encode_partial`, `C111_both_partial`: values are encoded to one number of bytes, and can be decoded.  `C111_tcp`: the fixed part of
  the TCP header of the examples.  Missing: values of other lengths than declared (violated, section 3), `if_expr`, custom codecs,
  `from_str`.
* **C112** (`Renew`, `RenewFields`, `RenewLoop`, `Renewable`, `PropRenew`, `PropRenewMap`).  `Renews last m e`: what `m` decodes from any buffer, `e` writes, and `m` reads
  back from it at any place, whatever follows (nothing, with `last`).  `Repeats m`: the bytes `m` consumed give the same value anywhere.
  `Renewable last A α d e`: an inductive universe that, unlike `Faithful` (C63), includes constructions accepting several encodings.
  `C112_renew_partial`: by induction on the type; words of bit fields through C24, structs through C43, enums through C44 and C45.
  `C112_top_partial`: whole messages, and the second encoding is the first.  `C112_compare_partial`: encodings are equal exactly if the
  values are.  `parcel_renewable` and `reply_renewable`: a struct and an enum that meet the hypotheses.  `C112_violated`, `C112_follow_violated`,
  `C112_map_violated`: types for which it fails.  `C112_map_partial`: a decoded map, encoded in any order, comes back with the same entries.
  Missing: `from_str`, `with`, `variable_name`, `untake` outside words of bit fields, `branch_starts_with` with a default variant,
  `Option`, `try_count` and `loop_skip_starts` with something behind them, `count` and `try_count` on maps.  Sets have no encoder.
* **C113** (`Patch`, `PropPatch`, `PropPatchEnum`).  `writeField`: what the generated encoder does for one field.  `Unaware i`: no modifier of a field looks at field
  `i`.  `C113_prefix`: the first fields are written as if they were alone.  `C113_patch_partial`: the field stands between two positions, writing
  its value there again changes nothing, and writing another one that ends at the same place gives the encoding of the changed struct; by C62
  (each part writes its own bytes at any position) and induction over the later fields.  `C113_plain_partial`: without modifiers, for values of equal
  encoded length, with no hypothesis on the write itself.  `C113_number_partial`: any number over any number.  `C113_element`: elements of a list, with
  or without `loop_skip_starts`.  `C113_variant_partial`: fields of enum variants, which keep the modifiers of what is before them.  `datagram`: a checksum put in afterwards.  `C113_violated`: words of bit fields.  Missing: user-written
  encoders.  `C113_entry`: the values in a map.
* **C114** (`Sorting`, `PropSort`).  Specification: `byteCmp` (lexicographic), `cmpEach`, `cmpVariant` (the orders of `derive(Ord)`); `Sorts`: for two values
  what is written, followed by anything, compares like the values and then by what follows.  `Sortable`: the universe of types, with the values, the order
  and the modifiers of each.  `C114_sorted_partial`: by induction on the type; numbers by induction on their bytes (`byteCmp_toBE`), structs by induction on
  the fields, enums by the order of their numbers.  `stamp` and `exchange`: a struct and an enum that meet the hypotheses.  `C114_violated`: types for
  which it fails.  `ticket`: `length`, `offset` and
  `value_encode`.  Missing: `bits`, skipped fields, byte orders given by an expression, user-written encoders, modifiers taken over in enum variants.
* **C115** (`PropAppend`, `PropAppendDeep`).  Specification: `countField`, `lengthField` (the bytes in front, from the documentation of the modifiers), `overwritten`.
  `C115_list_partial`, `C115_map_partial`, `C115_bytes_partial`: writing behind and overwriting the count gives the encoding of the longer value, for all
  element types whose encoding does not depend on the buffer (`Placed`, from C62); `C115_struct_partial`: the same for the last field of a struct;
  `C115_marked`, `C115_array`: without a count the encodings are just put one behind the other.  `C115_read`: reading in two parts, for any decoder and any
  outcome.  `C115_nested_partial`: at the end of structs, tuples and enum variants nested to any depth, by induction on `Growth`; the count stands at the same distance
  from the start of the message in all buffers.  In all of them the count overwritten lies inside of the old message.  `journal`, `station`: a struct and an enum that meet the hypotheses.  `C115_shrink_partial`, `C115_shrink_map_partial`,
  `C115_shrink_bytes_partial`, `C115_shrink_nested_partial`: the other way round, for all of these.  That the result decodes to the
  longer list is C29.  `C115_violated`: where it fails.
