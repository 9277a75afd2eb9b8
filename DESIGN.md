# Formal model of mambaru/wjson in Lean 4

## 1. What is modelled

`/repo/wjson` is a header-only JSON validator (`parser.hpp`) plus a family of
templates that serialize and deserialize C++ values (`serializer/*.hpp`).
The model follows the code function by function; every definition cites the
file and lines it models.

Representation:

* A byte is `UInt8`, a text is `List UInt8`. A pair of iterators `beg,end` is
  the list of bytes from `beg` to `end`; advancing `beg` drops the head;
  `beg==end` is `[]`; `std::distance(beg,end)` is the length. An iterator
  returned by a function is the remaining suffix.
* `json_error*` is `EPtr`: `null` or a pointer to an error object. Functions
  return the new contents.
* Undefined behaviour is an outcome of its own: `Out a = ok a | ub | fuel`.
  `ub` is produced by reading `*end`, signed overflow, writes outside a buffer
  and advancing past `end`. `fuel` is produced only when the recursion budget
  of a recursive function is used up; theorems show that it never is.
* `Cfg` fixes what the C++ standard leaves open: `past` (what is stored at
  `*end`: nothing readable, or some byte such as the NUL of `std::string`),
  `wrapv` (signed overflow is undefined or wraps) and `charSigned`.
  Theorems quantify over every `Cfg` unless they say otherwise.
* An output iterator is a `Sink`: a memory and a cursor (`back_inserter`
  appends, a raw pointer overwrites cells and can run out of the buffer).
* A `serializer` class is a record `Ser a` of `emit` (value and sink to sink)
  and `de` (previous value, text, error pointer to new value, rest, error).
  Templates (array, dict, object, ...) are functions on such records.

## 2. Trusted base

* Lean 4.33.0 kernel. Axioms: at most `propext`, `Classical.choice`,
  `Quot.sound`; `AXIOMS.md` lists them theorem by theorem. No own axioms, no
  `sorry`, no `native_decide`, no `bv_decide`. `decide +kernel` is used for
  closed statements about literals and complete finite tables (all 256 bytes);
  it is evaluated by the kernel.
* The reading of the C++ text by hand: the code was not compiled or run. As a
  check, `lean/Verif/Tests/` evaluates the expectations of the project's own unit
  tests (`/repo/tests/*_suite.cpp`) in the model; they all hold. Left out are the
  tests that depend on the iteration order of unordered containers, and tests that only
  print.
* The statements: `properties.jsonl`, the definitions in `lean/Verif/Spec/` and
  the theorem statements in `lean/Verif/Props/`. Files in `Spec/` contain no
  function of the model, except where a description of the library has to be
  named (`Spec/Described.lean`, `Spec/Nested.lean`, `Spec/Denotes.lean`,
  `Spec/Dialect.lean`, `Spec/UpTo.lean`, `Spec/Decimal.lean` for the values of a floating point format).

Layout: `Basic.lean` (bytes, outcomes, configuration), `Model/` (the code),
`Spec/` (what is claimed), `Proofs/` (lemmas), `Props/` (the theorems
`Cnn_...` with examples), `Tests/` (the project's unit tests and examples).

## 3. What is modelled, file by file

| file of /repo/wjson | model |
|---|---|
| `error.hpp` | `Model/Error.lean`, complete |
| `parser.hpp` | `Model/Parser.lean`, `Model/Despace.lean`, `Model/Integer.lean` (`unserialize_integer`), complete; `Model/Depth.lean` has the recursive functions a second time with a bounded stack (only for C69); `Model/InPlace.lean` has `despace` a second time with the output in the memory of the input (only for C70); `Model/Work.lean` has the functions of the validator a second time with a count of function calls and loop passes (only for C72; the calls of `std::distance` for the position of an error are not counted); `Model/TypedWork.lean` does the same for the typed readers of `serializer/*.hpp` (only for C78; what is not counted is listed at its head) and `Model/WorkIf.lean` for `member_if` and recursive descriptions (only for C86) |
| `strerror.hpp` | `Model/Strerror.lean`: `what`, `message`, `where`, `trace`, `message_trace` |
| `serializer/bool.hpp`, `number.hpp` | `Model/Integer.lean` |
| `serializer/string.hpp` | `Model/Str.lean` (`std::string`, `vector<char>`, `char[N]`) |
| `serializer/float.hpp` | `Model/Float.lean`; formatting and conversion by `std::stringstream` are parameters; `Model/Ieee.lean` gives them concretely for C82 |
| `serializer/array.hpp`, `field.hpp`, `specialization/array.hpp`, `dict.hpp` | `Model/Array.lean`; containers through the interface `Coll` |
| `serializer/object.hpp`, `specialization/object.hpp`, `member.hpp`, `member_p.hpp`, `member_if.hpp`, `property.hpp` | `Model/Object.lean`; `Model/Calls.lean` has the reader a second time with a bounded stack (only for C77); `Model/Frames.lean` has it, and the readers of raw values, with a bounded stack that is shared with what they call (only for C81) |
| `serializer/object_array.hpp`, `specialization/member_array.hpp` | `Model/ObjectArray.lean` |
| `serializer/enumerator.hpp`, `flags.hpp`, `specialization/enum_value.hpp` | `Model/Enum.lean` |
| `serializer/raw_value.hpp`, `iterator_pair.hpp`, `pointer.hpp`, `quoted.hpp`, `member_value.hpp`, `utility/multi_deserializer.hpp`, `_json.hpp` | `Model/Misc.lean`; `Model/Recursive.lean` has descriptions that mention themselves behind `pointer` (only for C83), `Model/Heap.lean` the same templates over a heap, where a pointer is an address (only for C85) |
| `serializer/time_interval.hpp`, `size_value.hpp` | `Model/Units.lean` |
| `schema.hpp` | `Model/Schema.lean` |

Not modelled:

* `base<J>`: it splices the member list of `J` into another list. The splicing
  is done by the external library `fas`, whose source is not in `/repo`; the
  model starts from the resulting list. The same holds for the type lists in
  general and for the detection of static functions in `schema.hpp`.
* `variant` is declared in `predef.hpp` and defined nowhere.
* `dict` over `set`, `multiset`, `unordered_set` and `unordered_multiset` of
  `field` uses a back inserter on a set and does not compile; `dict` over
  `std::array` of `field` calls `clear` on the array and does not compile either.
* `reserve` (capacity only), C++98 compatibility macros, exceptions
  (`bad_alloc`), iterator categories other than contiguous ones, freeing of
  objects when their last pointer goes away, `JSON_NAME` macros, `version.hpp`.

Simplifications, each also stated at the definition:

* A recursive C++ function has a recursion budget in the model; C03 and C48 show
  that the budget given is always enough.
* Two private overloads of a parser function with and without a position counter
  are one function.
* `target tg;` of a type without a constructor is indeterminate in C++ and the
  default value in the model. C80 runs the readers with arbitrary contents instead
  and says for which elements this makes no difference.
* The buffer of `quoted` is a `std::string`; the model gives it the same `*end`
  as the outer text.
* In a `multiset` or `multimap` the place of equivalent elements follows the
  insertion order. C63 does not use this: it is about every container that keeps
  its elements, in whatever order.
* `clear` leads to one fixed state of the container; in C++ a hash table keeps its
  buckets. C63 holds for every such state.
* `stringstream` in `float.hpp` is libstdc++'s (`__GLIBCXX__` branch). C24 and the properties of
  nested descriptions hold for whatever it does. C82 alone assumes what it does: conversions are exact up to one
  rounding to nearest, ties to even (glibc), in both directions; `num_get` stores the largest value
  where `strtod` overflows; `std::scientific` without a precision writes seven digits and at least two digits of the exponent. These
  conversions are written out in `Model/Ieee.lean` on integers; the locale is "C".

## 4. Plan per property

| id | modelled by | proof |
|----|-------------|-------|
| C01 | `parseValue` vs the inductive grammar `XValue` | induction on fuel, inversion of each scanner |
| C02 | RFC 8259 inductive grammar `RValue` | mutual induction on derivations |
| C03 | fuel-indexed recursion | fuel adequacy `2*len+1`, fuel independence |
| C04 | threaded `EPtr` | one postcondition `Post` for all parser functions |
| C05 | `createError` | factorisation `f s e = (pos s, merge e (err s))`; typed: closed under combinators |
| C06 | same factorisation | corollary |
| C07 | suffix relation | `Post` |
| C08 | `Cfg.past` | case analysis; negative witness `[ ` |
| C09 | `tail`, `strerror::where/trace` | `Post` bounds the tail; list splitting lemma |
| C10 | `parseNumber` vs `RNumber` | both directions |
| C11 | `parseString` vs `XString`, `RString` | both directions, by induction on the body |
| C12 | `parseSpace` vs inductive `Gap` | state machine invariant |
| C13 | `despace` vs token relation | induction on fuel |
| C14 | `despace` and grammar without gaps | induction on grammar |
| C15 | integer writer and reader over `IntTy` | digit induction, range reasoning |
| C16 | decimal specification | digit induction, `10^k` bound |
| C17 | reader vs positional value | induction on digits |
| C18 | `boolSer` | case analysis |
| C19 | string writer/reader | induction on the string, unit by unit |
| C20 | writer | induction |
| C21 | `uhex` vs UTF-8 encoder | bit arithmetic |
| C22 | reader with limit `n` | invariant on the number of stored bytes |
| C23 | reader | invariant; error flag monotone |
| C24 | conversion as parameter | case analysis |
| C25-C28, C33-C36, C38, C40-C43 | combinators on `Ser` | generic round-trip predicate `RT` closed under combinators; `member_if` among other members: `Slot`, `SlotText` (Spec/Slots.lean) |
| C29-C31 | `objectSer` | induction over the member text |
| C32 | each `Ser` | unfolding each reader on `null` |
| C37, C39 | UB outcomes | witness and partial theorem |
| C44 | list of readers | induction |
| C45 | `get_schema_list` on lists | induction |
| C46 | `Sink` | `Faithful` closed under combinators, witnesses for the failures |
| C47 | message table | case analysis |
| C48 | suffix relation for `Ser` | closed under combinators |
| C49 | grammar `RValue` for emitted text | closed under combinators |
| C50 | `GoodValue` (Spec/Nested.lean), one rule for each template | induction on the rules |
| C51 | `map` on bytes | induction |
| C52 | `memberValueSer` | unfolding |
| C53 | denotations `Meaning` in `Spec/Denotes.lean` (all templates but `member_if`) | for each template: the reader accepts exactly the denoted texts with the denoted value; structural induction |
| C54 | `JsonMeans`, a part of `Means` | induction: every denoted text is in the grammar of `parse` |
| C55 | grammar `XValue` | no value but a number begins with another value (from C01) |
| C56 | user loops in `Model/Client.lean` vs inductive `Stream` | induction on the budget and on the stream |
| C57 | families `Overwrites`, `Replaces` in `Spec/Reuse.lean` | case analysis; induction over `quoted` |
| C58 | readers of scalars, sequences, fixed-size arrays, dictionaries, structures (both forms), time intervals and flags | case analysis; induction on the items or members before the error |
| C59 | `despace` and the denotations of `JsonMeans` without raw values | induction: the text of a value with its gaps removed is a text of the same value |
| C60 | `CompactValue` (`JsonValue` with compact raw parts) | the induction of C49 for a second set of texts |
| C61 | `Viable` (some continuation is a value of the dialect), `strerror::where` | `Blame`: for every failing function the longest prefix it could still accept, composed through the loops (Proofs/ErrPos, Proofs/ErrPosValue) |
| C62 | the reads themselves with different error arguments | `EP`: closure properties of predicates on reads as functions of the error argument, instances `UF` (uniform) and `TR` (success is transparent) (Proofs/ErrArg*) |
| C63 | `BagColl`, `UniqueColl`, `UpToOrder`, `GoodUpTo` (Spec/UpTo.lean) | induction over the description; folds of insertions up to permutation |
| C64 | `Cfg.Below` (what a platform leaves open), `Template` (one description, all platforms) (Spec/Platform.lean) | two copies of every function walked in parallel, `Out.Below` (Proofs/Platform) |
| C65 | `BadEscape`, `badEscapeError`, `TakesNull`, `Ending` (Spec/Ends.lean) | invariant `Co` of position and error argument, kept by every reader (Proofs/Ends) |
| C66 | `CalmText`, `Stable` (description with the values it can come to hold), `KSlot` (member, or two alternatives that can be told apart), `History` (Spec/Stable.lean) | invariant `Keeps`: every reader leaves good values, on every path (Proofs/Stable); then C50 |
| C67 | `IntTy.textMax`, `enclosed`, `Room` (Spec/Room.lean) | every writer puts one text, independent of the output, of bounded length (`Puts`, Proofs/Room) |
| C68 | `Carried` (Spec/Versions.lean): what a value written with one description becomes when read with another | the items of the writer's text against the reader's member list, with the state of the variable (`chain_items`, Proofs/Versions); induction over `Carried` |
| C69 | `Nested` (Spec/Depth.lean): the nesting of a text of the dialect; `valueD` (Model/Depth.lean): `parse_value` with a bounded number of open calls | the bounded functions agree with the unbounded ones or overflow (`valueD_le`); induction over `Nested` |
| C70 | input and output positions in one memory (`despaceIn`, Model/InPlace.lean) | simulation of the separate-output model: the output never passes the reading position (`despaceInF_eq`) |
| C71 | `Utf8Text` (RFC 3629, Spec/Strings.lean), `Utf8Source` and `Utf8Safe` (Spec/Utf8.lean), RFC 8259 values | the invariant of C66 for another kind of text (`Utf8Safe.kept`); one decoding step (`utf8_unit`); UTF-8 can be cut before an ASCII byte (`utf8Text_cut`) |
| C72 | a counted copy of the validator (`parseValueW`, `despaceW`, Model/Work.lean) | the copy has the same results (`C72_same_result`); each consumed byte pays for at most twenty steps (`Paid`, `rec_paid`) |
| C73 | `Breaks`, `TakesValue`, `TakesString`, `DigitMissing`, `InString`, `InWord` (Spec/Diagnosis.lean) over `Viable` | the induction of C61 carries a diagnosis along (`Diag`, `Diag.mono`, `value_blame`) |
| C74 | `Reports`, `errAt`, `expectAt` (Spec/Mismatch.lean), `missing`, `Astray` (Spec/AfterError.lean) | unfolding one reader for the kinds; the lemmas of C58 with the exact error for containers and structures |
| C75 | `IntFault`, `BoolFault`, `FloatFault`, `StrFault`, `EnumFault` (Spec/Faults.lean), `Reports`, `Tells`, `Quiet` | each row of a table by unfolding, `BodyFault` by induction; a text has a row or the reader is quiet; the two make the tables exact |
| C76 | `Tabled`, `Diagnosed`, `TSlot`, `AltTakes`, `AltFault`, `SeqFault`, `EntryFault`, `FixFault`, `ObjectArrayFault`, `ObjectFault`, `PointerFault`, `QuotedFault`, `RawFault`, `FlagsFault`, `TimeFault`, `SizeFault` (Spec/Composite.lean) | per template: a loop that ends with the error object in a given state has the row, and each row determines the state; then by induction on the description |
| C77 | `deObjectD`: `deObject` with the recursion budget as a stack | induction over the members with the cursor; commas as a measure; repeated members as witness |
| C78 | `Counted` (Spec/TypedWork.lean) relates each description to a counted copy of its reader (Model/TypedWork.lean) | the copy has the same results; a potential argument: a successful read pays `A` per consumed byte, a failed one consumes everything (`Lin`, `counted_lin`) |
| C79 | `Sized` (Spec/Memory.lean): for each description the size of its values and the two constants; `AddsOne`: what is asked of a container | the size takes the place of the count in the potential argument of C78 (`FitsIn`, `Sized.fits` in Proofs/Memory.lean); a decoded string is not longer than its text (`strDec_size`) |
| C80 | `Ser.startingFrom`, `AnyStart`, `FullStart` (Spec/Uninit.lean): the description run with arbitrary contents of the element variables | the description with arbitrary contents is equal to the description (`AnyStart.eq`, by C57); a read without an error had none at any element (`FullStart.both`) |
| C81 | `deObjectT`, `deRawT`, … and `Framed`: every description with its reader on a bounded stack | induction over descriptions; the rest of the text as measure; C69 and C77 for the texts that overflow |
| C82 | `flText`, `flConv` on integers: rounding to binary and to decimal digits; `NumIs`, `FlIs` over the rationals | nearest value and unit of the last place over ℚ; seven digits have a larger gap than twice the error of 25 bits |
| C83 | `Scheme`: a description with a place for another; `levels`, `recDe` | what is read of `n+1` bytes depends on the place only through texts of at most `n` bytes, so the levels agree; unique solution by induction on the length |
| C84 | `Parts`: descriptions with separate parts; `InTurn`: texts read one after the other | every text has one effect on the variable, the effects form a band (`f∘g∘f = f∘g`): constant or none for values, element by element for arrays, part by part for structures |
| C85 | `Heaped`: a description twice, with pointers as addresses in a heap and with pointers that hold their object; `HTy.den`: the target stands for the tree | simulation: related results, and the heap only grows (`Grown`: old cells unchanged, each new address counted at most once in the target and the new cells), template by template; parts of structures by counting |
| C86 | `CountedIf c m S W` (Spec/WorkIf.lean): `Counted` of C78 with at most `m` `member_if` inside each other; `CountedRec`: a description with a place for itself and its counted reader; `twiceF`: the description with the exponential texts | a failed alternative costs at most the bound for the whole rest, so each level of `member_if` multiplies the constants by the length (`LinPoly`, `countedIf_poly`); recursion: the potential of C78 with constants that do not depend on the level (`Within`, `RecPays`, `levelsW_within`); `twiceLevel_reads` by induction on the chain |
| C87 | `AltMeaning c full S D` (Spec/Alternatives.lean): `Meaning` of C53 with `DSlot`, a place of a member list with the denotations of both alternatives; `AltStores`: what a text does to such a place; `SlotRun`, `SlotPositional`: `Run` and `Positional` for places; `AltJson`: `JsonMeans` of C54 with places | the sound half of C53 as a structure of its own (`Sounds`, `SoundsNull`), closed under all templates (`AltMeaning.sounds`); a failed attempt leaves an unknown value in the first alternative (`j` in `AltStores`) that is reset before the second is read. The other half is false (`C87_not_complete`): the reader of the first alternative may stop early without an error |
| C88 | `Desc` (every description), `View` (a part of the variable), `ReadOn` (several texts) (Spec/View.lean) | two runs side by side: every reader keeps a relation between the two values and takes the same course (`Resp`, Proofs/View) |
| C89 | `Enclosed` (which descriptions), `TextOf`, `LogText`, and the transition system `LogFile` of appends, stops and recoveries (Spec/Log.lean); `AltEnclosed`, `LogLines`, `LineFile`: the same with `member_if` inside and the line feed in front (Spec/LogIf.lean); the loop `recoverValues` (Model/Client.lean) | a proper beginning of a text in brackets, braces or quotes cannot be read as a value (exactness C53 and counting from the end of the text), induction on the log and on the history |
| C90 | `receive` (Model/Receive.lean: the loop of C89 run on a buffer after each piece); `LogText` of C89, `Begun` (nothing, or a proper beginning of the next text), `Arrived` (Spec/Receive.lean) | every beginning of a stream is a stream and a proper beginning (`LogText.split`); induction on the pieces with the rest of the stream as the invariant |
| C91 | `cutLine`, `takeLines`, `receiveLines` (Model/Lines.lean, user code), `Lines` (Spec/Lines.lean), `CompactValue` and `CR` of C60 | no text of `CR` has a control byte (induction on the grammar); every beginning of a stream is some lines and a text without a line feed; induction on the pieces |

## 5. Disagreements between the code and what one would expect

Each of these is visible in the model; where a property of `properties.jsonl`
is concerned, the property states the condition and a theorem gives the
counterexample.

Parser:

* `parse_array` reads `*end` for a text that ends in white space after `[` or a
  comma, `parse_object` for one that ends in white space after a comma (C08).
* `/*/` is a complete comment, and a single `/` between tokens is skipped like
  white space: `[/1]` is accepted (C12).
* `parse_null` and `parse_bool` report the number of bytes consumed as `tail_of`
  instead of the number of bytes left; numbers report 0. The position shown by
  `strerror` is inside the text but not at the offending byte (C09).
* The typed object reader reads `*end` for `[ ` as well.

Integers: the most negative value of `int` and wider types cannot be read without
signed overflow (C15); too long literals overflow (C17).

Strings:

* Bytes that are not UTF-8 are written as `\xHH`, which the typed reader decodes
  and `parser::parse` refuses (C19, C49).
* `\u0000` is written for NUL and read back as the six bytes `\u0000` (C19).
* The typed reader does not check continuation bytes: a lead byte before the
  closing quote swallows the quote.
* `char[N]`: an escape that does not fit is cut silently (C22), and so is a
  multi-byte character if a quote follows the bytes that fit (C53).

Floating point: the buffer of 20 (or `20+R`) bytes truncates long literals on
reading and long texts on writing (C24).

Containers and objects:

* A trailing comma is accepted by sequences and dictionaries; by fixed-size
  arrays only if the bracket follows at once and the array is full; by
  `object_array` only for the last member; by objects only if the members were
  met in order (C53).
* `array<std::array<J,0>>` takes the address of `t[0]` (hence `1 <= N`).
* Duplicate keys: the last one wins before the cursor, later ones are skipped
  after the last member (C31).
* Keys are compared byte by byte without decoding escapes (C54).
* `member_if` only works if both alternatives have the same name; for another
  key it sets the alternative that is not met to its null value (C43).
* `dict` with string keys accepts `{null:1}`, with integer keys `{1:true}`; `parse`
  refuses both (C54).

Enumerations and flags: control bytes before the quote are skipped, bytes from
128 on as well if `char` is signed; names are written without escaping; the array
form of flags accepts missing and trailing commas; the separator form takes white
space as a separator and skips comments inside the string; where the space is the
separator, nonstrict reading of `"a  b"` loses `b` (C53); an empty list of flags
rejects `[ ]` (strict) or reads `*end` (nonstrict) (C34, C35).

Units:

* `time_interval`: text that ends after `mk` makes the reader step past the end
  (C37); unknown units are skipped silently (`"5x3s"` is 3s, `"1.5s"` is 5s), a quote
  right after a number as well (`"5"3s"` is 3s), and a string cut off after a number
  is accepted (C53); the byte after `mk` is not looked at;
  values of `time_interval_ms` are only written correctly for 64-bit signed types;
  negative values with a part below a second are wrong (C36).
* `size_value`: a string of 32 bytes or more makes `strlen` read past the buffer
  (C39); a quoted number without a unit is not divided by the metric.
* Iterators returned by nested serializers are dropped: with a raw pointer as
  output `time_interval`, `size_value` and `raw_quoted` overwrite their own text,
  and a null `pointer` starts writing one position too far (C46).

`despace` can turn a text that is refused into one that is read (C59): after the
comma behind the last element of a fixed-size array no white space is allowed.

After an error (C58): `value<bool>` is true for every text that starts with `t`,
`raw_value` holds the rest of the text, and a sequence holds the offending element
as far as it was read. A text that ends within a key empties a container that is
the next member, whatever the key (example in Props/AfterError.lean).

Platforms (C64): out-of-range integers, an unfinished array (`[ `) and an unfinished
`[` in place of an object are undefined by the standard and differ in practice;
`enumerator` accepts bytes from 128 on before the name where `char` is signed.

Position and error (C65): three readers report an error and yet return a position
other than `end`: strings with a wrong hexadecimal digit in an escape, `size_value`
with a wrong number, and fixed-size arrays reading `null` into elements that refuse it.

Saving what was read (C66): three kinds of value can be read but not saved: strings
with control bytes (from `"\x01"` or raw bytes; written as `\u0001`, which reads back as
these six characters), `raw_value` after an error, negative intervals in milliseconds
(`"-5ms"` is written as `"4995000mks"`). Alternatives of `member_if` must be told apart by
their texts: a name torn off in the middle is left in the string when an enumeration was
tried first, and is read back as the enumeration (`C66_alternatives`).

Room (C67): the empty pointer, written through a raw pointer, needs one byte more than
its text has (C42). Intervals and sizes have bounds for inserters only (`C67_interval`, `C67_size`): through a raw
pointer they are not written as they should be (C46). The flag `ins` of `Room` says whether the description may contain
these three; `C67_bound` holds for both, `C67_buffer` for descriptions without them.

Versions (C68): a program that is not strict drops the members it does not know, so a
file that passes through an old program loses them (`C68_lost`); a positional object
that got shorter cannot read the longer arrays of the old version (C33). Lists with
`member_if` are compared place by place (`objectIf`): there the order of the members
must be the same and the reader's additions come last.

Stack (C69): the validator is recursive and knows no limit on the nesting.
`C69_no_stack_is_enough`: for every number `k` of frames there is a valid text of
`2k+2` bytes that needs more; `C69_unclosed`: `k+1` opening brackets are enough. The
same recursion is behind `raw_value` and behind the skipping of unknown members, so
an untrusted text can overflow the stack also where the C++ type is flat.

UTF-8 (C71): an escaped UTF-16 pair (`\ud83d\ude00`) is read as two three-byte
sequences (CESU-8), which are not UTF-8, and they are written as they are, so the
output is not JSON any more although the input was (`C71_deviations`). The same
happens to a letter torn off at the end of a text, to one cut by a `char` array and to
`\xHH`.

Error positions of typed readers (C74): a `time_interval` or `size_value` that is neither
a number nor a string is reported at the end of the text instead of at the value
(`C74_time`, `C74_size`: `create_error` without a tail). What is wrong inside the string
of a `size_value` is found in a local copy, and the position counts from the end of that
copy (`C74_size_position`: for `["x",1]` the last byte is reported). The expected token
of a missing comma in a `std::array` is the empty string (`C74_fixed_comma`). A missing
comma between members is reported as a missing `}` (`C74_member_comma`), between the
elements of an `object_array` as a missing `]`.

Wrong hexadecimal digits (C75): in a string a wrong digit of `\u` or `\x` sets
InvalidString with position 0, that is the end of the text, and the typed reader goes
on to the closing quote (wjson/serializer/string.hpp:201-212, 285-293). All other errors
inside a scalar end the reading. `C75_hex_goes_on` has a witness.

Errors of containers (C76): a `member_if` reports the error of the alternative tried
last, wherever the other one had its error (`C76_last_alternative`); a pointer reports nothing for a text that begins with `n`
(`C76_pointer_n`); a missing comma in a `std::array` is reported with an empty expected
token (`C76_nameless_comma`), and between the members of a structure as a missing
brace (`C76_brace_for_comma`); of several members behind the last known one the strict
mode reports the last (`C76_surplus_position`). A wrong kind or unit of a time interval
or a size is reported without its place (`C76_unit_place`); a time interval cut behind a
number leaves no error (`C76_time_cut`); the array form of flags needs no commas
(`C76_flags_no_comma`). The table of flags covers name lists of usable words and
separators that are no slash, asterisk or quote; `parser::parse_string` is taken from
the model where the nonstrict mode passes a string of the array form.

Stack of the object reader (C77): `unserialize_members` is recursive over the members of
the text, not over the declared ones, and keeps a frame open per member until all
declared members have come in order. A flat text of repeated or undeclared members
overflows any stack (`C77_no_stack_is_enough`, `C77_strict_no_stack_is_enough`), unless
the compiler removes the call, which it may not do in general because tests follow it.

Work of `member_if` (C78): the first alternative is tried on the rest of the whole
document. Flags in a string call `parse_space` inside the string, so that a value like
`"/*"`, harmless for the second alternative, makes the first one scan the document to its
end. An array of `n` such values costs a multiple of `n²` (`C78_member_if_quadratic`), so no
linear bound exists (`C78_member_if_not_linear`); all other descriptions have one.

Uninitialised elements (C80): `array.hpp:67` and `:155` read every element into a
variable `target tg;` and insert it even if reading the element failed. A reader that
reports an error without storing anything therefore makes the container hold (and the
program copy) an indeterminate value: `vector<double>` from `[x` (`C80_float_leaks`),
`vector<quoted<int>>` from `[1]` (`C80_quoted_leaks`). Worse, some texts are read *without* an error and
leave indeterminate parts: `[{}]` into a vector of structures without a constructor
(`C80_object_leaks`) and `[[1]]` into a vector of `std::array<int,3>` (`C80_fixed_leaks`).
`target tg = target();` would cure all four.

Stack of the typed readers (C81): the frames are those of readers, of `unserialize_members` and
of `parse_value`; functions that only call a fixed number of others (`parse_space`, the
readers of scalars, the search through the member list) are not counted. Frames of an outer
object stay open while a member is read, so they add up to those of the inner one, but each
of them has read at least one byte: the sum never exceeds the nesting of the description plus
the length of the text (`C81_enough`).

Floating point numbers (C82): `value<double>` has no number of digits for which it is exact. With `R = -1` it writes
seven digits, so a `double` is not restored (`C82_double_lost`; seventeen digits would do it), and `value<float>` loses
some numbers of seven digits (`C82_float_lost`). Infinity and NaN are written as `inf` and `nan`, which the library itself rejects
(`C82_inf_nan`). A literal of more than 20 bytes is cut before it is converted and silently loses its exponent
(`C82_long_cut`), and a large number written with `R` digits is cut to `20 + R` bytes and read as a much smaller one
(`C82_fixed_cut`). An overflow is no error (`C82_largest`).

Recursive descriptions (C83): the nested calls are bounded by the length of the text and by nothing else, so
a text of a few hundred kilobytes that is all opening brackets exhausts the stack of a program with a recursive description
(`C83_unlimited_depth`; the same holds for the parser, C69). A description that refers to itself outside all brackets, such as a pointer to
itself, is not covered: reading `{` with it never ends. Values are trees in the model; a cycle of `shared_ptr` is not
a value, and writing it never ends.

Repeated reads (C84): no read looks at what the variable held, except to keep it, so reading again changes
nothing. A `member_p` whose setter accumulates breaks this (`C84_adding_setter`); the theorems ask for parts that
behave like variables. `fixSer`, the list version of fixed-size arrays, is not covered, `fixVecSer` is.

Pointers (C85): sharing is not preserved. Two pointers to one object are written as two objects and read back as two
objects (`C85_sharing_lost`), and a structure that leads back to itself is written forever (`C85_cycle_never_written`). On the other hand
reading never writes to an object that existed before, not even to the one the pointer pointed to: a new object takes its
place, so members that the text does not have are lost there, unlike in a structure held by value. A `set` of pointers is outside the
theorems (`CollTwins`): it compares addresses. The assignment at pointer.hpp:41,58 frees the old object before the new one is read; if
the variable that is read into is itself inside that object (a cycle), the program is undefined, which the model does not show.

Work of `member_if` in a description that mentions itself (C86): both alternatives are read for every object,
so the work doubles with every level of nesting. For a structure with `member_if<pointer, structure with a pointer>` a text of
`6n + 10` bytes which the library itself has written takes at least `2ⁿ` steps to read back (`C86_exponential`), though
it is accepted without an error. A text of 400 bytes is enough to keep a reader busy for centuries (`2⁶⁵` steps).

Recursion without brackets (C83): a description that mentions itself behind `pointer` but not between brackets compiles;
reading anything but `null` with it calls itself on the same text until the stack overflows (`C83_brackets_needed`).

Alternatives that begin alike (C87): a `member_if` tries its second alternative only if the first reports an error. The
integer reader reads `1` of `1.5` and reports none, so `{"v":1.5}` is refused for `member_if` of an integer and a raw value
(or a double), although the second alternative would take it (`C87_not_complete`). The order of trying (`RU`) decides.

Torn logs (C89): the beginning of a number, of the text of a pointer (`nul`) or of a time interval (`"1m5`) is read as a
value without an error, so a log of these alone cannot be recovered (`C89_numbers`, `C89_pointers`). A raw value torn
inside an array makes the reader look at `*end` (`C89_undefined`).

Pieces (C90, C91): the code of an error does not tell "more has to come" from "this is wrong" (`C90_code`),
so the receiver of C90 waits for ever behind a text that is wrong, and its buffer grows without bound (`C90_stuck`). A number that arrives in two pieces is taken for two (`C90_numbers`); one
value per line avoids both (C91: a wrong line is passed over), unless a raw value contains a line feed (`C91_raw`).

Error argument (C62): with a null error pointer `quoted` reads wrong text inside the
quotes without noticing and returns the position after the string (with an error object
it returns the end); `quoted` and `time_interval` stop early if the error object already
holds an error, the other templates read on.

Positions (C61): a bad number is always reported at the end of the text, a missing
colon one byte too far to the right, and a misspelt literal at (length of the text)
minus (number of letters that matched), wherever it stands. All other errors of the
parser are reported exactly at the first byte that cannot stand there.

Others: `pointer` reads the end of the text, or any four bytes starting with `n`,
as null without an error (C42); `quoted` ignores text after the inner value, drops
`expected_of` and counts escapes wrongly in positions (C40); `raw_quoted` accepts
`""abc""` (C40); with a null error pointer `quoted` and `raw_quoted` stop at another
position than with an error object (C06 is about the parser);
`create_schema<T>(name)` does not compile for types with only
`create_schema(const string&)` and ignores the function for types with only
`create_schema(T&, const string&)` (C45).

## 6. Tests against wrong programs

`seeded/LOG.jsonl` has one line per edited copy of the model: the definition, the
edit, the claim it breaks, the theorems whose proofs fail, and the theorems that
were tightened because of it.
