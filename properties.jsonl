{"id": "C01", "title": "Accepted text is (extended) JSON", "statement": "If wjson::parser::parse(beg,end,&e) returns without setting e, then the bytes between beg and the returned iterator form one value of the wjson grammar: RFC 8259 values, relaxed only by (1) /*...*/ comments and stray slashes counting as white space between tokens, (2) one trailing comma in arrays and objects, (3) raw control bytes and 5/6-byte UTF-8 forms in strings, (4) '{' closed by ']' when empty.", "quantifier": "every byte sequence", "why_tests_cant": "the set of inputs is infinite and nesting is unbounded", "anchors": ["wjson/parser.hpp: parser::parse, parse_value, parse_object, parse_array, parse_member"]}
{"id": "C02", "title": "Every RFC 8259 value is accepted and consumed exactly", "statement": "For every text v that is a JSON value by RFC 8259 (UTF-8 encoded) and every continuation that does not extend a number, parse(v+rest) sets no error and returns the iterator at the start of rest.", "quantifier": "every RFC 8259 value of any size and nesting, every following text", "why_tests_cant": "infinitely many documents, unbounded nesting", "anchors": ["wjson/parser.hpp: parser::parse, parse_value"]}
{"id": "C03", "title": "The validator terminates", "statement": "parser::parse, despace and each parse_* function finish on every input; the amount of recursion needed is bounded linearly by the input length.", "quantifier": "every byte sequence", "why_tests_cant": "a test that hangs on one input says nothing about others; termination is a statement about all inputs", "anchors": ["wjson/parser.hpp: parse_value, parse_array, parse_object, parse_member, despace, parse_space"]}
{"id": "C04", "title": "An error makes every parser function return end", "statement": "Whenever a parser::parse* call records an error in a previously clean json_error, the iterator it returns is end; equivalently, a returned iterator other than end means no error was recorded by that call.", "quantifier": "every input and every parse function", "why_tests_cant": "must hold for every failing input", "anchors": ["wjson/parser.hpp: all parse_*; wjson/error.hpp: create_error"]}
{"id": "C05", "title": "The first error is kept", "statement": "If the json_error passed in already holds an error, no parser function or deserializer changes it (code, expected_of and tail_of stay those of the first failure).", "quantifier": "every input, every prior error, every parser function and every deserializer described here", "why_tests_cant": "ranges over all inputs and all prior error states", "anchors": ["wjson/error.hpp: create_error", "wjson/parser.hpp", "wjson/serializer/*.hpp"]}
{"id": "C06", "title": "Passing a null error pointer does not change what the parser consumes", "statement": "For every parser::parse* function, the returned iterator is the same whether e is nullptr, a clean json_error or a json_error that already holds an error.", "quantifier": "every input, every pair of error arguments", "why_tests_cant": "relational property over all inputs", "anchors": ["wjson/parser.hpp", "wjson/error.hpp: create_error"]}
{"id": "C07", "title": "The parser returns an iterator inside [beg,end]", "statement": "Every parser function returns an iterator in the range [beg,end], and on success a value parse advances by at least one byte.", "quantifier": "every input", "why_tests_cant": "safety over all inputs", "anchors": ["wjson/parser.hpp"]}
{"id": "C08", "title": "The verdict never depends on memory past end", "statement": "parser::parse dereferences end only on inputs it rejects anyway: whatever byte is stored past end, accept/reject, the returned iterator and acceptance are the same; an accepted input never causes a read past end. (parse_array/parse_object do dereference end for inputs such as \"[ \", so the unconditional claim 'never reads *end' is false.)", "quantifier": "every input, every value of the byte past the end", "why_tests_cant": "needs all inputs and all memory contents", "anchors": ["wjson/parser.hpp: parse_array (line 610), parse_object (line 586)"]}
{"id": "C09", "title": "Reported error positions lie inside the text", "statement": "After any parser or deserializer call on a clean json_error, 0 <= tail_of <= distance(beg,end); hence strerror::where is in [0,length] and strerror::trace prints the input unchanged with one marker (>>> or <<<) inserted at where.", "quantifier": "every failing input", "why_tests_cant": "must hold for every error path and input", "anchors": ["wjson/error.hpp: json_error::tail_of", "wjson/strerror.hpp: where, trace, message_trace"]}
{"id": "C10", "title": "Numbers are exactly RFC 8259 numbers, longest match", "statement": "parse_number succeeds iff the input starts with an RFC 8259 number that is not followed by an incomplete fraction or exponent, and returns the end of the longest such number.", "quantifier": "every byte sequence", "why_tests_cant": "infinite language", "anchors": ["wjson/parser.hpp: parse_number, parse_integer, parse_digit"]}
{"id": "C11", "title": "String tokens are delimited exactly", "statement": "parse_string succeeds iff the input starts with a quote, then well-formed units (unescaped UTF-8-shaped sequences other than quote and backslash, the eight short escapes, \\uXXXX), then a quote; it returns the position right after the first closing quote. Every RFC 8259 string is accepted.", "quantifier": "every byte sequence", "why_tests_cant": "infinite language", "anchors": ["wjson/parser.hpp: parse_string, parse_utf8, parse_hex"]}
{"id": "C12", "title": "White space and comments", "statement": "parse_space skips every sequence of space, tab, CR, LF and /*...*/ comments (body without */ and not starting with a slash) and stops at the first byte that is neither white space nor a slash; a comment that is not closed is an error and returns end; outside comments it skips nothing but white space and stray slashes (a slash that opens no comment). Deviations: /*/ counts as a complete comment; the slash that closes a comment opens the next one if a star follows it.", "quantifier": "every byte sequence", "why_tests_cant": "infinite language; state machine over all inputs", "anchors": ["wjson/parser.hpp: parse_space, is_space"]}
{"id": "C13", "title": "despace only deletes white space and comments", "statement": "When parser::despace reports no error, its output is the input with white space, comments and stray slashes between tokens removed and nothing else: every string, number, literal and punctuation byte is copied verbatim, in order; the output is never longer than the input.", "quantifier": "every byte sequence", "why_tests_cant": "all inputs", "anchors": ["wjson/parser.hpp: despace"]}
{"id": "C14", "title": "despace keeps a valid document valid", "statement": "If the input is an accepted document, despace reports no error, its output is again an accepted document without white space between tokens, and applying despace again changes nothing.", "quantifier": "every accepted document", "why_tests_cant": "all documents, unbounded nesting", "anchors": ["wjson/parser.hpp: despace, parse"]}
{"id": "C15", "title": "Integers survive a round trip", "statement": "For char, unsigned char, short, unsigned short, int, unsigned, long, unsigned long (and long long) and every value v of the type, deserializing what value<T>::serializer wrote returns v, no error, and stops at the end of the number. For signed types of 32 or more bits the most negative value is the exception: reading it back overflows the accumulator, which the C++ standard leaves undefined (it works under wrap-around arithmetic).", "quantifier": "every integer type of the library and every value of it", "why_tests_cant": "2^64 values per type", "anchors": ["wjson/serializer/number.hpp: integer_serializer::serialize", "wjson/parser.hpp: unserialize_integer"]}
{"id": "C16", "title": "Integers are written in canonical decimal and the local buffer never overflows", "statement": "value<T>::serializer writes the usual decimal representation: optional '-', no leading zeros, '0' for zero, digits whose positional value is v; the stack buffer of integer_buffer_size<T> bytes is always large enough.", "quantifier": "every integer width and signedness, every value", "why_tests_cant": "2^64 values; the buffer bound must hold for every value", "anchors": ["wjson/serializer/number.hpp: integer_buffer_size, integer_serializer"]}
{"id": "C17", "title": "Reading an integer literal", "statement": "For every decimal literal whose value fits T, deserialization yields exactly that value and stops right after the last digit (after the single digit when it starts with 0). Literals that do not fit are reduced modulo 2^bits for unsigned and 8/16-bit types, with no error reported, and are undefined behaviour for int/long.", "quantifier": "every digit sequence of any length", "why_tests_cant": "unbounded digit sequences", "anchors": ["wjson/parser.hpp: unserialize_integer"]}
{"id": "C18", "title": "Booleans", "statement": "value<bool> writes true/false, reads back what it wrote, accepts exactly the literals true, false and null (null giving false), and every other input is an error.", "quantifier": "every bool and every byte sequence", "why_tests_cant": "all inputs", "anchors": ["wjson/serializer/bool.hpp"]}
{"id": "C19", "title": "Strings survive a round trip", "statement": "For every std::string without control bytes other than \\t \\b \\r \\n \\f and without bytes F8..FD (in particular every valid UTF-8 text without other control characters, and also every invalid UTF-8 byte), at most INT_MAX bytes long, deserializing the serialized form returns the same bytes, no error. Other control bytes come back as the six characters \\u00XX.", "quantifier": "every such byte string", "why_tests_cant": "infinite set", "anchors": ["wjson/serializer/string.hpp: serializerS::serialize, unserialize"]}
{"id": "C20", "title": "Serialized strings contain no raw control bytes and no unescaped quote", "statement": "For every byte string the serialized form is a quote, a body without bytes below 32, without an unescaped quote, and a closing quote; when the input has only well-formed UTF-8-shaped sequences the output is accepted by parser::parse_string in full.", "quantifier": "every byte string", "why_tests_cant": "infinite set", "anchors": ["wjson/serializer/string.hpp: serializerS::serialize, serialize_hex_"]}
{"id": "C21", "title": "\\uXXXX decodes to the UTF-8 encoding of the code point", "statement": "For every code unit 0x20..0xFFFF the deserializer turns \\uXXXX (any hex case) into the 1-, 2- or 3-byte UTF-8 pattern of that number; consequently surrogate pairs are not combined.", "quantifier": "all code units and hex spellings", "why_tests_cant": "65536 x case variants, and any surrounding text", "anchors": ["wjson/serializer/string.hpp: unserialize_uhex_"]}
{"id": "C22", "title": "Deserializing into char[N] never writes outside the array", "statement": "value<char[N]>::serializer stores at most N bytes whatever the JSON text; bytes not stored are zero; a string that fits is stored in full; a longer string is reported as an error, except that the six characters an undecoded control escape (\\u0001) stands for may be cut off silently.", "quantifier": "every N and every input", "why_tests_cant": "memory safety over all inputs", "anchors": ["wjson/serializer/string.hpp: serializerT< value<char[N]> >"]}
{"id": "C23", "title": "A bad hex digit in an escape is reported", "statement": "If value<std::string> reads, within the first INT_MAX bytes of the string, a \\u or \\x escape that is followed by a byte that is not a hexadecimal digit, the json_error is set when the call returns.", "quantifier": "every string token with such an escape", "why_tests_cant": "all inputs", "anchors": ["wjson/serializer/string.hpp: uchar2_, unserialize_uhex_, unserialize_xhex_"]}
{"id": "C24", "title": "Floating point literals: position and significant prefix", "statement": "value<double,R> returns the iterator parser::parse_number returns, reports its errors, and the stored number is computed from the first 20 (20+R) bytes only: longer literals are truncated before conversion.", "quantifier": "every input, every conversion function", "why_tests_cant": "all inputs; conversion itself is left abstract", "anchors": ["wjson/serializer/float.hpp: serializerF"]}
{"id": "C25", "title": "Sequences survive a round trip", "statement": "If an element type round-trips, then vector/deque/list (array<...>) of it round-trips for every length; set and multiset round-trip as sorted (unique) sequences.", "quantifier": "every element description, every sequence", "why_tests_cant": "unbounded length and nesting", "anchors": ["wjson/serializer/array.hpp: serializerA", "wjson/specialization/array.hpp"]}
{"id": "C26", "title": "Fixed-size arrays", "statement": "Deserializing into J[N] or std::array<J,N> writes at most N elements; fewer elements leave the remaining ones unchanged; more than N elements is an error; a full array round-trips (N>=1).", "quantifier": "every N, every input", "why_tests_cant": "all inputs", "anchors": ["wjson/serializer/array.hpp: serializerA< array_r<J[N]> >, serializerA< array_r<std::array> >"]}
{"id": "C27", "title": "Dictionaries survive a round trip", "statement": "dict over vector/deque/list of fields keeps order and duplicates; dict over std::map round-trips every map; when the JSON object repeats a key, the std::map keeps the first occurrence.", "quantifier": "every key/value description and dictionary", "why_tests_cant": "unbounded sizes", "anchors": ["wjson/specialization/dict.hpp", "wjson/serializer/field.hpp"]}
{"id": "C28", "title": "Objects survive a round trip", "statement": "For every struct description made of members whose types round-trip and whose names contain no quote and no NUL, deserializing the serialized object into any initial object restores every member.", "quantifier": "every member list, every object value, every initial target", "why_tests_cant": "all structures and values", "anchors": ["wjson/serializer/object.hpp", "wjson/specialization/member.hpp"]}
{"id": "C29", "title": "Member order and unknown members do not matter (nonstrict)", "statement": "For a nonstrict object with distinct member names, deserializing a JSON object whose keys are distinct gives the same result for every permutation of its members and every set of interspersed unknown members with any accepted value; each known member present receives its value, each absent one keeps its previous value.", "quantifier": "every permutation, every set of unknown members, every white space layout", "why_tests_cant": "factorially many orders", "anchors": ["wjson/serializer/object.hpp: unserialize_members"]}
{"id": "C30", "title": "Strict objects reject unknown members", "statement": "For a strict_mode object with distinct member names, a JSON object that contains at least one unknown key is rejected with an error, wherever the key stands, and also if there are values in it that the types of the members cannot read. A JSON object with exactly the known keys in the order of the list is accepted.", "quantifier": "every member list, every JSON object text with an unknown key whose known members have values that their types read, or on which they report an error or stop inside the value", "why_tests_cant": "all positions and member lists", "anchors": ["wjson/serializer/object.hpp: unserialize_members"]}
{"id": "C31", "title": "Duplicate keys", "statement": "When a JSON object repeats a known key, the deserializer keeps the last value as long as some declared member has not been matched in order yet; once all declared members have been matched in order later duplicates are skipped (nonstrict) or rejected (strict). So 'last one wins' is not a law of the library.", "quantifier": "every object text with duplicates whose values can be read", "why_tests_cant": "needs a statement about all member lists and texts", "anchors": ["wjson/serializer/object.hpp: unserialize_members"]}
{"id": "C32", "title": "null and empty objects", "statement": "Deserializing null into an integer, bool, string, sequence or object yields the default value with no error; {} and [] leave an object's members unchanged.", "quantifier": "every type description and every prior value", "why_tests_cant": "all types and prior states", "anchors": ["wjson/serializer/number.hpp", "wjson/serializer/object.hpp", "wjson/serializer/array.hpp", "wjson/serializer/string.hpp", "wjson/serializer/bool.hpp"]}
{"id": "C33", "title": "Positional objects (object_array) survive a round trip", "statement": "object_array writes members as a JSON array in declaration order and restores all of them; a text with fewer elements changes only the leading members; a text with more elements is an error.", "quantifier": "every member list and value", "why_tests_cant": "all structures and values", "anchors": ["wjson/serializer/object_array.hpp"]}
{"id": "C34", "title": "Enumerators", "statement": "For an enumerator with distinct names free of quotes, every listed value round-trips; an unlisted name is an InvalidEnum error in strict mode and gives the default value without error in nonstrict mode; an unlisted value is written as the empty string.", "quantifier": "every enumerator list, every name", "why_tests_cant": "all lists and inputs", "anchors": ["wjson/serializer/enumerator.hpp"]}
{"id": "C35", "title": "Flags survive a round trip", "statement": "For flags with distinct well-formed names, a value that is a union of listed flags round-trips, in the array form and in the separator form; reading any sequence of listed names in any order with repetitions yields the bitwise or of their values. A name that is not listed is ignored in nonstrict mode and is an InvalidEnum error in strict mode.", "quantifier": "every flag list, every value, every order of names", "why_tests_cant": "exponentially many sets and orders", "anchors": ["wjson/serializer/flags.hpp"]}
{"id": "C36", "title": "Time intervals survive a round trip", "statement": "time_interval_s, _ms and _mks restore every non-negative value they wrote, and every negative value that is a whole number of seconds: _s for every integer type, _mks for every type of at least 32 bits, _ms for the signed 64-bit type. Numbers with units are read as the sum of the parts; what is written for a negative whole number of seconds is a minus sign in front of each part. (Negative values with a part below a second, time_interval_ms of int or short and time_interval_ms of unsigned types are not restored; time_interval_ms<int> has undefined behaviour.)", "quantifier": "every integer type and every such value", "why_tests_cant": "2^63 values", "anchors": ["wjson/serializer/time_interval.hpp"]}
{"id": "C37", "title": "Time interval reading stays in bounds", "statement": "Reading a time interval never moves past end. (False: an unterminated string ending in \"mk\" advances two positions past end; it holds for every text whose 'k' is followed by another byte.)", "quantifier": "every input", "why_tests_cant": "memory safety over all inputs", "anchors": ["wjson/serializer/time_interval.hpp: line 87-91"]}
{"id": "C38", "title": "Size values survive a round trip, and the unit they are written with", "statement": "size_value<T,metric> restores every non-negative value v it wrote as long as v*metric fits int64. A value other than 0 is written, in quotes, with a unit of the highest power (T, G, M, K, up to half the bytes of T) that divides v*metric; of a decimal and a binary unit of the same power the decimal one is taken if metric is 1 or a multiple of 10, else the binary one; without such a unit the plain number is written. 0 is written with the unit that equals metric, or plain. Readers take every unit.", "quantifier": "every metric and every such value", "why_tests_cant": "2^63 values", "anchors": ["wjson/serializer/size_value.hpp"]}
{"id": "C39", "title": "Size value strings stay inside the 32-byte buffer", "statement": "Reading a size string never reads outside its 32-byte buffer. (False: a string of exactly 32 bytes leaves no terminator for strlen; it holds for every string that decodes to fewer than 32 bytes.)", "quantifier": "every input", "why_tests_cant": "memory safety over all inputs", "anchors": ["wjson/serializer/size_value.hpp: line 80-85"]}
{"id": "C40", "title": "Quoted values survive a round trip", "statement": "quoted<J> restores every value whose J-serialization is a string that itself round-trips; text after the inner value inside the quotes is ignored without error; an error of the inner value is reported with its code. raw_quoted wraps any JSON value in quotes and restores it (through a back_inserter only). quoted<J,false,false> is J as long as J does not write a string.", "quantifier": "every inner description and value", "why_tests_cant": "all types and values", "anchors": ["wjson/serializer/quoted.hpp: serializerQ"]}
{"id": "C41", "title": "Raw values capture exactly one value", "statement": "raw_value and iterator_pair store exactly the bytes of the value that parser::parse consumes and write back the same bytes; an empty raw value is written as \"\".", "quantifier": "every input", "why_tests_cant": "all inputs", "anchors": ["wjson/serializer/raw_value.hpp", "wjson/serializer/iterator_pair.hpp"]}
{"id": "C42", "title": "Pointers", "statement": "pointer<T,J> writes null for an empty pointer (through a back_inserter) and J's form otherwise, and reads both back (for pointees not starting with 'n'); text starting with 'n' is taken as null without checking the other three bytes; the end of the text is an empty pointer without error.", "quantifier": "every pointee description and value", "why_tests_cant": "all types, values and inputs", "anchors": ["wjson/serializer/pointer.hpp"]}
{"id": "C43", "title": "member_if", "statement": "member_if<L,R> writes L when L differs from its default and R otherwise. In an object or object_array with any number of members and member_ifs, if both alternatives of each member_if have the same name (object only) and the one tried first reports an error on the other's texts, reading back what was written restores every member and every written alternative, resets each other alternative to what null gives, and leaves the rest of the structure alone. (But an object with a member_if can lose the alternative's value when a later key is out of order: order independence fails for it.)", "quantifier": "every list of members and member_ifs, every structure, every target", "why_tests_cant": "all values and member orders", "anchors": ["wjson/serializer/object.hpp: unserialize_member(member_if)", "wjson/serializer/object_array.hpp: member_if"]}
{"id": "C44", "title": "multi_deserializer picks the first matching description", "statement": "multi_deserializer<J1..Jn> returns the index of the first description that deserializes the text without error, and n (with the parser's verdict in e) when none does.", "quantifier": "every list of descriptions and every input", "why_tests_cant": "all lists and inputs", "anchors": ["wjson/utility/multi_deserializer.hpp"]}
{"id": "C45", "title": "Schema lists", "statement": "get_schema_list(v) appends to v exactly the names of the type not present yet, in order and without duplicates, and returns true iff something was appended; create_schema(obj,names) uses the first requested name the type lists, else the last requested one, else the default.", "quantifier": "every schema list and every request list", "why_tests_cant": "all lists", "anchors": ["wjson/schema.hpp: get_schema_list, create_schema"]}
{"id": "C46", "title": "Writing to a char* buffer gives the same bytes as a back_inserter", "statement": "For every value, writing through a raw pointer fills the buffer with the same bytes as std::back_inserter would append and returns the position after them. True for numbers, bool, strings, sequences, dicts, objects, enumerators and flags; false for time_interval, size_value, raw_quoted and null pointers, which lose the advanced iterator.", "quantifier": "every value and buffer", "why_tests_cant": "all values; a statement about two output iterator kinds", "anchors": ["wjson/serializer/*.hpp", "wjson/serializer/time_interval.hpp: write_if_", "wjson/serializer/size_value.hpp: write_if_1_"]}
{"id": "C47", "title": "Every error code has its text", "statement": "strerror::what maps each of the eleven error codes to its own distinct message; message adds the expected token in quotes exactly when there is one.", "quantifier": "every json_error", "why_tests_cant": "all error values incl. expected_of and tail_of", "anchors": ["wjson/strerror.hpp: what, message"]}
{"id": "C48", "title": "Typed deserializers stay inside the text and terminate", "statement": "Every deserializer built from value, array, dict, object, object_array, enumerator, flags, quoted, raw_value, pointer returns an iterator inside [beg,end] and terminates, for every input, provided no undefined behaviour listed in C08/C15/C37/C39 is reached.", "quantifier": "every description and every input", "why_tests_cant": "all types and inputs", "anchors": ["wjson/serializer/*.hpp"]}
{"id": "C49", "title": "Serialized values are valid JSON", "statement": "For every description built from integers, bool, strings with well-formed UTF-8, sequences, dictionaries with string keys, objects, object_arrays, enumerators and flags, the serialized text is accepted by parser::parse and consumed entirely.", "quantifier": "every description and value", "why_tests_cant": "all types, values and nesting depths", "anchors": ["wjson/serializer/*.hpp", "wjson/parser.hpp: parse"]}
{"id": "C50", "title": "Nested descriptions of any depth round-trip", "statement": "For every description built from the library's templates (integers, floats, bool, strings, char arrays, enums, flags, raw, quoted, pointers, sequences, sets, multisets, fixed arrays, fields, dictionaries, maps, objects and object arrays with or without member_if, times, sizes), nested to any depth, deserialize(serialize(v)) = v with no error and nothing left over, for every value that meets the templates' own conditions.", "quantifier": "every description tree and every value of it", "why_tests_cant": "unbounded nesting of types and values", "anchors": ["wjson/serializer/*.hpp"]}
{"id": "C51", "title": "The _json literal", "statement": "\"...\"_json replaces every apostrophe by a quote and changes nothing else; the length is preserved.", "quantifier": "every literal", "why_tests_cant": "all strings", "anchors": ["wjson/_json.hpp"]}
{"id": "C52", "title": "member_value serializes one member", "statement": "member_value<T,V,M,m,W> writes a T exactly as W writes its member m; reading stores into that member only and passes on position and error of W.", "quantifier": "every member, every description W, every value and text", "why_tests_cant": "all types, values and inputs", "anchors": ["wjson/serializer/member_value.hpp"]}
{"id": "C53", "title": "A nested description reads exactly the texts that stand for its values", "statement": "For a description built from integers, Booleans, strings, char arrays, floating point numbers, enumerations, flags, time intervals, sizes, raw and quoted values, pointers, member_value, arrays, fixed-size arrays, dictionaries, objects and object arrays, nested to any depth, there is a compositional meaning of texts (which value a text stands for, given what the variable held before). Reading stores v, reports no error and stops before p exactly if the consumed text stands for v (for a pointer or a time interval at the outermost level: if the text is not cut off at the end). Every other text is reported, left unread in part, or (integer overflow only) undefined. A text stands for at most one value.", "quantifier": "every description of the family, every text up to INT_MAX bytes, every previous content of the variable", "why_tests_cant": "unbounded nesting and all texts, both acceptance and rejection", "anchors": ["wjson/serializer/object.hpp: unserialize_members", "wjson/serializer/array.hpp", "wjson/serializer/object_array.hpp", "wjson/serializer/number.hpp", "wjson/serializer/string.hpp", "wjson/serializer/enumerator.hpp", "wjson/serializer/flags.hpp", "wjson/serializer/time_interval.hpp", "wjson/serializer/size_value.hpp", "wjson/serializer/quoted.hpp", "wjson/serializer/pointer.hpp"]}
{"id": "C54", "title": "Typed readers accept nothing but JSON of the dialect", "statement": "For a nested description (integers, floating point numbers, bool, strings, char arrays, names, sizes, raw and quoted values, and containers and structures of these) whose dictionary keys are strings, char arrays, names or quoted values and whose enumerations are strict with plain names: if a read from an ASCII text without control characters, not starting with white space, without \\x escapes and without null in the place of a key reports no error, then the consumed text is a value of the wjson dialect and parser::parse accepts it too and stops at the same place. So a text parser::parse refuses is refused by every such description. (Each condition is needed: texts outside it are read without error although parser::parse refuses them.)", "quantifier": "every description of the family, every such text up to INT_MAX bytes, every previous content", "why_tests_cant": "all texts and all nestings of descriptions", "anchors": ["wjson/parser.hpp: parse", "wjson/serializer/string.hpp", "wjson/serializer/array.hpp", "wjson/serializer/object.hpp", "wjson/serializer/enumerator.hpp", "wjson/serializer/field.hpp"]}
{"id": "C55", "title": "A truncated document is noticed", "statement": "If the validator accepts a value other than a number, then a text that ends anywhere inside this value is not accepted: an error is recorded and the returned iterator is end; with a null error pointer the returned iterator is end as well. The same holds for typed readers of plain texts: a text that was read as a whole and is not a number is never read as a whole from a part of it.", "quantifier": "every accepted text, every cut position inside the value, every platform and error argument; every nested description with string keys", "why_tests_cant": "there are unboundedly many values and a cut position for every byte of each of them", "anchors": ["wjson/parser.hpp: parser::parse", "wjson/serializer/*.hpp: operator()( T&, P, P, json_error*)"]}
{"id": "C56", "title": "Documents that follow one another are told apart", "statement": "The loop parse_space, parse, parse_space, parse, ... over one text succeeds exactly if the text consists of documents with white space and comments before, between and after them, and then yields exactly these documents; the division is unique; any other text is reported. Values written one per line by a serializer are read back one by one, in order.", "quantifier": "every text, every number of documents, every platform; every serializer with a round trip and every list of its values", "why_tests_cant": "the number, kind and separation of the documents is unbounded; a position that is wrong by one byte shows only with certain neighbours", "anchors": ["wjson/parser.hpp: parser::parse, parser::parse_space"]}
{"id": "C57", "title": "What the variable held before does not leak into the result", "statement": "Reading into a reused variable: for integers, bool, strings, char arrays, enumerations, flags, time intervals, sizes, raw values, and for sequences, dictionaries and pointers of anything, the stored value, the returned position and the error are the same whatever the variable held before, for valid and for invalid non-empty texts. For floating point numbers, raw_quoted and quoted forms of all of these, the same holds for every text that is read without an error. (Objects, member_value and fixed-size arrays keep what the text does not mention; a quoted value that cannot be read leaves the variable alone.)", "quantifier": "every description of the family, every text, every pair of earlier values", "why_tests_cant": "ranges over all texts, all earlier values and all nested descriptions", "anchors": ["wjson/serializer/array.hpp: clear", "wjson/serializer/flags.hpp: operator()", "wjson/serializer/enumerator.hpp: operator()", "wjson/serializer/number.hpp", "wjson/serializer/pointer.hpp", "wjson/serializer/quoted.hpp"]}
{"id": "C58", "title": "What a variable holds after an error", "statement": "When a reader reports an error on a non-empty text: an integer and a size are 0; an enumeration has its default value; a bool is true exactly if the text starts with t; a raw value is the rest of the text; a raw_quoted value is empty if there is no value after the opening quote, the value if only the closing quote is missing, and unchanged if there is no opening quote. A sequence holds, in order, the elements before the offending one and then what was read of it; if the text just ends after a comma, exactly the elements before the end. A text that does not start with the opening bracket leaves a sequence or dictionary empty and a fixed-size array as it was. A dictionary holds the entries before the offending one and then its key with what was read of its value. A structure has the members before the offending one, the offending member holds what was read of its value, and everything else in it is as before; the same if a member with an unknown key is refused. If only the comma or the closing bracket after an element, entry or member is missing, everything up to and including it is kept. A fixed-size array keeps its old elements from the offending one on, which itself holds what was read of it. A structure written as a JSON array behaves like a structure; a text that starts with [ leaves a structure written as an object as it was. A time interval is the sum of the parts of the string before the offending one, and 0 if the text is neither a number nor a string nor null. Flags that have to be listed have the bits of the names before the unknown one.", "quantifier": "every text that is rejected, every earlier value, every element description", "why_tests_cant": "ranges over all rejected texts and all positions of the error", "anchors": ["wjson/serializer/number.hpp: unserialize_integer", "wjson/serializer/bool.hpp: operator()", "wjson/serializer/enumerator.hpp: operator()", "wjson/serializer/size_value.hpp", "wjson/serializer/raw_value.hpp", "wjson/serializer/quoted.hpp: serializerRQ", "wjson/serializer/array.hpp: serializerA", "wjson/serializer/object.hpp: unserialize_members, unserialize_member_name", "wjson/serializer/field.hpp", "wjson/serializer/object_array.hpp: unserialize_members", "wjson/serializer/time_interval.hpp: operator()", "wjson/serializer/flags.hpp: deserialize, deserialize_one"]}
{"id": "C59", "title": "White space and comments do not change what is read", "statement": "For the descriptions of C54 without raw values: if a plain text is read without error and as a whole, then parser::despace of this text, with any white space and comments around it, reports no error, and reading its result into the same variable content stores the same value, without error and as a whole. So reading a text and reading its reduced form never give two different values. (The converse fails: for a fixed-size array [1,2, ] is refused and the reduced [1,2,] is read.)", "quantifier": "every description of the family, every plain text up to INT_MAX bytes that is read, every surrounding white space, every earlier content", "why_tests_cant": "ranges over all layouts of all values of all nested descriptions", "anchors": ["wjson/parser.hpp: despace", "wjson/serializer/array.hpp", "wjson/serializer/object.hpp", "wjson/serializer/object_array.hpp", "wjson/serializer/field.hpp", "wjson/serializer/string.hpp"]}
{"id": "C60", "title": "Serialized text is compact", "statement": "A value of a nested description as in C49, whose raw parts contain no white space, is serialized to an RFC 8259 value without any white space between its tokens, and parser::despace returns exactly this text.", "quantifier": "every description of the family and every value", "why_tests_cant": "ranges over all values of all nested descriptions", "anchors": ["wjson/parser.hpp: despace", "wjson/serializer/array.hpp: operator()", "wjson/serializer/object.hpp: operator()", "wjson/serializer/object_array.hpp: operator()", "wjson/serializer/field.hpp: operator()"]}
{"id": "C61", "title": "Error positions of the validator are exact", "statement": "When parser::parse reports an error, strerror::where is the length of the longest beginning of the text that can still be continued to an accepted document: everything before the position is fine, and the byte at the position cannot stand there. Exceptions, proved as such: a bad number is reported at the end of the text, a missing colon one byte too far to the right, a misspelt literal as many bytes before the end of the text as letters of it are right. A text with an error can be completed to a document exactly when the error is at the end of the text and is not one of the exceptions; UnexpectedEndFragment is reported for incomplete texts only.", "quantifier": "every text, every clean error object, every platform behaviour at the end of the text for which parse is defined", "why_tests_cant": "exactness of the position is a statement about all continuations of all prefixes of all texts", "anchors": ["wjson/parser.hpp: parser::parse and all functions it calls", "wjson/strerror.hpp: strerror::where", "wjson/error.hpp: create_error"]}
{"id": "C62", "title": "Typed readers do not depend on the error argument", "statement": "Deserializing with a description that does not use quoted, raw_quoted, time_interval or size_value gives the same value and the same position whether the error argument is null, a new object or an object that already holds an error; a null pointer stays null, an earlier error is kept, and all objects without an error receive the same result. For every description, a read that succeeds with an error object gives the same value and position with a null error argument and leaves the object unchanged. Deviations, proved as such: without an error object quoted does not notice wrong text inside the quotes and returns the position after the string; quoted and time_interval stop early when the error argument already holds an error.", "quantifier": "every description, every start value, every text, every error argument", "why_tests_cant": "the comparison is between all pairs of calls with different error arguments, for all texts and all nested descriptions", "anchors": ["wjson/error.hpp: create_error", "wjson/serializer/*.hpp: operator()(V&, P, P, json_error*)", "wjson/serializer/quoted.hpp: serializerQ::deserialize", "wjson/serializer/time_interval.hpp: serializer"]}
{"id": "C63", "title": "Unordered containers come back up to their order", "statement": "A value with containers whose iteration order is open (unordered_set, unordered_multiset, unordered_map, unordered_multimap, equivalent elements of multiset and multimap) anywhere in it, in arrays, dictionaries, structures (with or without alternatives of member_if), pointers or quoted text nested to any depth, is written to a text that is read back without an error, up to its end, as a value that differs at most in the order of those containers. Reading any array into a container that keeps all elements gives exactly these elements up to order; into a container with unique keys it gives distinct keys and for each key the first element of the text.", "quantifier": "every description with such containers, every value, every insertion behaviour of the container that keeps its elements, every text of an array of items, every start value", "why_tests_cant": "the order depends on hash functions and bucket counts of the platform; the claim is for every order and every nesting", "anchors": ["wjson/specialization/array.hpp: array_base<std::unordered_set>, array_base<std::unordered_multiset>, array_base<std::multiset>", "wjson/specialization/dict.hpp: dict_base<std::unordered_map>, dict_base<std::unordered_multimap>, dict_base<std::multimap>", "wjson/serializer/array.hpp: serializerA::operator()"]}
{"id": "C64", "title": "What the standard defines is the same on every platform", "statement": "If reading or writing with a description is free of undefined behaviour in the sense of the standard, then value, position, error and output are the same on every platform: they do not depend on the byte stored after the end of the text, nor on what signed overflow does, nor, if the description contains no enumerator, on whether char is signed. The same holds for parser::parse and multi_deserializer. Deviations, proved as such: inputs such as an integer out of range, an unfinished array or an unfinished [ in place of an object are undefined, and platforms differ on them; enumerator skips bytes from 128 on before the name only where char is signed.", "quantifier": "every description, every value, every text, every error argument, every output, every platform", "why_tests_cant": "tests run on one platform and with one memory layout; the claim compares all platforms on all inputs", "anchors": ["wjson/parser.hpp: parser::parse_object, parser::parse_array", "wjson/serializer/*.hpp: operator()", "wjson/serializer/number.hpp: serializerT", "wjson/serializer/enumerator.hpp: serializerT", "wjson/utility/multi_deserializer.hpp: multi_deserializer"]}
{"id": "C65", "title": "An error means the returned iterator is end", "statement": "When deserialization is called with no error set and reports an error, the returned iterator is the end of the text; so any other returned iterator means success, also for a caller who passes a null error argument (for descriptions without quoted, raw_quoted and time_interval, which treat a null argument differently). Exceptions, proved as such: a wrong hexadecimal digit in a \\u or \\x escape of a string is reported (InvalidString, no position), but the string is read to its closing quote; size_value with a wrong number returns the position after the string; a fixed-size array of a type that cannot be read from null returns the position after null.", "quantifier": "every description without size_value and with fixed-size arrays only of elements that accept null, every start value, every text, every error argument without an error", "why_tests_cant": "relates position and error at every failure point of every text and every nesting of templates", "anchors": ["wjson/serializer/*.hpp: operator()", "wjson/parser.hpp: parser::parse_value, parser::parse_member", "wjson/serializer/string.hpp: serializerS::unserialize", "wjson/serializer/size_value.hpp: serializer", "wjson/serializer/array.hpp: serializerA", "wjson/error.hpp: create_error"]}
{"id": "C66", "title": "What has been read can be saved and read again", "statement": "A variable that is only ever filled by deserialization holds, after any sequence of reads, whether they succeed, fail or stop at a torn-off text, a value that can be written without error, and whose text is read back, into any variable, as the same value with no error and nothing left over; different values held this way are written differently. This holds for descriptions of integers, bool, strings, char arrays, floating point types that convert back, enumerations whose default is listed, flags, quoted, pointer, member_value, containers, fixed-size arrays, dictionaries, objects and object arrays that consist of their members, with or without alternatives of member_if that can be told apart by their texts, intervals in seconds and sizes in bytes. Strings need texts without stray control bytes, bytes F8-FD and \\x escapes. Deviations, proved as such: a string read from \"\\x01\" is written as \\u0001 and read back as six characters; raw_value keeps the rest of a wrong text; an interval in milliseconds reads -5ms and writes 4995000mks; with an enumeration and a string as alternatives, a text torn off inside a name leaves the name in the string, and what is then written is read back as the enumeration.", "quantifier": "every description of the class, nested to any depth, every sequence of texts, every error argument", "why_tests_cant": "it is an invariant of every history of reads, including those stopped at any byte by an error", "anchors": ["wjson/serializer/*.hpp: operator()", "wjson/serializer/string.hpp: serializerS::serialize, serializerS::unserialize", "wjson/serializer/raw_value.hpp: serializer", "wjson/serializer/time_interval.hpp: serializer", "wjson/serializer/object.hpp: serializerT", "wjson/serializer/array.hpp: serializerA"]}
{"id": "C67", "title": "How large an output buffer has to be", "statement": "The text of a value takes at most a number of bytes computed from its description and its size: the digits of the type for integers, 6 bytes per character and two quotes for strings, the longest name for enumerations, the sum of the parts with one byte between them and two brackets for containers, plus the name and three bytes for each member. Writing through a raw pointer into a buffer with that many free bytes is defined, writes the same text as a back inserter, changes no byte before or behind the text and returns the position behind it. A buffer shorter than the text is overrun. The bounds for strings (at every length) and for every integer type are reached. Through a back inserter a time interval takes at most 32 bytes and a size at most 22 (both are reached) and an empty pointer 4, on their own and inside any of these descriptions. Deviation: through a raw pointer the empty pointer writes four bytes and needs five.", "quantifier": "every description built from integers, bool, strings, char arrays, floating point types, enumerations, flags, raw_value, quoted, pointer, member_value, containers, fixed-size arrays, dictionaries, objects and object arrays, nested to any depth; every value; every buffer", "why_tests_cant": "a test measures the texts of some values; that no value of a type takes more than a given number of bytes is a claim about all of them, and an overrun of the buffer is undefined behaviour a test may not notice", "anchors": ["wjson/serializer/number.hpp: serializer", "wjson/serializer/string.hpp: serializerS::serialize", "wjson/serializer/enumerator.hpp: serializer", "wjson/serializer/flags.hpp: serializer", "wjson/serializer/array.hpp: serializerA", "wjson/serializer/object.hpp: serializerT", "wjson/serializer/pointer.hpp: serializer", "wjson/serializer/time_interval.hpp", "wjson/serializer/size_value.hpp"]}
{"id": "C68", "title": "Data survives a change of the description", "statement": "A text written with one version of a description can be read with another version. Members that both versions name are read, in whatever order they come, each by the new description of the member; members that only the reader has, and everything that is no member, keep what the variable held; members that only the writer has are skipped by a reader that is not strict and make a strict reader report an error. Under a member, an element or a pointer the description may change as follows: another integer type that the number fits; a number of ticks that becomes an interval; an enumeration with other numbers behind the same names (a name the reader does not have gives its default); a value that becomes optional or ceases to be; a value kept as raw text or a raw text read as a value; another container; a fixed-size array that becomes a container; a container, or a shorter array, that becomes a fixed-size array that is large enough (the other elements keep what they held); a positional object with members added at the end; a member that gets an alternative (member_if), or alternatives of the writer: the alternative that the text belongs to gets the value and the other one the value of null, provided it is not tried first or rejects the text. No error is reported and the read stops right after the text. Members unknown to a program are lost when a file passes through it.", "quantifier": "every pair of descriptions related by these changes at any depth, every value of the writer that round-trips, every content of the variable of the reader, every text that follows", "why_tests_cant": "a test fixes two versions and a few files; compatibility must hold for every file an old program can have written and for every order, subset and nesting of the members", "anchors": ["wjson/serializer/object.hpp: serializerT::unserialize, unserialize_members, unserialize_member", "wjson/serializer/object_array.hpp: serializerT", "wjson/serializer/enumerator.hpp: serializer", "wjson/serializer/pointer.hpp: serializer", "wjson/serializer/raw_value.hpp: serializer", "wjson/serializer/array.hpp: serializerA", "wjson/specialization/member_if.hpp: member_if"]}
{"id": "C69", "title": "The stack the validator needs", "statement": "The number of calls of parse_value that are open at the same time is exactly one more than the nesting of an accepted text (the number of brackets and braces around its deepest value); the length of the text does not matter. For any other text it is at most one more than the number of opening brackets. A smaller stack never changes the result: it overflows. (There is no limit on the nesting: for every stack there is a valid text of 2k+2 bytes, and an invalid one of k+1 opening brackets, that overflows it. This concerns every caller of parse_value: parser::parse, raw_value and the skipping of unknown members.)", "quantifier": "every byte sequence, every nesting, every stack size", "why_tests_cant": "a test shows one depth; that nothing but the nesting counts, and that no stack is enough, are statements about all texts", "anchors": ["wjson/parser.hpp: parse_value, parse_member, parse_object, parse_array"]}
{"id": "C70", "title": "despace may write over its own input", "statement": "If the output of parser::despace lies in the same memory as its input and does not start after the input does, then the call is defined for every text, returns the same position and error as with a separate output and writes the same bytes; no byte outside the written ones changes. A buffer that holds an accepted document between spaces and comments begins with the reduced document afterwards, which is accepted, too. (Started one byte later the output destroys what is still to be read.)", "quantifier": "every memory, every range of it as the input, every start of the output not after the input, every error argument", "why_tests_cant": "overlapping copies go wrong only for particular distances and contents; that none exists is a statement about all of them", "anchors": ["wjson/parser.hpp: despace, parse_space"]}
{"id": "C71", "title": "From UTF-8 texts to UTF-8 texts", "statement": "Reading a UTF-8 text, whether it is right, wrong or torn off between two characters, into a variable whose strings are UTF-8 leaves a variable whose strings are UTF-8. So a program that has read any number of UTF-8 texts, with errors or without, can write the variable at any time, and what it writes is an RFC 8259 value in UTF-8 that the validator accepts. despace of a UTF-8 text without an error is a UTF-8 text. The texts must contain no \\x, only hexadecimal digits after \\u, and no escaped UTF-16 pairs, and must fit an int; raw values and char arrays are left out. (An escaped UTF-16 pair, which is how JSON writes characters beyond U+FFFF, leaves bytes that are not UTF-8, and they are written.)", "quantifier": "every description built from integers, Booleans, floating point types, strings, enumerations, flags, quoted values, pointers, containers of any kind, fixed arrays, dictionaries, structures with or without alternatives of member_if, intervals and sizes, nested to any depth; every sequence of texts; every error argument", "why_tests_cant": "the claim is about every text, including all wrong ones, and every history of a variable", "anchors": ["wjson/serializer/string.hpp: serializerS::unserialize, unserialize_uhex_, unserialize_utf8_, serialize_", "wjson/parser.hpp: despace", "wjson/serializer/object.hpp", "wjson/serializer/array.hpp", "wjson/serializer/field.hpp"]}
{"id": "C72", "title": "The work of the validator is linear", "statement": "Checking a text, and removing the white space from it with despace, takes an amount of work that is linear in the length of the text, whether the text is accepted or not: at most twenty function calls and loop passes per byte consumed and eight more. Nesting, white space, comments, strings and errors cannot make it worse.", "quantifier": "every text, every error argument, every platform configuration", "why_tests_cant": "a bound on the work for all texts of all lengths and depths", "anchors": ["wjson/parser.hpp: parse_value, parse_member, parse_object, parse_array, is_object, parse_space, parse_string, parse_number, despace"]}
{"id": "C73", "title": "The error code says what is wrong and what could stand there", "statement": "When parser::parse reports an error, the code fits the place where the text goes wrong, that is the end of the longest beginning that can still be continued to a document. InvalidJSON: any value could stand there. InvalidMember: any string could stand there, as the name of a member. InvalidNumber: the place is inside a number, behind its sign, point or exponent letter, and any digit would make it a number. InvalidString: the place is inside a string, with its opening quote and without its closing one. ExpectedOf with a colon, bracket or brace: this token could stand there; with null, true or false: the place is inside this word. UnexpectedEndFragment: the text ends there. No other code is reported.", "quantifier": "every text, every clean error object, every platform behaviour at the end of the text for which parse is defined", "why_tests_cant": "the set of wrong texts is infinite, and the claim is about all continuations of their beginnings", "anchors": ["wjson/parser.hpp: parse_value, parse_member, parse_object, parse_array, parse_string, parse_hex, parse_utf8, parse_number, parse_null, parse_bool, parse_space", "wjson/error.hpp: create_error"]}
{"id": "C74", "title": "What a typed reader reports about a value of the wrong kind", "statement": "When a text has a value of another kind than the description wants (and the value is not null), the typed reader reports it with a fixed code and with the position of that value: InvalidNumber for integers and floating point types, InvalidBool for bool, ExpectedOf a quote for strings, char[N], enumerators, flags and quoted values, ExpectedOf [ for arrays and object_array, ExpectedOf { for dictionaries and objects. Names that are not listed are reported as InvalidEnum or InvalidMember in the strict modes, at the name. A missing colon, comma or closing bracket is reported as ExpectedOf at the place where it is missing, the end of the text as UnexpectedEndFragment. When the value is an element, an entry or a member of something bigger and everything before it can be read, the whole reader reports exactly the error of the value; strerror::where then gives the number of bytes before it. Deviations: a time_interval or size_value of the wrong kind is reported at the end of the text, an error inside the string of a size_value at a place counted in a copy of that string, and a missing comma in a std::array has an empty expected token.", "quantifier": "every description, every text and value before, every position inside arrays, dictionaries and structures of any nesting", "why_tests_cant": "the error has to be the same for every wrong byte, every number of elements before it and every nesting", "anchors": ["wjson/serializer/number.hpp: serializerN", "wjson/serializer/bool.hpp: serializerT", "wjson/serializer/float.hpp: serializerF", "wjson/serializer/string.hpp: serializerS", "wjson/serializer/enumerator.hpp: operator()", "wjson/serializer/flags.hpp: operator()", "wjson/serializer/array.hpp: serializerA", "wjson/serializer/field.hpp: operator()", "wjson/serializer/object.hpp: operator(), unserialize_members, unserialize_member_name", "wjson/serializer/object_array.hpp: operator()", "wjson/serializer/time_interval.hpp: operator()", "wjson/serializer/size_value.hpp: operator()", "wjson/error.hpp: create_error", "wjson/strerror.hpp: where"]}
{"id": "C75", "title": "Errors inside the text of a scalar, exactly", "statement": "For every text read as an integer, bool, floating point number, string, char[N] or enumerator a table says whether there is an error and which: a word (null, true, false) that breaks off is UnexpectedEndFragment, a wrong letter ExpectedOf the word; a minus without digit InvalidNumber behind the minus; a digit missing in a floating point number InvalidNumber without a position, or the end of the text; in strings an unknown escape InvalidString at its letter, a byte that begins no character InvalidString at this byte, an end inside an escape or a character UnexpectedEndFragment, more bytes than fit ExpectedOf a quote at the first byte that does not fit; an enumerator that is not listed InvalidEnum at its name in the strict mode. The reader reports exactly the error of the table, and nothing where the table has none. Deviation: a wrong hexadecimal digit in \\u or \\x is reported without a position and does not end the reading of the string.", "quantifier": "every text, every previous value, every integer type, floating point type, buffer size and list of enumerators", "why_tests_cant": "both directions range over all texts: every error must be found wherever it stands, and no text without an error may be reported", "anchors": ["wjson/serializer/number.hpp: unserialize_integer", "wjson/serializer/bool.hpp: operator()", "wjson/serializer/float.hpp: operator()", "wjson/serializer/string.hpp: unserialize, from_esc, unserialize_hex, utf8_to_utf8", "wjson/serializer/enumerator.hpp: operator()", "wjson/parser.hpp: parse_null, parse_bool, parse_number", "wjson/error.hpp: create_error"]}
{"id": "C76", "title": "Errors of containers, structures and the values in them, exactly", "statement": "For every description built from the scalars of C75, raw values, flags, time intervals, sizes, pointers, fields, quoted values, sequences, dictionaries, fixed-size arrays, member_value, and structures written as an object (strict or not) or as an array, with member_if or without, nested in any way, a table made from the tables of the parts says whether reading a text reports an error and which: the code, the expected token and the position. With a fresh error object the error left is exactly the one of the table, and no error is left exactly if the table has none; a text has at most one. The table names the first thing that is wrong: another opening bracket, the end of the text or an open comment where a token should come, an error of the key, the name or the value, a missing colon, comma or closing bracket, an unknown or surplus member in the strict mode. A member_if has an error if both alternatives have one. Deviations, with witnesses: of a member_if the error of the alternative tried last is reported, even if the other one has its error deeper in the text; a pointer reports nothing for a text that begins with n; a missing comma has no name in a std::array and is reported as a missing brace in a structure; of several surplus members the strict mode reports the last; a wrong kind or unit of a time interval or a size is reported without its place, and inside the string of a size the place is that in the string; a time interval that is cut behind a number reports nothing; in the array form of flags commas are not needed.", "quantifier": "all descriptions of the class, all texts, all previous values of the variable", "why_tests_cant": "the table must be right for every nesting of descriptions and every wrong text; tests can only try single broken documents", "anchors": ["wjson/serializer/array.hpp: serializerA (vector, std::array, J[N]), operator() reading", "wjson/serializer/field.hpp: operator() reading", "wjson/serializer/object.hpp: unserialize_members, unserialize_member, operator()", "wjson/serializer/object_array.hpp: operator() reading", "wjson/serializer/pointer.hpp: operator()", "wjson/serializer/quoted.hpp: operator()", "wjson/serializer/raw_value.hpp: operator()", "wjson/error.hpp: create_error", "wjson/serializer/flags.hpp: operator() reading, deserialize_array_, deserialize_string_", "wjson/serializer/time_interval.hpp: operator() reading", "wjson/serializer/size_value.hpp: operator() reading", "wjson/specialization/member_if.hpp: member_if"]}
{"id": "C77", "title": "The stack the reader of an object needs", "statement": "The reader of an object calls itself for every member of the text until all declared members have come in their order; from then on it is a loop. For an object that is read without error the number of these calls that are open at the same time is exactly the number of members read before the last declared one has come in order, plus one if any follow. If the text begins with the declared members in their order, one call more than there are declared members is enough, however many members follow. For any text, one call more than it has commas is enough, and a smaller stack never changes the result: it overflows. (There is no limit: for every description that is not strict, and for every strict one with two members, and for every stack there is a flat text - an undeclared member, or the second one, again and again - that is read without error on a larger stack and overflows this one.)", "quantifier": "every object description (member, member_p, member_if; strict or not), every text, every number of frames", "why_tests_cant": "The number of frames has no bound; a test sees one text on one stack, and overflows show only on texts longer than any test has.", "anchors": ["wjson/serializer/object.hpp: unserialize_members, operator()"]}
{"id": "C78", "title": "The work of reading a value is linear in the text", "statement": "Count one for every call of a function, every pass through a loop and every byte stored while a value is read by a description: an integer, Boolean, floating-point number, string, char array, enumeration, flags, time interval, size, raw value, quoted value, pointer, member_value, sequence, dictionary, fixed-size array, structure as an object or as an array, nested in any way (member_if excepted). Counting changes no result. For every description there are two numbers A and B such that reading any text, good or bad, costs at most A for every byte consumed (for every byte of the text if it is not accepted) and B once. For the scalars the numbers are small and stated. multi_deserializer is linear too. With member_if it is false: for an array of structures written as arrays with a member_if (flags, tried first, or a string) the text [[\"/*\"],[\"/*\"],...] is read without error, but the work grows with the square of its length, because the first alternative takes the bytes in the string for a comment and looks for its end in the rest of the document, for every element.", "quantifier": "all descriptions of the class, all texts, all previous values of the variable and states of the error object", "why_tests_cant": "A test measures the time of some texts; that no text, however long or malformed, makes the readers go over the same bytes again and again must hold for all texts.", "anchors": ["wjson/parser.hpp: parse_space, unserialize_integer, parse_value", "wjson/serializer/string.hpp: operator() reading", "wjson/serializer/array.hpp: operator() reading", "wjson/serializer/object.hpp: unserialize_members, unserialize_member, operator()", "wjson/serializer/object_array.hpp: operator() reading", "wjson/serializer/enumerator.hpp: deserialize", "wjson/serializer/flags.hpp: deserialize", "wjson/serializer/time_interval.hpp: operator() reading", "wjson/serializer/quoted.hpp: operator()", "wjson/serializer/object_array.hpp: unserialize_member for member_if", "wjson/utility/multi_deserializer.hpp: multi_deserializer"]}
{"id": "C79", "title": "What is read takes memory at most linear in the text", "statement": "Measure a value by what it allocates: the bytes of its strings and raw values, one for each element of a container and one for each object behind a pointer, and all of this for the elements, fields, members and pointed-to objects. For every description - scalars, strings, raw and quoted values, pointers, member_value, containers, dictionaries, fixed-size arrays, objects and object arrays with member, member_p and member_if - there are two numbers A and k such that after reading any text, good or bad, the value is at most as large as the variable was before, plus A, plus k for each byte consumed. In particular a string is never longer than the text it is read from, and the number of strings of a container (or of entries of a dictionary of strings) together with all their bytes is at most the number of bytes of the text. (A C array of raw values stores a text that begins with n once for every element: the factor cannot be dropped. For member_if the alternatives must be types that null empties.)", "quantifier": "all descriptions of the class, all texts, all previous values of the variable and states of the error object, all containers that insert at most one element at a time", "why_tests_cant": "A test reads some texts; that no text makes the reader allocate out of proportion must hold for all of them.", "anchors": ["wjson/serializer/string.hpp: unserialize, unserialize_uhex_", "wjson/serializer/array.hpp: operator() reading", "wjson/serializer/object.hpp: unserialize_members, unserialize_member", "wjson/serializer/object_array.hpp: unserialize_members, unserialize_member", "wjson/serializer/pointer.hpp: operator() reading", "wjson/serializer/quoted.hpp: deserialize", "wjson/serializer/raw_value.hpp: operator() reading"]}
{"id": "C80", "title": "What lies in uninitialised memory does not reach the elements of a container", "statement": "Containers and std::array read every element into a variable that is declared without a value and then store the variable. For elements that are integers, Booleans, strings, enumerations, flags, time intervals, sizes, raw values, containers, dictionaries or pointers the value, the position and the error are the same whatever that variable held, for every text, valid or not, and at any depth inside dictionaries, pointers, quoted values, C arrays and structures. If floating-point numbers and quoted values are elements too, this holds for every text read without an error, and whether a text is read without an error does not depend on that memory. What wjson wrote for a vector of any good values, structures included, is read back as that vector whatever the memory held. It fails otherwise: a vector of floating-point numbers read from [x and a vector of quoted integers read from [1] hold an indeterminate value (with an error), and, without any error, so do a vector of structures without a constructor read from [{}] and a vector of std::array<int,3> read from [[1]].", "quantifier": "all descriptions of the classes, all texts, all contents of the memory of the element variables (different at each place of the text), all previous values of the variable and states of the error object", "why_tests_cant": "In a test the memory usually happens to be zero or to hold the previous element, so the result looks right; that it can hold anything must be considered for every content and every text.", "anchors": ["wjson/serializer/array.hpp: operator() reading, target tg", "wjson/serializer/float.hpp: operator() reading", "wjson/serializer/quoted.hpp: deserialize", "wjson/serializer/object.hpp: operator() reading", "wjson/serializer/field.hpp: operator() reading"]}
{"id": "C81", "title": "The stack the readers of nested descriptions need", "statement": "Count as a frame every open call of a reader, of the member routine of an object and of parse_value. For any description a stack with one frame for every level of the description and one for every byte of the text never overflows: the levels and the bytes are added, not multiplied, whatever is nested in what. A description without objects and raw values needs a fixed number of frames, whatever the text. A smaller stack never changes the result: it overflows. (An object that is not strict, and a raw value, have no such number: for every stack there is a JSON text - for the object a flat one - that is read without error on a larger stack and overflows this one.)", "quantifier": "every description built from the templates to any depth, every text, every number of frames", "why_tests_cant": "A test sees one text on one stack; that no text of any length needs more, for all nested descriptions, is a statement about all of them.", "anchors": ["wjson/serializer/object.hpp: unserialize_members, operator()", "wjson/serializer/array.hpp: operator()", "wjson/serializer/object_array.hpp: operator()", "wjson/serializer/raw_value.hpp: operator()", "wjson/serializer/quoted.hpp: operator()", "wjson/parser.hpp: parse_value"]}
{"id": "C82", "title": "Floating point numbers through text", "statement": "With the correctly rounding conversions of the standard library streams: a JSON number that fits the buffer (20 bytes, 20+R with R digits) and the range of the type is read as a value of the type nearest to it. value<T> writes every finite value as a JSON number with seven significant digits and a relative error of at most 1/2000000; value<T,R> writes every value below 10^18 with R digits behind the point, off by at most half a unit of the last one. A JSON number with at most seven significant digits in the normal range of double or long double is kept by value<T>: it is read as a value that is written as the same number, and that text is read as the same value; value<T,R> keeps numbers with R digits behind the point (below 10^18, and below 2^52 units of the last digit for double). A text written once is written again after any number of reads and writes. (Exceptions, with witnesses: infinities and NaN become texts that are not JSON; a double is not kept by value<double> in general, nor a seven digit number by value<float>; numbers out of range become the largest value without an error; longer literals and longer texts are cut.)", "quantifier": "every JSON number, every finite value, every binary format of the usual sizes, every R", "why_tests_cant": "There are 2^64 doubles and infinitely many numbers; the tests try six.", "anchors": ["wjson/serializer/float.hpp: serializerF"]}
{"id": "C83", "title": "Descriptions that mention themselves", "statement": "A JSON description may refer to itself behind a pointer (a list node with a pointer to the next node, a tree node with a vector of pointers to its children). If it refers to itself only between the brackets of an array, object or dictionary, then reading any text with it comes to an end: at most as many nested calls of itself are made as the text has bytes, and one more. The reader is the only function that satisfies the recursive definition; it returns a position inside the text, and has no undefined behaviour under the same conditions as descriptions without recursion. Writing a finite value gives one text, whatever the depth, and trees of any depth and width are read back as they were written. The number of nested calls has no fixed bound: for every number there is a JSON text that needs more. (The brackets are needed: a description that mentions itself behind a pointer without brackets reads null, but on any other text the calls never end.)", "quantifier": "all recursive descriptions built from the templates, all texts, values, error arguments and depths", "why_tests_cant": "Tests read lists and trees of a few levels; that the recursion ends for every text, also a damaged one, that it is the only solution of its own definition and that trees of every depth survive the round trip are statements over unbounded recursion.", "anchors": ["wjson/serializer/pointer.hpp: operator()", "wjson/specialization/pointer.hpp: pointer", "wjson/serializer/object.hpp: operator()", "wjson/serializer/array.hpp: operator()"]}
{"id": "C84", "title": "Several documents read into one variable", "statement": "The same variable may be read into again and again (a structure that is updated by every incoming document). Where a read ends, which error it reports and whether it is defined does not depend on what the variable held. Reading a text a second time leaves the variable as the first time did, also if the text is damaged. If several texts are read one after the other, a text that comes again later need not be read the first time: only the last occurrence of each text counts. This holds for values, containers, pointers, quoted values, fixed-size arrays, which keep the elements the text does not have, and structures, which keep the members the text does not have, with alternatives of member_if, in any nesting. It needs the parts of a structure to be separate variables: with a property whose setter adds, reading again adds again.", "quantifier": "all descriptions built from the templates, all texts valid or not, all sequences of texts, all previous values, all error arguments", "why_tests_cant": "Tests read into a fresh variable; that nothing but the value depends on the previous value, and that repeated reads collapse, are statements over all histories of a variable and all texts.", "anchors": ["wjson/serializer/object.hpp: unserialize_members, unserialize_member", "wjson/serializer/object_array.hpp: unserialize_members, unserialize_member", "wjson/serializer/array.hpp: operator()", "wjson/serializer/quoted.hpp: deserialize", "wjson/serializer/member_value.hpp: operator()", "wjson/serializer/field.hpp: operator()"]}
{"id": "C85", "title": "Objects behind pointers", "statement": "Several smart pointers may lead to one object. Reading never changes an object that existed before the call: it creates new ones, so every other owner, inside or outside the variable that is read into, sees the same value afterwards, also if the text is damaged. Every object that is created has exactly the one owner that the text gives it: no two pointers that were read lead to the same object, and a pointer in the result is either new or was there before. The result is the same as if every pointer held its own copy: same end position, same error, same values, and the text that is written depends only on the values, not on where they are or who shares them. Hence sharing is lost when a value is written and read back, and a structure that leads back to itself is never finished.", "quantifier": "all descriptions built from pointers, containers, fixed-size arrays, quoted values, dictionaries, structures and object arrays, recursive ones included, all heaps and all targets that stand for a tree, with any sharing, all texts valid or not, all error arguments", "why_tests_cant": "That no other owner can see a read, and that new objects are never shared, are statements over all graphs of objects and all texts; tests look at the object they read.", "anchors": ["wjson/serializer/pointer.hpp: operator()", "wjson/serializer/array.hpp: operator()", "wjson/serializer/object.hpp: unserialize_member", "wjson/serializer/object_array.hpp: unserialize_member", "wjson/specialization/member_p.hpp: member_p", "wjson/specialization/pointer.hpp: pointer"]}
{"id": "C86", "title": "The work of reading with alternatives and recursion", "statement": "How long reading may take, counted in calls, passes through loops and bytes stored. With alternatives of member_if, at most m of them inside each other, the work on any text, good or bad, is at most a polynomial of degree m + 1 in the length of the text. A description that mentions itself (a tree, a linked list) and has no member_if reads any text in time linear in its length, whatever the depth. With both, there is no polynomial bound: there is a description that mentions itself in both alternatives of a member_if and a text of 6n + 10 bytes, written by the library from a chain of n + 1 objects and read back as this chain without an error, for which reading takes at least 2 to the power n steps.", "quantifier": "all descriptions built from the templates with any nesting of member_if, all recursive descriptions without member_if, all texts valid or not, all previous values, all lengths of the chain", "why_tests_cant": "A test measures some texts; that no text of any length takes longer than the bound is a statement over all texts and all descriptions, and the exponential growth shows only for nestings that tests do not have.", "anchors": ["wjson/serializer/object.hpp: unserialize_member (member_if)", "wjson/serializer/object_array.hpp: unserialize_member (member_if)", "wjson/serializer/pointer.hpp: operator()", "wjson/serializer/array.hpp: operator()"]}
{"id": "C87", "title": "What is read with alternatives", "statement": "For a description with member_if anywhere inside, in objects or object arrays, nested to any depth, whatever is read without an error is exactly what the text says: the text has the form of the description, and where it has a value for a member_if, this is a text of one of the two alternatives; that alternative gets the value of the text and the other one what null means for it. The second alternative is used only if the text is no text of the first (said for a first alternative that has no member_if inside). A key that is compared with the name of a member_if and differs resets its second alternative; every other part of the structure keeps its value. A text that is no text of the description in this sense is never read silently. If all keys are strings and the text is plain, it is JSON of the dialect: parse accepts it and stops at the same place.", "quantifier": "all descriptions built from the templates with any number and nesting of member_if, both orders of trying, all texts up to the length limit, all previous values of the structure, all clean error arguments, all platforms", "why_tests_cant": "That no text whatever is accepted with a value it does not say, after failed attempts that leave partial values behind, is a statement over all texts, all previous values and all nestings; tests read texts of one of the alternatives.", "anchors": ["wjson/serializer/object.hpp: unserialize_member (member_if)", "wjson/serializer/object_array.hpp: unserialize_member (member_if)", "wjson/specialization/member_if.hpp: member_if", "wjson/parser.hpp: parse"]}
{"id": "C88", "title": "What is read into a part of a variable depends on nothing else the variable held", "statement": "For every description, every text and every error argument, the position a read returns, the error it reports and whether it is defined do not depend on what the variable held before; nor does the choice of multi_deserializer. What a part of the variable holds afterwards, with an error or without, depends on the text, the error argument and what the same part held before, and on no other part. A part is a member of a structure (of a member_if: each of its two members), an element of a fixed-size array, the key or value of a field, or a part of one of these, at any depth. Recursive descriptions (a structure that contains a list of itself) are included. The same holds for any number of texts read one after the other.", "quantifier": "every description, every part at any depth, all texts, all error arguments, all pairs of earlier values", "why_tests_cant": "it compares the runs from all pairs of earlier values, for all texts and all nested descriptions, also those that stop with an error", "anchors": ["wjson/serializer/*.hpp: operator() reading", "wjson/serializer/object.hpp: unserialize_members, unserialize_member", "wjson/serializer/object_array.hpp: unserialize_members", "wjson/serializer/array.hpp: operator() reading", "wjson/utility/multi_deserializer.hpp"]}
{"id": "C89", "title": "A log that was torn off is read up to the last complete value", "statement": "A program appends values to a file with the serializer of a structure, a structure written as an array, a container, a dictionary, a string, a char array, an enumeration, flags, bool or member_value of one of these, each followed by a line feed, and may be stopped at any byte. A loop of parse_space and the deserializer that stops at the first error then returns exactly the values whose text is complete, in order; it reports an error if and only if a part of a record is left, and the position it stops at is the beginning of that part. If the program cuts the file there and goes on, then after any history of appends, stops and recoveries the file reads back as exactly the values the program has, up to its end and without an error; a stop loses at most the value that was being appended. Nothing is undefined if *end is readable and not a ']' and the description has no time_interval or size_value. If the line feed is written in front of each record instead, the same holds for descriptions with member_if inside, as long as the texts are plain (ASCII, no \\x escapes, no null as a key). (Not so for numbers, pointers and time intervals on their own: the beginning of their text can be read as a value.)", "quantifier": "every such description at any nesting, all values that can be written and read back, every length of the log, every byte at which the program stops, every history of appends, stops and recoveries", "why_tests_cant": "crash points, histories and descriptions are unbounded", "anchors": ["wjson/parser.hpp: parse_space, is_space", "wjson/serializer/object.hpp: operator() reading and writing", "wjson/serializer/object_array.hpp: operator() reading and writing", "wjson/serializer/array.hpp: operator() reading and writing", "wjson/serializer/object.hpp: member_if", "wjson/serializer/string.hpp: operator() reading", "wjson/serializer/enumerator.hpp: operator() reading", "wjson/serializer/flags.hpp: operator() reading", "wjson/serializer/bool.hpp: operator() reading"]}
{"id": "C90", "title": "Values that arrive in pieces", "statement": "A program receives a stream of values, written one after the other with the serializer of a structure, a structure written as an array, a container, a dictionary, a string, a char array, an enumeration, flags, bool or member_value of one of these, with line feeds between them or not. It keeps what it could not read yet in a buffer, appends each piece that arrives, and reads values with parse_space and the deserializer until an error occurs or the buffer is empty. However the stream is cut into pieces (in names, escapes, numbers, empty pieces), it has at every moment got exactly the values whose text has arrived as a whole, in order, and its buffer holds exactly what has arrived of the next one; that is what it would have if everything had come in one piece; and after the last piece it has all the values and an empty buffer. Nothing is undefined under the conditions of C89. A text that is wrong whatever follows stops the stream: no value is got behind it, and the buffer keeps everything. (Not so for numbers on their own: 12 that arrives as 1 and 2 is taken for two numbers.)", "quantifier": "every such description at any nesting, every stream of values that can be written and read back, every way to cut it into pieces, every moment", "why_tests_cant": "a stream of n bytes can be cut in 2^(n-1) ways, and a wrong cut between two particular bytes may be the only one at which a beginning of a text passes for a value", "anchors": ["wjson/parser.hpp: parse_space", "wjson/serializer/object.hpp: operator() reading", "wjson/serializer/object_array.hpp: operator() reading", "wjson/serializer/array.hpp: operator() reading", "wjson/serializer/string.hpp: operator() reading", "wjson/serializer/enumerator.hpp: operator() reading", "wjson/serializer/flags.hpp: operator() reading", "wjson/serializer/bool.hpp: operator() reading"]}
{"id": "C91", "title": "One value per line", "statement": "The text of a value whose raw_value parts contain no white space is one line: it contains no byte below 32, so no line feed, whatever the strings in it contain. A program that receives values one per line, in pieces cut anywhere, keeps the unfinished line in a buffer and gives each finished line to the deserializer: it has at every moment got exactly the values whose line has ended, in order, its buffer holds exactly what has arrived of the next line, how the stream was cut makes no difference, and after the last piece it has all the values and an empty buffer. Other lines between them for which the deserializer reports an error are passed over and do no harm. Unlike C90 this holds for every description that round-trips, numbers, pointers, time intervals and member_if included, and nothing is undefined. (A raw value with a line feed in it breaks it.)", "quantifier": "every description and every value of C50 (for the first part: of C60), every stream of them, every way to cut it into pieces, every moment", "why_tests_cant": "values, descriptions and the ways to cut a stream are unbounded; a single byte of a single value written as a raw line feed would break the protocol", "anchors": ["wjson/serializer/string.hpp: serializerS", "wjson/serializer/array.hpp: serializerA", "wjson/serializer/object.hpp: serializerT", "wjson/serializer/number.hpp: serializer", "wjson/serializer/pointer.hpp: serializer", "wjson/serializer/raw_value.hpp: serializer", "wjson/serializer/time_interval.hpp: serializer"]}
