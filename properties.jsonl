{"id": "C01", "title": "from_str accepts only complete JSON texts", "statement": "If json::from_str returns Ok, for any target type and any visitor (also a user-written one), then the whole input is one RFC 8259 JSON text: optional whitespace, one value, optional whitespace, nothing else. No prefix, no trailing garbage, no trailing comma, no missing bracket is ever accepted.", "quantifier": "every input byte string, every implementation of the Visitor/Seq/Map traits, every initial state of it", "why_tests_cant": "the accept set is an infinite language and the visitor is arbitrary code; tests sample a few malformed texts with a few types", "anchors": ["src/json/de.rs:from_str_impl", "src/json/de.rs:Deserializer::event", "src/json/de.rs:Deserializer::parse_whitespace"]}
{"id": "C02", "title": "Every JSON text drives the visitor exactly along its tree", "statement": "On an input that is a JSON text, the calls made on the visitor, the builders it hands out and the visitors those hand out are exactly the depth-first, left-to-right traversal of the text's syntax tree: one leaf call per scalar, seq()/map() at an opening bracket, element()/key(k) before each child, finish() once after the last child; the first error or panic returned by any call stops the traversal and is the result.", "quantifier": "every JSON text (any size, nesting depth, whitespace, escapes), every implementation of Visitor/Seq/Map", "why_tests_cant": "the hand-written stack machine must agree with the recursive reading for unboundedly many shapes of input", "anchors": ["src/json/de.rs:from_str_impl", "src/de/mod.rs:Visitor", "src/de/mod.rs:Seq", "src/de/mod.rs:Map"]}
{"id": "C03", "title": "Value accepts every JSON text", "statement": "json::from_str::<Value> returns Ok exactly on the inputs that are RFC 8259 JSON texts all of whose number literals are representable (do not overflow f64), and the resulting Value is the text's tree: nulls, booleans, numbers, unescaped strings, arrays in order, objects with the last occurrence of a repeated key.", "quantifier": "every input of less than 2^31 bytes", "why_tests_cant": "acceptance is over an infinite language in both directions", "anchors": ["src/json/value.rs:Deserialize for Value", "src/json/de.rs:from_str_impl"]}
{"id": "C04", "title": "Typed decoding is compositional", "statement": "json::from_str::<T>(s) equals a simple recursive decoding of the JSON tree of s directed by the type T, for every T built from the library's implementations and from derived structs and enums (including recursive ones): Ok(v) when the tree decodes to v, Err when the text is not JSON or the tree does not fit T.", "quantifier": "every type built from (), bool, String, the ten integer types, f32, f64, Number, Value, Array, Object, Box, Option, pairs, Vec, [T; N], HashMap, BTreeMap, derived structs and enums; every input of less than 2^31 bytes", "why_tests_cant": "the non-recursive driver, the builders with places and the Box/Option delegation must agree with structural recursion for all type/tree combinations", "anchors": ["src/de/impls.rs", "src/json/value.rs", "src/json/array.rs", "src/json/object.rs", "src/json/number.rs", "derive/src/de.rs"]}
{"id": "C05", "title": "from_str never panics", "statement": "Deserializing any input shorter than 2^31 bytes into any library or derived type never panics: no index or slice out of bounds, no arithmetic overflow (also in debug builds), no unwrap of None in the Box implementation.", "quantifier": "every input of less than 2^31 bytes, every type of C04", "why_tests_cant": "panic freedom is a statement about all inputs; the guards against u64/i32 overflow and the unwraps only fail on unusual inputs", "anchors": ["src/json/de.rs:overflow!", "src/json/de.rs:parse_long_integer", "src/json/de.rs:parse_decimal", "src/de/impls.rs:Deserialize for Box<T>"]}
{"id": "C06", "title": "from_str terminates in linearly many steps", "statement": "The main loop of from_str runs at most len(input)+1 iterations for every input and every visitor, so parsing always terminates when the visitor's own methods do, whatever the nesting.", "quantifier": "every input byte string, every implementation of Visitor/Seq/Map", "why_tests_cant": "non-termination on one input in an infinite domain cannot be excluded by sampling", "anchors": ["src/json/de.rs:from_str_impl"]}
{"id": "C07", "title": "Builders and places are used under a strict stack discipline", "statement": "At every moment, and whatever error or panic interrupts parsing, from_str only calls the innermost live visitor or builder: a builder is not called, moved out or dropped while a visitor it handed out, or a builder made from that visitor, is still in use; a builder is dropped before anything it borrows from; and when from_str returns, every builder ever handed out has been dropped exactly once. This is the obligation behind the lifetime extension in the implementation.", "quantifier": "every input byte string (well-formed or not), every failure point, every implementation of Visitor/Seq/Map", "why_tests_cant": "a use-after-free only shows for particular interleavings of nesting, errors and drops; the set of failure points is unbounded", "anchors": ["src/json/de.rs:from_str_impl", "src/json/de.rs:impl Drop for Deserializer", "src/careful.rs:extend_lifetime", "src/ptr.rs:NonuniqueBox"]}
{"id": "C08", "title": "Library visitors never touch dead or uninitialised memory and never leak", "statement": "Deserializing any input, of any length, into any library or derived type never reads or writes through a dangling place, never frees twice, never reads an uninitialised array slot, and frees every builder and temporary it allocated, on success and on every error path.", "quantifier": "every input, every type of C04, including arbitrarily nested Box and Option", "why_tests_cant": "memory errors depend on the combination of type nesting and failure position", "anchors": ["src/de/impls.rs:BoxSeq", "src/de/impls.rs:BoxMap", "src/de/impls.rs:ArrayBuilder", "src/ptr.rs", "src/place.rs:make_place", "src/ignore.rs"]}
{"id": "C09", "title": "Strings handed to visitors are valid UTF-8", "statement": "When the input is a Rust &str, every string passed to Visitor::string or Map::key is well-formed UTF-8, so the unchecked conversion in the parser is sound.", "quantifier": "every valid UTF-8 input (well-formed JSON or not), every string literal and key in it", "why_tests_cant": "unsafe from_utf8_unchecked relies on it for all inputs, including mixed raw and escaped text", "anchors": ["src/json/de.rs:parse_str", "src/json/de.rs:parse_escape", "src/json/de.rs:decode_hex_escape"]}
{"id": "C10", "title": "String literals are unescaped exactly", "statement": "A JSON string literal is accepted exactly when its body is a sequence of raw characters other than quote, backslash and U+0000..U+001F, the eight short escapes, \\uXXXX escapes of non-surrogates and \\uD8xx-DBxx\\uDCxx-DFxx pairs; the delivered string is the character-by-character decoding, whether or not the zero-copy fast path is taken.", "quantifier": "every literal of any length and any mixture of escapes", "why_tests_cant": "infinitely many literals and a fast path / scratch buffer split", "anchors": ["src/json/de.rs:parse_str", "src/json/de.rs:parse_escape", "src/json/de.rs:ESCAPE"]}
{"id": "C11", "title": "Surrogate escapes", "statement": "An escaped UTF-16 surrogate pair yields the one supplementary character it encodes; an unpaired or reversed surrogate escape makes from_str fail for every type.", "quantifier": "all 2^16 values of each \\u escape, in any context", "why_tests_cant": "2^32 combinations of escapes in arbitrary context", "anchors": ["src/json/de.rs:parse_escape"]}
{"id": "C12", "title": "Integer literals keep their exact value", "statement": "A number literal without fraction and exponent reaches the visitor as nonnegative(n) with exactly its value when it has no minus sign and n <= u64::MAX, as negative(n) with exactly its value when it has a minus sign and n >= i64::MIN, and otherwise as float(_), within 6*2^-53 of its value, or from_str fails because the value is at the limit of the f64 range or beyond; it is never wrapped, truncated or rounded in the first two cases.", "quantifier": "every integer literal of any number of digits", "why_tests_cant": "boundary behaviour around 2^63 and 2^64 and arbitrary lengths", "anchors": ["src/json/de.rs:parse_integer", "src/json/de.rs:parse_number", "src/json/de.rs:overflow!"]}
{"id": "C13", "title": "Integer types accept exactly the in-range integer literals", "statement": "from_str::<I> for an integer type I returns Ok(n) exactly when the text is an integer literal (no '.', no exponent) with value n in the range of I; literals with '-' are rejected by unsigned types, even -0. No out-of-range number is ever wrapped or truncated into I.", "quantifier": "every input of less than 2^31 bytes, i8..i64, isize, u8..u64, usize (32- or 64-bit)", "why_tests_cant": "the range checks use casts; all boundary values and all lengths matter", "anchors": ["src/de/impls.rs:signed!", "src/de/impls.rs:unsigned!", "src/json/de.rs:parse_number"]}
{"id": "C14", "title": "Parsed f64 numbers are finite", "statement": "Every f64 delivered by the parser to any visitor is finite: a literal too large for f64 gives Err, never an infinity, and no literal gives NaN. In particular from_str::<f64> never returns a non-finite number, and the sign of the result is the sign of the literal (only the integer literal -0 loses its sign and gives +0.0).", "quantifier": "every number literal of any length and exponent", "why_tests_cant": "the scaling loop over powers of ten and the exponent saturation have unboundedly many paths", "anchors": ["src/json/de.rs:f64_from_parts", "src/json/de.rs:parse_exponent", "src/json/de.rs:parse_exponent_overflow"]}
{"id": "C15", "title": "Parsed f64 numbers are close to the literal", "statement": "The f64 obtained from a literal (in a text of at most 2147482700 bytes) differs from the literal's exact decimal value by at most a relative error of 6*2^-53 plus an absolute error of 2^-1074; overflow errors happen only for literals within a relative error of 4*2^-53 of the f64 range limit or beyond.", "quantifier": "every number literal of less than 2^31 bytes", "why_tests_cant": "accuracy over all mantissa/exponent combinations cannot be sampled", "anchors": ["src/json/de.rs:f64_from_parts", "src/json/de.rs:parse_decimal", "src/json/de.rs:parse_long_integer", "src/json/de.rs:POW10"]}
{"id": "C16", "title": "Short decimals parse correctly rounded", "statement": "If the literal's significant digits form an integer below 2^53 and its decimal exponent lies in -22..22, the resulting f64 is the correctly rounded (nearest, ties to even) value of the literal; small integers and short decimals are therefore exact or best possible.", "quantifier": "every such literal", "why_tests_cant": "about 2^53 * 45 literals", "anchors": ["src/json/de.rs:f64_from_parts"]}
{"id": "C17", "title": "f64 round trip", "statement": "from_str::<f64>(to_string(x)) returns x exactly whenever the written literal has digits below 2^53 and a decimal exponent in -22..22 (also -0.0); for every other finite x it returns a number of the same sign within a relative error of 8*2^-53 and 2^-1073 of x, or Err only if x is within 6*2^-53 of the range limit. (Exactness for every finite x, the statement first written here, is false: 3e23 is read back as another number.)", "quantifier": "every finite f64", "why_tests_cant": "2^64 values; the property is false of the code for some values (the parser is not correctly rounding), which one concrete witness settles, and holds on a describable subset", "anchors": ["src/json/de.rs:f64_from_parts", "src/json/ser.rs:to_string_impl"]}
{"id": "C18", "title": "Whitespace between tokens is irrelevant", "statement": "Inserting or removing JSON whitespace (space, tab, LF, CR) between tokens of the input never changes the result of from_str, for any type and any visitor; this holds for malformed inputs too (same error, same visitor calls), for inputs below 2 GiB.", "quantifier": "every input, well-formed or not (below 2 GiB), every position between tokens, every whitespace string, every visitor", "why_tests_cant": "infinitely many placements", "anchors": ["src/json/de.rs:parse_whitespace", "src/json/de.rs:from_str_impl"]}
{"id": "C19", "title": "Struct fields may come in any order", "statement": "For a derived struct with distinct field names, permuting the members of the JSON object does not change the result as long as the members have distinct keys.", "quantifier": "every derived struct, every object, every permutation", "why_tests_cant": "factorially many permutations of unboundedly many fields", "anchors": ["derive/src/de.rs:derive_struct"]}
{"id": "C20", "title": "Unknown struct fields are skipped", "statement": "Adding or removing members whose key is no field name changes nothing in the result of deserializing a derived struct, whatever (well-formed, representable) JSON value they carry and wherever they occur.", "quantifier": "every derived struct, every object, every unknown member with any nested value", "why_tests_cant": "arbitrary nested ignored values", "anchors": ["derive/src/de.rs:derive_struct", "src/ignore.rs:Ignore"]}
{"id": "C21", "title": "Missing fields", "statement": "A derived struct fails to deserialize when a field whose type is not Option is absent; an absent Option field becomes None; nothing else is defaulted (in particular not Box<Option<T>>).", "quantifier": "every derived struct, every object", "why_tests_cant": "all subsets of fields of all structs", "anchors": ["derive/src/de.rs:derive_struct", "src/de/mod.rs:Deserialize::default", "src/de/impls.rs:Deserialize for Option<T>"]}
{"id": "C22", "title": "Duplicate keys: the last one wins", "statement": "When a member is repeated, a derived struct, Object, HashMap and BTreeMap keep the value of the last occurrence; every occurrence must still decode.", "quantifier": "every object with any multiplicity and order of repeated keys", "why_tests_cant": "unbounded multiplicities and interleavings", "anchors": ["derive/src/de.rs:derive_struct", "src/de/impls.rs:MapBuilder", "src/json/object.rs:ObjectBuilder"]}
{"id": "C23", "title": "Derived enums accept exactly their variant names", "statement": "A derived enum deserializes Ok(variant i) exactly from the JSON string equal to the variant's name (after rename, and without r#); any other string or JSON value is an error; serializing then deserializing a variant gives it back when the names are distinct.", "quantifier": "every C-style enum, every input", "why_tests_cant": "all strings", "anchors": ["derive/src/de.rs:derive_enum", "derive/src/ser.rs:derive_enum"]}
{"id": "C24", "title": "Option is null or the inner value", "statement": "from_str::<Option<T>> gives Ok(None) exactly on a null literal and Ok(Some(v)) exactly when the text is not null and decodes to v as T; Box<T> decodes exactly as T.", "quantifier": "every T of C04, every input", "why_tests_cant": "all types and inputs", "anchors": ["src/de/impls.rs:Deserialize for Option<T>", "src/de/impls.rs:Deserialize for Box<T>"]}
{"id": "C25", "title": "Fixed-size sequences need exactly the right length", "statement": "[T; N] is Ok exactly for JSON arrays of exactly N elements all decoding as T, (A, B) exactly for JSON arrays of exactly two elements decoding as A and B, Vec<T> for any length; element order is preserved.", "quantifier": "every T, A, B of C04, every N, every array length", "why_tests_cant": "all lengths and N", "anchors": ["src/de/impls.rs:ArrayBuilder", "src/de/impls.rs:TupleBuilder", "src/de/impls.rs:VecBuilder"]}
{"id": "C26", "title": "Maps from JSON objects", "statement": "HashMap<K,V> and BTreeMap<K,V> are Ok exactly when every key parses with K::from_str and every value decodes; the map then sends each key to the value of its last occurrence and contains nothing else; a BTreeMap (and Object) iterates in strictly increasing key order.", "quantifier": "every K with FromStr and a total order, every V of C04, every object", "why_tests_cant": "all objects with any key collisions", "anchors": ["src/de/impls.rs:Deserialize for HashMap", "src/de/impls.rs:Deserialize for BTreeMap", "src/json/object.rs"]}
{"id": "C27", "title": "to_string always produces one JSON text", "statement": "The output of json::to_string is a well-formed RFC 8259 JSON text and valid UTF-8 for every Serialize implementation, also user-written ones, whose streams are finite; the text's tree is the tree of fragments the implementation streamed, in order.", "quantifier": "every implementation of Serialize/Seq/Map with finite streams, any nesting, any strings", "why_tests_cant": "arbitrary user implementations and arbitrary strings", "anchors": ["src/json/ser.rs:to_string_impl", "src/json/ser.rs:escape_str"]}
{"id": "C28", "title": "Serialization is total", "statement": "json::to_string terminates and never panics for every value of every library or derived type: no slice at a non-character boundary, no table index out of range, no unreachable!() reached.", "quantifier": "every value of every type of C04", "why_tests_cant": "slicing strings by byte offsets depends on the string's contents", "anchors": ["src/json/ser.rs:to_string_impl", "src/json/ser.rs:escape_str"]}
{"id": "C29", "title": "Strings survive escaping", "statement": "Writing any string and reading it back gives the same string: from_str::<String>(to_string(s)) == Ok(s); the written literal contains no raw control character, and only quote, backslash and control characters are escaped.", "quantifier": "every valid UTF-8 string", "why_tests_cant": "infinitely many strings", "anchors": ["src/json/ser.rs:escape_str", "src/json/de.rs:parse_str"]}
{"id": "C30", "title": "Output is compact", "statement": "to_string emits no whitespace outside string literals: the output is the unique whitespace-free rendering of its tree.", "quantifier": "every Serialize implementation with finite streams", "why_tests_cant": "all trees", "anchors": ["src/json/ser.rs:to_string_impl"]}
{"id": "C31", "title": "Integers are printed exactly and read back", "statement": "to_string of an integer is its canonical decimal form and from_str of the same type returns the same integer.", "quantifier": "every value of the ten integer types", "why_tests_cant": "2^64 values per type", "anchors": ["src/ser/impls.rs:unsigned!", "src/ser/impls.rs:signed!", "src/json/ser.rs:to_string_impl", "src/de/impls.rs:signed!", "src/de/impls.rs:unsigned!"]}
{"id": "C32", "title": "Non-finite floats become null", "statement": "to_string writes null exactly for NaN and the two infinities and a number literal for every finite f32/f64; non-finite numbers therefore never produce invalid JSON anywhere in a document.", "quantifier": "every f32 and f64, in any context", "why_tests_cant": "all bit patterns in all contexts", "anchors": ["src/json/ser.rs:to_string_impl"]}
{"id": "C33", "title": "Round trip", "statement": "from_str::<T>(to_string(v)) == Ok(v) for every value v of every float-free library or derived type in which Option is not applied to a type that can itself be written as null, struct field names are distinct, enum variant names are distinct and map keys round-trip through to_string/from_str.", "quantifier": "every such type and value, any size and depth; any HashMap iteration order", "why_tests_cant": "all values of all types", "anchors": ["src/json/ser.rs", "src/json/de.rs", "src/de/impls.rs", "src/ser/impls.rs", "derive/src/ser.rs", "derive/src/de.rs"]}
{"id": "C34", "title": "Reparse stability of Value", "statement": "Parsing a text to a Value without Number::F64, writing it and parsing again gives the same Value (except that a -0, read as Number::I64(0), comes back as Number::U64(0)); the second and every later write are byte-identical to the first. For texts whose numbers are integers in range, none written -0, the very same Value comes back.", "quantifier": "every JSON text without floats", "why_tests_cant": "all texts", "anchors": ["src/json/value.rs", "src/json/object.rs"]}
{"id": "C35", "title": "Struct members are written in declaration order under their names", "statement": "to_string of a derived struct writes every field exactly once, in declaration order, under the field's serialized name, with null for None; reading uses the same names.", "quantifier": "every derived struct and value", "why_tests_cant": "all structs", "anchors": ["derive/src/ser.rs:derive_struct", "derive/src/attr.rs"]}
{"id": "C36", "title": "The serializer's stack discipline", "statement": "to_string keeps every Seq/Map stream alive while anything borrowed from it is in use: it only advances or drops the innermost live stream after everything handed out by it is finished, and drops every stream exactly once.", "quantifier": "every Serialize implementation, any nesting", "why_tests_cant": "depends on nesting of empty and non-empty containers", "anchors": ["src/json/ser.rs:to_string_impl", "src/careful.rs"]}
{"id": "C37", "title": "Dropping a Value uses bounded call depth", "statement": "Dropping a Value, Array or Object never nests drop calls deeper than a fixed constant, however deeply the value is nested, and drops every node exactly once.", "quantifier": "every Value, any depth and width", "why_tests_cant": "depth is unbounded", "anchors": ["src/json/drop.rs:safely", "src/json/array.rs:impl Drop for Array", "src/json/object.rs:impl Drop for Object"]}
{"id": "C38", "title": "Derive macros accept exactly the supported shapes", "statement": "The derive macros generate an impl exactly for structs with named fields and for enums without generics, where clause and data, whose fields' or variants' serde attributes consist of at most one rename each (in however many attributes, other attributes being ignored); every other input expands to a compile error. serde attributes on the item itself are silently ignored.", "quantifier": "every abstract derive input (any number of fields, variants, attributes)", "why_tests_cant": "all combinations of shapes and attributes", "anchors": ["derive/src/de.rs:try_expand", "derive/src/ser.rs:try_expand", "derive/src/attr.rs:attr_rename"]}
{"id": "C39", "title": "Serialize and Deserialize derives agree on names", "statement": "For every derive input both macros accept or both reject, and when they accept they use the same list of names: the rename value if present, else the identifier without r#.", "quantifier": "every abstract derive input", "why_tests_cant": "all inputs", "anchors": ["derive/src/attr.rs:name_of_field", "derive/src/attr.rs:name_of_variant", "derive/src/attr.rs:unraw"]}
{"id": "C40", "title": "f32 conversion", "statement": "from_str::<f32> returns the nearest-even rounding to f32 of the number the parser delivered (an integer exactly, else the f64), and is infinite exactly when that number rounds beyond f32::MAX; f32 values are widened exactly when written.", "quantifier": "every input", "why_tests_cant": "all literals", "anchors": ["src/de/impls.rs:float!", "src/ser/impls.rs:float!"]}
{"id": "C41", "title": "from_str returns values of the type", "statement": "Whatever text is parsed, a value returned by from_str::<T> satisfies all invariants of T: integers in range, floats of the format, strings and map keys valid UTF-8, arrays of exactly the right length, maps without repeated keys and sorted when ordered, a value for every field, an existing variant; it can therefore always be written again by to_string without panicking, giving valid JSON.", "quantifier": "all types, all input texts", "why_tests_cant": "ranges over all inputs and all (recursive) types", "anchors": ["src/de/impls.rs", "src/json/de.rs: from_str_impl", "src/json/ser.rs: to_string_impl"]}
{"id": "C42", "title": "Exact f32 round trip", "statement": "from_str::<f32>(to_string(x)) returns x for every finite f32 x, although the number is parsed as f64 with rounding errors first.", "quantifier": "all finite f32 values, every float printer that is correct for f64", "why_tests_cant": "2^32 values and an error analysis of the f64 parser with double rounding", "anchors": ["src/de/impls.rs: f32", "src/ser/impls.rs: f32", "src/json/de.rs: f64_from_parts"]}
{"id": "C43", "title": "Truncated or concatenated documents are rejected", "statement": "If a JSON text whose value is not a number is cut anywhere (other than inside its trailing whitespace), from_str fails on what is left, for every type and visitor; if anything but whitespace is appended to such a text, from_str fails on the whole. Every text has exactly one reading. (For a number the cut can be another number: 12 and 1.)", "quantifier": "every JSON text that is not a number, every cut point, every appended byte string, every visitor", "why_tests_cant": "all documents and all cut points", "anchors": ["src/json/de.rs:from_str_impl", "src/json/de.rs:parse_str"]}
{"id": "C44", "title": "An explicit null and an absent Option field are the same", "statement": "For an Option field of a derived struct, the result of from_str is the same whether the member is absent or present with value null, wherever it is placed.", "quantifier": "every derived struct with distinct names, every Option field, every object, every position", "why_tests_cant": "all structs, objects and positions", "anchors": ["derive/src/de.rs:derive_struct", "src/de/impls.rs:Option"]}
{"id": "C45", "title": "Value, Array and Object agree with the other types", "statement": "Whatever text some library or derived type accepts, Value accepts; Array deserializes exactly as Vec<Value> and Object exactly as BTreeMap<String, Value> (same error or same contents).", "quantifier": "every input, every type", "why_tests_cant": "all types and inputs", "anchors": ["src/json/value.rs", "src/json/array.rs", "src/json/object.rs"]}
{"id": "C46", "title": "Number conversion takes constant time whatever the exponent", "statement": "After its digits are read, converting a number literal to f64 takes at most three iterations of the scaling loop, however extreme the exponent: 1e-2147483648 costs no more than 1e-700.", "quantifier": "every 64-bit significand and every exponent", "why_tests_cant": "2^96 combinations, and an iteration count is not observable in a test", "anchors": ["src/json/de.rs:f64_from_parts"]}
{"id": "C47", "title": "Going through Value loses nothing", "statement": "If two documents parse to the same Value and the second has no repeated object keys, then every type the first parses as accepts the second with the same result; if neither has repeated keys, no type without hash maps can tell them apart (same Ok value or both Err). In particular whenever from_str::<T> accepts a document, reading the document into a float-free Value (without a -0), writing it with to_string and reading that as T gives the same result.", "quantifier": "all pairs of documents, all library and derived types T whose key types read distinct texts as distinct keys, all Values obtained", "why_tests_cant": "it relates two parses of infinitely many document pairs at infinitely many nested types", "anchors": ["src/json/de.rs: from_str", "src/json/value.rs: impl Deserialize for Value", "src/de/impls.rs", "derive/src/de.rs"]}
{"id": "C48", "title": "Derived code does what the struct or enum declaration says", "statement": "The code generated for a struct hands out, for every key, a place for the field of that name (with the field's type) or ignores the key; finish succeeds exactly when every field has been given a value or a default, and puts each value into the field it was read for, never into another one. The generated serializer yields name and value of the fields in declaration order, then None for ever. The generated code for enums maps each name to its variant and each variant to its name. No generated code refers to a field, local variable or variant that does not exist.", "quantifier": "all supported structs and enums (any number of fields, raw identifiers, renames, repeated names), all sequences of keys and writes, any number of next calls", "why_tests_cant": "the macro's input ranges over all structs and its output over all uses", "anchors": ["derive/src/de.rs:derive_struct", "derive/src/de.rs:derive_enum", "derive/src/ser.rs:derive_struct", "derive/src/ser.rs:derive_enum"]}
{"id": "C49", "title": "Derived impls on generic structs require the trait of the type parameters and nothing else", "statement": "A derived impl for a generic struct applies exactly when the struct's own bounds and where clause hold and every type parameter implements the derived trait; lifetime and const parameters get no requirement. The helper structs get one extra lifetime, placed first, which all lifetime and type parameters outlive; the order, names and kinds of the user's parameters are kept.", "quantifier": "all generic parameter lists and where clauses, all instantiations", "why_tests_cant": "infinitely many generic declarations and instantiations", "anchors": ["derive/src/bound.rs:with_lifetime_bound", "derive/src/bound.rs:where_clause_with_bound"]}
{"id": "C50", "title": "Different values have different texts; wrappers are transparent", "statement": "Two values of the same type (among the values that round-trip) for which json::to_string returns the same text are equal; with hash maps, they are equal as maps. Box<T>, &T, Some(v) are written exactly like the wrapped value, None like (), arrays, Array and Value::Array exactly like a Vec, Value::Object exactly like Object.", "quantifier": "all environments of derived types, all types, all pairs of values, all iteration orders of hash maps", "why_tests_cant": "injectivity is a statement about all pairs of values of all types; a test compares a few pairs", "anchors": ["src/json/ser.rs: to_string", "src/ser/impls.rs", "src/json/array.rs", "src/json/object.rs", "src/json/value.rs"]}
{"id": "C51", "title": "Texts compose", "statement": "The text of a Vec, pair, BTreeMap, HashMap (in its iteration order) or derived struct is the bracketed, comma-separated sequence of the texts json::to_string returns for the parts (with the escaped names in front for maps and structs); conversely an array or object put together from JSON texts is read as Vec, fixed-size array, pair or struct exactly when the number of parts is right and each part is read as the element, component or field type, with the same values, whatever white space the parts carry; an object whose names parse as keys and whose parts are read as the value type is read as a BTreeMap or HashMap that sends each key to its last value.", "quantifier": "all types, all values, all lists of texts", "why_tests_cant": "compositionality must hold for every element type and every list of parts, to every nesting depth", "anchors": ["src/json/ser.rs: to_string_impl", "src/json/de.rs: from_str_impl", "src/ser/impls.rs", "src/de/impls.rs"]}
{"id": "C52", "title": "from_str is not recursive", "statement": "The number of nested calls among Visitor, Seq and Map implementations during json::from_str is at most one plus the largest number of Box/Option wrappers directly around a type of the program, whatever the input and however deeply it nests; so deep input cannot overflow the stack through them. (Destructors of values are C37 and C85.)", "quantifier": "every byte string, every type (including recursive derived structs), every set of derived types", "why_tests_cant": "Any test uses finitely many inputs of bounded nesting; a stack that grows with the input may only overflow on a deeper input than the tests try.", "anchors": ["src/json/de.rs: from_str_impl", "src/de/impls.rs: impl Deserialize for Box, Option", "src/json/value.rs: impl Deserialize for Value", "derive/src/de.rs"]}
{"id": "C53", "title": "to_string is not recursive", "statement": "The number of nested Serialize::begin calls during json::to_string is at most one plus the largest number of Box/Option/reference wrappers directly around a type of the program, however deeply the value nests.", "quantifier": "every value of every type, every hash-map iteration order, every number of iterations of the loop", "why_tests_cant": "As for C52: a deeper value than the tests try may overflow the stack.", "anchors": ["src/json/ser.rs: to_string_impl", "src/ser/impls.rs", "src/json/value.rs: impl Serialize for Value"]}
{"id": "C54", "title": "Failed parse of a Value cleans up without recursion", "statement": "When json::from_str::<Value> returns an error at any point of any input, dropping the open arrays and objects, the parts read so far and its buffers has bounded call depth independent of nesting, terminates, and frees every heap object exactly once.", "quantifier": "every stack of partially built arrays and objects, with any contents", "why_tests_cant": "the error can occur at any position and any nesting depth", "anchors": ["src/json/de.rs: impl Drop for Deserializer", "src/ptr.rs: impl Drop for NonuniqueBox", "src/json/value.rs: ArrayBuilder, ObjectBuilder", "src/json/drop.rs: safely"]}
{"id": "C55", "title": "Owning iterators over Array and Object can be given up early", "statement": "Dropping the iterator obtained from into_iter() on an Array or Object after any number of items drops the remaining items with bounded call depth and frees the remaining elements, keys and the buffer exactly once (Array::drop/Object::drop is not run a second time).", "quantifier": "every remaining list of values of any nesting", "why_tests_cant": "any number of items consumed, any nesting of the rest", "anchors": ["src/json/array.rs: take, IntoIterator", "src/json/object.rs: take, IntoIterator"]}
{"id": "C56", "title": "Schema evolution: old documents stay readable when a type is widened", "statement": "If a type is replaced by a wider one (an integer type by a larger one, an unsigned one by a larger signed one, integers by Number, scalars and Value collections by Value, T by Option<T> or Box<T>, an array or pair by a Vec, an enum by one with more variants or by String, a struct by one with some fields removed, reordered or widened, at any depth and for recursive types), every text json::from_str accepted for the old type is accepted for the new one, and yields the corresponding value.", "quantifier": "every pair of old and new types related by widening, every environment of derived structs and enums, every input text", "why_tests_cant": "all pairs of types, all nestings and all documents", "anchors": ["src/de/impls.rs: impl Deserialize for ...", "derive/src/de.rs: derive_struct, derive_enum"]}
{"id": "C57", "title": "Parsing does not amplify its input", "statement": "For every input, valid or not, and every Deserialize implementation: from_str makes at most two visitor calls per input byte, hands over strings and keys totalling at most the input length, keeps at most as many builders alive at once as there are input bytes, and leaves none alive. On a JSON text there are never more builders alive than its arrays and objects are nested, and when the text is accepted the calls and bytes are exactly those of the document: one call per scalar, two per array or object, one per element or member. The returned value, counting string and key bytes, sequence elements and map entries, is smaller than the text, for every library or derived type. Reading a Value and printing it yields at most 28 times the input length.", "quantifier": "every input byte string, every visitor, every type", "why_tests_cant": "a worst-case ratio over all inputs, including malformed ones and adversarial nestings and escapes", "anchors": ["src/json/de.rs: from_str_impl", "src/json/ser.rs: to_string_impl, escape_str", "src/de/impls.rs"]}
{"id": "C58", "title": "No coercions between JSON kinds", "statement": "A type is only ever read from the JSON kinds documented for it: numbers are not read from strings, booleans not from numbers, String not from null, structs and maps not from arrays, tuples not from objects, and so on (Option adds null, Value takes all six). A text whose first significant byte announces another kind is rejected, whatever follows.", "quantifier": "every type built from the library and derived types, every input byte string", "why_tests_cant": "ranges over all types and all texts of the wrong kind", "anchors": ["src/de/mod.rs: Visitor (default methods)", "src/de/impls.rs", "derive/src/de.rs"]}
{"id": "C59", "title": "Display of a Number is its JSON text", "statement": "Formatting a Number with {} gives exactly the text json::to_string writes for it, if it is finite; NaN and the infinities give NaN, inf, -inf, which no type parses (to_string writes null for them instead).", "quantifier": "every Number, every type", "why_tests_cant": "all u64, i64 and f64 values", "anchors": ["src/json/number.rs: impl Display for Number, impl Serialize for Number"]}
{"id": "C60", "title": "Debug of a Value identifies the value", "statement": "The {:?} texts of two Values are equal exactly if the Values are equal, except that Number::U64 and Number::I64 of the same integer print alike; the text is self-delimiting, so no value's text is a proper prefix of another's.", "quantifier": "every pair of Values of any size and depth, every continuation", "why_tests_cant": "injectivity over all trees, with hostile strings and keys", "anchors": ["src/json/value.rs: impl Debug for Value", "src/json/array.rs: impl Debug for Array", "src/json/object.rs: impl Debug for Object", "src/json/number.rs: impl Display for Number"]}
{"id": "C61", "title": "from_str follows the aliasing rules whatever the Visitors do", "statement": "The unsafe lifetime extension in from_str cannot be exploited by safe code: for every Visitor/Seq/Map implementation, every input and every outcome (also errors and panics), every memory location and every way the implementation may point to, read, write, allocate or free that location, the run has no violation of Stacked Borrows: no reference is used after a conflicting use of what it was borrowed from, none after its memory was freed. The visitor passed in keeps its borrow until from_str returns: its entry is never invalidated nor the memory freed during the call, as the protection of function arguments demands.", "quantifier": "every implementation, input, outcome, memory location and access pattern", "why_tests_cant": "Miri checks one run of one implementation; the claim is about all safe implementations", "anchors": ["src/json/de.rs: from_str_impl, Deserializer, Layer", "src/ptr.rs: NonuniqueBox", "src/careful.rs: extend_lifetime"]}
{"id": "C62", "title": "to_string follows the aliasing rules", "statement": "At every moment of every run of to_string, for every Serialize/Seq/Map implementation: no violation of Stacked Borrows if streams do not lend references into their own box (all library and derived streams lend from the data they iterate over); none for any stream if moving a Box does not assert uniqueness (as in Tree Borrows).", "quantifier": "every implementation, every number of steps, memory location and access pattern", "why_tests_cant": "ranges over all safe implementations and access patterns", "anchors": ["src/json/ser.rs: to_string_impl, Serializer, Layer", "src/careful.rs: extend_lifetime"]}
{"id": "C63", "title": "Malformed input looks like a well-formed document until the error", "statement": "Whatever bytes from_str is given, the calls that a Visitor (and the Seq and Map it hands out) receives before parsing stops are the beginning of the calls it would receive for some well-formed JSON document; the same document works for every Visitor. So an implementation of the traits never sees an impossible sequence of calls (an element without a value, a value after finish, a finish of an open inner container, ...), even on input that is not JSON.", "quantifier": "all byte strings; all implementations of Visitor, Seq and Map in any state", "why_tests_cant": "malformed inputs are unbounded in number and the point where parsing stops can be anywhere inside any nesting", "anchors": ["src/json/de.rs: from_str_impl, event", "src/de/mod.rs: Visitor, Seq, Map"]}
{"id": "C64", "title": "to_string does work linear in its output", "statement": "When to_string returns, it has called Serialize::begin exactly once for every value that was streamed and Seq::next / Map::next exactly once per element plus once per container; the number of streams alive at the same time never exceeded the nesting depth. Together fewer than two calls are made per byte of the returned text, and the main loop runs at most once per byte.", "quantifier": "all implementations of Serialize, Seq and Map, in any state, on which to_string returns", "why_tests_cant": "arbitrary user implementations and unbounded data; a superfluous call or a quadratic rescan passes functional tests", "anchors": ["src/json/ser.rs: to_string_impl", "src/ser/mod.rs: Serialize, Seq, Map"]}
{"id": "C65", "title": "to_string never repeats a member name", "statement": "In the text that to_string writes for a value of a library or derived type, no object, at any depth, has two members of the same name, provided no struct declares the same (renamed) field name twice, different map keys print differently, and no key is less than itself.", "quantifier": "all types, all values of the type, all hash map iteration orders, all depths", "why_tests_cant": "ranges over all values, including maps with arbitrarily many keys of user-defined types and iteration orders chosen by the hasher", "anchors": ["src/ser/mod.rs: Serialize", "src/ser/impls.rs: stream_map", "src/json/object.rs: Object", "src/json/ser.rs: to_string_impl"]}
{"id": "C66", "title": "Programs using Value, Array and Object neither leak nor double free, and build only printable values", "statement": "Whatever sequence of operations a program performs on json::Value, Array and Object (construction, from_str, clone, clone_from, push, pop, insert, remove, truncate, clear, key insertion and removal, any other operation of Vec or BTreeMap that reorders, returns or drops elements (sort, swap, retain, drain, split_off, ...), mem::take/replace, assignment through nested paths, collect, into_iter given up at any point, drop, panics with unwinding): every heap object is freed at most once and only when no variable owns it, when all variables are gone everything is freed exactly once, no destructor recurses, the variables have the contents that the operations prescribe on plain trees (so clones are independent), and every value is written as a JSON text without repeated names that reads back (floats aside).", "quantifier": "all finite programs over the listed operations, all contents, all nesting depths, panics included", "why_tests_cant": "ranges over all histories of API calls; the unsafe moves out of types with a Drop impl (ManuallyDrop, ptr::read) are only wrong on particular histories", "anchors": ["src/json/array.rs: Array, take", "src/json/object.rs: Object, take", "src/json/value.rs: Value", "src/json/drop.rs: safely"]}
{"id": "C67", "title": "Library visitors are sound for every caller", "statement": "Whatever a safe program does with the visitors it gets from Deserialize::begin on its own Option<T> variables, and with the builders these hand out - calls in any order, any number of times, with any arguments, after errors, after finish, giving builders up early, leaking them with mem::forget, catching panics, interleaving several deserializations - no memory error happens, every variable always holds None or a value of its own type, calls on what is borrowed from one variable never change another one, Ok from the outermost visitor or builder means that the variable is Some, without mem::forget nothing is leaked, and the only call that can panic is finish on a builder that has already finished, which changes nothing; and json::from_str itself is such a program: every call it makes, on any text, is one that a safe program could make in that state.", "quantifier": "all types built from the library's impls and derives, all finite programs over the public methods of Visitor, Seq and Map in any order allowed by borrowing, all arguments", "why_tests_cant": "ranges over all call histories of all possible drivers, not only those from_str produces; builders write through lifetime-extended and uninitialised memory, which only particular histories would expose", "anchors": ["src/de/mod.rs: Deserialize, Visitor, Seq, Map", "src/de/impls.rs: all builders, BoxSeq, BoxMap, ArrayBuilder", "src/ptr.rs: NonuniqueBox", "src/ignore.rs", "src/place.rs: make_place!"]}
{"id": "C68", "title": "Parser cleanup when builder destructors panic", "statement": "Let the destructors of user-written builders panic at will. from_str still terminates, every builder is dropped at most once and, unless the process is aborted by a second panic, exactly once. Builders are dropped innermost first, except in one situation: the destructor of a builder panics in the cleanup before `Err` is returned while at least two further builders are open; then the remaining ones are dropped outermost first. If no destructor panics, nothing of this matters: the run is the ordinary one. No panic is swallowed or invented: the run returns if user code did not panic, panics if it panicked once, and is aborted if it panicked twice.", "quantifier": "all implementations of Visitor/Seq/Map, all choices of which destructor calls panic, all inputs, all outcomes (Ok, Err, panic, abort)", "why_tests_cant": "depends on which destructor panics, how deeply nested the input is and where it is cut; the offending order needs three open builders and a panic at one specific moment", "anchors": ["src/json/de.rs Deserializer::drop, from_str_impl", "src/ptr.rs NonuniqueBox::drop"]}
{"id": "C69", "title": "Serializer cleanup when stream destructors panic", "statement": "Let the destructors of user-written streams panic at will. At every moment of to_string only the innermost live value or stream has been called or dropped; every stream is dropped at most once, and exactly once when to_string returns or unwinds. If no destructor panics the run is the ordinary one. No panic is swallowed or invented: the text is returned if user code did not panic, to_string panics if it panicked once, and is aborted if it panicked twice.", "quantifier": "all implementations of Serialize/ser::Seq/ser::Map, all choices of which destructor calls panic, all values, every moment of the run", "why_tests_cant": "depends on which destructor panics and on the nesting at that moment", "anchors": ["src/json/ser.rs Serializer::drop, to_string_impl"]}
{"id": "C70", "title": "The unsafe builders of [T; N] and Box<T> are panic safe", "statement": "Whatever a caller does with the builder that Visitor::seq/map of [T; N] or Box<T> returns — calling element/key/finish in any order and any number of times, writing values to and taking values from the places its own visitors for T get, continuing after errors and after caught panics, dropping the builder at any moment (also while unwinding) or forgetting it — no uninitialised, freed or moved-out memory is used, and every value of T ever made is at any time in exactly one place: owned by somebody, destroyed or leaked. So no destructor runs twice and nothing that is owned has been destroyed. This holds although destructors of T, and in the case of Box<T> the methods and the destructor of the wrapped builder, may panic, also in the middle of finish. The wrapped builder of Box<T> is destroyed exactly once, before the place it borrows is freed. Values are leaked only if a destructor of a value panics, the process aborts or the builder is forgotten.", "quantifier": "all N, all sequences of operations of the caller, all choices of which destructors panic, all behaviours (writes, takes, errors, panics) of the wrapped builder in each of its calls and in its destructor", "why_tests_cant": "needs a panic at every possible moment of every call sequence; the dangerous windows are between two assignments in finish", "anchors": ["src/de/impls.rs: ArrayBuilder::{shift, element, finish, drop}", "src/de/impls.rs: BoxSeq, BoxMap (finish, Drop)", "src/ptr.rs: NonuniqueBox"]}
{"id": "C71", "title": "Release builds behave like debug builds, and safely on inputs of any length", "statement": "Compiled without overflow checks, json::from_str makes the same visitor calls with the same result as a debug build whenever the debug build does not panic, in particular on every input below 2 GiB. On inputs of any length a release build returns Ok or Err (never panics) for every library or derived type, leaves the memory in order, accepts only JSON texts, and decodes a JSON text to the value of its tree as long as no single number literal in it has 2 GiB or more (this also for debug builds). Finding: beyond that the wrapped exponent makes a release build reject tiny numbers or accept them with a wrong value (10^-(2^32+1) is read as 0.1), where a debug build panics.", "quantifier": "every input of every length, every type; for the agreement every visitor and every state", "why_tests_cant": "the difference between the two builds is in integer overflow, reached only by inputs of billions of bytes; that it is nowhere else is a statement about every arithmetic operation on every input", "anchors": ["src/json/de.rs:parse_long_integer", "src/json/de.rs:parse_decimal", "src/json/de.rs:parse_integer", "src/json/de.rs:event", "src/json/de.rs:from_str_impl"]}
{"id": "C72", "title": "Library containers over user-defined types read exactly what from_str of the element type reads", "statement": "Let T be any type with a hand-written Deserialize whose visitor fills its place whenever it reports success. Then from_str::<Vec<T>> on an array behaves as from_str::<T> applied to the texts of the elements one after the other (first failure wins); [T; N] reads at most N+1 elements and succeeds only on exactly N; (A, B) needs exactly two; maps parse each key and insert the entries in order; Option<T> is None on null and otherwise what T reads; Box<T> is what T reads; a derived struct assigns each member to the field of that name (last one wins, unknown ones skipped), starting from the defaults, and fails if a field is missing. State kept by T's implementation (global counters and the like) ends up the same. Every such container is again well-behaved, so all this nests.", "quantifier": "every implementation of Deserialize (arbitrary visitor, builder and destructor behaviour, state, errors and panics), every input text, every nesting", "why_tests_cant": "The element type is an arbitrary user implementation; tests can only try a few.", "anchors": ["src/de/impls.rs Vec<T>, [T; N], (A, B), Option<T>, Box<T>, HashMap, BTreeMap", "derive/src/de.rs derive_struct", "src/de/mod.rs Deserialize, Visitor, Seq, Map", "src/ignore.rs", "src/json/de.rs from_str"]}
{"id": "C73", "title": "Library containers over user-defined types print exactly what to_string of their parts prints", "statement": "Let values of any user-defined types with hand-written Serialize (and Display for map keys) be nested in any way in slices, arrays, Vec, pairs, Option, Box, references, HashMap, BTreeMap and derived structs, and conversely. json::to_string of the container behaves as json::to_string applied to the parts in order, the texts joined by commas between brackets (for maps and structs: quoted key, colon, text, between braces; each key is shown just before its value is written); a panic of a part is a panic of the whole and later parts are not touched; it terminates exactly if the parts do, and the state kept by the implementations ends up the same. References, Box and Some add nothing, None prints null. A user-defined value prints its single fragment, or the items its own stream produces, each written before the next is asked for, and the stream is dropped once at its end or at a panic; a begin that forwards to a container prints the container. None of this depends on which streams exist already.", "quantifier": "every implementation of Serialize, Seq, Map and ToString (arbitrary state, panics, finite or infinite streams), every nesting, every initial state", "why_tests_cant": "The element type is an arbitrary user implementation; tests can only try a few.", "anchors": ["src/ser/impls.rs", "src/ser/mod.rs Serialize, Seq, Map, Fragment", "derive/src/ser.rs derive_struct", "src/json/ser.rs to_string_impl, escape_str"]}
{"id": "C74", "title": "Parsing takes linear time", "statement": "json::from_str performs at most 24 * len + 1 elementary steps on an input of len bytes, whatever the input (JSON or not, however deeply nested, long or malformed) and whatever the visitor does: counting every access to an input byte, every byte copied into the scratch buffer, every iteration of the number conversion, every call of the visitor or a builder and every frame pushed, popped or dropped, also during cleanup after an error. In particular no byte is rescanned or recopied more than a fixed number of times.", "quantifier": "every input, every implementation of Deserialize, every state", "why_tests_cant": "a benchmark measures a few inputs; an adversary chooses the input that makes a parser quadratic", "anchors": ["src/json/de.rs:from_str_impl", "src/json/de.rs:parse_str", "src/json/de.rs:parse_escape", "src/json/de.rs:parse_whitespace", "src/json/de.rs:parse_integer", "src/json/de.rs:parse_decimal", "src/json/de.rs:parse_exponent", "src/json/de.rs:f64_from_parts", "src/json/de.rs:event"]}
{"id": "C75", "title": "Pretty Debug of a Value", "statement": "format!(\"{:#?}\", v) of any Value, Array or Object writes scalars and empty containers as {:?} does, and every other container as `Array [` or `Object {`, then each element or `key: value` on a line of its own indented by four spaces per level of nesting and followed by a comma, then the closing bracket at the level of the container; format!(\"{:?}\", v) writes everything on one line. Two values have the same {:#?} text exactly if they are equal up to the representation of integers. The Debug of a Number shows which of U64, I64, F64 it is.", "quantifier": "all Values of any depth and width, both formatting modes, all implementations of Debug for str that stay on one line and delimit their text", "why_tests_cant": "The text is produced by nested adapters that track line starts at every level; a test sees one nesting pattern (tests/test_value.rs has depth 2).", "anchors": ["src/json/value.rs: impl Debug for Value", "src/json/array.rs: impl Debug for Array", "src/json/object.rs: impl Debug for Object", "src/json/number.rs: #[derive(Debug)] Number", "tests/test_value.rs: test_debug"]}
{"id": "C76", "title": "Parsing a Value and printing it normalises the document", "statement": "For every JSON text s, to_string(&from_str::<Value>(s)?) is the compact text of the normal form of s: no whitespace, the members of every object sorted by key with one member per key (the last one), integers that u64 or i64 hold unchanged except that -0 becomes 0, other numbers replaced by the printed f64 they are read as; it fails exactly if there is no normal form (a number out of range). The normal form is unique. A compact text in normal form comes back byte for byte; for documents without floats reformatting twice is reformatting once, and two documents reformat to the same text exactly if they have the same normal form and exactly if they parse to Values equal up to the representation of integers (-0 is I64(0)); if no number is written -0, exactly if they parse to the same Value. In particular documents nested to any depth come back unchanged.", "quantifier": "all JSON texts of any size and nesting depth, all implementations of ryu that meet their contract", "why_tests_cant": "tests/test_value.rs checks one family of documents at depth 100000; the claim is about every document and every depth.", "anchors": ["src/json/value.rs: Deserialize, Serialize for Value", "src/json/object.rs: Object", "src/json/de.rs: from_str", "src/json/ser.rs: to_string", "tests/test_value.rs: test_round_trip_deeply_nested"]}
{"id": "C77", "title": "Places, arrays under construction and ignored values are accessed within their own memory", "statement": "The place type that make_place! and derive(Deserialize) put on top of an Option<T> variable is aligned there, covers exactly the variable's bytes and its field is the variable, whatever T is. The partially built [T; N] read back on success is aligned, its slots are exactly the N elements, inside the array and disjoint from each other. The visitor used for ignored input, shared by all threads, covers no memory at all.", "quantifier": "every size and alignment of T and of Option<T> that a Rust type can have, every N, every address", "why_tests_cant": "tests exercise a few T on one target; Option<T> has a compiler-chosen layout that differs by T, target and compiler version", "anchors": ["src/place.rs: make_place!", "derive/src/de.rs: derive_struct, derive_enum (__Visitor)", "src/de/impls.rs: ArrayBuilder", "src/ignore.rs: Ignore, ignore"]}
{"id": "C78", "title": "A hand-written type that reads like a library type can replace it in every container", "statement": "If from_str for a hand-written type T accepts the same JSON texts as a library or derived type U, with corresponding values, and T as a struct field may be absent exactly when U may, then Vec<T>, [T; N], pairs, Option<T>, Box<T>, HashMap and BTreeMap of T and derived structs with T fields accept the same texts as those of U, with corresponding values; again and again for nested containers. T is assumed to fill its place when it reports success and not to look at what the place contained.", "quantifier": "all hand-written implementations of Deserialize with any internal state, all library types they imitate, all containers, all texts whose number literals are below 2 GiB", "why_tests_cant": "there are infinitely many hand-written implementations and nestings", "anchors": ["src/de/impls.rs: impl Deserialize for Vec<T>, [T; N], (A, B), Option<T>, Box<T>, HashMap<K, V>, BTreeMap<K, V>", "derive/src/de.rs: derive_struct", "src/json/de.rs: from_str"]}
{"id": "C79", "title": "A value of a hand-written type that is written like a library value can replace it in every container", "statement": "If to_string of values of hand-written types returns, in every state of theirs, the text of corresponding values of library or derived types, then slices, arrays and Vecs of them, pairs, references, Boxes, Options, ordered maps (also with hand-written keys) and derived structs with them are written like the corresponding library values. A hand-written type that moreover reads like its library counterpart (C78) round-trips where the counterpart does.", "quantifier": "all hand-written implementations of Serialize and ToString with any internal state, all library values they imitate, all containers and nestings", "why_tests_cant": "there are infinitely many hand-written implementations and nestings", "anchors": ["src/ser/impls.rs: impl Serialize for &T, Box<T>, Option<T>, (A, B), [T], [T; N], Vec<T>, BTreeMap<K, V>", "derive/src/ser.rs: derive_struct", "src/json/ser.rs: to_string"]}
{"id": "C80", "title": "to_string takes time linear in its output", "statement": "At every moment of a run of json::to_string, for every implementation of Serialize (also one whose streams never end, and also when one of its methods panics and the open streams are dropped), the number of elementary steps done is at most six per byte written so far plus one: counting every byte of a string that is checked for escaping, every byte appended to the output, every call of begin or next, every look at the stack, every layer pushed or popped and every stream dropped. A string of n bytes that is written as m bytes costs exactly n + m steps, however the escapes are distributed in it; no byte written and no call is left out of the count; and for a value whose streams are finite the number of steps is exactly the sum of those of its bytes, nodes and streams.", "quantifier": "every implementation of Serialize, every value, every moment of the run", "why_tests_cant": "a benchmark measures a few values; a quadratic escape loop or stack walk shows up only on the shapes nobody benchmarks", "anchors": ["src/json/ser.rs:to_string_impl", "src/json/ser.rs:escape_str", "src/json/ser.rs:Drop for Serializer"]}
{"id": "C81", "title": "Programs with different versions of a type can exchange documents, also when Option fields are added", "statement": "Let the structs of a new version of a data type have, in any order, some of the old fields with wider types (C56) and any number of additional fields whose types are Options. Then every document without unknown members that from_str reads as the old type is also read as the new type; the added fields are None and the others have the values corresponding to the old ones. In particular every output of to_string for a value of the old type that reads back (C33) is read by the new program. Since fields may also be removed, both directions can hold at once: old and new programs read each other's output.", "quantifier": "All environments of derived types, all pairs of types related by compatible changes at any depth (including recursive structs), all values and all documents.", "why_tests_cant": "Compatibility is a statement about all documents one version can write and all values of recursive types; tests sample a few documents of particular versions.", "anchors": ["derive/src/de.rs: derive_struct", "derive/src/ser.rs: derive_struct", "src/de/mod.rs: Deserialize::default", "src/de/impls.rs: Option<T>", "src/json/de.rs: from_str", "src/json/ser.rs: to_string", "src/ignore.rs"]}
{"id": "C82", "title": "Reading numbers preserves their order", "statement": "Two number literals in the same layout (the same number of digits after the point, the same exponent part) whose digits together fit into a u64: if the first denotes a number not larger than the second, from_str as f64, as f32 and as Number does not give a larger number for the first than for the second; if the literal of larger magnitude is accepted as f64 so is the other. Negating any literal at all negates the f64 that is read. For short decimals (digits below 2^53, power of ten between -22 and 22) the layout does not matter, and different spellings of the same number are read as the same f64. The layout does matter in general: 1e25 and 10e24 denote the same number and are read as different floats, and 10e32 is read as a larger f64 than the larger number 10000000000000001e17; and negation is not exact for f32 below i64::MIN.", "quantifier": "all pairs of number literals in the same layout, of any sign and any exponent; for negation all literals of any length below 2^31", "why_tests_cant": "pairs of literals are unbounded; monotonicity can fail at a single rounding boundary, as it does across layouts", "anchors": ["src/json/de.rs: f64_from_parts, parse_decimal, parse_exponent, parse_number", "src/de/impls.rs: Deserialize for f32, f64", "src/json/number.rs: Deserialize for Number"]}
{"id": "C83", "title": "Exactly which f64 is read", "statement": "A number literal with a fraction or an exponent, or with an integer part beyond u64, is delivered to any Visitor as the f64 obtained by rounding its digits to f64, rounding the power of ten to f64, and rounding their product (or, for a negative power, their quotient) to f64, with the sign of the literal; for powers below 10^-308 it is divided by 10^308 first, as often as needed. The parse fails if and only if the product overflows. Rounding is IEEE 754 round to nearest, ties to even. If the digits do not all fit into a u64, as many as fit are used. This determines the number completely, whatever the exponent, also beyond the range of i32.", "quantifier": "all number literals of any length up to 2147482700 bytes, all exponents, all Visitors", "why_tests_cant": "a specification of the exact result for every literal; tests cover a few literals", "anchors": ["src/json/de.rs: f64_from_parts, POW10, parse_decimal, parse_long_integer, parse_exponent, parse_exponent_overflow"]}
{"id": "C84", "title": "Clone and Debug of a Value nest exactly as deep as the value", "statement": "Unlike parsing, printing and dropping (C52, C53, C37), cloning a json::Value and formatting it with {:?} or {:#?} need as many nested calls as the value has levels of nesting: with a stack for fewer calls they overflow, with a stack for that many they return the same as without a limit. A Value read by from_str has at most as many levels as the text, and at most (bytes + 1) / 2, so limiting the length of the input makes both safe; without such a limit there is for every stack size d a text of 2 * (d + 1) bytes that from_str reads and whose Value can neither be cloned nor formatted.", "quantifier": "all values, all limits on the number of nested calls, all texts", "why_tests_cant": "a test checks some depths on some stack size; the claim is about every depth and the exact number of nested calls", "anchors": ["src/json/value.rs: #[derive(Clone)] on Value, Debug for Value", "src/json/array.rs: Clone and Debug for Array", "src/json/object.rs: Clone and Debug for Object"]}
{"id": "C85", "title": "Dropping what from_str reads takes bounded call depth unless structs are recursive", "statement": "In a program without recursive structs, dropping a value of type T never has more nested calls active than a number that depends on T only, whatever the value, also if it contains arbitrarily deep Values; and all values json::from_str::<T> holds in memory at any moment, on any text, are values of their types that can be dropped within the number for T. For a recursive struct there is no such number: for struct Node { next: Option<Box<Node>> } and every stack size there is a text that is not JSON (a complete value followed by a stray byte), about nine bytes per level, for which from_str::<Node>, on its way to returning Err, has to drop a value that takes more nested calls than that.", "quantifier": "all programs without recursive structs, all types, values and texts; for the converse all stack sizes", "why_tests_cant": "The bound is about all values and all moments of all runs; the overflow appears only beyond the stack size of the machine a test runs on.", "anchors": ["src/json/de.rs: from_str, Drop for Deserializer", "src/json/drop.rs: safely", "src/json/array.rs: Drop for Array", "src/json/object.rs: Drop for Object", "src/de/impls.rs: Box, Option, Vec, maps, tuples", "derive/src/de.rs: derive_struct"]}
{"id": "C86", "title": "from_str works from left to right and stops at the first byte that cannot be right", "statement": "What a visitor sees on the beginning p of an input is the beginning of what it sees on the whole input, except that at most one call, the last one, may be withdrawn: a call delivering the number that p ends in the middle of, or the request for the first element of an array that p ends after opening. In particular, cutting the input anywhere else never makes a visitor see anything it would not have seen. And if p is not the beginning of any JSON text, then nothing after p has any influence on the calls: every visitor sees on every continuation of p exactly what it sees on p, and no continuation is accepted.", "quantifier": "all beginnings p and continuations u (arbitrary bytes), all implementations of Visitor, Seq and Map, all states", "why_tests_cant": "a statement about all pairs of inputs that agree up to some point, and all cuts of all inputs; tests compare a few inputs", "anchors": ["src/json/de.rs: from_str_impl, event, parse_whitespace, parse_integer, parse_decimal, parse_exponent, parse_str, parse_ident", "src/de/mod.rs: Visitor, Seq, Map"]}
{"id": "C87", "title": "Derived code means the same wherever the derive is used, except for a short list of names", "statement": "The code generated by the derive macros is resolved in the user's module, without hygiene. Every name in it stands for what it is meant to stand for (the crate's items, the standard Option/Box/Cow/str, the user's type and its variants and parameters, the generated helper structs, fresh variables, Option's own take and ok_or), and every token copied from the user's declaration keeps its meaning, exactly when: `miniserde` names the crate and the type's name the type (neither is a type parameter); no constant parameter has the name of a type in scope; the type, its parameters and (for Deserialize also the field types') tokens do not use the names of the helper structs (__Visitor, __State; __Map); and for Deserialize of structs the prelude's `Ok` is not shadowed, the fields are distinct and none is called __out, the names of fields and __out, __k are not constants, statics or constant parameters, and no trait in scope gives Option<T> a method take by value or by shared reference. Nothing else that the module declares (its own Option, Some, Box, Result, Error, Visitor, Map, ...) changes the meaning of the generated code.", "quantifier": "all modules (what every name stands for, in both namespaces; which names are constants; which trait methods are in scope), all struct and enum declarations with any parameters, bounds, fields and variants", "why_tests_cant": "ranges over all names a user may have in scope and all declarations; a test derives in one module", "anchors": ["derive/src/de.rs:derive_struct", "derive/src/de.rs:derive_enum", "derive/src/ser.rs:derive_struct", "derive/src/ser.rs:derive_enum", "src/export.rs", "src/lib.rs"]}
{"id": "C88", "title": "Calls of from_str on different threads do not affect each other", "statement": "When several threads call json::from_str at the same time, then under every interleaving of their memory operations: a call that returns, returns exactly what it returns when it is the only one running; no thread ever touches memory that is dead, and no object is ever accessed by two threads, at the same time or one after the other, so there are no data races; when all calls have returned nothing stays allocated; and a call returns as long as its own thread keeps getting turns, even if the others are suspended forever.", "quantifier": "every number of threads, every target type and input of each, every finite or infinite schedule of single memory operations (loads, stores, allocations, deallocations)", "why_tests_cant": "the schedules are unbounded in number and length, and a test exercises only those the machine happens to choose", "anchors": ["src/json/de.rs: from_str, from_str_impl", "src/de/impls.rs: all builders", "src/ptr.rs: NonuniqueBox", "src/ignore.rs: Visitor::ignore"]}
{"id": "C89", "title": "Derived code type-checks exactly when the field types implement the trait", "statement": "For every struct, the code derive(Deserialize) generates compiles exactly when every field's type is Sized (with the struct's own where clauses) and implements Deserialize given the derived bounds, and no field is called __out; the code derive(Serialize) generates compiles exactly when every field's type is Sized and implements Serialize given the derived bounds. Derived Deserialize of an enum always compiles, derived Serialize of it exactly when it has a variant. When the macro rejects its input, the expansion is the error together with an impl that itself compiles, so the user sees no second error. All of this is about the whole code, signatures and bodies: mutability, moves, casts, trait objects, exhaustiveness.", "quantifier": "all structs (any number of fields of any types, any renames), all enums, every assignment of which types implement the traits and are Sized with and without the derived bounds", "why_tests_cant": "ranges over all declarations and all user types; a test compiles one", "anchors": ["derive/src/de.rs:derive_struct", "derive/src/de.rs:derive_enum", "derive/src/ser.rs:derive_struct", "derive/src/ser.rs:derive_enum", "derive/src/fallback.rs", "src/de/mod.rs", "src/ser/mod.rs"]}
{"id": "C90", "title": "The generated code, run statement by statement, does what the declaration says", "statement": "For every supported struct declaration, running the generated Deserialize code (begin, map, then any sequence of key calls, with anything or nothing stored in the places handed out, then finish) never gets stuck: each key gets the place of the first field with that name in documents, or the visitor that ignores everything; finish succeeds exactly if every field has a content at the end (the last one stored, or the default of its type) and then writes the struct with exactly these values in these fields and leaves the builder empty, otherwise it returns an error and leaves the result's place as it was. The generated Serialize code yields the fields in the order of declaration, each with its name and a reference to it, then None for ever, without changing the value. For enums a string gives the variant with that name or an error, and a variant is written as its name. The macros expand a declaration to this code with the names the attributes give, and unsupported declarations to an error. The builders, streams and visitors that the other properties use for derived types behave the same, call by call.", "quantifier": "all structs with any number of fields, types and renames, all enums, all sequences of keys (known, unknown, repeated) and stores of any length, all initial contents of the result's place, all default values, any number of next calls, all derive inputs", "why_tests_cant": "ranges over all declarations and all call sequences; a test derives one type and feeds it a few documents", "anchors": ["derive/src/de.rs:derive_struct", "derive/src/de.rs:derive_enum", "derive/src/ser.rs:derive_struct", "derive/src/ser.rs:derive_enum", "derive/src/attr.rs", "derive/src/lib.rs"]}
{"id": "C91", "title": "The unsafe builder of Box<T> follows the aliasing rules", "statement": "Whatever a caller does with the builder that Visitor::seq/map of Box<T> returns, and whatever the user's Deserialize impl for T, its builders and visitors and the destructor of T do with the place they are lent - in any call, in destructors, returning Ok or Err or panicking - no reference to the place is used after a conflicting use, no protected function argument is invalidated, and nothing is used after it was freed (Stacked Borrows, with raw pointers, protectors and every reborrow made along the way). While the user's builder exists it finds the place as if it had the only pointer to it, although the builder of Box<T> holding the place is moved; the place is freed when the builder is dropped.", "quantifier": "all sequences of calls on the builder, all safe code behind T (arbitrary reborrows, reads, writes and function calls at an arbitrary byte of the place), all outcomes of the calls", "why_tests_cant": "Aliasing violations are not observable in tests at all; Miri checks single runs with particular types.", "anchors": ["src/de/impls.rs: BoxSeq, BoxMap, Place<Box<T>>::seq, Place<Box<T>>::map", "src/ptr.rs: NonuniqueBox", "src/careful.rs: extend_lifetime!"]}
{"id": "C92", "title": "Calls of to_string on different threads do not affect each other, even on the same value", "statement": "When several threads call json::to_string at the same time, some of them on references to one and the same value, then under every interleaving of their memory operations: a call that returns or panics does exactly what it does when it is the only one running (so, for values of their types, it returns the compact JSON text), and two calls on the same value return the same text; no thread touches memory that is dead; an object that two threads access is one of the shared values and is only read, so there are no data races; the shared values never change, and when all calls have returned nothing else stays allocated; and a call returns as long as its own thread keeps getting turns.", "quantifier": "every number of threads, every set of values and types, any sharing of values among the threads, every iteration order of hash maps, every finite or infinite schedule of single memory operations (loads, stores, allocations, deallocations)", "why_tests_cant": "the schedules are unbounded in number and length, and a test exercises only those the machine happens to choose", "anchors": ["src/json/ser.rs: to_string, to_string_impl, Serializer::drop", "src/ser/impls.rs: all impls and streams", "src/ser/mod.rs: Serialize, Seq, Map", "derive/src/ser.rs", "src/json/value.rs, src/json/object.rs, src/json/array.rs, src/json/number.rs: impl Serialize"]}
{"id": "C93", "title": "The unsafe builder of Box<T> follows Tree Borrows as well", "statement": "C91 also holds under the other proposal for Rust's aliasing rules, Tree Borrows: whatever a caller does with the builder that Visitor::seq/map of Box<T> returns, and whatever the user's Deserialize impl for T, its builders and visitors and the destructor of T do with the place they are lent - in any call, in destructors, returning Ok or Err or panicking - no access at any byte of the place, inside an UnsafeCell or not, is through a disabled or frozen reference or through a freed one, and none disables a protected function argument. While the user's builder exists it finds the part of the tree below the reference it was lent as its own code made it; the place is freed when the builder is dropped.", "quantifier": "all sequences of calls on the builder, all safe code behind T (arbitrary reborrows, accesses and calls allowed in its own view), every byte of the place", "why_tests_cant": "Undefined behaviour under an aliasing model is not observable by running the code; Miri checks single executions", "anchors": ["src/de/impls.rs: impl Deserialize for Box<T> (BoxSeq, BoxMap)", "src/ptr.rs: NonuniqueBox"]}
{"id": "C94", "title": "from_str follows Tree Borrows whatever the Visitors do", "statement": "C61 also holds under the other proposal for Rust's aliasing rules, Tree Borrows: for every Visitor/Seq/Map implementation, every input and every outcome (also errors and panics), every memory location (inside an UnsafeCell or not) and every way the implementation may borrow, read, write, allocate or free it, no access during the run of from_str is through a disabled or frozen reference or a freed one, none disables a protected function argument, and no memory with a protected argument is freed. After every operation the driver's pointer to each live visitor and builder still exists, and it and every reference it was made from can be read and written through.", "quantifier": "every implementation, input, outcome, memory location and access pattern", "why_tests_cant": "Undefined behaviour under an aliasing model is not observable by running the code; Miri checks one run of one implementation", "anchors": ["src/json/de.rs: from_str_impl, Deserializer, Layer", "src/ptr.rs: NonuniqueBox", "src/careful.rs: extend_lifetime"]}
