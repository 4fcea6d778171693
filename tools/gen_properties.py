import json
P=[]
def p(title, statement, quantifier, why, anchors):
    P.append(dict(id="C%02d"%(len(P)+1), title=title, statement=statement, quantifier=quantifier, why_tests_cant=why, anchors=anchors))
DE="src/json/de.rs"; SER="src/json/ser.rs"; DI="src/de/impls.rs"; SI="src/ser/impls.rs"
p("from_str accepts only complete JSON texts",
  "If json::from_str returns Ok, for any target type and any visitor (also a user-written one), then the whole input is one RFC 8259 JSON text: optional whitespace, one value, optional whitespace, nothing else. No prefix, no trailing garbage, no trailing comma, no missing bracket is ever accepted.",
  "every input byte string, every implementation of the Visitor/Seq/Map traits, every initial state of it",
  "the accept set is an infinite language and the visitor is arbitrary code; tests sample a few malformed texts with a few types",
  [DE+":from_str_impl", DE+":Deserializer::event", DE+":Deserializer::parse_whitespace"])
p("Every JSON text drives the visitor exactly along its tree",
  "On an input that is a JSON text, the calls made on the visitor, the builders it hands out and the visitors those hand out are exactly the depth-first, left-to-right traversal of the text's syntax tree: one leaf call per scalar, seq()/map() at an opening bracket, element()/key(k) before each child, finish() once after the last child; the first error or panic returned by any call stops the traversal and is the result.",
  "every JSON text (any size, nesting depth, whitespace, escapes), every implementation of Visitor/Seq/Map",
  "the hand-written stack machine must agree with the recursive reading for unboundedly many shapes of input",
  [DE+":from_str_impl", "src/de/mod.rs:Visitor", "src/de/mod.rs:Seq", "src/de/mod.rs:Map"])
p("Value accepts every JSON text",
  "json::from_str::<Value> returns Ok exactly on the inputs that are RFC 8259 JSON texts all of whose number literals are representable (do not overflow f64), and the resulting Value is the text's tree: nulls, booleans, numbers, unescaped strings, arrays in order, objects with the last occurrence of a repeated key.",
  "every input of less than 2^31 bytes",
  "acceptance is over an infinite language in both directions",
  ["src/json/value.rs:Deserialize for Value", DE+":from_str_impl"])
p("Typed decoding is compositional",
  "json::from_str::<T>(s) equals a simple recursive decoding of the JSON tree of s directed by the type T, for every T built from the library's implementations and from derived structs and enums (including recursive ones): Ok(v) when the tree decodes to v, Err when the text is not JSON or the tree does not fit T.",
  "every type built from (), bool, String, the ten integer types, f32, f64, Number, Value, Array, Object, Box, Option, pairs, Vec, [T; N], HashMap, BTreeMap, derived structs and enums; every input of less than 2^31 bytes",
  "the non-recursive driver, the builders with places and the Box/Option delegation must agree with structural recursion for all type/tree combinations",
  [DI, "src/json/value.rs", "src/json/array.rs", "src/json/object.rs", "src/json/number.rs", "derive/src/de.rs"])
p("from_str never panics",
  "Deserializing any input shorter than 2^31 bytes into any library or derived type never panics: no index or slice out of bounds, no arithmetic overflow (also in debug builds), no unwrap of None in the Box implementation.",
  "every input of less than 2^31 bytes, every type of C04",
  "panic freedom is a statement about all inputs; the guards against u64/i32 overflow and the unwraps only fail on unusual inputs",
  [DE+":overflow!", DE+":parse_long_integer", DE+":parse_decimal", DI+":Deserialize for Box<T>"])
p("from_str terminates in linearly many steps",
  "The main loop of from_str runs at most len(input)+1 iterations for every input and every visitor, so parsing always terminates when the visitor's own methods do, whatever the nesting.",
  "every input byte string, every implementation of Visitor/Seq/Map",
  "non-termination on one input in an infinite domain cannot be excluded by sampling",
  [DE+":from_str_impl"])
p("Builders and places are used under a strict stack discipline",
  "At every moment, and whatever error or panic interrupts parsing, from_str only calls the innermost live visitor or builder: a builder is not called, moved out or dropped while a visitor it handed out, or a builder made from that visitor, is still in use; a builder is dropped before anything it borrows from; and when from_str returns, every builder ever handed out has been dropped exactly once. This is the obligation behind the lifetime extension in the implementation.",
  "every input byte string (well-formed or not), every failure point, every implementation of Visitor/Seq/Map",
  "a use-after-free only shows for particular interleavings of nesting, errors and drops; the set of failure points is unbounded",
  [DE+":from_str_impl", DE+":impl Drop for Deserializer", "src/careful.rs:extend_lifetime", "src/ptr.rs:NonuniqueBox"])
p("Library visitors never touch dead or uninitialised memory and never leak",
  "Deserializing into any library or derived type never reads or writes through a dangling place, never frees twice, never reads an uninitialised array slot, and frees every builder and temporary it allocated, on success and on every error path.",
  "every input, every type of C04, including arbitrarily nested Box and Option",
  "memory errors depend on the combination of type nesting and failure position",
  [DI+":BoxSeq", DI+":BoxMap", DI+":ArrayBuilder", "src/ptr.rs", "src/place.rs:make_place", "src/ignore.rs"])
p("Strings handed to visitors are valid UTF-8",
  "When the input is a Rust &str, every string passed to Visitor::string or Map::key is well-formed UTF-8, so the unchecked conversion in the parser is sound.",
  "every valid UTF-8 input (well-formed JSON or not), every string literal and key in it",
  "unsafe from_utf8_unchecked relies on it for all inputs, including mixed raw and escaped text",
  [DE+":parse_str", DE+":parse_escape", DE+":decode_hex_escape"])
p("String literals are unescaped exactly",
  "A JSON string literal is accepted exactly when its body is a sequence of raw characters other than quote, backslash and U+0000..U+001F, the eight short escapes, \\uXXXX escapes of non-surrogates and \\uD8xx-DBxx\\uDCxx-DFxx pairs; the delivered string is the character-by-character decoding, whether or not the zero-copy fast path is taken.",
  "every literal of any length and any mixture of escapes",
  "infinitely many literals and a fast path / scratch buffer split",
  [DE+":parse_str", DE+":parse_escape", DE+":ESCAPE"])
p("Surrogate escapes",
  "An escaped UTF-16 surrogate pair yields the one supplementary character it encodes; an unpaired or reversed surrogate escape makes from_str fail for every type.",
  "all 2^16 values of each \\u escape, in any context",
  "2^32 combinations of escapes in arbitrary context",
  [DE+":parse_escape"])
p("Integer literals keep their exact value",
  "A number literal without fraction and exponent reaches the visitor as nonnegative(n) with exactly its value when it has no minus sign and n <= u64::MAX, as negative(n) with exactly its value when it has a minus sign and n >= i64::MIN, and as float(_) otherwise; it is never wrapped, truncated or rounded in the first two cases.",
  "every integer literal of any number of digits",
  "boundary behaviour around 2^63 and 2^64 and arbitrary lengths",
  [DE+":parse_integer", DE+":parse_number", DE+":overflow!"])
p("Integer types accept exactly the in-range integer literals",
  "from_str::<I> for an integer type I returns Ok(n) exactly when the text is an integer literal (no '.', no exponent) with value n in the range of I; literals with '-' are rejected by unsigned types, even -0. No out-of-range number is ever wrapped or truncated into I.",
  "every input of less than 2^31 bytes, i8..i64, isize, u8..u64, usize (32- or 64-bit)",
  "the range checks use casts; all boundary values and all lengths matter",
  [DI+":signed!", DI+":unsigned!", DE+":parse_number"])
p("Parsed f64 numbers are finite",
  "Every f64 delivered by the parser is finite: a literal too large for f64 gives Err, never an infinity, and no literal gives NaN. In particular from_str::<f64> never returns a non-finite number, and the sign of the result is the sign of the literal.",
  "every number literal of any length and exponent",
  "the scaling loop over powers of ten and the exponent saturation have unboundedly many paths",
  [DE+":f64_from_parts", DE+":parse_exponent", DE+":parse_exponent_overflow"])
p("Parsed f64 numbers are close to the literal",
  "The f64 obtained from a literal differs from the literal's exact decimal value by at most a fixed tiny relative error (a few units in the last place) plus, in the subnormal range, a fixed tiny absolute error; overflow errors happen only for literals within that relative error of the f64 range limit or beyond.",
  "every number literal of less than 2^31 bytes",
  "accuracy over all mantissa/exponent combinations cannot be sampled",
  [DE+":f64_from_parts", DE+":parse_decimal", DE+":parse_long_integer", DE+":POW10"])
p("Short decimals parse correctly rounded",
  "If the literal's significant digits form an integer below 2^53 and its decimal exponent lies in -22..22, the resulting f64 is the correctly rounded (nearest, ties to even) value of the literal; small integers and short decimals are therefore exact or best possible.",
  "every such literal",
  "about 2^53 * 45 literals",
  [DE+":f64_from_parts"])
p("Exact f64 round trip",
  "from_str::<f64>(to_string(x)) returns x for every finite f64 x.",
  "every finite f64",
  "2^64 values; the property is false of the code for some values (the parser is not correctly rounding), which one concrete witness settles, and holds on a describable subset",
  [DE+":f64_from_parts", SER+":to_string_impl"])
p("Whitespace between tokens is irrelevant",
  "Inserting or removing JSON whitespace (space, tab, LF, CR) between tokens of the input never changes the result of from_str, for any type and any visitor.",
  "every JSON text, every way of inserting whitespace between tokens, every visitor",
  "infinitely many placements",
  [DE+":parse_whitespace", DE+":from_str_impl"])
p("Struct fields may come in any order",
  "For a derived struct with distinct field names, permuting the members of the JSON object does not change the result as long as the members have distinct keys.",
  "every derived struct, every object, every permutation",
  "factorially many permutations of unboundedly many fields",
  ["derive/src/de.rs:derive_struct"])
p("Unknown struct fields are skipped",
  "Adding or removing members whose key is no field name changes nothing in the result of deserializing a derived struct, whatever (well-formed, representable) JSON value they carry and wherever they occur.",
  "every derived struct, every object, every unknown member with any nested value",
  "arbitrary nested ignored values",
  ["derive/src/de.rs:derive_struct", "src/ignore.rs:Ignore"])
p("Missing fields",
  "A derived struct fails to deserialize when a field whose type is not Option is absent; an absent Option field becomes None; nothing else is defaulted (in particular not Box<Option<T>>).",
  "every derived struct, every object",
  "all subsets of fields of all structs",
  ["derive/src/de.rs:derive_struct", "src/de/mod.rs:Deserialize::default", DI+":Deserialize for Option<T>"])
p("Duplicate keys: the last one wins",
  "When a member is repeated, a derived struct, Object, HashMap and BTreeMap keep the value of the last occurrence; every occurrence must still decode.",
  "every object with any multiplicity and order of repeated keys",
  "unbounded multiplicities and interleavings",
  ["derive/src/de.rs:derive_struct", DI+":MapBuilder", "src/json/object.rs:ObjectBuilder"])
p("Derived enums accept exactly their variant names",
  "A derived enum deserializes Ok(variant i) exactly from the JSON string equal to the variant's name (after rename, and without r#); any other string or JSON value is an error; serializing then deserializing a variant gives it back when the names are distinct.",
  "every C-style enum, every input",
  "all strings",
  ["derive/src/de.rs:derive_enum", "derive/src/ser.rs:derive_enum"])
p("Option is null or the inner value",
  "from_str::<Option<T>> gives Ok(None) exactly on a null literal and Ok(Some(v)) exactly when the text is not null and decodes to v as T; Box<T> decodes exactly as T.",
  "every T of C04, every input",
  "all types and inputs",
  [DI+":Deserialize for Option<T>", DI+":Deserialize for Box<T>"])
p("Fixed-size sequences need exactly the right length",
  "[T; N] is Ok exactly for JSON arrays of exactly N elements all decoding as T, (A, B) exactly for JSON arrays of exactly two elements decoding as A and B, Vec<T> for any length; element order is preserved.",
  "every T, A, B of C04, every N, every array length",
  "all lengths and N",
  [DI+":ArrayBuilder", DI+":TupleBuilder", DI+":VecBuilder"])
p("Maps from JSON objects",
  "HashMap<K,V> and BTreeMap<K,V> are Ok exactly when every key parses with K::from_str and every value decodes; the map then sends each key to the value of its last occurrence and contains nothing else; a BTreeMap (and Object) iterates in strictly increasing key order.",
  "every K with FromStr and a total order, every V of C04, every object",
  "all objects with any key collisions",
  [DI+":Deserialize for HashMap", DI+":Deserialize for BTreeMap", "src/json/object.rs"])
p("to_string always produces one JSON text",
  "The output of json::to_string is a well-formed RFC 8259 JSON text and valid UTF-8 for every Serialize implementation, also user-written ones, whose streams are finite; the text's tree is the tree of fragments the implementation streamed, in order.",
  "every implementation of Serialize/Seq/Map with finite streams, any nesting, any strings",
  "arbitrary user implementations and arbitrary strings",
  [SER+":to_string_impl", SER+":escape_str"])
p("Serialization is total",
  "json::to_string terminates and never panics for every value of every library or derived type: no slice at a non-character boundary, no table index out of range, no unreachable!() reached.",
  "every value of every type of C04",
  "slicing strings by byte offsets depends on the string's contents",
  [SER+":to_string_impl", SER+":escape_str"])
p("Strings survive escaping",
  "Writing any string and reading it back gives the same string: from_str::<String>(to_string(s)) == Ok(s); the written literal contains no raw control character, and only quote, backslash and control characters are escaped.",
  "every valid UTF-8 string",
  "infinitely many strings",
  [SER+":escape_str", DE+":parse_str"])
p("Output is compact",
  "to_string emits no whitespace outside string literals: the output is the unique whitespace-free rendering of its tree.",
  "every Serialize implementation with finite streams",
  "all trees",
  [SER+":to_string_impl"])
p("Integers are printed exactly and read back",
  "to_string of an integer is its canonical decimal form and from_str of the same type returns the same integer.",
  "every value of the ten integer types",
  "2^64 values per type",
  [SI+":unsigned!", SI+":signed!", SER+":to_string_impl", DI+":signed!", DI+":unsigned!"])
p("Non-finite floats become null",
  "to_string writes null exactly for NaN and the two infinities and a number literal for every finite f32/f64; non-finite numbers therefore never produce invalid JSON anywhere in a document.",
  "every f32 and f64, in any context",
  "all bit patterns in all contexts",
  [SER+":to_string_impl"])
p("Round trip",
  "from_str::<T>(to_string(v)) == Ok(v) for every value v of every float-free library or derived type in which Option is not applied to a type that can itself be written as null, struct field names are distinct, enum variant names are distinct and map keys round-trip through to_string/from_str.",
  "every such type and value, any size and depth; any HashMap iteration order",
  "all values of all types",
  [SER, DE, DI, SI, "derive/src/ser.rs", "derive/src/de.rs"])
p("Reparse stability of Value",
  "For a float-free JSON text s, parsing to Value, writing it and parsing again gives the same Value; the second and later write are byte-identical (normal form with sorted keys).",
  "every JSON text without floats",
  "all texts",
  ["src/json/value.rs", "src/json/object.rs"])
p("Struct members are written in declaration order under their names",
  "to_string of a derived struct writes every field exactly once, in declaration order, under the field's serialized name, with null for None; reading uses the same names.",
  "every derived struct and value",
  "all structs",
  ["derive/src/ser.rs:derive_struct", "derive/src/attr.rs"])
p("The serializer's stack discipline",
  "to_string keeps every Seq/Map stream alive while anything borrowed from it is in use: it only advances or drops the innermost live stream after everything handed out by it is finished, and drops every stream exactly once.",
  "every Serialize implementation, any nesting",
  "depends on nesting of empty and non-empty containers",
  [SER+":to_string_impl", "src/careful.rs"])
p("Dropping a Value uses bounded call depth",
  "Dropping a Value, Array or Object never nests drop calls deeper than a fixed constant, however deeply the value is nested, and drops every node exactly once.",
  "every Value, any depth and width",
  "depth is unbounded",
  ["src/json/drop.rs:safely", "src/json/array.rs:impl Drop for Array", "src/json/object.rs:impl Drop for Object"])
p("Derive macros accept exactly the supported shapes",
  "The derive macros generate a working impl exactly for braced structs and for non-generic C-style enums whose serde attributes consist of at most one rename each; every other input is rejected with a compile error.",
  "every abstract derive input (any number of fields, variants, attributes)",
  "all combinations of shapes and attributes",
  ["derive/src/de.rs:try_expand", "derive/src/ser.rs:try_expand", "derive/src/attr.rs:attr_rename"])
p("Serialize and Deserialize derives agree on names",
  "For every derive input both macros accept or both reject, and when they accept they use the same list of names: the rename value if present, else the identifier without r#.",
  "every abstract derive input",
  "all inputs",
  ["derive/src/attr.rs:name_of_field", "derive/src/attr.rs:name_of_variant", "derive/src/attr.rs:unraw"])
p("f32 conversion",
  "from_str::<f32> returns the nearest-even rounding to f32 of the number the parser delivered (an integer exactly, else the f64), and is infinite exactly when that number rounds beyond f32::MAX; f32 values are widened exactly when written.",
  "every input",
  "all literals",
  [DI+":float!", SI+":float!"])
open("/verif/properties.jsonl","w").write("".join(json.dumps(x)+"\n" for x in P))
print(len(P))
