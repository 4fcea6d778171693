{
 "claims": [
  {
   "property": "C01",
   "status": "proved",
   "theorems": [
    "Miniserde.C01_accepts_only_json",
    "Miniserde.C01_rejects"
   ],
   "note": "any visitor implementation, any input bytes"
  },
  {
   "property": "C02",
   "status": "proved",
   "theorems": [
    "Miniserde.C02_traverses_the_tree"
   ],
   "note": "any visitor implementation; `drive` (Spec/Traversal) is the specification"
  },
  {
   "property": "C03",
   "status": "proved",
   "theorems": [
    "Miniserde.C03_value",
    "Miniserde.C03_accepts",
    "Miniserde.C03_unique",
    "Miniserde.C03_in_range",
    "Miniserde.C03_out_of_range"
   ],
   "note": "`IsValue` (Spec/Api) is the specification; C03_in_range and C03_out_of_range say which numbers overflow in terms of the values of the literals (within a few units of 2^-53)"
  },
  {
   "property": "C04",
   "status": "proved",
   "theorems": [
    "Miniserde.C04_compositional",
    "Miniserde.C04_ok"
   ],
   "note": "`decode` (Spec/Decode) is the specification; inputs below 2^31 bytes for the error case"
  },
  {
   "property": "C05",
   "status": "proved",
   "theorems": [
    "Miniserde.C05_no_panic",
    "Miniserde.C05_returns"
   ],
   "note": "inputs below 2^31 bytes"
  },
  {
   "property": "C06",
   "status": "proved",
   "theorems": [
    "Miniserde.C06_terminates",
    "Miniserde.C06_budget"
   ],
   "note": ""
  },
  {
   "property": "C07",
   "status": "proved",
   "theorems": [
    "Miniserde.C07_stack_discipline"
   ],
   "note": "`Proto.monitored` (Spec/Monitor) is the specification; any visitor implementation, any outcome"
  },
  {
   "property": "C08",
   "status": "proved",
   "theorems": [
    "Miniserde.C08_memory"
   ],
   "note": "explicit heap model of liveness and ownership; aliasing (Stacked Borrows) is C61"
  },
  {
   "property": "C09",
   "status": "proved",
   "theorems": [
    "Miniserde.C09_strings_are_utf8"
   ],
   "note": "also on malformed inputs"
  },
  {
   "property": "C10",
   "status": "proved",
   "theorems": [
    "Miniserde.C10_unescapes",
    "Miniserde.C10_accepts_only",
    "Miniserde.C10_unique"
   ],
   "note": ""
  },
  {
   "property": "C11",
   "status": "proved",
   "theorems": [
    "Miniserde.C11_pair",
    "Miniserde.C11_unpaired"
   ],
   "note": ""
  },
  {
   "property": "C12",
   "status": "proved",
   "theorems": [
    "Miniserde.C12_integers_exact",
    "Miniserde.C12_too_large"
   ],
   "note": "C12_too_large: texts up to 2147482700 bytes"
  },
  {
   "property": "C13",
   "status": "proved",
   "theorems": [
    "Miniserde.C13_integers"
   ],
   "note": ""
  },
  {
   "property": "C14",
   "status": "proved",
   "theorems": [
    "Miniserde.C14_delivered_numbers",
    "Miniserde.C14_finite",
    "Miniserde.C14_sign"
   ],
   "note": "any visitor implementation and any bytes; the sign of the integer literal -0 is lost (stated exception)"
  },
  {
   "property": "C15",
   "status": "proved",
   "theorems": [
    "Miniserde.C15_delivered",
    "Miniserde.C15_accuracy"
   ],
   "note": "texts up to 2147482700 bytes"
  },
  {
   "property": "C16",
   "status": "proved",
   "theorems": [
    "Miniserde.C16_short_decimals",
    "Miniserde.C16_integers",
    "Miniserde.C16_exact"
   ],
   "note": ""
  },
  {
   "property": "C17",
   "status": "proved",
   "theorems": [
    "Miniserde.C17_short_round_trip",
    "Miniserde.C17_close",
    "Miniserde.C17_not_exact"
   ],
   "note": "exact round trip in general is false (3e23); what is proved is the amended statement; of ryu RyuSyntax and RyuRounds are assumed"
  },
  {
   "property": "C18",
   "status": "proved",
   "theorems": [
    "Miniserde.C18_same_tree",
    "Miniserde.C18_whitespace"
   ],
   "note": "texts of one tree are indistinguishable; whitespace inserted between tokens of any input below 2 GiB, well-formed or not, changes nothing"
  },
  {
   "property": "C19",
   "status": "proved",
   "theorems": [
    "Miniserde.C19_field_order",
    "Miniserde.C19_to_C22_struct"
   ],
   "note": ""
  },
  {
   "property": "C20",
   "status": "proved",
   "theorems": [
    "Miniserde.C20_unknown_fields",
    "Miniserde.C19_to_C22_struct"
   ],
   "note": ""
  },
  {
   "property": "C21",
   "status": "proved",
   "theorems": [
    "Miniserde.C21_missing_field",
    "Miniserde.C21_missing_option",
    "Miniserde.C19_to_C22_struct"
   ],
   "note": ""
  },
  {
   "property": "C22",
   "status": "proved",
   "theorems": [
    "Miniserde.C22_struct_last_wins",
    "Miniserde.C22_map_last_wins",
    "Miniserde.C26_object",
    "Miniserde.C19_to_C22_struct"
   ],
   "note": ""
  },
  {
   "property": "C23",
   "status": "proved",
   "theorems": [
    "Miniserde.C23_enum",
    "Miniserde.C23_enum_round_trip",
    "Miniserde.C39_enum",
    "Miniserde.C48_enum_de",
    "Miniserde.C48_enum_ser"
   ],
   "note": "variant names come through the derive model (C39, C48)"
  },
  {
   "property": "C24",
   "status": "proved",
   "theorems": [
    "Miniserde.C24_option",
    "Miniserde.C24_box"
   ],
   "note": ""
  },
  {
   "property": "C25",
   "status": "proved",
   "theorems": [
    "Miniserde.C25_array",
    "Miniserde.C25_pair",
    "Miniserde.C25_vec"
   ],
   "note": ""
  },
  {
   "property": "C26",
   "status": "proved",
   "theorems": [
    "Miniserde.C26_hash_map",
    "Miniserde.C26_btree_map",
    "Miniserde.C26_object"
   ],
   "note": ""
  },
  {
   "property": "C27",
   "status": "proved",
   "theorems": [
    "Miniserde.C27_json_text",
    "Miniserde.C27_finite_streams"
   ],
   "note": "any Serialize implementation; `Streams` and `FTree.json` (Spec/Ser) are the specification; of ryu only RyuSyntax is assumed"
  },
  {
   "property": "C28",
   "status": "proved",
   "theorems": [
    "Miniserde.C28_total",
    "Miniserde.C28_no_panic",
    "Miniserde.C28_driver_no_panic"
   ],
   "note": "library and derived types; explicit heap of streams"
  },
  {
   "property": "C29",
   "status": "proved",
   "theorems": [
    "Miniserde.C29_strings",
    "Miniserde.C29_what_is_escaped"
   ],
   "note": ""
  },
  {
   "property": "C30",
   "status": "proved",
   "theorems": [
    "Miniserde.C30_compact"
   ],
   "note": ""
  },
  {
   "property": "C31",
   "status": "proved",
   "theorems": [
    "Miniserde.C31_integers",
    "Miniserde.decimal_canonical"
   ],
   "note": ""
  },
  {
   "property": "C32",
   "status": "proved",
   "theorems": [
    "Miniserde.C32_floats",
    "Miniserde.C32_f32",
    "Miniserde.C27_json_text"
   ],
   "note": ""
  },
  {
   "property": "C33",
   "status": "proved",
   "theorems": [
    "Miniserde.C33_round_trip",
    "Miniserde.C33_round_trip_types",
    "Miniserde.C33_round_trip_exact"
   ],
   "note": "hash maps compared as maps"
  },
  {
   "property": "C34",
   "status": "proved",
   "theorems": [
    "Miniserde.C34_value",
    "Miniserde.C34_text",
    "Miniserde.C34_integers"
   ],
   "note": "`Val.canon` turns non-negative Number::I64 (from -0) into Number::U64"
  },
  {
   "property": "C35",
   "status": "proved",
   "theorems": [
    "Miniserde.C35_struct",
    "Miniserde.C39_struct",
    "Miniserde.C48_struct_ser"
   ],
   "note": "field names and the generated `next` come through the derive model (C39, C48)"
  },
  {
   "property": "C36",
   "status": "proved",
   "theorems": [
    "Miniserde.C36_stack_discipline"
   ],
   "note": "`SProto.monitored` (Spec/SerMonitor) is the specification; any implementation, also when it panics"
  },
  {
   "property": "C37",
   "status": "proved",
   "theorems": [
    "Miniserde.C37_bounded_depth",
    "Miniserde.C37_frees_once",
    "Miniserde.C37_array",
    "Miniserde.C37_object"
   ],
   "note": "machine with an explicit call stack; library iterators are not frames of their own"
  },
  {
   "property": "C38",
   "status": "proved",
   "theorems": [
    "Miniserde.C38_deserialize",
    "Miniserde.C38_serialize",
    "Miniserde.C38_names_unique",
    "Miniserde.C38_item_attributes_ignored"
   ],
   "note": "acceptance by the macro; whether rustc accepts the expansion is not modelled"
  },
  {
   "property": "C39",
   "status": "proved",
   "theorems": [
    "Miniserde.C39_agree",
    "Miniserde.C39_struct",
    "Miniserde.C39_enum",
    "Miniserde.C39_model"
   ],
   "note": ""
  },
  {
   "property": "C40",
   "status": "proved",
   "theorems": [
    "Miniserde.C40_formats",
    "Miniserde.C40_rounding",
    "Miniserde.C40_infinite",
    "Miniserde.C32_f32",
    "Miniserde.RoundsTo_unique",
    "Miniserde.RoundsTo_exists"
   ],
   "note": "`RoundsTo` (Spec/FloatVal) is the specification"
  },
  {
   "property": "C41",
   "status": "proved",
   "theorems": [
    "Miniserde.C41_type_sound",
    "Miniserde.C41_read_then_write"
   ],
   "note": ""
  },
  {
   "property": "C42",
   "status": "proved",
   "theorems": [
    "Miniserde.C42_f32_round_trip"
   ],
   "note": "of ryu RyuSyntax and RyuRounds are assumed"
  },
  {
   "property": "C43",
   "status": "proved",
   "theorems": [
    "Miniserde.C43_truncated",
    "Miniserde.C43_truncated_err",
    "Miniserde.C43_concatenated",
    "Miniserde.C43_unambiguous"
   ],
   "note": "a cut or concatenated document is rejected; the grammar is unambiguous"
  },
  {
   "property": "C44",
   "status": "proved",
   "theorems": [
    "Miniserde.C44_null_is_absent"
   ],
   "note": "explicit null and absent Option field are indistinguishable"
  },
  {
   "property": "C45",
   "status": "proved",
   "theorems": [
    "Miniserde.C45_value_accepts_most",
    "Miniserde.C45_array_is_vec",
    "Miniserde.C45_object_is_map"
   ],
   "note": "Value accepts whatever any type accepts; Array and Object are Vec<Value> and BTreeMap<String, Value>"
  },
  {
   "property": "C46",
   "status": "proved",
   "theorems": [
    "Miniserde.C46_three_iterations"
   ],
   "note": "the scaling loop with a budget of three iterations equals the unbounded loop"
  },
  {
   "property": "C47",
   "status": "proved",
   "theorems": [
    "Miniserde.C47_same_value",
    "Miniserde.C47_indistinguishable",
    "Miniserde.C47_through_value"
   ],
   "note": "hypothesis: key types read distinct texts as distinct keys (false of integer keys: \"1\" and \"01\")"
  },
  {
   "property": "C48",
   "status": "proved",
   "theorems": [
    "Miniserde.C48_struct_de",
    "Miniserde.C48_struct_ser",
    "Miniserde.C48_enum_de",
    "Miniserde.C48_enum_ser"
   ],
   "note": "an interpreter of the generated code with fields accessed by name agrees with the position-based model used for all other properties"
  },
  {
   "property": "C49",
   "status": "proved",
   "theorems": [
    "Miniserde.C49_impl",
    "Miniserde.C49_wrapper",
    "Miniserde.C49_params"
   ],
   "note": "user bounds are opaque; type checking of the expansion by rustc is not modelled"
  },
  {
   "property": "C50",
   "status": "proved",
   "theorems": [
    "Miniserde.C50_injective",
    "Miniserde.C50_injective_hash",
    "Miniserde.C50_wrappers"
   ],
   "note": "on values satisfying Plain (those that round-trip, C33)"
  },
  {
   "property": "C51",
   "status": "proved",
   "theorems": [
    "Miniserde.C51_write_vec",
    "Miniserde.C51_write_pair",
    "Miniserde.C51_write_map",
    "Miniserde.C51_write_struct",
    "Miniserde.C51_write_vec_steady",
    "Miniserde.C51_write_pair_steady",
    "Miniserde.C51_write_map_steady",
    "Miniserde.C51_write_struct_steady",
    "Miniserde.C51_write_hash_map",
    "Miniserde.C51_read_vec",
    "Miniserde.C51_read_elements",
    "Miniserde.C51_read_pair",
    "Miniserde.C51_read_pair_iff",
    "Miniserde.C51_read_array",
    "Miniserde.C51_read_map",
    "Miniserde.C51_read_struct",
    "Miniserde.C51_read_struct_iff"
   ],
   "note": "writing: types without hash maps, or (_steady, hash_map) all types if a hash map that is not changed is iterated in the same order each time"
  },
  {
   "property": "C52",
   "status": "proved",
   "theorems": [
    "Miniserde.C52_from_str",
    "Miniserde.C52_value"
   ],
   "note": "The model's implementations with a limit on nested calls (overflow = panic) give the same result and heap as the unlimited ones for every input. An example shows the limit cannot be lowered. Calls that are not trait calls (Vec::push, destructors of values) are not counted; destructors of Value are C37, of other values C85."
  },
  {
   "property": "C53",
   "status": "proved",
   "theorems": [
    "Miniserde.C53_to_string",
    "Miniserde.C53_text"
   ],
   "note": "Same method as C52: the implementation with a call limit behaves identically, also in the heap it leaves and in panics."
  },
  {
   "property": "C54",
   "status": "proved",
   "theorems": [
    "Miniserde.C54_bounded_depth",
    "Miniserde.C54_frees_once"
   ],
   "note": "For builders of Value (and Array, Object). Builders of user types drop their contents by Rust's own glue."
  },
  {
   "property": "C55",
   "status": "proved",
   "theorems": [
    "Miniserde.C55_array_iter",
    "Miniserde.C55_object_iter"
   ],
   "note": "take() is modelled as handing the buffer to the iterator, with no destructor for the ManuallyDrop."
  },
  {
   "property": "C56",
   "status": "proved",
   "theorems": [
    "Miniserde.C56_evolution",
    "Miniserde.C56_integers"
   ],
   "note": "Adding an Option field to a struct is covered by C19/C20 (absent Option fields read as None)."
  },
  {
   "property": "C57",
   "status": "proved",
   "theorems": [
    "Miniserde.C57_calls",
    "Miniserde.C57_exact",
    "Miniserde.C57_size",
    "Miniserde.C57_echo"
   ],
   "note": "Counts logical sizes; allocator capacity policy of Vec, String and HashMap is std's. C57_size assumes FromStr of map keys does not lengthen them (String keys: unchanged). C57_echo assumes ryu writes at most 24 bytes."
  },
  {
   "property": "C58",
   "status": "proved",
   "theorems": [
    "Miniserde.C58_no_coercion",
    "Miniserde.C58_mismatch"
   ],
   "note": "Kind table in Spec/Kind, independent of the visitors."
  },
  {
   "property": "C59",
   "status": "proved",
   "theorems": [
    "Miniserde.C59_display",
    "Miniserde.C59_non_finite"
   ],
   "note": "ryu and itoa are parameters/contract as elsewhere."
  },
  {
   "property": "C60",
   "status": "proved",
   "theorems": [
    "Miniserde.C60_debug",
    "Miniserde.C60_same",
    "Miniserde.C60_text"
   ],
   "note": "Assumes core's Debug for str is self-delimiting (StrDebug, shown satisfiable) and the ryu contract; {:?} only, not {:#?}."
  },
  {
   "property": "C61",
   "status": "proved",
   "theorems": [
    "Miniserde.C61_stacked_borrows",
    "Miniserde.C61_from_str",
    "Miniserde.C61_argument_protected"
   ],
   "note": "C61_stacked_borrows: at one arbitrary location, with every reborrow of the driver and NonuniqueBox, protectors, raw pointers and any retags of returned values on their way through Result (Spec/DriverBorrows). C61_from_str: coarser, one tag per reference (Spec/Borrows). Examples show that a plain Box instead of NonuniqueBox would break it."
  },
  {
   "property": "C62",
   "status": "proved",
   "theorems": [
    "Miniserde.C62_stacked_borrows",
    "Miniserde.C62_to_string"
   ],
   "note": "C62_stacked_borrows: with every reborrow of the driver, protectors, UnsafeCell and the driver's reads of returned strings and any retags of returned values on their way through Option and Fragment (Spec/SerBorrows); C62_to_string: coarser, one tag per reference (Spec/Borrows). Finding (an example in Props/Borrows): with moves asserting uniqueness, a stream lending a reference to its own field is invalidated when its Box is moved to the stack before first.begin(); the deserializer avoids this with NonuniqueBox, the serializer does not."
  },
  {
   "property": "C63",
   "status": "proved",
   "theorems": [
    "Miniserde.C63_viable"
   ],
   "note": "`seen` (Spec/Viable) is the record of calls"
  },
  {
   "property": "C64",
   "status": "proved",
   "theorems": [
    "Miniserde.C64_calls"
   ],
   "note": "counters are a wrapper around the implementation (Spec/SerCost); ryu by RyuSyntax"
  },
  {
   "property": "C65",
   "status": "proved",
   "theorems": [
    "Miniserde.C65_unique_names"
   ],
   "note": "The examples show that the hypothesis on field names is needed."
  },
  {
   "property": "C66",
   "status": "proved",
   "theorems": [
    "Miniserde.C66_total",
    "Miniserde.C66_memory",
    "Miniserde.C66_no_leak",
    "Miniserde.C66_values",
    "Miniserde.C66_bounded_depth",
    "Miniserde.C66_printable"
   ],
   "note": "Of the std API that Array and Object deref to, the common operations are modelled one by one, every other one that reorders, returns or drops elements by `rearrange` and `select` (which elements, in which order, is arbitrary). Clone is derived and recursive (see Findings)."
  },
  {
   "property": "C67",
   "status": "proved",
   "theorems": [
    "Miniserde.C67_sound",
    "Miniserde.C67_no_leak",
    "Miniserde.C67_panic",
    "Miniserde.C67_frame",
    "Miniserde.C67_some",
    "Miniserde.C67_from_str"
   ],
   "note": "C67_from_str records memory after every call of from_str. Example exClient runs a program up to the panic of a second finish on a Box builder and beyond."
  },
  {
   "property": "C68",
   "status": "proved",
   "theorems": [
    "Miniserde.C68_unwind",
    "Miniserde.C68_agrees",
    "Miniserde.C68_outcome",
    "Miniserde.C68_out_of_order"
   ],
   "note": "C68_unwind characterises the exception exactly (iff); C68_out_of_order is a concrete run that shows it happens: a finding about the code."
  },
  {
   "property": "C69",
   "status": "proved",
   "theorems": [
    "Miniserde.C69_unwind",
    "Miniserde.C69_agrees",
    "Miniserde.C69_outcome"
   ],
   "note": ""
  },
  {
   "property": "C70",
   "status": "proved",
   "theorems": [
    "Miniserde.C70_array",
    "Miniserde.C70_array_once",
    "Miniserde.C70_array_no_leak",
    "Miniserde.C70_box",
    "Miniserde.C70_box_once",
    "Miniserde.C70_box_no_leak"
   ],
   "note": "Ownership-level model in which values of T are opaque labels; allocation failure is not modelled."
  },
  {
   "property": "C71",
   "status": "proved",
   "theorems": [
    "Miniserde.C71_debug",
    "Miniserde.C71_agrees",
    "Miniserde.C71_same",
    "Miniserde.C71_safe",
    "Miniserde.C71_language",
    "Miniserde.C71_text",
    "Miniserde.C71_long_rejected",
    "Miniserde.C71_long_wrong"
   ],
   "note": "C71_text: both builds, JSON texts of any length with number literals below 2 GiB. C71_long_*: the finding."
  },
  {
   "property": "C72",
   "status": "proved",
   "theorems": [
    "Miniserde.C72_vec",
    "Miniserde.C72_arr",
    "Miniserde.C72_pair",
    "Miniserde.C72_map",
    "Miniserde.C72_opt",
    "Miniserde.C72_box",
    "Miniserde.C72_struct",
    "Miniserde.C72_absent",
    "Miniserde.C72_wrong_kind",
    "Miniserde.C72_nests",
    "Miniserde.C72_inside",
    "Miniserde.C72_idle",
    "Miniserde.C72_struct_finish"
   ],
   "note": "The element implementation is an arbitrary Proto with a place; hypotheses Delivers (Ok means the place is filled) and, for struct fields only, Overwrites (old content of the place does not matter). C72_idle shows Delivers is needed: a visitor that returns Ok without writing is silently skipped by Vec and panics in Box."
  },
  {
   "property": "C73",
   "status": "proved",
   "theorems": [
    "Miniserde.C73_text",
    "Miniserde.C73_slice",
    "Miniserde.C73_pair",
    "Miniserde.C73_map",
    "Miniserde.C73_struct",
    "Miniserde.C73_transparent",
    "Miniserde.C73_none",
    "Miniserde.C73_leaf",
    "Miniserde.C73_scalar",
    "Miniserde.C73_user_seq",
    "Miniserde.C73_user_map",
    "Miniserde.C73_begin_panics",
    "Miniserde.C73_delegate"
   ],
   "note": "Equivalences between the run of the serializer on the container and runs on the parts, for arbitrary user implementations; hypotheses only say that strings are valid UTF-8 (a Rust type invariant)."
  },
  {
   "property": "C74",
   "status": "proved",
   "theorems": [
    "Miniserde.C74_linear",
    "Miniserde.C74_accounted"
   ],
   "note": "C74_accounted says that the counter leaves no byte and no call out. Model/LexCost is the tokenizer and driver of Model/Lexer and Model/Driver with a step counter, and the theorem says that without the counter it is that model. Reallocation of the two vectors is amortized by the pushes and not counted; work inside the caller's visitor is the caller's."
  },
  {
   "property": "C75",
   "status": "proved",
   "theorems": [
    "Miniserde.C75_pretty",
    "Miniserde.C75_plain",
    "Miniserde.C75_same",
    "Miniserde.C75_number"
   ],
   "note": "core::fmt::builders (PadAdapter, DebugList, DebugMap) is modelled from the standard library; the Debug of str is a parameter (any sequence of writes, contract StrWrites); ryu contracts as for C60."
  },
  {
   "property": "C76",
   "status": "proved",
   "theorems": [
    "Miniserde.C76_normalizes",
    "Miniserde.C76_unique",
    "Miniserde.C76_fixed",
    "Miniserde.C76_idempotent",
    "Miniserde.C76_equal",
    "Miniserde.C76_equal_values",
    "Miniserde.C76_deep"
   ],
   "note": "ryu enters through RyuSyntax; idempotence is claimed for documents without floats (with floats it needs the reader to round correctly, see C15-C17)."
  },
  {
   "property": "C77",
   "status": "proved",
   "theorems": [
    "Miniserde.C77_place",
    "Miniserde.C77_array",
    "Miniserde.C77_ignore"
   ],
   "note": "Layout rules of the Rust Reference for repr(C), arrays, MaybeUninit and unit structs; the layout of T and Option<T> is a parameter."
  },
  {
   "property": "C78",
   "status": "proved",
   "theorems": [
    "Miniserde.C78_containers",
    "Miniserde.C78_struct",
    "Miniserde.C78_inside",
    "Miniserde.C78_scalar"
   ],
   "note": "Also ties the generic model of the containers (Model/Generic) to the concrete one (Model/Visitors): C78_containers relates from_str of one to from_str of the other."
  },
  {
   "property": "C79",
   "status": "proved",
   "theorems": [
    "Miniserde.C79_vec",
    "Miniserde.C79_pair",
    "Miniserde.C79_wrappers",
    "Miniserde.C79_none",
    "Miniserde.C79_struct",
    "Miniserde.C79_map",
    "Miniserde.C79_scalar",
    "Miniserde.C79_round_trip",
    "Miniserde.C79_vec_steady",
    "Miniserde.C79_pair_steady",
    "Miniserde.C79_struct_steady",
    "Miniserde.C79_map_steady",
    "Miniserde.C79_hash_map",
    "Miniserde.C79_scalar_any",
    "Miniserde.C79_round_trip_same"
   ],
   "note": "Types without hash maps, or all types if a hash map that is not changed is iterated in the same order each time (_steady, hash_map). ryu enters through its syntax contract. Ties Model/SerGeneric to Model/SerLib."
  },
  {
   "property": "C80",
   "status": "proved",
   "theorems": [
    "Miniserde.C80_linear",
    "Miniserde.C80_returns",
    "Miniserde.C80_accounted",
    "Miniserde.C80_exact",
    "Miniserde.C80_string"
   ],
   "note": "Model/SerTime is the serializer of Model/Ser with a step counter, and C80_linear says that without the counter it is that model. Reallocation of out and of the stack is amortized by the pushes and not counted; itoa and ryu format into buffers of fixed size; work inside the caller's Serialize is the caller's."
  },
  {
   "property": "C81",
   "status": "proved",
   "theorems": [
    "Miniserde.C81_no_unknown_members",
    "Miniserde.C81_written",
    "Miniserde.C81_exchange",
    "Miniserde.C81_exchange_exact"
   ],
   "note": "Types without unknown members: Spec/Exchange.lean. An example shows that a document with an unknown member may be readable for the old program only; Examples instantiate both directions for a recursive pair of structs."
  },
  {
   "property": "C82",
   "status": "proved",
   "theorems": [
    "Miniserde.C82_order",
    "Miniserde.C82_range",
    "Miniserde.C82_negation",
    "Miniserde.C82_short",
    "Miniserde.C82_same_number_differs",
    "Miniserde.C82_order_differs",
    "Miniserde.C82_f32_negation_differs"
   ],
   "note": "Monotonicity of IEEE rounding and of each step of the scaling loop, by induction on the exponent. The last three theorems show by evaluation in the kernel that the hypotheses on the layout (and f64 for negation) are needed; they are findings about the code, not bugs of the model."
  },
  {
   "property": "C83",
   "status": "proved",
   "theorems": [
    "Miniserde.C83_delivered",
    "Miniserde.C83_function",
    "Miniserde.C83_all_digits",
    "Miniserde.C83_usual"
   ],
   "note": "Spec/Convert states the algorithm with the relation RoundsTo (nearest, ties to even) only, without the software floats of the model. C83_function shows that the relation determines the value. Integer literals in range: C12, C16_integers."
  },
  {
   "property": "C84",
   "status": "proved",
   "theorems": [
    "Miniserde.C84_clone",
    "Miniserde.C84_debug",
    "Miniserde.C84_parsed",
    "Miniserde.C84_enough",
    "Miniserde.C84_overflow"
   ],
   "note": "Model/CallDepth: Clone and Debug with a limit on nested calls of Value::clone / Value::fmt; calls inside std (Vec::clone, BTreeMap::clone, PadAdapter) come on top, a bounded number per level."
  },
  {
   "property": "C85",
   "status": "proved",
   "theorems": [
    "Miniserde.C85_types",
    "Miniserde.C85_from_str",
    "Miniserde.C85_drops",
    "Miniserde.C85_recursive",
    "Miniserde.C85_no_numbers",
    "Miniserde.C85_seen"
   ],
   "note": "Counted are calls of drop glue, one per value inside another; calls inside alloc and std (slices, freeing, iterating over a map) and the constant number of calls for a builder around the values it holds are not. Memory is observed after every trait call."
  },
  {
   "property": "C86",
   "status": "proved",
   "theorems": [
    "Miniserde.C86_left_to_right",
    "Miniserde.C86_prefix",
    "Miniserde.C86_stops_at_once"
   ],
   "note": "calls are recorded by a wrapper around an arbitrary visitor (as in C63); both exceptions in the statement do occur (examples in Props/Causal)"
  },
  {
   "property": "C87",
   "status": "proved",
   "theorems": [
    "Miniserde.Expand.C87_struct_de",
    "Miniserde.Expand.C87_struct_ser",
    "Miniserde.Expand.C87_enum_de",
    "Miniserde.Expand.C87_enum_ser",
    "Miniserde.Expand.C87_other_names"
   ],
   "note": "equivalences: the conditions listed in Spec/Expand (DeFits, SerFits) are exactly those under which every name of the expansion resolves as meant; Rust's scoping and method lookup are modelled (external)"
  },
  {
   "property": "C88",
   "status": "proved",
   "theorems": [
    "Miniserde.Threads.C88_result",
    "Miniserde.Threads.C88_memory",
    "Miniserde.Threads.C88_race_free",
    "Miniserde.Threads.C88_progress"
   ],
   "note": "from_str and the library's visitors as programs of single memory operations on one shared heap (each proved to do what the sequential model does); the scheduler picks any thread before each operation. A single operation is atomic and works on a whole object (C88_race_free: no object is shared, so weaker orderings cannot be observed); addresses are not reused; the zero-sized IGNORE has no memory (C77)."
  },
  {
   "property": "C89",
   "status": "proved",
   "theorems": [
    "Miniserde.Code.C89_struct_de",
    "Miniserde.Code.C89_struct_ser",
    "Miniserde.Code.C89_enum_de",
    "Miniserde.Code.C89_enum_ser",
    "Miniserde.Code.C89_fallback",
    "Miniserde.Code.C89_names",
    "Miniserde.Code.C89_names_enum"
   ],
   "note": "Rust's typing rules for the part of the language used are modelled (Spec/CodeTypes, external); lifetimes and borrow checking are not; C89_names: the names in this model of the code are those of C87"
  },
  {
   "property": "C90",
   "status": "proved",
   "theorems": [
    "Miniserde.Code.C90_struct_de",
    "Miniserde.Code.C90_struct_ser",
    "Miniserde.Code.C90_enum_de",
    "Miniserde.Code.C90_enum_ser",
    "Miniserde.Code.C90_macro",
    "Miniserde.Code.C90_model",
    "Miniserde.Code.C90_model_enum",
    "Miniserde.Code.C90_model_ser"
   ],
   "note": "Rust's meaning of the fragment (Spec/CodeRun) is part of the trusted specification; the field counter of __Map is unbounded; identifiers of the fields are assumed distinct, as Rust requires."
  },
  {
   "property": "C91",
   "status": "proved",
   "theorems": [
    "Miniserde.BoxAlias.C91_no_violation",
    "Miniserde.BoxAlias.C91_undisturbed",
    "Miniserde.BoxAlias.C91_freed",
    "Miniserde.BoxAlias.C91_start"
   ],
   "note": "Safe code is modelled by what it may do if it had the only reference; no UnsafeCell, no two-phase borrows, strong protectors only."
  },
  {
   "property": "C92",
   "status": "proved",
   "theorems": [
    "Miniserde.SerThreads.C92_result",
    "Miniserde.SerThreads.C92_text",
    "Miniserde.SerThreads.C92_same_text",
    "Miniserde.SerThreads.C92_memory",
    "Miniserde.SerThreads.C92_race_free",
    "Miniserde.SerThreads.C92_progress"
   ],
   "note": "to_string and the library's and derived Serialize implementations as programs of single memory operations; streams hold pointers into the shared values, every look at a value is a read of shared memory. A single operation is atomic and works on a whole object (C92_race_free: shared objects are only read, so weaker orderings cannot be observed); addresses are not reused."
  },
  {
   "property": "C93",
   "status": "proved",
   "theorems": [
    "Miniserde.BoxTree.C93_box_no_violation",
    "Miniserde.BoxTree.C93_box_undisturbed",
    "Miniserde.BoxTree.C93_box_freed",
    "Miniserde.BoxTree.C93_box_start"
   ],
   "note": "The same pointer operations as in C91 (Model/BoxTree), at one arbitrary byte, under Spec/TreeBorrows: reserved (conflicted, interior-mutable), active, frozen, disabled and cell states, strong protectors, implicit accesses on return. Safe code = any operations that would be allowed in its own part of the tree; a return whose implicit access would not be allowed there makes no access."
  },
  {
   "property": "C94",
   "status": "proved",
   "theorems": [
    "Miniserde.C94_tree_borrows",
    "Miniserde.C94_usable",
    "Miniserde.C94_returns",
    "Miniserde.C94_rules",
    "Miniserde.C94_rules_conflict",
    "Miniserde.C94_rules_free"
   ],
   "note": "Location-wise model with arbitrary safe code (TB.Safe); all protectors are treated as strong, reborrows of Box read like those of &mut, and a freed location is not allocated again (a later allocation is another location)."
  }
 ]
}