import json
# property -> (status, theorems, note)
C = {
 "C01": ("proved", ["C01_accepts_only_json","C01_rejects"], "any visitor implementation, any input bytes"),
 "C02": ("proved", ["C02_traverses_the_tree"], "any visitor implementation; `drive` (Spec/Traversal) is the specification"),
 "C06": ("proved", ["C06_terminates","C06_budget"], ""),
 "C07": ("proved", ["C07_stack_discipline"], "`Proto.monitored` (Spec/Monitor) is the specification; any visitor implementation, any outcome"),
 "C09": ("proved", ["C09_strings_are_utf8"], "also on malformed inputs"),
 "C10": ("proved", ["C10_unescapes","C10_accepts_only","C10_unique"], ""),
 "C11": ("proved", ["C11_pair","C11_unpaired"], ""),
 "C12": ("proved", ["C12_integers_exact", "C12_too_large"], "C12_too_large: texts up to 2147482700 bytes"),
 "C03": ("proved", ["C03_value","C03_accepts","C03_unique","C03_in_range","C03_out_of_range"], "`IsValue` (Spec/Api) is the specification; C03_in_range and C03_out_of_range say which numbers overflow in terms of the values of the literals (within a few units of 2^-53)"),
 "C04": ("proved", ["C04_compositional","C04_ok"], "`decode` (Spec/Decode) is the specification; inputs below 2^31 bytes for the error case"),
 "C05": ("proved", ["C05_no_panic","C05_returns"], "inputs below 2^31 bytes"),
 "C08": ("proved", ["C08_memory"], "explicit heap model of liveness and ownership; aliasing (Stacked Borrows) is C61"),
 "C13": ("proved", ["C13_integers"], ""),
 "C19": ("proved", ["C19_field_order","C19_to_C22_struct"], ""),
 "C20": ("proved", ["C20_unknown_fields","C19_to_C22_struct"], ""),
 "C21": ("proved", ["C21_missing_field","C21_missing_option","C19_to_C22_struct"], ""),
 "C22": ("proved", ["C22_struct_last_wins","C22_map_last_wins","C26_object","C19_to_C22_struct"], ""),
 "C24": ("proved", ["C24_option","C24_box"], ""),
 "C25": ("proved", ["C25_array","C25_pair","C25_vec"], ""),
 "C26": ("proved", ["C26_hash_map","C26_btree_map","C26_object"], ""),
 "C18": ("proved", ["C18_same_tree","C18_whitespace"], "texts of one tree are indistinguishable; whitespace inserted between tokens of any input below 2 GiB, well-formed or not, changes nothing"),
 "C23": ("proved", ["C23_enum","C23_enum_round_trip","C39_enum","C48_enum_de","C48_enum_ser"], "variant names come through the derive model (C39, C48)"),
 "C27": ("proved", ["C27_json_text","C27_finite_streams"], "any Serialize implementation; `Streams` and `FTree.json` (Spec/Ser) are the specification; of ryu only RyuSyntax is assumed"),
 "C28": ("proved", ["C28_total","C28_no_panic","C28_driver_no_panic"], "library and derived types; explicit heap of streams"),
 "C29": ("proved", ["C29_strings","C29_what_is_escaped"], ""),
 "C30": ("proved", ["C30_compact"], ""),
 "C31": ("proved", ["C31_integers","decimal_canonical"], ""),
 "C33": ("proved", ["C33_round_trip","C33_round_trip_types","C33_round_trip_exact"], "hash maps compared as maps"),
 "C35": ("proved", ["C35_struct","C39_struct","C48_struct_ser"], "field names and the generated `next` come through the derive model (C39, C48)"),
 "C36": ("proved", ["C36_stack_discipline"], "`SProto.monitored` (Spec/SerMonitor) is the specification; any implementation, also when it panics"),
 "C14": ("proved", ["C14_delivered_numbers","C14_finite","C14_sign"], "any visitor implementation and any bytes; the sign of the integer literal -0 is lost (stated exception)"),
 "C15": ("proved", ["C15_delivered","C15_accuracy"], "texts up to 2147482700 bytes"),
 "C16": ("proved", ["C16_short_decimals","C16_integers","C16_exact"], ""),
 "C17": ("proved", ["C17_short_round_trip","C17_close","C17_not_exact"], "exact round trip in general is false (3e23); what is proved is the amended statement; of ryu RyuSyntax and RyuRounds are assumed"),
 "C32": ("proved", ["C32_floats","C32_f32","C27_json_text"], ""),
 "C40": ("proved", ["C40_formats","C40_rounding","C40_infinite","C32_f32","RoundsTo_unique","RoundsTo_exists"], "`RoundsTo` (Spec/FloatVal) is the specification"),
 "C41": ("proved", ["C41_type_sound","C41_read_then_write"], ""),
 "C42": ("proved", ["C42_f32_round_trip"], "of ryu RyuSyntax and RyuRounds are assumed"),
 "C34": ("proved", ["C34_value","C34_text","C34_integers"], "`Val.canon` turns non-negative Number::I64 (from -0) into Number::U64"),
 "C37": ("proved", ["C37_bounded_depth","C37_frees_once","C37_array","C37_object"], "machine with an explicit call stack; library iterators are not frames of their own"),
 "C38": ("proved", ["C38_deserialize","C38_serialize","C38_names_unique","C38_item_attributes_ignored"], "acceptance by the macro; whether rustc accepts the expansion is not modelled"),
 "C39": ("proved", ["C39_agree","C39_struct","C39_enum","C39_model"], ""),
 "C43": ("proved", ["C43_truncated","C43_truncated_err","C43_concatenated","C43_unambiguous"], "a cut or concatenated document is rejected; the grammar is unambiguous"),
 "C44": ("proved", ["C44_null_is_absent"], "explicit null and absent Option field are indistinguishable"),
 "C45": ("proved", ["C45_value_accepts_most","C45_array_is_vec","C45_object_is_map"], "Value accepts whatever any type accepts; Array and Object are Vec<Value> and BTreeMap<String, Value>"),
 "C46": ("proved", ["C46_three_iterations"], "the scaling loop with a budget of three iterations equals the unbounded loop"),
 "C47": ("proved", ["C47_same_value","C47_indistinguishable","C47_through_value"], "hypothesis: key types read distinct texts as distinct keys (false of integer keys: \"1\" and \"01\")"),
 "C48": ("proved", ["C48_struct_de", "C48_struct_ser", "C48_enum_de", "C48_enum_ser"], "an interpreter of the generated code with fields accessed by name agrees with the position-based model used for all other properties"),
 "C49": ("proved", ["C49_impl", "C49_wrapper", "C49_params"], "user bounds are opaque; type checking of the expansion by rustc is not modelled"),
 "C50": ("proved", ["C50_injective", "C50_injective_hash", "C50_wrappers"], "on values satisfying Plain (those that round-trip, C33)"),
 "C51": ("proved", ["C51_write_vec", "C51_write_pair", "C51_write_map", "C51_write_struct", "C51_write_vec_steady", "C51_write_pair_steady", "C51_write_map_steady", "C51_write_struct_steady", "C51_write_hash_map", "C51_read_vec", "C51_read_elements", "C51_read_pair", "C51_read_pair_iff", "C51_read_array", "C51_read_map", "C51_read_struct", "C51_read_struct_iff"], "writing: types without hash maps, or (_steady, hash_map) all types if a hash map that is not changed is iterated in the same order each time"),
 "C52": ("proved", ["C52_from_str", "C52_value"], "The model's implementations with a limit on nested calls (overflow = panic) give the same result and heap as the unlimited ones for every input. An example shows the limit cannot be lowered. Calls that are not trait calls (Vec::push, destructors of values) are not counted; destructors of Value are C37, of other values C85."),
 "C53": ("proved", ["C53_to_string", "C53_text"], "Same method as C52: the implementation with a call limit behaves identically, also in the heap it leaves and in panics."),
 "C54": ("proved", ["C54_bounded_depth", "C54_frees_once"], "For builders of Value (and Array, Object). Builders of user types drop their contents by Rust's own glue."),
 "C55": ("proved", ["C55_array_iter", "C55_object_iter"], "take() is modelled as handing the buffer to the iterator, with no destructor for the ManuallyDrop."),
 "C56": ("proved", ["C56_evolution", "C56_integers"], "Adding an Option field to a struct is covered by C19/C20 (absent Option fields read as None)."),
 "C57": ("proved", ["C57_calls", "C57_exact", "C57_size", "C57_echo"], "Counts logical sizes; allocator capacity policy of Vec, String and HashMap is std's. C57_size assumes FromStr of map keys does not lengthen them (String keys: unchanged). C57_echo assumes ryu writes at most 24 bytes."),
 "C58": ("proved", ["C58_no_coercion", "C58_mismatch"], "Kind table in Spec/Kind, independent of the visitors."),
 "C59": ("proved", ["C59_display", "C59_non_finite"], "ryu and itoa are parameters/contract as elsewhere."),
 "C60": ("proved", ["C60_debug", "C60_same", "C60_text"], "Assumes core's Debug for str is self-delimiting (StrDebug, shown satisfiable) and the ryu contract; {:?} only, not {:#?}."),
 "C61": ("proved", ["C61_stacked_borrows", "C61_from_str", "C61_argument_protected"], "C61_stacked_borrows: at one arbitrary location, with every reborrow of the driver and NonuniqueBox, protectors, raw pointers and any retags of returned values on their way through Result (Spec/DriverBorrows). C61_from_str: coarser, one tag per reference (Spec/Borrows). Examples show that a plain Box instead of NonuniqueBox would break it."),
 "C62": ("proved", ["C62_stacked_borrows", "C62_to_string"], "C62_stacked_borrows: with every reborrow of the driver, protectors, UnsafeCell and the driver's reads of returned strings and any retags of returned values on their way through Option and Fragment (Spec/SerBorrows); C62_to_string: coarser, one tag per reference (Spec/Borrows). Finding (an example in Props/Borrows): with moves asserting uniqueness, a stream lending a reference to its own field is invalidated when its Box is moved to the stack before first.begin(); the deserializer avoids this with NonuniqueBox, the serializer does not."),
 "C63": ("proved", ["C63_viable"], "`seen` (Spec/Viable) is the record of calls"),
 "C64": ("proved", ["C64_calls"], "counters are a wrapper around the implementation (Spec/SerCost); ryu by RyuSyntax"),
 "C65": ("proved", ["C65_unique_names"], "The examples show that the hypothesis on field names is needed."),
 "C66": ("proved", ["C66_total", "C66_memory", "C66_no_leak", "C66_values", "C66_bounded_depth", "C66_printable"], "Of the std API that Array and Object deref to, the common operations are modelled one by one, every other one that reorders, returns or drops elements by `rearrange` and `select` (which elements, in which order, is arbitrary). Clone is derived and recursive (see Findings)."),
 "C67": ("proved", ["C67_sound", "C67_no_leak", "C67_panic", "C67_frame", "C67_some", "C67_from_str"], "C67_from_str records memory after every call of from_str. Example exClient runs a program up to the panic of a second finish on a Box builder and beyond."),
 "C68": ("proved", ["C68_unwind", "C68_agrees", "C68_outcome", "C68_out_of_order"], "C68_unwind characterises the exception exactly (iff); C68_out_of_order is a concrete run that shows it happens: a finding about the code."),
 "C69": ("proved", ["C69_unwind", "C69_agrees", "C69_outcome"], ""),
 "C70": ("proved", ["C70_array", "C70_array_once", "C70_array_no_leak", "C70_box", "C70_box_once", "C70_box_no_leak"], "Ownership-level model in which values of T are opaque labels; allocation failure is not modelled."),
 "C71": ("proved", ["C71_debug", "C71_agrees", "C71_same", "C71_safe", "C71_language", "C71_text", "C71_long_rejected", "C71_long_wrong"], "C71_text: both builds, JSON texts of any length with number literals below 2 GiB. C71_long_*: the finding."),
 "C72": ("proved", ["C72_vec", "C72_arr", "C72_pair", "C72_map", "C72_opt", "C72_box", "C72_struct", "C72_absent", "C72_wrong_kind", "C72_nests", "C72_inside", "C72_idle", "C72_struct_finish"], "The element implementation is an arbitrary Proto with a place; hypotheses Delivers (Ok means the place is filled) and, for struct fields only, Overwrites (old content of the place does not matter). C72_idle shows Delivers is needed: a visitor that returns Ok without writing is silently skipped by Vec and panics in Box."),
 "C73": ("proved", ["C73_text", "C73_slice", "C73_pair", "C73_map", "C73_struct", "C73_transparent", "C73_none", "C73_leaf", "C73_scalar", "C73_user_seq", "C73_user_map", "C73_begin_panics", "C73_delegate"], "Equivalences between the run of the serializer on the container and runs on the parts, for arbitrary user implementations; hypotheses only say that strings are valid UTF-8 (a Rust type invariant)."),
 "C74": ("proved", ["C74_linear", "C74_accounted"], "C74_accounted says that the counter leaves no byte and no call out. Model/LexCost is the tokenizer and driver of Model/Lexer and Model/Driver with a step counter, and the theorem says that without the counter it is that model. Reallocation of the two vectors is amortized by the pushes and not counted; work inside the caller's visitor is the caller's."),
 "C75": ("proved", ["C75_pretty", "C75_plain", "C75_same", "C75_number"], "core::fmt::builders (PadAdapter, DebugList, DebugMap) is modelled from the standard library; the Debug of str is a parameter (any sequence of writes, contract StrWrites); ryu contracts as for C60."),
 "C76": ("proved", ["C76_normalizes", "C76_unique", "C76_fixed", "C76_idempotent", "C76_equal", "C76_equal_values", "C76_deep"], "ryu enters through RyuSyntax; idempotence is claimed for documents without floats (with floats it needs the reader to round correctly, see C15-C17)."),
 "C77": ("proved", ["C77_place", "C77_array", "C77_ignore"], "Layout rules of the Rust Reference for repr(C), arrays, MaybeUninit and unit structs; the layout of T and Option<T> is a parameter."),
 "C78": ("proved", ["C78_containers", "C78_struct", "C78_inside", "C78_scalar"], "Also ties the generic model of the containers (Model/Generic) to the concrete one (Model/Visitors): C78_containers relates from_str of one to from_str of the other."),
 "C79": ("proved", ["C79_vec", "C79_pair", "C79_wrappers", "C79_none", "C79_struct", "C79_map", "C79_scalar", "C79_round_trip", "C79_vec_steady", "C79_pair_steady", "C79_struct_steady", "C79_map_steady", "C79_hash_map", "C79_scalar_any", "C79_round_trip_same"], "Types without hash maps, or all types if a hash map that is not changed is iterated in the same order each time (_steady, hash_map). ryu enters through its syntax contract. Ties Model/SerGeneric to Model/SerLib."),
 "C80": ("proved", ["C80_linear", "C80_returns", "C80_accounted", "C80_exact", "C80_string"], "Model/SerTime is the serializer of Model/Ser with a step counter, and C80_linear says that without the counter it is that model. Reallocation of out and of the stack is amortized by the pushes and not counted; itoa and ryu format into buffers of fixed size; work inside the caller's Serialize is the caller's."),
 "C81": ("proved", ["C81_no_unknown_members", "C81_written", "C81_exchange", "C81_exchange_exact"], "Types without unknown members: Spec/Exchange.lean. An example shows that a document with an unknown member may be readable for the old program only; Examples instantiate both directions for a recursive pair of structs."),
 "C82": ("proved", ["C82_order", "C82_range", "C82_negation", "C82_short", "C82_same_number_differs", "C82_order_differs", "C82_f32_negation_differs"], "Monotonicity of IEEE rounding and of each step of the scaling loop, by induction on the exponent. The last three theorems show by evaluation in the kernel that the hypotheses on the layout (and f64 for negation) are needed; they are findings about the code, not bugs of the model."),
 "C83": ("proved", ["C83_delivered", "C83_function", "C83_all_digits", "C83_usual"], "Spec/Convert states the algorithm with the relation RoundsTo (nearest, ties to even) only, without the software floats of the model. C83_function shows that the relation determines the value. Integer literals in range: C12, C16_integers."),
 "C84": ("proved", ["C84_clone", "C84_debug", "C84_parsed", "C84_enough", "C84_overflow"], "Model/CallDepth: Clone and Debug with a limit on nested calls of Value::clone / Value::fmt; calls inside std (Vec::clone, BTreeMap::clone, PadAdapter) come on top, a bounded number per level."),
 "C85": ("proved", ["C85_types", "C85_from_str", "C85_drops", "C85_recursive", "C85_no_numbers", "C85_seen"], "Counted are calls of drop glue, one per value inside another; calls inside alloc and std (slices, freeing, iterating over a map) and the constant number of calls for a builder around the values it holds are not. Memory is observed after every trait call."),
 "C86": ("proved", ["C86_left_to_right", "C86_prefix", "C86_stops_at_once"], "calls are recorded by a wrapper around an arbitrary visitor (as in C63); both exceptions in the statement do occur (examples in Props/Causal)"),
 "C87": ("proved", ["Expand.C87_struct_de", "Expand.C87_struct_ser", "Expand.C87_enum_de", "Expand.C87_enum_ser", "Expand.C87_other_names"], "equivalences: the conditions listed in Spec/Expand (DeFits, SerFits) are exactly those under which every name of the expansion resolves as meant; Rust's scoping and method lookup are modelled (external)"),
 "C88": ("proved", ["Threads.C88_result", "Threads.C88_memory", "Threads.C88_race_free", "Threads.C88_progress"], "from_str and the library's visitors as programs of single memory operations on one shared heap (each proved to do what the sequential model does); the scheduler picks any thread before each operation. A single operation is atomic and works on a whole object (C88_race_free: no object is shared, so weaker orderings cannot be observed); addresses are not reused; the zero-sized IGNORE has no memory (C77)."),
 "C89": ("proved", ["Code.C89_struct_de", "Code.C89_struct_ser", "Code.C89_enum_de", "Code.C89_enum_ser", "Code.C89_fallback", "Code.C89_names", "Code.C89_names_enum"], "Rust's typing rules for the part of the language used are modelled (Spec/CodeTypes, external); lifetimes and borrow checking are not; C89_names: the names in this model of the code are those of C87"),
 "C90": ("proved", ["Code.C90_struct_de", "Code.C90_struct_ser", "Code.C90_enum_de", "Code.C90_enum_ser", "Code.C90_macro", "Code.C90_model", "Code.C90_model_enum", "Code.C90_model_ser"], "Rust's meaning of the fragment (Spec/CodeRun) is part of the trusted specification; the field counter of __Map is unbounded; identifiers of the fields are assumed distinct, as Rust requires."),
 "C91": ("proved", ["BoxAlias.C91_no_violation", "BoxAlias.C91_undisturbed", "BoxAlias.C91_freed", "BoxAlias.C91_start"], "Safe code is modelled by what it may do if it had the only reference; no UnsafeCell, no two-phase borrows, strong protectors only."),
 "C92": ("proved", ["SerThreads.C92_result", "SerThreads.C92_text", "SerThreads.C92_same_text", "SerThreads.C92_memory", "SerThreads.C92_race_free", "SerThreads.C92_progress"], "to_string and the library's and derived Serialize implementations as programs of single memory operations; streams hold pointers into the shared values, every look at a value is a read of shared memory. A single operation is atomic and works on a whole object (C92_race_free: shared objects are only read, so weaker orderings cannot be observed); addresses are not reused."),
 "C93": ("proved", ["BoxTree.C93_box_no_violation", "BoxTree.C93_box_undisturbed", "BoxTree.C93_box_freed", "BoxTree.C93_box_start"], "The same pointer operations as in C91 (Model/BoxTree), at one arbitrary byte, under Spec/TreeBorrows: reserved (conflicted, interior-mutable), active, frozen, disabled and cell states, strong protectors, implicit accesses on return. Safe code = any operations that would be allowed in its own part of the tree; a return whose implicit access would not be allowed there makes no access."),
 "C94": ("proved", ["C94_tree_borrows", "C94_usable", "C94_returns", "C94_rules", "C94_rules_conflict", "C94_rules_free"], "Location-wise model with arbitrary safe code (TB.Safe); all protectors are treated as strong, reborrows of Box read like those of &mut, and a freed location is not allocated again (a later allocation is another location)."),
}
N="Miniserde."
out={"claims":[{"property":k,"status":s,"theorems":[N+t for t in ts],"note":n} for k,(s,ts,n) in sorted(C.items())]}
json.dump(out,open('/verif/MANIFEST.json','w'),indent=1)
