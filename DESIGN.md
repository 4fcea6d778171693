# Formal model of miniserde in Lean 4 — design

The plan was written before the proofs; this is the current state.

## Layers

* `Verif/Model/*` — the model: Lean functions transcribing the Rust code function by function, each with a comment citing file and lines in
  `/repo` and any simplification.
* `Verif/Spec/*` — small independent specifications, in vocabulary a user knows: the RFC 8259 grammar as inductive relations
  (`Json`), the value of a number literal (`Number`), the order of visitor calls along a tree (`Traversal`), UTF-8 (`Utf8`),
  type-directed decoding of a tree (`Decode`, `Api`), a borrow monitor (`Monitor`, `SerMonitor`), typing and serialization of values
  (`Encode`, `Ser`), IEEE rounding (`FloatVal`), what a value owns (`Drop`), what a derive input may look like (`Derive`), ...
* `Verif/Proof/*` — lemmas and refinement proofs.
* `Verif/Props/*` — the property theorems, named `Cnn_...`; beside each an `example` showing a concrete case that meets its hypotheses.

`MANIFEST.json` (generated by `tools/gen_manifest.py`) lists the theorems of each property. `seeded/LOG.jsonl` records the wrong programs the theorems
were tested against.

## What is modelled and how

* **Outcomes.** `Res α = ok a | err | panic`. `err` is `miniserde::Error` (no data); `panic` is every Rust panic: debug-mode arithmetic overflow,
  out-of-range indexing or slicing, `unwrap` of `None`, `unreachable!()`. The parser's main loop has an iteration budget; running out of it is the
  outer `none` of `Option (Res _)`, proved never to happen with the budget `len + 1` (C06).
* **Lexer** (`src/json/de.rs:186-721`, `Model/Lexer`). State `{input, pos, buffer}` over bytes. Every method of `Deserializer` is one Lean function; machine
  integers are `Nat`/`Int` with explicit range checks that yield `panic`, so that the `overflow!` guards are proof obligations. Loops are
  well-founded recursions on the unread input.
* **f64/f32** (`Model/Float`): software IEEE-754 (finite = sign, mantissa, exponent; infinities; one NaN) with round-to-nearest-even `*`, `/`, `as`;
  the `POW10` table as correctly rounded literals.
* **Driver** (`from_str_impl`, `Model/Driver`). The loop over the explicit stack of layers, generic in an arbitrary *protocol* `Proto`: any
  implementation of `Visitor`/`Seq`/`Map` in world-passing style (handles for trait objects, arbitrary world state, methods that may succeed, fail or
  panic, drop hooks). Theorems about any visitor quantify over all `Proto`.
* **Library and derived `Deserialize` impls** (`Model/Types`, `Model/Visitors`). One protocol instance whose world is an explicit heap of places and builders with
  alloc and free; a dangling or ill-shaped pointer, a double free or a read of an uninitialised array slot sets a sticky `ub` flag. Types are a
  universe `Ty` with named, possibly recursive derived structs and enums in an environment `Env`.
* **Serializer** (`to_string_impl`, `escape_str`, `Model/Ser`, `Model/SerLib`). Same approach: generic protocol `SProto` and an instance for library and derived types. `itoa` is
  canonical decimal digits; `ryu` is a parameter with a stated contract (`RyuSyntax`: writes a JSON number with fraction or exponent; `RyuRounds`: the
  literal rounds to the number).
* **Drop** (`drop.rs`, `array.rs`, `object.rs`, `Model/Drop`): a machine with an explicit call stack and a log of freed objects; the compiler's drop glue of other types
  (`Model/DropGlue`): how deep its calls nest.
* **Derive macros** (`derive/src/*`, `Model/Derive`): attribute parsing, acceptance and the names, arms and fields of the generated impls, over an abstract syntax of
  derive inputs. `Model/DeriveGen` runs the generated code with struct fields accessed by name (C48 relates it to the position-based builders used
  elsewhere); `Model/Bound` is the generics of the generated impls.

## Coverage

| file | modelled | not modelled |
|---|---|---|
| `src/json/de.rs` | all | — |
| `src/json/ser.rs` | all | — |
| `src/de/mod.rs`, `src/ser/mod.rs` | traits, default methods, `Fragment` | doc text |
| `src/de/impls.rs` | all impls (also generically over arbitrary user `Deserialize`, `Model/Generic`) | hashers of `HashMap` (iteration order is a parameter) |
| `src/ser/impls.rs` | all impls (`&T`, `Box<T>`, `Cow<T>` have one body; also generically over arbitrary user `Serialize`, `Model/SerGeneric`) | — |
| `src/json/{value,number,array,object}.rs` | `Serialize`, `Deserialize`, `Drop`, owning `IntoIterator` as used by drop, `Display` of `Number`, `Debug` of `Value`, `Array`, `Object`, `Number` (`{:?}` and `{:#?}`; `Model/Fmt`, `Model/Pretty`), `Clone`, `clone_from`, `Default`, `FromIterator`, owning `IntoIterator`, and through `Deref`/`DerefMut` the API of `Vec` and `BTreeMap`: common operations one by one, the others as an arbitrary rearrangement (`Model/ValueApi`), also when a closure given to them panics: a rearrangement, then unwinding (that `Vec` and `BTreeMap` keep every element in one place then is trusted) | — |
| `src/json/drop.rs` | all | — |
| `src/ignore.rs` | all | — |
| `src/place.rs`, `src/ptr.rs`, `src/careful.rs` | liveness: what is alive when it is used; aliasing: Stacked Borrows at an arbitrary location (`Spec/Borrows`), with protectors, raw pointers, all reborrows, and any number of retags of what is inside a `Result`, `Option` or `Fragment` on its way to the driver, for `from_str` (C61, `Spec/DriverBorrows`), `to_string` (C62, `Spec/SerBorrows`) and the builder of `Box<T>` (C91); Tree Borrows for `from_str` (C94) and the builder of `Box<T>` (C93): all protectors are strong, reborrows also read for `Box`, a freed location is not allocated again; layout of the casts (`Model/Layout`) | Tree Borrows for `to_string` (shared references only); two-phase borrows |
| `derive/src/{attr,de,ser}.rs` | acceptance, names, arms, fields; all identifiers of the expansions, their binding structure and what they resolve to (C87); the expansions as syntax trees, their typing (C89) and their execution (C90; `usize` of the field counter unbounded) | attributes in the expansion, lifetimes and borrow checking of its bodies |
| `derive/src/fallback.rs` | that it is used exactly on errors; the expansion and its typing (C89) | attributes |
| `src/error.rs`, `src/export.rs`, `src/lib.rs`, `src/json/mod.rs` | `Error` (a unit, `Res.err`); the rest is re-exports | `Display` and `Debug` of `Error` (constant texts) |
| `derive/src/bound.rs` | all | spans, attributes and defaults of parameters |

External code enters as hypotheses or parameters: `ryu` (contracts above), `itoa` (canonical decimal), `FromStr`/`ToString`/`Ord` of user key types
(`Env.keyParse`, `keyShow`, `keyLt`), hash iteration order (`order`, a permutation), `syn`'s parsing. Memory exhaustion is not modelled. Threads (C88, C92): a load, store, allocation or deallocation is atomic and sequentially consistent (no object is accessed by two threads, `C88_race_free`, other than shared values that are only read, `C92_race_free`, so this is no restriction outside the allocator); the allocator is trusted. `usize` is 64 bits;
theorems that need it assume inputs below 2^31 bytes because the exponent counter is an `i32`. They are about a build with overflow checks; C71 carries them over to release builds.

## Per property

| Property | Model | Method |
|---|---|---|
| C01, C02 | lexer + driver, any protocol | driver = traversal of a partial parse tree (refinement, induction); partial tree complete ↔ grammar derivation |
| C03 | + heap protocol | corollary of C04 through `IsValue`; the range of the numbers (`Props/Range`) from the error analysis of C15 |
| C04, C05, C08 | heap protocol | induction over partial tree × type with exact heap frame equation; the `ub` flag stays false; no `panic` |
| C06 | driver | every iteration consumes a byte |
| C07, C36 | drivers with a borrow-stack monitor as world | induction over the partial tree: the monitor accepts and ends empty, on every outcome |
| C09–C11 | lexer | scan invariant; UTF-8 segmentation |
| C12, C13 | lexer, integer visitors | loop invariant on the digits' value |
| C14–C17, C40, C42 | floats | rounding correctness and error analysis over `Rat`; kernel-checked tables; C17: exact round trip is false in general (`C17_not_exact`), the amended statement is proved |
| C18 | lexer + driver | simulation between the two runs, also on malformed input; tree equality on texts |
| C19–C26, C44, C45 | decoding specification | corollaries of C04 by induction on members |
| C27, C28, C30, C32 | serializer, any protocol | machine = recursive rendering; rendering ∈ grammar |
| C29, C31, C33–C35, C41 | both | decoding the tree of the rendering |
| C37 | drop machine | invariant on the call stack |
| C38, C39 | derive | case analysis, induction on attribute lists |
| C43 | grammar | unambiguity and prefix-freeness by induction on derivations |
| C46 | number conversion | case analysis on the exponent |
| C47 | decoding specification | induction on the tree: decoding factors through `Value` |
| C48 | interpreter of the generated code | simulation with the position-based builder, induction on the keys / calls of `next` |
| C49 | generics | satisfaction semantics of bounds, induction on parameter lists |
| C50 | both | from the round trip (C33); wrappers: same initial fragment of the serializer |
| C51 | both; `Spec/Steady`: hash maps iterated in the same order each time | encodings are unique (mutual induction; with hash maps, for a given iteration order), the rendering is the join of the parts; texts of parts are concatenated in the grammar |
| C52 | deserializer implementations with a limit on nested trait calls (`Spec/Depth`) | invariant on the heap (forwarding chains of `Box` builders are at most as long as the types have wrappers), then induction on the traversal; each limited method equals the unlimited one |
| C53 | `Serialize` implementations with a limit | invariant on the types in live streams; step-by-step equality of the two serializers |
| C54, C55 | `Model/Drop` extended by builders, layers, `Deserializer::drop`, iterators | the calculus of C37 |
| C56 | `Spec/Evolve` (`Widens`, `StructsWiden`, `Becomes`) over `decode` | strong induction on the size of the tree, case analysis of the widening; C02-C30 bridge `decode` to `from_str` |
| C57 | visitor wrapped with counters (`Spec/Cost`), sizes of values | induction on the partial parse tree of any input with an amortized count; exact counters by induction on the tree (`Proof/Meter`); induction on `decode` and on `Encodes` |
| C58 | table of kinds (`Spec/Kind`) against `Spec/Decode` | induction on `decode`; first byte of the grammar |
| C59 | `displayNumber` (`Model/Fmt`) against the serializer | cases on the variant; the grammar for non-finite texts |
| C60 | `debugValue` (`Model/Fmt`); `Debug` of `str` a parameter with contract `StrDebug` | mutual induction on both values with arbitrary continuations |
| C61 | the record kept by the monitor of C07, replayed in a Stacked Borrows machine with arbitrary code behind the traits (`Spec/Borrows`; `Spec/DriverBorrows` with all reborrows, raw pointers and protectors) | invariant: the borrow stack is the concatenation of the views of the live things, innermost first, the driver's raw pointers below everything lent; frame: a method has the same effect whatever is below its view; then C07 |
| C62 | the same for the serializer, with a driver that reports moves of boxes (`stepMv`, equal to `stepS` without listener); `Spec/Borrows` and, with all reborrows, protectors and `UnsafeCell`, `Spec/SerBorrows` | same invariant, with `&` and `Box` in place of raw pointers; a box that is moved has lent nothing inside itself |
| C63 | `Proto.recording` (`Spec/Viable`): any visitor, recording its calls | a partial parse tree is cut from the tree of some text (induction); runs on a cut tree and on the whole tree agree up to the cut |
| C64 | `SProto.metered` (`Spec/SerCost`): any implementation with counters | induction on `Streams` with the counters; lengths of texts |
| C65 | `Json.NoDup`, `Env.DistinctNames` (`Spec/UniqueNames`) | mutual induction on `Encodes` |
| C66 | `Model/ValueApi`: values in memory (data and labels of heap objects), programs as lists of operations, destructors run on the machine of C37; `Spec/ValueApi`: the same operations on plain trees | invariant: freed + owned = allocated as multisets (counting labels), values well formed; refinement to plain trees |
| C67 | `Spec/Client`: programs that hold any number of `Option<T>` variables and call the methods of `Visitor`, `Seq`, `Map` on what they borrowed from them in any order the borrow checker allows, with early drop, `mem::forget` and caught panics | invariant: per variable a stack of borrowed visitors and chains of builders (`Stack`, `Chain`, `Closed`) with pairwise disjoint footprints; each method preserves its own stack and does not touch the others |
| C68 | `Model/Unwind`: `from_str_impl` with destructors that may panic (an arbitrary predicate), Rust's unwinding rules (locals in reverse order, fields after `Drop::drop`, second panic aborts, assignment stores the new value) | simulation with the borrow monitor; invariant: what is alive is the stack, made = dropped + open; termination by the remaining input; the outcome is `ok`/`err` exactly when no destructor and no visitor call panicked, and aborts at the second panic (`Spec/PanicCount`: the protocol instrumented with a panic counter) |
| C69 | `Model/SerUnwind`: `to_string_impl` likewise | simulation with the borrow monitor; once-only from a balance lemma about every record the monitor accepts; outcome determined by the number of panics, as for C68 |
| C70 | `Model/PanicMem`: the builders of `[T; N]` and `Box<T>` at the level of ownership: every value of `T` a label, every destructor and every call of user code may panic | induction over the caller's program; invariant: each label is in exactly one place, `len` slots are initialised, the wrapped builder is alive exactly while the field holds it |
| C71 | `Model/Release`: tokenizer and driver parameterised by what integer overflow does (panic or wrap) | with checks it is the model of the other properties (induction); where that does not panic the two agree (simulation); the refinement proof of C01–C05 repeated for wrapping arithmetic with exponents modulo 2^32 (`Spec/Release`) |
| C72 | `Model/Generic.lean`: the generic impls (`Vec<T>`, `[T; N]`, pairs, maps, `Option`, `Box`, derived structs) over an arbitrary `Deserialize` for `T`; `Spec/Generic.lean` | a place handed out by a container behaves like a place of its own (one mutual induction over trees, two laws per container), then induction over the elements; closure by a second induction (the container's place is not looked at) |
| C73 | `Model/SerGeneric.lean`: the generic `Serialize` impls over arbitrary user implementations, streams of both kinds in one world; `Spec/SerGeneric.lean` | a run in a context is the run without it, followed by the rest (`SerContext`); runs from different heaps correspond by a growing partial bijection of handles (`SerSim`), so the parts' `to_string` calls can be cut out; induction over the items (library streams) or the number of iterations (user streams) |
| C74 | `Model/LexCost.lean`: every function of the tokenizer and the driver again, with a step counter | erasing the counter gives the model (`Proof/LexCost`); every function's steps are paid for by 24 credits per byte left (`Proof/LexBound`), induction along the input; the lower bound of `C74_accounted` (no byte and no call uncounted) in the same way (`Proof/LexLower`) |
| C75 | `Model/Pretty`: formatters as states with `write_str`, `PadAdapter`, `DebugList`, `DebugMap`, `Debug::fmt` polymorphic in the formatter; `Spec/Pretty`: the indented text as an inductive relation | a writer that indents by `n` levels simulates a byte-by-byte emitter (`Indents`), `PadAdapter` adds a level; induction on the value; delimitedness as for C60. |
| C76 | `Spec/Normal`: the normal form of a document as a relation between trees | the printed tree of the parsed `Value` is a normal form (induction on `IsValue`; decimal digits without leading zeros are those of their value), normal forms are unique (sorted association lists with the same lookups are equal); then C03, C28, C34 |
| C77 | `Model/Layout`: size, alignment and field offsets by the rules of the Rust Reference (`repr(C)`, arrays, `MaybeUninit`), the layout of `T` and `Option<T>` unknown | arithmetic |
| C78 | `Model/Generic` against `Model/Visitors`; `Spec/Like`: what it means to read alike | C72 for the generic side, C04 (`decode`) for the concrete one, induction on the elements |
| C79 | `Model/SerGeneric` against `Model/SerLib`; `Spec/ShowsLike` | C73 for the generic side, C51 for the concrete one, induction on the parts |
| C80 | `Model/SerTime.lean`: the serializer again, with a counter of steps and of bytes written | erasing the counter gives the model; invariant of the main loop: bytes written = length of `out`, steps + 2 per layer on the stack ≤ 6 per byte written + 1, and bytes written + calls ≤ steps; exact count of a finished run by induction over the streamed tree (`Proof/SerTime`) |
| C81 | `Spec/Exchange.lean`: documents without unknown members, structs that gain `Option` fields, the corresponding values | induction on the tree as for C56; a struct's fields by `decodeFields`; `to_string` output has no unknown members by induction on `Encodes`; round trip C33 |
| C82 | number conversion (`Spec/Order`: IEEE `<=`, same layout) | rounding to nearest is monotone (two points, case split on the signs of four differences); the scaling loop is monotone by induction on the exponent; negation: the loop runs on the magnitude. Counterexamples across layouts evaluated in the kernel |
| C83 | number conversion (`Spec/Convert`: a relation built from `RoundsTo` only) | the scaling loop satisfies the relation, by induction on the exponent; saturation and exponents beyond `i32` agree with it because the result is 0 or an overflow there; the relation is a function |
| C84 | `Model/CallDepth`: `clone` and `fmt` with a limit on nested calls (overflow = `none`); `Spec/CallDepth`: levels of values and JSON trees | induction on the value, on the limit; levels against text length by induction on the grammar |
| C85 | `Model/DropGlue`: drop glue of values of all types (`Value`, `Array`, `Object` by the machine of `Model/Drop`); `Spec/DropGlue`: numbers per type, the values memory holds, a record of memory after every call | induction on typing; the invariant of C67 gives the types of all that memory holds, and `from_str` is shown to be one of the programs of C67 by induction on (partial) parse trees; for a linked list, decoding and the end of `from_str` are computed for every length |
| C86 | the model and the recording wrapper of C63; `Spec/Causal`: the calls that may be withdrawn, beginnings of JSON texts | mutual induction on the (partial) parse tree of `p`, comparing it with the parse of `p ++ u`: either it is finished inside `p` (same tree), or it is stuck inside `p` (the same calls), or it used up `p`, and then `p` can be completed to a JSON text and the trees agree up to the pending call |
| C87 | `Model/Expand`: the identifiers of the four expansions as trees with binders, Rust's name resolution and method lookup over an arbitrary module (`Site`), the crate's module tree; `Spec/Expand`: what each name is meant to stand for, the conditions | rewriting of each name's resolution to the condition it needs, induction on fields; both directions |
| C88 | `Model/Threads`: `from_str` and the library's visitors as programs of single memory operations, threads on one heap, any schedule; `Spec/Threads` | each program, with the allocator's next address moved arbitrarily before every operation, does what the sequential model does (induction over the tokens as for C04); invariant: the shared heap is the disjoint union of the threads' memories and an operation of one thread is framed to its own, new objects have new addresses, hence race freedom over the whole run; progress by induction on the program |
| C89 | `Model/Code`: the four expansions and the fallbacks as syntax trees (items, signatures, bodies); `Spec/CodeTypes`: typing rules of the part of Rust they use, over an arbitrary assignment of which user types implement what | each method's body checked rule by rule, the field-dependent parts by induction; converse by reading the obligations off the state struct and the bodies; `C89_names` compares the trees with those of C87 |
| C90 | `Spec/CodeRun`: meaning of the part of Rust the expansions use (places, early return, first matching arm, calls), statement by statement, for an arbitrary assignment of default values; `Model/CodeMacro`: the macros from declarations to code | symbolic execution of each method, then induction over the keys (stores between them arbitrary) and over the calls of `next`; `C90_macro` links declarations to code, `C90_model*` link the code to the builders, streams and leaf visitors the other properties are about |
| C91 | `Spec/StackedBorrows`: Stacked Borrows at one byte, with raw pointers, protectors and all reborrows; safe code = any operations that would be allowed to the only holder of the reference; `Model/BoxAlias`: every pointer operation of `BoxSeq`/`BoxMap` and `NonuniqueBox` at the place, arbitrary user code in between | frame: safe code has the same effect whatever is below its reference; invariant: the library's raw pointer is on the stack below everything lent, nothing protected between calls |
| C92 | `Model/SerThreads`: `to_string` and the library's and derived `Serialize` implementations as programs of single memory operations; streams hold pointers into shared values; threads on one heap, any schedule; `Spec/SerThreads` | weakest precondition of each program in the thread's own memory next to the immutable values, with the sequential serializer of C28 as ghost state; invariant: the memory is the disjoint union of the values and the threads' streams; progress by the number of iterations the sequential serializer has left |
| C93 | `Spec/TreeBorrows`: Tree Borrows at one byte (a tag is the list of the numbers of its ancestors, so ancestry is being a suffix); `Model/BoxTree`: the pointer operations of `Model/BoxAlias` under these rules | everything on the path to the library's pointer can be used and nothing off it is protected, an invariant of each operation; safe code's part of the tree stays equal to its view because accesses from below only touch ancestors, which are usable, and unprotected other nodes |
| C94 | `Spec/DriverTree`: replays the record of the monitor of C07 at one byte under `Spec/TreeBorrows`, with all reborrows, raw pointers and protectors of `from_str_impl` and `NonuniqueBox`, and arbitrary code behind the traits, which has a view: the part of the tree below its reference | what is allowed in the view is allowed in the tree and changes the rest only harmlessly (`Foc.act`); invariant: the references of live visitors and builders form a chain, innermost last, all their ancestors can be written through, only `from_str_impl` protects above them, and the owner's allocation is above all; then C07. The implicit accesses at the return of a function are shown to be allowed whenever what came before was (`Proof/TreeReturns`: what protected nodes imply for the rest of the tree). `C94_rules*` state what the machine forbids |

The tests in `/repo/tests` that call `from_str` and `to_string` are run on the model in `Props/Conformance.lean`, by evaluation in the kernel.

## Unsafe code

Every `unsafe` in the crate, what it relies on and where that is proved.

| where | relies on | proved in |
|---|---|---|
| `src/json/de.rs:62`, `:71`, `:159`, `:170` | a visitor whose lifetime was extended is used only while the builder or variable it borrows from is alive, and nothing else uses that in between | C07, C67 (liveness and order), C61 and C94 (aliasing), C68 (panics) |
| `src/json/de.rs:241` | the bytes are UTF-8 | C09 |
| `src/json/ser.rs:75`, `:87`, `:105`, `:116` | what a stream returned is used only until the stream is advanced or dropped | C36, C62 (aliasing), C69 (panics) |
| `src/ptr.rs:29`, `:40`, `:49`, `:59` | the box is not null, alive, and freed once | C08, C67, C70 |
| `src/de/impls.rs:214`, `:224`, `:242`, `:271` | the inner builder borrows from `value` and is dropped before it | C08, C67, C70 |
| `src/de/impls.rs:479`, `:522`, `:531` | exactly the first `len` slots are initialised; all `N` when they are read as `[T; N]`; every element is dropped once | C08, C67, C70 (ownership, also when destructors panic), C77 (layout) |
| `src/json/array.rs:27`, `src/json/object.rs:31` | the container is moved out of and not dropped again | C37, C55, C66 |
| `src/place.rs:35`, `derive/src/de.rs:63`, `:154` | the place type has the layout of the variable | C77 |
| `src/ignore.rs:14` | mutable references to the static do not overlap | C77 |

## Findings

Behaviour that differs from what one might expect, found while proving (each is a theorem, an `example` or a hypothesis):

* `f64` does not round-trip in general (`3e23`, `1e-23`); `f32` does, exactly (C42).
* `from_str::<f32>("1e300")` is `Ok(inf)` (C40), while a literal beyond `f64` is `Err`.
* `-0` reaches the visitor as `negative(0)`: `+0.0` as `f64`, an error for unsigned types, `Number::I64(0)` as `Value` (which is re-read as `U64(0)`).
* `Option<Option<T>>`, `Option<()>` do not round-trip.
* Two spellings of the same number can be read as different `f64`s (`1e25`, `10e24`), and a smaller number as a larger `f64` (`10e32`, `10000000000000001e17`); not for
  short decimals, and not within one layout (C82). Integers below `i64::MIN` are rounded twice when read as `f32`, other integers once.
* Number literals of 2 GiB or more: the `i32` exponent counter overflows. A debug build panics; a release build wraps, so that it rejects `0.000…01` with 2^31 zeros and reads
  the one with 2^32 zeros as `0.1` (C71, `C71_long_rejected`, `C71_long_wrong`). Longer inputs without such literals are fine in both (`C71_text`).
* An exponent beyond `i32` with a very long mantissa gives `Err` although the value may be representable.
* Duplicate serialized names in a derived struct: the first field wins on reading and the others cannot be read.
* `#[serde(...)]` attributes on the item (not on fields or variants) are silently ignored by the derives.
* Integer map keys: `"1"` and `"01"` are the same key, so member order matters even without repeated keys (hypothesis of C47).
* `to_string_impl` moves the `Box` of a stream onto its stack after the stream has handed out its first item. If moving a `Box` asserts uniqueness (Stacked Borrows), this is
  undefined behaviour for a (safe, user-written) stream that hands out a reference into itself; library and derived streams do not do this. The deserializer uses `NonuniqueBox`
  for this reason (C61, C62, examples in `Props/Borrows`).
* A second `finish` on the builder of a `Box<T>` panics (`unwrap` of the value already taken); on all other builders it is harmless. `from_str` never calls it twice (C09), other
  drivers can (C67).
* `negative(n)` accepts every `n >= MIN` and casts with `as`, so a driver other than `from_str` can pass a positive `n` that wraps (the value stays in range of its type, C67).
* `Deserializer::drop` pops its layers innermost first, but if the destructor of a (user-written) builder panics there while `Err` is being returned, the rest of the `Vec` is
  dropped by its drop glue, outermost first, although inner builders may borrow from outer ones: possible use after free from safe user code, e.g. on `[[[` (C68, `C68_out_of_order`).
  Needs a `Drop` that panics and another that touches what it borrows; the builders of the library do not touch what they borrow in their destructors. The serializer has no such
  problem (C69).
* Parsing, printing and dropping a deeply nested `Value` need constant call depth (C52-C55, C37), but its `Clone` and `Debug` are ordinary recursion: for every stack there is a text that is read into a `Value` that overflows it when cloned or formatted (C84).
* The README's "arbitrarily nested data without being exposed to stack overflows" holds for `Value` and for programs without recursive structs (C37, C52-C55, C85), not for recursive structs: `from_str::<Node>` with `struct Node { next: Option<Box<Node>> }` reads `{"next":{"next":...}}` without recursion, but the value's drop glue is recursive, and `from_str` itself drops the value when it returns `Err` because of a byte after it (C85, `C85_recursive`).
* A user-written visitor that returns `Ok` without filling its place is treated differently by the containers: `Vec` silently skips the element, `Box` panics, at top level it is `Err`
  (C72, `C72_idle`).
* The derives are unhygienic. Derived `Deserialize` of a struct fails to compile (or means something else) in a module that shadows `Ok` (line 75 of `derive/src/de.rs` is the only path not
  going through `miniserde::__private`), or where a trait in scope gives `Option<T>` a method `take(self)` or `take(&self)`, or when a field has the name of a constant in scope or is called
  `__out`, or when a constant parameter has the name of a type in scope (C87).
* Derived `Serialize` of an enum without variants does not compile (`match self {}` on a reference); derived `Deserialize` of it does (C89).
* Derived `Deserialize` of `struct S<T: ?Sized> { x: T }` does not compile although `T: Deserialize` is added and implies `Sized`: the bound is on the impls but not on the helper struct `__State`, which has a field of type `Option<T>` (C89).

## Trusted base

* Lean 4.33.0's kernel. No `native_decide`, no `bv_decide`, no axioms of our own. Every theorem in the manifest depends on a subset of `propext`, `Classical.choice`,
  `Quot.sound` (`tools/axioms.sh` prints them).
* The faithfulness of the transcription in `Verif/Model` (cited line by line), including the list of what is not modelled above.
* The contracts of external code listed above.
