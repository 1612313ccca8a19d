{"id": "C01", "title": "Boolean operators on matchers keep Boolean meaning", "statement": "For matchers built from `always`, `never` and predicates with `and`, `or`, `not`, `match::all` and `match::any`, the matcher that the library returns accepts an event exactly when the plain Boolean formula over the predicates is true for that event. Automatic simplification never changes the set of accepted events.", "quantifier": "every matcher expression of any size and shape, every event", "why_tests_cant": "The simplifier is a recursive rewrite on types with an unbounded number of expression shapes; a test can only name a handful of shapes.", "anchors": ["include/match/ops.hpp operator and/or/not", "include/match/and.hpp simplify", "include/match/or.hpp simplify", "include/match/not.hpp simplify", "include/match/bin_op.hpp de_morgan"]}
{"id": "C02", "title": "Combining relational field matchers keeps Boolean meaning", "statement": "For matchers built from field comparisons (`<`, `<=`, `>`, `>=`, `==`, `!=` against constants), predicates, `always`, `never` with `and`, `or`, `not`, the resulting matcher accepts a message exactly when the Boolean formula over the individual comparisons is true.", "quantifier": "every expression over any fields and constants, every message value", "why_tests_cant": "Needs all pairs of constants and operators over whole integer ranges and all expression shapes.", "anchors": ["include/msg/field_matchers.hpp rel_matcher_t implies overloads", "include/match/ops.hpp"]}
{"id": "C03", "title": "Sum of products keeps meaning", "statement": "`match::sum_of_products(m)` accepts exactly the same events as `m`.", "quantifier": "every matcher expression, every event", "why_tests_cant": "Recursive distribution over arbitrary nesting; tests name a few shapes.", "anchors": ["include/match/and.hpp sum_of_products", "include/match/or.hpp sum_of_products", "include/match/not.hpp sum_of_products"]}
{"id": "C04", "title": "Sum of products is in disjunctive normal form", "statement": "The result of `match::sum_of_products` on a matcher built with the library operators is an `or` of `and`s of possibly negated single terms: no `or` sits below an `and` and `not` is applied only to single terms.", "quantifier": "every matcher expression of any size", "why_tests_cant": "Shape claim over all expression trees.", "anchors": ["include/match/sum_of_products.hpp", "docs/match.adoc disjunctive normal form"]}
{"id": "C05", "title": "Implication is sound", "statement": "If the library answers that matcher A implies matcher B then every event accepted by A is accepted by B, for comparisons on the same integer field and all compound matchers built from them.", "quantifier": "every pair of matchers, every event", "why_tests_cant": "Quantifies over all constants, operators and events.", "anchors": ["include/match/implies.hpp", "include/match/and.hpp implies", "include/match/or.hpp implies", "include/msg/field_matchers.hpp implies overloads"]}
{"id": "C06", "title": "Matcher ordering means set inclusion", "statement": "When `a <=> b` is `less`, everything a accepts b accepts; when it is `greater` the converse; when it is `equivalent` they accept the same events.", "quantifier": "every pair of matcher expressions, every event", "why_tests_cant": "All pairs of expressions.", "anchors": ["include/match/ops.hpp operator<=>", "docs/match.adoc matcher ordering"]}
{"id": "C07", "title": "Simplification never grows an expression", "statement": "The number of terms and operators in the simplified matcher is at most the number in the expression that was simplified.", "quantifier": "every matcher expression", "why_tests_cant": "Over all expression shapes; de Morgan rewriting could otherwise grow nested formulas.", "anchors": ["include/match/bin_op.hpp de_morgan", "include/match/cost.hpp"]}
{"id": "C08", "title": "Documented simplification laws hold", "statement": "For every single-term matcher m: `not not m` is m, `m and always` is m, `m or never` is m, `m and never` is never, `m or always` is always, `m and m` is m, `m or m` is m, `m and not m` is never, `m or not m` is always; and for single terms a and b absorption `a or (a and b)` and `a and (a or b)` give a.", "quantifier": "every single-term matcher (predicate or field comparison on any field and constant)", "why_tests_cant": "Any field/constant/operator combination.", "anchors": ["docs/match.adoc Boolean algebra with matchers", "include/match/ops.hpp"]}
{"id": "C09", "title": "Field write then read returns the value", "statement": "Writing a value into a located field and then reading the field gives the value back when the value fits in the field's bits, and otherwise the value reduced to the field's bits.", "quantifier": "every location list of non-overlapping bit ranges, element width 8, 16 or 32, every storage content, every value", "why_tests_cant": "The product of locations, widths, storage contents and values is far too large to test; split fields and multi-element spans have carry paths.", "anchors": ["include/msg/field.hpp bits_locator_t::insert", "include/msg/field.hpp bits_locator_t::extract", "include/msg/field.hpp field_locator_t"]}
{"id": "C10", "title": "Field write changes only the field's bits", "statement": "Writing a field leaves every storage bit outside the field's bit ranges as it was, so any other field not overlapping it reads the same before and after.", "quantifier": "every location, element width 8/16/32, every storage content and value", "why_tests_cant": "Frame property over all storage contents.", "anchors": ["include/msg/field.hpp bits_locator_t::insert"]}
{"id": "C11", "title": "A field reads exactly its declared bits", "statement": "Reading a field located at bits msb..lsb gives the number formed by exactly those bits of the storage, lowest bit first; with several locations the first listed is most significant. A location with the index of a byte or of a 32-bit word names bits counted from that byte or word.", "quantifier": "every location list, element width 8/16/32, every storage content", "why_tests_cant": "All storage contents and locations.", "anchors": ["include/msg/field.hpp bits_locator_t::extract", "include/msg/field.hpp field_locator_t::extract", "docs/message.adoc field locations"]}
{"id": "C12", "title": "Field access stays inside the message storage", "statement": "A message definition accepted for a given storage (its fields are reported to fit) never reads or writes outside that storage.", "quantifier": "every field location and every storage size accepted by the fit check", "why_tests_cant": "Boundary of all locations against all sizes.", "anchors": ["include/msg/field.hpp bits_locator_t::fits_inside", "include/msg/message.hpp view_t/owner_t static_assert"]}
{"id": "C13", "title": "Default storage is big enough", "statement": "The storage size that the library computes for a message is large enough that every access to every field of the message is inside it, for element widths 8, 16, 32.", "quantifier": "every list of fields and locations", "why_tests_cant": "All location combinations.", "anchors": ["include/msg/field.hpp extent_in", "include/msg/message.hpp storage_size"]}
{"id": "C14", "title": "Message layout does not depend on storage element width", "statement": "The same field reads the same value from storage seen as 8-bit, 16-bit or 32-bit elements holding the same little-endian bits, and writing it leaves the same bits.", "quantifier": "every field, every content, element widths 8/16/32", "why_tests_cant": "All contents and locations.", "anchors": ["include/msg/field.hpp bits_locator_t", "docs/message.adoc storage"]}
{"id": "C15", "title": "Fields can be read from and written to a single unsigned integer", "statement": "`Field::extract(u)` for an unsigned integer u gives the bits msb..lsb of u whenever the location is inside the integer, for 8, 16, 32 and 64 bit integers, and `Field::insert(u, v)` stores v there and changes nothing else.", "quantifier": "every location inside the integer, every integer value", "why_tests_cant": "Needs every location for every width.", "anchors": ["include/msg/field.hpp field_t::extract(U const&)", "include/msg/field.hpp field_t::insert(U&)"]}
{"id": "C16", "title": "Field access has no undefined shift", "statement": "No shift performed while reading or writing a field has a shift amount that reaches the width of the shifted type.", "quantifier": "every legal location, value type 8..64 bits, element width 8/16/32/64", "why_tests_cant": "Undefined behaviour need not show in a test run.", "anchors": ["include/msg/field.hpp bits_locator_t::extract", "include/msg/field.hpp bits_locator_t::insert"]}
{"id": "C17", "title": "Message construction sets named fields and defaults the rest", "statement": "After constructing an owning message from named values, every named field reads its value (reduced to the field's bits) and every other field with a default reads its default, when fields do not overlap.", "quantifier": "every set of non-overlapping fields, every set of named values", "why_tests_cant": "All field layouts and values.", "anchors": ["include/msg/message.hpp owner_t constructors", "include/msg/message.hpp msg_access::set"]}
{"id": "C18", "title": "Setting fields of a message changes only those fields", "statement": "`msg.set(...)` changes the named fields to their values and no other non-overlapping field; naming the same field twice keeps the last value.", "quantifier": "every layout, every content, every sequence of sets", "why_tests_cant": "Arbitrary sequences of writes.", "anchors": ["include/msg/message.hpp msg_access::set"]}
{"id": "C19", "title": "Extending a message overrides same-name fields", "statement": "`msg::extend` gives a message where each field name occurs once, every new field is present as given, and base fields whose name is not in the new fields are kept.", "quantifier": "every base message and list of new fields", "why_tests_cant": "All name and location combinations.", "anchors": ["include/msg/message.hpp unique_by_name", "include/msg/message.hpp extension", "docs/message.adoc extending messages"]}
{"id": "C20", "title": "Packed messages do not overlap", "statement": "In `msg::pack`, fields of different input messages occupy disjoint bits, each field is shifted by a whole number of alignment units and reads the value the unpacked message would read from its own slice of the storage.", "quantifier": "every list of messages, every alignment unit, every storage content", "why_tests_cant": "All lists of messages and contents.", "anchors": ["include/msg/message.hpp shifted_msgs", "include/msg/message.hpp pack"]}
{"id": "C21", "title": "Automatically located fields do not overlap", "statement": "In `msg::relaxed_message` every field without a location gets its own bits that overlap neither another automatically located field nor any explicitly located field, and are as wide as the field's type.", "quantifier": "every list of located and unlocated fields", "why_tests_cant": "All field lists.", "anchors": ["include/msg/message.hpp field_locator", "include/msg/message.hpp relaxed_message"]}
{"id": "C22", "title": "Message equivalence is agreement on all fields", "statement": "`equivalent(a, b)` is true exactly when every field of the definition reads the same from a and b; it is reflexive, symmetric, transitive and ignores bits that belong to no field.", "quantifier": "every definition, every pair of contents", "why_tests_cant": "All contents.", "anchors": ["include/msg/message.hpp equiv"]}
{"id": "C23", "title": "Plain handler calls exactly the matching callbacks", "statement": "`handle` on a plain message service calls each registered callback whose matcher accepts the message exactly once, calls no other callback, and returns true exactly when at least one was called.", "quantifier": "every list of callbacks, every message", "why_tests_cant": "Any number of callbacks and any message.", "anchors": ["include/msg/handler.hpp handle", "include/msg/callback.hpp handle"]}
{"id": "C24", "title": "Callback matcher is the conjunction of its own and the message's matcher", "statement": "A callback constructed for a message with matcher M accepts a message exactly when M accepts it and every field's own matcher accepts it.", "quantifier": "every matcher, every message definition, every message", "why_tests_cant": "All matchers and contents.", "anchors": ["include/msg/callback.hpp callback_construct_t", "include/msg/message.hpp matcher_t"]}
{"id": "C25", "title": "Indexed handler calls exactly the matching callbacks", "statement": "`handle` on an indexed service calls a callback exactly when that callback's matcher accepts the message, and returns true exactly when some callback was called.", "quantifier": "every list of callbacks with arbitrary matchers, every index specification, every message", "why_tests_cant": "Index building is a fold over all callbacks and terms; interactions between callbacks appear only for particular combinations.", "anchors": ["include/msg/detail/indexed_builder_common.hpp temp_index", "include/msg/indexed_handler.hpp", "include/msg/field_matchers.hpp index_terms/index_not_terms/remove_terms"]}
{"id": "C26", "title": "Indexed service never misses a matching callback because of the index", "statement": "If a callback's matcher accepts the message then the set of candidates computed by the indices contains it.", "quantifier": "every list of callbacks, index specification and message", "why_tests_cant": "Same space as C25.", "anchors": ["include/msg/detail/indexed_builder_common.hpp", "include/msg/indexed_handler.hpp indices"]}
{"id": "C27", "title": "Lookup tables answer like the map they were built from", "statement": "A table built from entries with distinct keys and a default returns the entry's value for each entry key and the default for every other key, for whichever strategy is chosen.", "quantifier": "every set of entries with distinct keys, every key type width, every queried key", "why_tests_cant": "Hash collisions and search windows depend on the whole key set; every queried key of a 32-bit type cannot be tested for every key set.", "anchors": ["include/lookup/lookup.hpp make", "include/lookup/linear_search_lookup.hpp", "include/lookup/pseudo_pext_lookup.hpp"]}
{"id": "C28", "title": "Lookup never reads outside its tables", "statement": "Looking up any key reads only existing elements of the hash table and of the entry storage.", "quantifier": "every table, every queried key", "why_tests_cant": "Out-of-bounds reads depend on the key set and on the queried key.", "anchors": ["include/lookup/pseudo_pext_lookup.hpp direct_impl", "include/lookup/pseudo_pext_lookup.hpp indirect_impl"]}
{"id": "C29", "title": "Building a lookup table terminates and keeps keys apart", "statement": "Mask reduction terminates for every key set; after the first phase all keys hash to different slots and after the second phase no more keys than the search length share a slot.", "quantifier": "every key set, every maximum search length", "why_tests_cant": "Termination and the bound must hold for each key set.", "anchors": ["include/lookup/pseudo_pext_lookup.hpp calc_pseudo_pext_mask"]}
{"id": "C30", "title": "Flow runs respect all declared orderings", "statement": "If a is declared to happen before b by `a >> b` (also between groups, also in different flow fragments), then in the built flow a is executed before b.", "quantifier": "every set of flow fragments that builds, every pair of actions", "why_tests_cant": "Order over all graphs, all container iteration orders.", "anchors": ["include/flow/graph_builder.hpp topo_sort", "include/flow/dsl/seq.hpp", "include/flow/dsl/walk.hpp"]}
{"id": "C31", "title": "Flow runs each added action exactly once", "statement": "Running a built flow executes every added action exactly once and nothing else; under runtime conditions it executes no action twice and nothing that was not added (which ones are executed then is C35).", "quantifier": "every set of fragments that builds", "why_tests_cant": "All graphs.", "anchors": ["include/flow/graph_builder.hpp topo_sort", "include/flow/func_list.hpp"]}
{"id": "C32", "title": "A flow is rejected exactly when the orderings are cyclic", "statement": "Building fails with the cycle error exactly when the declared orderings contain a cycle.", "quantifier": "every finite graph", "why_tests_cant": "All graphs.", "anchors": ["include/flow/graph_builder.hpp topo_sort", "include/flow/graph_builder.hpp build"]}
{"id": "C33", "title": "Flow mentions are checked", "statement": "Building passes the check of mentions exactly when every mentioned action was added with `*` exactly once and every added action is mentioned.", "quantifier": "every set of fragments", "why_tests_cant": "All fragments.", "anchors": ["include/flow/graph_builder.hpp check_for_missing_nodes"]}
{"id": "C34", "title": "Sequence and parallel composition mean what they say", "statement": "`a >> b` orders every action of a before every action of b (for non-empty groups); `a && b` adds no ordering between a and b; both keep all orderings inside a and inside b.", "quantifier": "every DSL expression", "why_tests_cant": "All nested expressions.", "anchors": ["include/flow/dsl/par.hpp", "include/flow/dsl/seq.hpp", "include/flow/dsl/walk.hpp"]}
{"id": "C35", "title": "Conditionally added actions run exactly when their condition holds", "statement": "An action added to a flow under a runtime condition runs exactly when the condition is true when the flow runs; when it is false it is as if the action was never added.", "quantifier": "every DSL expression and every valuation of conditions", "why_tests_cant": "All expressions and valuations.", "anchors": ["include/flow/step.hpp make_runtime_conditional", "include/flow/dsl/par.hpp", "include/flow/dsl/seq.hpp", "include/flow/func_list.hpp run_func", "docs/flows.adoc"]}
{"id": "C36", "title": "Sequencer completed steps always form a prefix", "statement": "At every moment the steps whose forward action has completed and whose backward action has not are exactly the first k steps for some k; forward is only called on step k and backward only on step k-1.", "quantifier": "every number of steps, every history of forward/backward calls, every pattern of NOT_DONE answers", "why_tests_cant": "Unbounded histories and step behaviours.", "anchors": ["include/seq/impl.hpp"]}
{"id": "C37", "title": "Sequencer finishes a started step before reversing", "statement": "If a step answered NOT_DONE in one direction, the next step call made by the sequencer is the same step in the same direction, whatever direction is requested next.", "quantifier": "every history", "why_tests_cant": "Unbounded histories.", "anchors": ["include/seq/impl.hpp go"]}
{"id": "C38", "title": "Sequencer DONE means all the way", "statement": "`forward()` returns DONE only when every step is forward-complete and `backward()` returns DONE only when none is; otherwise the call returns NOT_DONE right after a step answered NOT_DONE.", "quantifier": "every history", "why_tests_cant": "Unbounded histories.", "anchors": ["include/seq/impl.hpp go"]}
{"id": "C39", "title": "Sequencer never indexes outside its step arrays", "statement": "No call ever accesses a step function outside the arrays, for any number of steps including zero.", "quantifier": "every history", "why_tests_cant": "Unbounded histories.", "anchors": ["include/seq/impl.hpp step_forward/step_backward"]}
{"id": "C40", "title": "Interrupt service runs exactly the enabled and pending handlers", "statement": "Running an interrupt executes the flows of exactly those interrupt nodes below it that are active, whose enable and status fields (if any) read true, and whose ancestors all do too (for trees in which names and status fields are unique and no status field is an enable field, and flows that leave these fields alone).", "quantifier": "every configuration tree, every register content", "why_tests_cant": "All trees and register states.", "anchors": ["include/interrupt/impl.hpp run", "include/interrupt/manager.hpp run"]}
{"id": "C41", "title": "Status is cleared once and in policy order", "statement": "For an executed interrupt the status field is cleared exactly once, before the handler with clear-first and after it with clear-last, and never with dont-clear; a not executed interrupt is not cleared (same trees and flows as in C40).", "quantifier": "every tree and register state", "why_tests_cant": "All trees and states.", "anchors": ["include/interrupt/policies.hpp", "include/interrupt/impl.hpp"]}
{"id": "C42", "title": "Dynamic controller writes only the enable bits it owns", "statement": "Enabling or disabling flows, resources or names never changes register bits that are not the enable field of some affected interrupt (starting with registers that agree with the remembered values, see C44).", "quantifier": "every configuration, every history of operations", "why_tests_cant": "Unbounded histories and layouts.", "anchors": ["include/interrupt/dynamic_controller.hpp update"]}
{"id": "C43", "title": "Dynamic controller registers match the enable state", "statement": "After any sequence of enable/disable operations with propagation, each interrupt's enable bit is set exactly when its name is enabled, all its resources are enabled and one of its flows or sub-interrupts is enabled.", "quantifier": "every configuration tree, every history", "why_tests_cant": "Unbounded histories and trees.", "anchors": ["include/interrupt/dynamic_controller.hpp", "include/interrupt/policies.hpp is_on", "include/interrupt/config.hpp all_resources_t"]}
{"id": "C44", "title": "Shadow registers equal hardware after every operation", "statement": "After initialisation and any operations, the last value written to every register equals the controller's remembered value, although unchanged values are not written again.", "quantifier": "every history", "why_tests_cant": "Unbounded histories.", "anchors": ["include/interrupt/dynamic_controller.hpp write_if_changed"]}
{"id": "C45", "title": "Binary log records decode to what was logged", "statement": "A catalog record encodes the string id, module id, level, unit and arguments such that the decoder recovers the id and each argument value.", "quantifier": "every id, every argument list of integers, every level/module/unit in range", "why_tests_cant": "All argument values and counts.", "anchors": ["include/log_binary/catalog/mipi_builder.hpp", "python/cib/mipi_messages.py", "python/cib/log_decode.py"]}
{"id": "C46", "title": "A stream of log records decodes record by record", "statement": "The concatenation of encoded records decodes to exactly the sequence of records in order, with no bytes left over.", "quantifier": "every sequence of records", "why_tests_cant": "Unbounded streams.", "anchors": ["include/log_binary/catalog/mipi_builder.hpp", "python/cib/log_decode.py read_logs"]}
{"id": "C47", "title": "Version messages carry the whole build version", "statement": "The version record form chosen by the library holds the complete build id and version string.", "quantifier": "every build id below 2^64 and every string", "why_tests_cant": "All build ids.", "anchors": ["include/log_binary/catalog/mipi_builder.hpp version builder", "include/log_binary/catalog/mipi_messages.hpp"]}
{"id": "C48", "title": "String ids are unique", "statement": "The catalog generator never assigns the same id to two different messages.", "quantifier": "every set of messages, stable file and reserved ids", "why_tests_cant": "All inputs.", "anchors": ["python/cib/gen_str_catalog.py assign_ids"]}
{"id": "C49", "title": "Stable ids are kept", "statement": "A message present in the stable catalog keeps its id, and ids of stable messages are not given to new messages.", "quantifier": "every set of messages and stable file", "why_tests_cant": "All inputs.", "anchors": ["python/cib/gen_str_catalog.py assign_ids"]}
{"id": "C50", "title": "Module ids fit", "statement": "Generated module ids that pass the limit check (recorded and explicit ids being not negative) are at most the limit, so they fit the 7-bit header field for the default limit.", "quantifier": "every set of modules", "why_tests_cant": "All inputs.", "anchors": ["python/cib/gen_str_catalog.py check_module_limit"]}
{"id": "C51", "title": "Every extension reaches its service exactly once", "statement": "Each argument of each `extend` in the configuration, including nested components, is added to its service's builder exactly once, and services get only their own extensions.", "quantifier": "every configuration tree", "why_tests_cant": "All configuration trees.", "anchors": ["include/nexus/detail/nexus_details.hpp", "include/nexus/config.hpp"]}
{"id": "C52", "title": "Compile-time conditional parts are included exactly when true", "statement": "A part of the configuration under a constexpr conditional contributes exactly when the condition is true, also when nested.", "quantifier": "every configuration tree and valuation", "why_tests_cant": "All trees.", "anchors": ["include/nexus/detail/constexpr_conditional.hpp"]}
{"id": "C53", "title": "Callback services call every extension once in a fixed order", "statement": "Calling a callback service calls each registered function exactly once with the given arguments.", "quantifier": "every list of callbacks", "why_tests_cant": "All lists.", "anchors": ["include/nexus/callback.hpp"]}
{"id": "C54", "title": "Runtime conditions combine as conjunction", "statement": "Something under nested runtime conditions is active exactly when all conditions are true when evaluated.", "quantifier": "every nesting and valuation", "why_tests_cant": "All nestings.", "anchors": ["include/nexus/detail/runtime_conditional.hpp"]}
{"id": "C55", "title": "Bounds on one field simplify as documented", "statement": "For all constants A <= B: `X < A and X > B` is `never` (B below the largest value of the type), `X < A and X < B` is `X < A`, `X < A or X < B` is `X < B`; and for B < A `X < A or X > B` is `always`.", "quantifier": "every integer field type and all constants of it", "why_tests_cant": "All pairs of constants.", "anchors": ["docs/match.adoc Implication enables simplification", "include/msg/field_matchers.hpp implies overloads", "include/match/and.hpp simplify", "include/match/or.hpp simplify"]}
{"id": "C56", "title": "Matcher ordering is consistent under swapping", "statement": "`b <=> a` is `greater`, `less`, `equivalent`, `unordered` exactly when `a <=> b` is `less`, `greater`, `equivalent`, `unordered`.", "quantifier": "every pair of matchers and every customisation", "why_tests_cant": "All pairs.", "anchors": ["include/match/ops.hpp operator<=>"]}
{"id": "C57", "title": "A matcher is equivalent to itself", "statement": "`m <=> m` is `equivalent` for every matcher m.", "quantifier": "every matcher", "why_tests_cant": "All matcher expressions; repository tests compare only single terms.", "anchors": ["include/match/ops.hpp operator<=>", "docs/match.adoc Matcher ordering and equivalence"]}
{"id": "C58", "title": "Implications between two comparisons are recognised", "statement": "When one comparison of a field with a constant follows from another comparison of the same field by the order of the integers, the library answers that the first implies the second, so that combining them simplifies to one of them.", "quantifier": "every pair of comparison operators and constants of the field type", "why_tests_cant": "Requires all pairs of constants of all integer types; the failing constants are the extreme ones.", "anchors": ["include/msg/field_matchers.hpp: tag_invoke(match::implies_t, ...)"]}
{"id": "C59", "title": "Copying a message keeps its fields", "statement": "An owning message constructed from the storage of another message (or by `as_owning`) reads in each field what the source reads there (zero beyond the end of the source), except for fields named in the construction, which read the given value.", "quantifier": "every definition, every source content and length, every list of named values", "why_tests_cant": "All contents and layouts.", "anchors": ["include/msg/message.hpp owner_t(S const&, Vs...)", "include/msg/message.hpp as_owning"]}
{"id": "C60", "title": "Declaration order of fields does not matter", "statement": "Two message definitions with the same fields in a different order are the same message.", "quantifier": "every list of fields and every permutation of it", "why_tests_cant": "All permutations of all field lists.", "anchors": ["include/msg/message.hpp unique_by_name", "include/msg/message.hpp message", "docs/message.adoc"]}
{"id": "C61", "title": "Renaming a field keeps its value", "statement": "After `msg::rename_field` the new name reads what the old name read, all other fields read as before, and the old name is gone.", "quantifier": "every definition, pair of names and content", "why_tests_cant": "All layouts and contents.", "anchors": ["include/msg/message.hpp rename_field"]}
{"id": "C62", "title": "Required field values persist", "statement": "A field declared with a required value reads that value after construction and after any history of `set` calls that compile; after a construction that compiles no field other than an `uninitialized` one is left without its named or default value.", "quantifier": "every definition with non-overlapping fields, every construction and every history of set calls", "why_tests_cant": "All histories of calls.", "anchors": ["include/msg/field.hpp field_t::insert static_assert", "include/msg/message.hpp owner_t(Vs...)"]}
{"id": "C63", "title": "Sequencer moves in the requested direction", "statement": "A call of forward() (backward()) calls only forward (backward) step functions, except for at most one first call that retries a step left unfinished in the other direction.", "quantifier": "every number of steps, every history, every answer pattern", "why_tests_cant": "All histories.", "anchors": ["include/seq/impl.hpp go"]}
{"id": "C64", "title": "Sequencer makes progress", "statement": "If from some moment on every step function answers DONE, one call of forward() or backward() goes all the way and answers DONE.", "quantifier": "every history before that moment", "why_tests_cant": "All histories.", "anchors": ["include/seq/impl.hpp go"]}
{"id": "C65", "title": "Manager initialisation enables only active interrupts", "statement": "After the interrupt manager's initialisation, and the operations that follow, a top-level interrupt none of whose flows is active is not enabled in the hardware, every active top-level interrupt is, and every sub-interrupt's enable bit matches the enabled flows and resources.", "quantifier": "every configuration tree, every set of active flows", "why_tests_cant": "All trees and register layouts.", "anchors": ["include/interrupt/manager.hpp init", "include/interrupt/dynamic_controller.hpp init, set_internal_state"]}
{"id": "C66", "title": "Plain handler calls callbacks in registration order", "statement": "The callbacks which `handle` on a plain message service calls are called in the order in which they were registered.", "quantifier": "every list of callbacks, every message, every evaluation order which the language allows", "why_tests_cant": "The order of evaluation of the operands of `|` is the compiler's choice; a test sees one compiler.", "anchors": ["include/msg/handler.hpp handle"]}
{"id": "C67", "title": "Indexed handler calls a matching callback once", "statement": "`handle` on an indexed service calls each callback whose matcher accepts the message exactly once, like a plain service with the same callbacks.", "quantifier": "every list of callbacks, index specification and message", "why_tests_cant": "Whether alternatives overlap depends on the message.", "anchors": ["include/msg/detail/separate_sum_terms.hpp", "include/msg/detail/indexed_handler_common.hpp handle"]}
{"id": "C68", "title": "is_match agrees with handle", "statement": "`is_match` of an indexed service answers true exactly when `handle` on the same message would call a callback.", "quantifier": "every list of callbacks, index specification and message", "why_tests_cant": "All messages and callbacks.", "anchors": ["include/msg/detail/indexed_handler_common.hpp is_match"]}
{"id": "C69", "title": "Lookup respects its maximum search length", "statement": "A lookup in a table built with the maximal search length n compares the key with at most n entries.", "quantifier": "every set of entries, every maximal search length", "why_tests_cant": "The number of colliding keys depends on the whole key set.", "anchors": ["include/lookup/pseudo_pext_lookup.hpp count_longest_run", "include/lookup/pseudo_pext_lookup.hpp calc_pseudo_pext_mask"]}
{"id": "C70", "title": "Hashing a key is defined for every key", "statement": "Computing the slot of any key never overflows a signed integer, never shifts by the width of the type or more, and while a table is built only existing bits of the multiplier are set.", "quantifier": "every mask, every key of 8, 16, 32 or 64 bits", "why_tests_cant": "Overflow depends on mask and key together; two 16-bit factors can overflow int.", "anchors": ["include/lookup/pseudo_pext_lookup.hpp pseudo_pext_t", "include/lookup/pseudo_pext_lookup.hpp compute_pack_coefficient"]}
{"id": "C71", "title": "Duplicate lookup keys are not silently accepted", "statement": "`lookup::make` does not compile for entries of which two have the same key, whatever their number.", "quantifier": "every list of entries with a repeated key", "why_tests_cant": "All key lists; a failing compilation cannot be a run-time test.", "anchors": ["include/lookup/strategies.hpp make", "include/lookup/pseudo_pext_lookup.hpp make"]}
{"id": "C72", "title": "An ordering is at least as conditional as its actions", "statement": "A flow in which `x >> y` is declared under fewer runtime conditions than x or y were added under is rejected; a flow that only satisfies this is not rejected for its conditions. So whenever the conditions around an ordering hold, both its actions run.", "quantifier": "every set of fragments, every nesting of conditions", "why_tests_cant": "Rejection is a compilation error; all condition sets.", "anchors": ["include/flow/graph_builder.hpp make_graph", "include/nexus/detail/runtime_conditional.hpp"]}
{"id": "C73", "title": "Sequencer steps follow the rules of flow actions", "statement": "In a sequencer every added step occurs once with its own forward and backward functions and in the declared order; a step must be added with `*` exactly once, alone or in a starred group, and may be mentioned again without `*`.", "quantifier": "every set of fragments of steps", "why_tests_cant": "All step graphs; a lost function is a null pointer only seen when the step runs.", "anchors": ["include/seq/step.hpp ct_step", "include/flow/dsl/par.hpp operator*", "include/flow/dsl/seq.hpp operator*", "include/flow/dsl/walk.hpp pick_node", "include/seq/impl.hpp create_node"]}
{"id": "C74", "title": "The cycle error shows the cycle", "statement": "The cycle error lists every direct ordering that lies on a cycle, and each listed ordering starts at an action that is on a cycle or comes after one.", "quantifier": "every cyclic flow", "why_tests_cant": "All cyclic graphs; compilation fails.", "anchors": ["include/flow/graph_builder.hpp diagnose_cycle", "include/flow/graph_builder.hpp topo_sort"]}
{"id": "C75", "title": "All stable inputs count", "statement": "When several stable catalogs are given to the generator, a message that is in any of them keeps its id.", "quantifier": "every list of stable catalogs, every set of messages", "why_tests_cant": "All lists of catalogs; the loss only shows in the ids of a later build.", "anchors": ["python/cib/gen_str_catalog.py read_stable"]}
{"id": "C76", "title": "Ids mean one message for ever", "statement": "In a history of builds, each using the catalog that the build before wrote, an id stands for the same message in every build, and a message has the same id in every build in which it occurs, also when it is absent in between.", "quantifier": "every sequence of builds, every set of messages in each", "why_tests_cant": "An invariant over unboundedly many builds; a test runs one or two.", "anchors": ["python/cib/gen_str_catalog.py write_json", "python/cib/gen_str_catalog.py assign_ids", "python/cib/gen_str_catalog.py read_stable"]}
{"id": "C77", "title": "Ids do not depend on link order", "statement": "The id of every message is the same whatever the order in which the undefined symbols are listed.", "quantifier": "every set of messages, every order of the symbols", "why_tests_cant": "All permutations.", "anchors": ["python/cib/gen_str_catalog.py read_input", "python/cib/gen_str_catalog.py assign_ids"]}
{"id": "C78", "title": "New ids are free and dense", "statement": "A message that is neither in the stable catalog nor has an explicit id gets an id that is not reserved, and every smaller id is reserved, recorded, explicit or given to another message (in runs in which different messages have different hashes).", "quantifier": "every set of messages, stable catalog and reserved ids", "why_tests_cant": "All inputs.", "anchors": ["python/cib/gen_str_catalog.py assign_ids", "python/cib/gen_str_catalog.py Intervals"]}
{"id": "C79", "title": "Every log statement gets its definition", "statement": "Every message symbol that the program leaves undefined is defined in the generated file, so that the program links.", "quantifier": "every set of message symbols", "why_tests_cant": "Depends on the whole set of symbols: two symbols can displace each other.", "anchors": ["python/cib/gen_str_catalog.py read_input", "python/cib/gen_str_catalog.py Message.key", "include/log_binary/catalog/encoder.hpp to_message"]}
{"id": "C80", "title": "Argument lists are split at the outer commas", "statement": "The generator splits the text of a list of argument types back into exactly the types, whatever angle brackets and commas they contain.", "quantifier": "every list of type texts with balanced angle brackets", "why_tests_cant": "All nestings.", "anchors": ["python/cib/gen_str_catalog.py split_args", "python/cib/gen_str_catalog.py find_arg_split_pos"]}
{"id": "C81", "title": "Explicit string ids are used", "statement": "A message that the program logs with an explicit string id gets that id.", "quantifier": "every set of messages, stable catalog and reserved ids", "why_tests_cant": "All inputs; two uses of one message can displace each other.", "anchors": ["python/cib/gen_str_catalog.py assign_ids", "python/cib/gen_str_catalog.py read_input"]}
{"id": "C82", "title": "The written catalog is complete", "statement": "The catalog that a build writes has every message of the build with its id; if old ids are to be forgotten nothing else, and otherwise also every message of the stable catalog with its id, if the build has no explicit id for it (it is then written with that one) and different messages have different hashes.", "quantifier": "every set of messages, stable catalog and reserved ids", "why_tests_cant": "All inputs.", "anchors": ["python/cib/gen_str_catalog.py write_json", "python/cib/gen_str_catalog.py main"]}
{"id": "C83", "title": "The order of extensions is fixed by the configuration", "statement": "The extensions of one service are added to it in the reverse of the order in which the configuration lists them, and the arguments of one `extend` from left to right, whatever else the configuration contains.", "quantifier": "every configuration tree", "why_tests_cant": "All trees.", "anchors": ["include/nexus/detail/nexus_details.hpp initialized_builders_v", "include/nexus/detail/extend.hpp", "include/nexus/callback.hpp add"]}
{"id": "C84", "title": "Extending by name is extending by type", "statement": "`extend<\"name\">(...)` has the same effect as `extend<T>(...)` for the exported service type T with that name.", "quantifier": "every configuration tree and every choice of which extensions are by name", "why_tests_cant": "All trees.", "anchors": ["include/nexus/detail/nexus_details.hpp", "include/nexus/detail/extend.hpp", "include/nexus/service.hpp"]}
{"id": "C85", "title": "A configuration compiles exactly when every extension has a service", "statement": "A configuration is accepted exactly when each extension that is not under a false compile-time condition names a service that is exported, none by name is under a runtime condition, and each argument accepts the runtime conditions around it. Nothing is dropped silently.", "quantifier": "every configuration tree", "why_tests_cant": "All trees, accepted and rejected.", "anchors": ["include/nexus/detail/nexus_details.hpp", "include/nexus/detail/runtime_conditional.hpp", "include/nexus/detail/constexpr_conditional.hpp"]}
{"id": "C86", "title": "Invoking a service runs what it was extended with", "statement": "After `init`, invoking an exported service, by type or by name, runs what its own builder holds; a service that is not exported, or any service before `init`, panics.", "quantifier": "every configuration and every service", "why_tests_cant": "All configurations.", "anchors": ["include/nexus/nexus.hpp init", "include/nexus/service.hpp"]}
{"id": "C87", "title": "A message callback under a runtime condition calls its function", "statement": "A message callback under runtime conditions calls, for each accepted message for which they hold, the function it was given.", "quantifier": "every callback, every nesting of conditions and every message", "why_tests_cant": "All callables and matchers.", "anchors": ["include/nexus/detail/runtime_conditional.hpp", "include/msg/callback.hpp make_runtime_conditional"]}
{"id": "C88", "title": "A callback accepts the messages that satisfy the conditions of its definition", "statement": "A callback for a message definition accepts a message exactly when every field, at the place the definition gives it, satisfies the condition that its declaration asks for; this holds for raw storage and for message objects, and whatever further options follow the condition in the declaration. (Strict upper bounds are C89.)", "quantifier": "every definition, every order of options, every content of the storage", "why_tests_cant": "All declarations and all contents; the condition refers to an earlier version of the field's type.", "anchors": ["include/msg/field.hpp field_t", "include/msg/field_matchers.hpp extract_field", "include/msg/callback.hpp callback", "include/msg/message.hpp definition"]}
{"id": "C89", "title": "The options of a field mean what their names say", "statement": "A field declared with with_equal_to, with_in, with_greater_than, with_greater_than_or_equal_to, with_less_than, with_less_than_or_equal_to, with_predicate or with_required admits exactly the storage in which it holds a number for which the name is true.", "quantifier": "every field, option, constant of the field's type, and storage", "why_tests_cant": "All values of all integer types, signed and unsigned.", "anchors": ["include/msg/field.hpp with_less_than", "include/msg/field.hpp with_in", "include/msg/field_matchers.hpp"]}
{"id": "C90", "title": "Composed definitions keep the conditions of their fields", "statement": "A callback for a packed, relaxed or overlaid definition accepts a message exactly when every field of every part, at its place in the composed message, satisfies the condition of its declaration; raw storage and message objects alike.", "quantifier": "every list of definitions and every content of the storage", "why_tests_cant": "All compositions.", "anchors": ["include/msg/message.hpp pack", "include/msg/message.hpp relaxed_message", "include/msg/message.hpp overlay", "include/msg/field_matchers.hpp extract_field"]}
{"id": "C91", "title": "Renaming a field does not change which messages are accepted", "statement": "After a field of a definition is renamed, callbacks for the definition accept the same raw storage, and message objects with the same content, as before.", "quantifier": "every definition, field, new name and content", "why_tests_cant": "All definitions.", "anchors": ["include/msg/message.hpp rename_field", "include/msg/field.hpp with_new_name", "include/msg/field_matchers.hpp extract_field"]}
{"id": "C92", "title": "A message built by the library is accepted by a callback for its own definition", "statement": "If all conditions of a definition are required values of the fields' types, then a message of it built by the library, with any values given to the other fields at construction and set later, is accepted by a callback for the definition, as an object and as raw storage.", "quantifier": "every definition, every values, every sequence of set operations", "why_tests_cant": "All definitions and histories.", "anchors": ["include/msg/field.hpp with_required", "include/msg/message.hpp owning", "include/msg/callback.hpp callback"]}
{"id": "C93", "title": "Conditions written with field names mean what they say", "statement": "A callback whose condition is written with field names (==, !=, <, <=, >, >=, in, not, and, or) compiles exactly when the message has all these names (and no in is empty), and then accepts a message exactly when the condition is true of the numbers that the fields of these names hold and all conditions of the field declarations hold. Constants are values of the fields' types.", "quantifier": "every definition, condition and content", "why_tests_cant": "All conditions and contents.", "anchors": ["include/msg/message.hpp matcher_maker", "include/msg/message.hpp field_name", "include/msg/callback.hpp callback_construct_t"]}
{"id": "C94", "title": "Services call exactly the callbacks a message is for, however it is passed", "statement": "A plain or indexed service that is given raw storage or a message object calls exactly the callbacks whose condition holds, together with the conditions of their definitions, for the fields at the places of the definition; it returns whether there was one, and logs an error if not.", "quantifier": "every list of callbacks, every index, every content, raw storage and message objects", "why_tests_cant": "All callbacks and contents; index and matchers read the message in different ways.", "anchors": ["include/msg/handler.hpp handle", "include/msg/detail/indexed_handler_common.hpp index", "include/msg/detail/indexed_builder_common.hpp", "include/msg/field_matchers.hpp extract_field"]}
{"id": "C95", "title": "A field has the properties its declaration gave last", "statement": "A field has the name, the value type, the initial value and the condition that its declaration gave last, and lies at the place given last, moved by all later shifts; an option changes nothing but what it is named after.", "quantifier": "every sequence of options", "why_tests_cant": "Options combine without limit; tests use a few combinations.", "anchors": ["include/msg/field.hpp field_t", "include/msg/field.hpp with_new_type"]}
{"id": "C96", "title": "A fixed value that the field's own condition excludes does not compile", "statement": "A field declaration that fixes the value of the field and has a condition compiles only if the condition admits the value, so messages built by the library satisfy their own definition.", "quantifier": "every sequence of options and every value", "why_tests_cant": "All values and orders of options.", "anchors": ["include/msg/field.hpp compatible_with_default", "include/msg/field.hpp with_equal_to", "include/msg/field.hpp with_in"]}
{"id": "C97", "title": "The graphviz picture of a flow is a graph of its actions and orderings", "statement": "Calling a flow whose renderer is viz_builder<Name> gives a text that a graphviz reader accepts: a directed graph called Name, with the nodes start and end and one node for every added action, an arrow from a to b exactly where some fragment writes a directly before b, an arrow from start to every added action that no arrow leads to, and one to end from every added action that no arrow leaves.", "quantifier": "all flows of actions and milestones, all names, all orders in which the sets of nodes and edges are listed", "why_tests_cant": "the tests compare the text of a handful of flows with simple names; they never parse it, and cannot range over names and shapes of flows", "anchors": ["include/flow/viz_builder.hpp: graphviz, viz_builder", "include/flow/graph_common.hpp: has_no_edge_q", "include/flow/dsl/walk.hpp: get_nodes, get_edges"]}
{"id": "C98", "title": "The mermaid picture shows milestones, actions and conditions apart", "statement": "With the mermaid renderer the text is a flow chart titled Name in which every action has its own box labelled with its name (start and end are circles, milestones squares, other actions round), arrows are those of C97, an arrow is labelled with the name of the condition of the fragment that orders or adds the action, and an arrow without a condition has no label.", "quantifier": "all flows of actions and milestones without a star before a group, all names and conditions", "why_tests_cant": "the tests compare four texts; distinct names that map to one identifier, and unusual names of conditions, never occur", "anchors": ["include/flow/viz_builder.hpp: mermaid", "include/nexus/detail/runtime_conditional.hpp: ct_name", "include/flow/step.hpp: milestone"]}
{"id": "C99", "title": "Paths in the picture are the orderings of the flow", "statement": "In the picture of a flow in which every mentioned action is added, there is a path from action a to action b exactly when a has to run before b; and every action lies on a path from start to end.", "quantifier": "all flows of actions whose names can be told apart in the picture, both renderers", "why_tests_cant": "needs an induction over paths of arbitrary length in arbitrary graphs", "anchors": ["include/flow/viz_builder.hpp: viz_builder::build", "include/flow/graph_common.hpp"]}
{"id": "C100", "title": "The debug picture shows exactly the part between two actions", "statement": "A flow whose renderer is debug_builder<A, B, R> fails to compile with a picture in R's language: its nodes are exactly A, B and the added actions that have to run after A and before B, and its arrows the direct orderings among these.", "quantifier": "all flows, all pairs of added actions, both renderers", "why_tests_cant": "the output is a compilation error; the tests check two flows. Reachability in arbitrary graphs, and termination on cyclic ones, cannot be tested", "anchors": ["include/flow/debug_builder.hpp: debug_builder", "include/flow/graph_common.hpp: is_descendant, is_ancestor, contained_edge_q"]}
{"id": "C101", "title": "A log statement reaches its logger with its level, module, unit and text", "statement": "Every execution of CIB_LOG, CIB_TRACE, CIB_INFO, CIB_WARN, CIB_ERROR, CIB_FATAL or a failing CIB_ASSERT gives the logger of its flavor one message with the level of the macro (for CIB_LOG that of the environment), the module and the unit of the environment it stands in, its text and the values of its arguments; a reader of the binary log sees all of these.", "quantifier": "all runs of log statements, all environments, all loggers, all catalogs", "why_tests_cant": "tests log a few statements in a few environments; the claim ranges over all environments and over all sequences of statements through encoder and decoder", "anchors": ["include/log/log.hpp: CIB_LOG, CIB_LOG_WITH_LEVEL, log, get_config", "include/log_binary/catalog/encoder.hpp: log_handler::log_msg", "include/log/module.hpp", "include/log/level.hpp", "include/log/unit.hpp"]}
{"id": "C102", "title": "A log environment holds from its declaration to the end of its block", "statement": "A log statement sees the declarations (CIB_LOG_ENV, CIB_APPEND_LOG_ENV, and those of CIB_WITH_LOG_ENV) that stand before it in blocks that are still open; of several that set the same property the nearest counts; nothing set in a block has an effect after it. Code compiles exactly when no block has two declarations and every statement compiles with what it sees.", "quantifier": "all nestings of blocks, namespaces and functions with declarations and log statements", "why_tests_cant": "tests have nestings of depth two or three; scoping is about all programs", "anchors": ["include/log/env.hpp: CIB_LOG_ENV, CIB_WITH_LOG_ENV", "include/log/module.hpp: CIB_LOG_MODULE", "include/log/flavor.hpp: get_flavor"]}
{"id": "C103", "title": "Every destination gets every message of its flavor once and in order", "statement": "After any run, each destination of the logger of a flavor has been called with the messages of that flavor, one after the other, each once, in the order of execution, and with no others; a destination of the binary logger is not called for messages whose environment names a writer, which go to that writer. What a destination does may depend on the messages it got before.", "quantifier": "all runs, all numbers and kinds of destinations, all flavors and writers", "why_tests_cant": "tests use stateless destinations and appending iterators", "anchors": ["include/log_fmt/logger.hpp: log_handler::log", "include/log_binary/catalog/encoder.hpp: log_writer, log_handler", "include/log_binary/catalog/writer.hpp: get_writer", "include/log/log.hpp: get_config"]}
{"id": "C104", "title": "A text log can be read back", "statement": "From the text that an appending destination of the text logger got, the time, the level, the module and the text of every message can be read, in order; for the run of a flow these are the start, the nodes called, in order, and the end.", "quantifier": "all runs of log statements and flows", "why_tests_cant": "tests look for parts of a line with regular expressions; unambiguity is about all texts", "anchors": ["include/log_fmt/logger.hpp: log_handler::log, level_text", "include/flow/func_list.hpp"]}
{"id": "C105", "title": "Fatal errors and failed assertions are logged, then panic", "statement": "CIB_FATAL(text, args...) and a failing CIB_ASSERT(expr, args...) call stdx::panic once, after the logger of the flavor (and no other) got the message with level FATAL; the panic gets the text, the arguments the text has fields for, and the remaining arguments; the text of an assertion is 'Assertion failure: ' and the expression as written, for every expression, and all its arguments are extra. An assertion that holds does nothing; nothing else panics.", "quantifier": "all texts, arguments, expressions and environments", "why_tests_cant": "the split of the arguments depends on the text at compile time; expressions with braces do not occur in the tests", "anchors": ["include/log/log.hpp: panic, CIB_FATAL, CIB_ASSERT"]}
{"id": "C106", "title": "The version goes to the logger that was asked for", "statement": "CIB_LOG_VERSION gives the logger of the default flavor, CIB_LOG_V(F) that of flavor F, and no other, the configured build id and version string: by its log_version function, if it has the one that the documentation describes, as a record that can be read back in the binary log, and as one text message of level MAX in the module of the place otherwise.", "quantifier": "all build ids and version strings, all environments and loggers", "why_tests_cant": "tests cover three loggers with one version each", "anchors": ["include/log/log.hpp: log_version, CIB_LOG_V", "include/log_binary/catalog/encoder.hpp: log_version", "docs/logging.adoc: Version logging"]}
{"id": "C107", "title": "The log of a flow tells what the flow did", "statement": "A run of a named flow logs flow.start(name) before everything else, flow.action(n) or flow.milestone(n) directly before each node n that is called, and nothing for nodes whose condition is false, and flow.end(name) after everything else; the lines of actions respect all declared orders and no action has two. A flow without a name, or with the policy that does not log, logs nothing. Logging does not change which nodes are called.", "quantifier": "all flows, all answers of conditions, all names and policies", "why_tests_cant": "tests check single lines for flows with one or two actions", "anchors": ["include/flow/func_list.hpp: run_func, inlined_func_list", "include/flow/log.hpp: log_policies, log_policy_t", "include/flow/step.hpp: ct_node"]}
{"id": "C108", "title": "The log environment of a flow line is the most specific one given", "statement": "A line of a node is logged with the environment specialised for the name of the node, if there is none with that for its flow, if there is none with that for \"default\", if there is none with level TRACE; the start and end lines with that for the flow, then \"default\", then TRACE.", "quantifier": "all sets of specialisations, all flows", "why_tests_cant": "every combination of specialisations needs its own test; environments equal to the default one do not occur", "anchors": ["include/flow/log.hpp: get_log_env, log_env, default_log_env"]}
{"id": "C109", "title": "The main program runs the four flows in their order", "statement": "cib::top<Project>::main of a project that compiles runs EarlyRuntimeInit, RuntimeInit and RuntimeStart once each, in this order, logging an INFO message before the second and the third, and then MainLoop again and again. Each run is a run of the flow made of exactly what the project adds to it, each part under the conditions it is added under (C30 to C35 say what that flow does); it calls actions in an order that respects the declared orders; actions of an earlier flow are called before those of a later one.", "quantifier": "all projects, all numbers of rounds of the main loop, all answers of conditions", "why_tests_cant": "the program never ends, and the claim ranges over all projects", "anchors": ["include/cib/top.hpp: top::main", "include/nexus/nexus.hpp: nexus::init", "include/flow/run.hpp"]}
{"id": "C110", "title": "The description of a matcher means what the matcher means", "statement": "The text that msg::describe / match describe gives for a matcher can be read back as a condition, without a choice, provided that parentheses in names have their partners, that none begins a name, and that no predicate has the name of a comparison or of a combination. The condition names the terms of the matcher in order, and for every message it holds exactly when the matcher does, when fields of the same name hold the same value and predicates of the same text answer alike.", "quantifier": "all matchers built by and, or, not from comparisons and predicates, all messages", "why_tests_cant": "tests compare the text of a few matchers with a literal; that no two matchers of different meaning share a text is about all of them", "anchors": ["include/match/and.hpp: and_t::describe", "include/match/or.hpp: or_t::describe", "include/match/not.hpp: not_t::describe", "include/match/constant.hpp", "include/msg/field_matchers.hpp: rel_matcher_t::describe, pred_matcher_t::describe", "include/match/predicate.hpp"]}
{"id": "C111", "title": "The description of a mismatch shows the values and justifies the result", "statement": "The text that describe_match gives for a matcher and a message can be read back as a condition whose comparisons show the values that the message holds, and evaluating it with these values gives the result of the matcher; the text exists for every message that the matcher can be asked about.", "quantifier": "all matchers, all messages", "why_tests_cant": "tests compare texts of single comparisons for a few values", "anchors": ["include/match/and.hpp: and_t::describe_match", "include/match/or.hpp: or_t::describe_match", "include/match/not.hpp: not_t::describe_match", "include/msg/field_matchers.hpp: rel_matcher_t::describe_match, pred_matcher_t::describe_match"]}
{"id": "C112", "title": "The log of a service tells which callbacks were called and why, or why none", "statement": "For a message that holds all fields of the matchers, handle of a message service with readable names logs, directly before each callback that is called, one line with the name of the callback and a condition that holds for the message, in the environment of the callback, and nothing else; if no callback is called, an error with the number of callbacks, then for every callback one line with its name and a condition that shows the values of the message and is false with them. Logging changes neither the callbacks called nor the returned value.", "quantifier": "all sets of callbacks, all messages", "why_tests_cant": "tests look for a part of one line; the claim ranges over all sets of callbacks and messages", "anchors": ["include/msg/handler.hpp: handler::handle", "include/msg/callback.hpp: callback::handle, callback::log_mismatch"]}
{"id": "C113", "title": "The log of an indexed service tells which callbacks were called and why", "statement": "handle of an indexed service logs, directly before each callback that is called, one line with the name of the callback, the condition that was still evaluated, and the whole condition before the index was used; both hold for the message. If no callback is called it logs one error with the number of callbacks, and none of them matches the message.", "quantifier": "all sets of callbacks and index fields, all messages", "why_tests_cant": "the terms that remain after the index are computed at compile time for each callback; tests check a few", "anchors": ["include/msg/indexed_handler.hpp", "include/msg/detail/indexed_handler_common.hpp: indexed_handler::handle", "include/msg/indexed_service.hpp", "include/msg/detail/indexed_builder_common.hpp: invoke_callback, separate_sum_terms"]}
{"id": "C114", "title": "The description of a message shows the value of every field", "statement": "describe() of a message can be read back, given the name of the message and those of its fields: it shows the value of each field, in order, signed values included; these are the values that the storage holds.", "quantifier": "all messages, all field layouts, all contents of the storage", "why_tests_cant": "tests describe two or three messages", "anchors": ["include/msg/message.hpp: message::describe", "include/msg/field.hpp: field_t::describe"]}
{"id": "C115", "title": "From the text log of a service the callbacks called can be read", "statement": "From the text that an appending destination of the text logger got while a message was handled, plain or indexed, the names of the callbacks called can be read in order, whatever the callbacks log themselves.", "quantifier": "all sets of callbacks, all messages, all log statements in callbacks", "why_tests_cant": "tests look at one line; the claim is about the whole text of a run", "anchors": ["include/msg/callback.hpp: callback::handle", "include/msg/detail/indexed_builder_common.hpp: invoke_callback", "include/log_fmt/logger.hpp: log_handler::log"]}
{"id": "C116", "title": "Owning messages, views and arrays behave as windows on rows of bits", "statement": "Take any program that declares arrays (of 8, 16 or 32-bit elements), owning messages and views (of a message, an array, part of either), copies, assigns, converts and sets them, in any order, with definitions whose fields have different names and do not overlap themselves. If its variables are what it takes them for, fields lie inside the storages, and values go only to fields that can be set and through no constant view, then the program compiles and has no undefined behaviour; conversely a program that compiles and has none is like that, but that a field may reach beyond its storage by one bit (C12). For every program that compiles and has none, each field of each message reads the number at its bits, where every statement changes exactly the bits it is said to; and equivalent() of two messages is true just if all fields are equal.", "quantifier": "all programs over these statements (any length), all layouts of fields, all values", "why_tests_cant": "tests run a few statements on one message; aliasing between views, copies and arrays depends on the whole history", "anchors": ["include/msg/message.hpp: owner_t, view_t, msg_base, equivalent, owning, const_view, mutable_view", "include/msg/field.hpp: field_t"]}
{"id": "C117", "title": "Messages in different storages do not influence each other", "statement": "An array or owning message, a copy (auto y = x), as_owning() and an owning message made from an array or view have a storage of their own: from the declaration on, only statements that name it, or name a view of it, change it. What happens afterwards to the source of a copy does not show.", "quantifier": "all programs over these statements, all points of a program", "why_tests_cant": "absence of influence is a claim about all continuations of a program", "anchors": ["include/msg/message.hpp: owner_t constructors, view_t::as_owning"]}
{"id": "C118", "title": "A view shows the message it was made from, at all later times", "statement": "After a view of an owning message (view_t from it, as_mutable_view, as_const_view, a copy of a view) is made, every field reads the same through the view and the message, whatever is done to either later, as long as no other view is assigned to it. A view of part of a message with another definition shows that part: its field reads what the field of the message at the same bits reads.", "quantifier": "all programs over these statements, all continuations, all layouts", "why_tests_cant": "tests write once through the view and read once", "anchors": ["include/msg/message.hpp: view_t, owner_t::as_mutable_view, owner_t::as_const_view"]}
{"id": "C119", "title": "A copy has the values of its source, and the values given with it", "statement": "A copy of a message, as_owning() of a view, and an owning message made from a view read in every field what the source reads when they are made. If values are given besides (and no two fields share bits), each field named reads the last value given for it, as far as it has bits, and all others read what the source reads.", "quantifier": "all programs over these statements, all layouts, all values", "why_tests_cant": "tests copy one message", "anchors": ["include/msg/message.hpp: owner_t(S const&, Vs...), owner_t(view_t, Vs...), view_t::as_owning"]}
{"id": "C120", "title": "Structured bindings give the fields in the order of their lowest bits", "statement": "auto [a, b, ...] = m gives one value per field of the definition, in the order of the lowest bits of the (located) fields, whatever the order in which the definition lists them; each is the value that get reads.", "quantifier": "all messages, all layouts of fields, all orders of listing them", "why_tests_cant": "tests destructure one message, listed in order", "anchors": ["include/msg/message_destructure.hpp", "include/msg/message.hpp: message, nth_field_t"]}
{"id": "C121", "title": "Constant views give no way to change a message", "statement": "If a piece of program, of the variables that exist before it, names only views of constant elements (it may make other views, copies and owning messages from them, and set those), it changes no array and no owning message that exists before it.", "quantifier": "all programs over these statements", "why_tests_cant": "that no sequence of conversions leads from a constant view back to a mutable one is a claim about all sequences", "anchors": ["include/msg/message.hpp: view_t, as_const_view, const_view"]}
{"id": "C122", "title": "Concurrent calls of the interrupt controller are as if made one after the other", "statement": "Any number of threads and interrupt handlers call enable, disable, init, refresh_top_level_enables and refresh_all_enables, and read enable fields by running interrupts, at the same time; their steps (loading and storing the sets of enabled things, reading and writing the remembered register values, writing the hardware) interleave in any way that critical sections of the controller's mutex allow. Whenever no call is in progress, the controller and the hardware registers are as if the calls had been made one after the other, in an order that keeps the order of each thread and puts calls that were over before others began first. In particular, without init, the registers have what the controller remembers, a changed bit belongs to an interrupt that a call is about, and, for operations for which this holds one after the other, the enable bits match what is enabled.", "quantifier": "all programs of all numbers of threads, all schedules of their steps, all configurations of interrupts and registers", "why_tests_cant": "interleavings cannot be enumerated, and tests of the controller have one thread", "anchors": ["include/interrupt/dynamic_controller.hpp: enable, disable, init, refresh_enables, update, write_if_changed, force_write"]}
{"id": "C123", "title": "reset can be called at the same time as other calls of the interrupt controller", "statement": "The same holds when some of the calls are reset: all calls together are as if made one after the other.", "quantifier": "all programs of all numbers of threads, all schedules", "why_tests_cant": "the window between computing a register value and writing it is a few instructions", "anchors": ["include/interrupt/dynamic_controller.hpp: reset, update, force_write"]}
{"id": "C124", "title": "A running interrupt never sees half of a change of its enable field", "statement": "What an interrupt handler finds in an enable field, while other threads enable, disable, initialise or refresh, is what the field was between two whole calls: the result of the calls that came before in the order in which they began, and of nothing of a later one.", "quantifier": "all programs of all numbers of threads (without reset), all schedules, all times", "why_tests_cant": "needs two threads and a reader at the right moment", "anchors": ["include/interrupt/impl.hpp: read_field, run", "include/interrupt/dynamic_controller.hpp"]}
{"id": "C125", "title": "Concurrent calls do not block each other for good", "statement": "As long as some call of the interrupt controller is not over, some thread can go on; all calls of finitely many threads are over after finitely many rounds in which each thread gets a turn. The same holds for log statements of the binary logger, whatever the number and the types of its destinations, if destinations do not log themselves.", "quantifier": "all programs of all numbers of threads, all schedules", "why_tests_cant": "absence of deadlock is a claim about all interleavings", "anchors": ["include/interrupt/dynamic_controller.hpp", "include/log_binary/catalog/encoder.hpp: log_writer"]}
{"id": "C126", "title": "Destinations of the binary logger receive whole messages, per thread in order", "statement": "Any number of threads log through one binary logger with any number of destinations. At any time each destination has received messages one after the other, not mixed with each other (the last one perhaps not finished), with the messages of each thread in the order in which it logged them, none twice and none left out; when all log statements are over it has received all of them.", "quantifier": "all programs of all numbers of threads, all numbers and types of destinations, all schedules", "why_tests_cant": "interleavings cannot be enumerated, and tests log from one thread", "anchors": ["include/log_binary/catalog/encoder.hpp: log_writer, log_handler"]}
{"id": "C127", "title": "All destinations of a logger receive the messages in the same order", "statement": "Two destinations of one binary logger have received the same messages in the same order once all log statements are over.", "quantifier": "all programs of all numbers of threads, all schedules", "why_tests_cant": "interleavings cannot be enumerated, and tests log from one thread", "anchors": ["include/log_binary/catalog/encoder.hpp: log_writer"]}
{"id": "C128", "title": "Lines of the text logger are not mixed", "statement": "Any number of threads log through the text (fmt) logger: each destination receives whole lines one after the other.", "quantifier": "all programs of all numbers of threads, all schedules", "why_tests_cant": "interleavings cannot be enumerated, and tests log from one thread", "anchors": ["include/log_fmt/logger.hpp: log_handler"]}
{"id": "C129", "title": "A destination is one object that takes all messages", "statement": "A destination given to a logger takes the messages one after the other and keeps its own state (a counter, a position) from one message to the next, so that a destination that writes where it last stopped does not overwrite.", "quantifier": "all destinations (any state, any effect), all sequences of messages", "why_tests_cant": "tests use destinations without state, and iterators that append", "anchors": ["include/log_binary/catalog/encoder.hpp: log_handler::log_msg, log_version", "include/log_fmt/logger.hpp: log_handler::log"]}
{"id": "C130", "title": "A pending interrupt request is served by the next run", "statement": "When an interrupt service routine runs while the status field of an element, and the status and enable fields of the interrupts on the way to it, are set, all flows of the element are called in this run: whatever the status policies are, whatever else is pending and whatever further requests the hardware raises at any time during the run. (Each status field belongs to one interrupt, flows leave these fields alone, and some flow of the element has actions.)", "quantifier": "all trees of interrupts with all policies, all states of the fields, all arrival times of further requests", "why_tests_cant": "requests arrive at any point of a run, the points and trees are unbounded", "anchors": ["include/interrupt/impl.hpp: run", "include/interrupt/policies.hpp: clear_status_first, clear_status_last, dont_clear_status"]}
{"id": "C131", "title": "Requests that arrive during a run are not lost (clear_status_first, dont_clear_status)", "statement": "In the setting of C130, with the enable fields on the way to an element set and kept, and no interrupt on the way with the policy clear_status_last: however often and at whatever times the request of the element is raised while the service routine runs any number of times, the flows of the element are called after the request, at the latest in the next run.", "quantifier": "all trees of interrupts, all sequences of runs, all arrival times of requests", "why_tests_cant": "a lost request needs an arrival between two particular instructions", "anchors": ["include/interrupt/impl.hpp: run", "include/interrupt/policies.hpp: clear_status_first, dont_clear_status"]}
{"id": "C132", "title": "Requests that arrive during a run are not lost (clear_status_last)", "statement": "The same for interrupts with the policy clear_status_last: the flows of a requested element are called after the request, at the latest in the next run.", "quantifier": "all trees of interrupts, all sequences of runs, all arrival times of requests", "why_tests_cant": "a lost request needs an arrival between two particular instructions", "anchors": ["include/interrupt/impl.hpp: run", "include/interrupt/policies.hpp: clear_status_last"]}
{"id": "C133", "title": "Flows are not called more often than requested", "statement": "With clear_status_first or clear_status_last, a status field and a name that no other interrupt has, flows that leave the field alone and are listed once: each flow of an element is called at most as often as requests have set its status field (once more if it was set before): over any number of runs, whatever the other interrupts do.", "quantifier": "all trees of interrupts, all sequences of runs, all arrival times of requests", "why_tests_cant": "needs counting over all interleavings of requests and runs", "anchors": ["include/interrupt/impl.hpp: run", "include/interrupt/policies.hpp"]}
{"id": "C134", "title": "The single-header release stands for the library", "statement": "The header that gen_release_header.py prints includes no library header, and a compiler that reads it sees the lines of text that it sees when the main header is included: each once, in the same order, with the version filled in, under whatever values the conditions (#if) have, and before each line at least the system headers that it saw before; it includes only system headers that some library header includes. This holds for headers that begin with #pragma once and include each other (in cycles or not) outside conditions, and a main header with a line of text before its first include, which is outside conditions; the headers of this library are such.", "quantifier": "all trees of headers of this kind, all values of the conditions; the headers of this library", "why_tests_cant": "the release is built and compiled for one configuration; a lost or moved line shows only in programs that use it", "anchors": ["tools/gen_release_header.py: process", "include/cib/cib.hpp"]}
{"id": "C135", "title": "The single-header generator works for any guarded headers", "statement": "The same for every tree of headers that begin with #pragma once, whatever else they hold.", "quantifier": "all trees of guarded headers", "why_tests_cant": "needs other trees of headers than the one there is", "anchors": ["tools/gen_release_header.py: process, insert_system_headers_line"]}
{"id": "C136", "title": "A program can include the single-header release where it includes the library", "statement": "A program that includes the main header of the release, in any places, sees what it sees with the main header of the library (C134): the same text in the same places; a second include has no effect.", "quantifier": "all programs that include the main header any number of times; all trees of headers as in C134", "why_tests_cant": "tests include the header once in each translation unit", "anchors": ["tools/gen_release_header.py: process (#pragma once is dropped)", "include/cib/cib.hpp"]}
{"id": "C137", "title": "Each message of the program is read from its symbol", "statement": "From the line that nm -uC prints for a message, the catalog script reads the text, the argument types, the id with its type suffix, the named arguments and the tags that the program has, and for a module its text and id, whichever way the demangler writes closing brackets. Argument types are those whose angle brackets match and that name no template of the catalog encoding.", "quantifier": "all messages and modules of all programs: all texts, argument types, ids, tags and named arguments; both styles of demanglers", "why_tests_cant": "the regular expressions are greedy, and what they find depends on all of the symbol; tests have a few symbols", "anchors": ["python/cib/gen_str_catalog.py: read_input, extract, Message.from_cpp_type, Module.from_cpp_type, Tag.from_cpp_type, NamedArg.from_cpp_type, split_args", "include/log_binary/catalog/encoder.hpp: to_message, to_module"]}
{"id": "C138", "title": "The definition written for a symbol is that of its type", "statement": "For each message and module whose texts are not empty and have no negative characters, and whose argument types are those of C137, the script writes a definition of the catalog function for exactly the type in the symbol, so that the program links.", "quantifier": "all such messages and modules, both styles of demanglers", "why_tests_cant": "a definition for another type is an error of the linker only for the one message that has it", "anchors": ["python/cib/gen_str_catalog.py: make_cpp_catalog_defn, make_cpp_module_defn, Message.to_cpp_type, Module.to_cpp_type, Tag.to_cpp_type, NamedArg.to_cpp_type"]}
{"id": "C139", "title": "The format string in the XML file prints what the program's format string says", "statement": "A SyS-T decoder that prints a message with the format string of the XML file, by the rules of printf, shows what the program's format string says for the values of the arguments.", "quantifier": "all format strings of text, {} and {:...} with a flag for zeros, a width and d, x or X, with any number of arguments of integer types, characters and truth values, and all values of them", "why_tests_cant": "which conversion a field gets depends on all fields and all argument types; tests compare a few format strings with expected text and print none", "anchors": ["python/cib/gen_str_catalog.py: serialize_messages, arg_printf_spec, arg_type_encoding"]}
{"id": "C140", "title": "A line of a decoded log is what the program's format string says", "statement": "For a record of a message the Python decoder prints the severity, the module and what the program's format string says for the values of the arguments.", "quantifier": "all format strings of text, {} and {:...} with a flag for zeros, a width and d, x or X, with any number of arguments of integer types, characters, truth values and enumerations (by {}, shown by name), and all values of them; all severities, modules and JSON files", "why_tests_cant": "formatting depends on types, values and text together", "anchors": ["python/cib/mipi_messages.py: Catalog.__str__, Catalog.extract_arg, convert"]}
{"id": "C141", "title": "Enumerators in texts are shown by their names", "statement": "An enumerator that the compiler has written into a text as (E)v is shown by the decoder as the name that the JSON file has for it, or as static_cast<E>(v) if it has none; other text is left as it is; converting ends for every text, and converting again changes nothing.", "quantifier": "all texts with any number of enumerators; all JSON files with names of enumerators", "why_tests_cant": "the loop replaces all matches in each round, and replaced text can match again; tests have one enumerator", "anchors": ["python/cib/mipi_messages.py: convert_ct_enums, enum_lookup"]}
{"id": "C142", "title": "The type of an argument in the catalog is understood", "statement": "From the text of an argument's type in the JSON file the decoder takes how the argument is sent, its type or enumeration, the underlying type and the size; the XML file gets the conversion of the underlying type of an enumeration.", "quantifier": "all types of arguments: arithmetic types and enumerations of any name", "why_tests_cant": "names of enumerations may hold any brackets and commas", "anchors": ["python/cib/mipi_messages.py: Catalog.extract_arg", "python/cib/gen_str_catalog.py: arg_type_encoding"]}
{"id": "C143", "title": "Texts in the XML file are read back", "statement": "An XML reader takes from the XML file the format string of each message and the text of each module as they were written.", "quantifier": "all texts", "why_tests_cant": "escaping matters for a few sequences of characters only", "anchors": ["python/cib/gen_str_catalog.py: _escape_cdata, serialize_messages, serialize_modules"]}
{"id": "C144", "title": "The JSON file is read back as it was written", "statement": "An entry of a message or a module in the JSON file, read by a later build, is the entry that was written, with text, argument types, id, named arguments and tags, when each named argument is a place in the text (0 <= begin <= end) or a reference (end = begin - 1). A JSON file written without extra JSON files, given as stable file to the next build, gives the entries of the build and those that were remembered, and no others. The type of an entry is flow if its text begins with flow., else msg. Entries without named arguments and tags, as older versions wrote them, are read with none.", "quantifier": "all messages, modules, enumerations and remembered entries", "why_tests_cant": "all texts and all numbers of arguments, places and tags", "anchors": ["python/cib/gen_str_catalog.py: Message.to_json, Message.from_json, NamedArg.to_json, NamedArg.from_json, Tag, Module, write_json, read_stable"]}
{"id": "C145", "title": "Extra JSON is copied", "statement": "What extra JSON files have for a key is in the generated JSON file; enumerators in them are found by the decoder unless the program has an enumerator of that enumeration with the value.", "quantifier": "all lists of extra JSON files, all keys and values", "why_tests_cant": "files are merged by key, so what is kept depends on the other files", "anchors": ["python/cib/gen_str_catalog.py: write_json", "docs/logging.adoc: INPUT_JSON"]}
{"id": "C146", "title": "The JSON file has the messages of the program", "statement": "Each message and module of the program has its entry in the JSON file, whatever extra JSON files are given.", "quantifier": "all messages, modules and lists of extra JSON files", "why_tests_cant": "extra files may have any keys", "anchors": ["python/cib/gen_str_catalog.py: write_json"]}
{"id": "C147", "title": "The decoder finds the enumerators of the program", "statement": "The JSON file is written when the enumerations in extra JSON files are dictionaries of dictionaries; the decoder then finds in it, for each enumeration of the program and the value of each of its enumerators, the name of an enumerator of that enumeration with that value: its own name if no other has the value.", "quantifier": "all enumerations with different names, any enumerators, negative values included; all extra JSON files", "why_tests_cant": "keys are numbers in the script and strings in the file, where a key can be twice; tests have one enumeration and no extra file with the same one", "anchors": ["python/cib/gen_str_catalog.py: write_json", "python/cib/mipi_messages.py: enum_lookup"]}
{"id": "C148", "title": "The JSON file has one entry for each id", "statement": "In each JSON file of a history of builds an id has one entry.", "quantifier": "all histories of builds, each with the JSON file of the one before as stable file", "why_tests_cant": "old and new entries are compared as a whole; it takes two builds with a change between them", "anchors": ["python/cib/gen_str_catalog.py: write_json, main"]}
{"id": "C149", "title": "Reserved ids are the ids that the user wrote", "statement": "A list of numbers and ranges, in decimal or hexadecimal digits and with blanks around them, reserves the numbers in it and no others; what the script prints for a list of ranges is read as these ranges; a text that is no such list is refused.", "quantifier": "all lists of numbers and ranges, all other texts", "why_tests_cant": "all texts; tests have a few", "anchors": ["python/cib/gen_str_catalog.py: Intervals"]}
{"id": "C150", "title": "Forgetting old ids disregards the stable file", "statement": "With the option to forget old ids a build gives the ids that it would give without a stable file, and the JSON file lists the messages of the build and no others.", "quantifier": "all stable files, messages and reserved ids", "why_tests_cant": "the effect of the option is in two places of the script", "anchors": ["python/cib/gen_str_catalog.py: main, read_input, assign_ids", "docs/logging.adoc: FORGET_OLD_IDS"]}
{"id": "C151", "title": "The XML file refers to the enumerations of the arguments", "statement": "For each argument of a message whose type is an enumeration that the generated file knows, the entry of the message in the XML file refers to the enumeration and says which argument it is; it refers to no others. What it refers to leads to that enumeration in the file.", "quantifier": "all messages with any number of arguments, all enumerations", "why_tests_cant": "all lists of arguments; tests have one enumeration", "anchors": ["python/cib/gen_str_catalog.py: main, serialize_messages, arg_type_encoding"]}
{"id": "C152", "title": "The generated C++ declares the scoped enumerations it names", "statement": "The generated C++ file has a declaration with the underlying type for each scoped enumeration that is the type of an argument, once for each, and refuses enumerations of unnamed namespaces, when each enumeration has one underlying type.", "quantifier": "all messages with any arguments; enumerations of any name", "why_tests_cant": "names are split at ::, which does not tell classes from namespaces; all names", "anchors": ["python/cib/gen_str_catalog.py: make_cpp_scoped_enum_decl, main, write_cpp"]}
{"id": "C153", "title": "The lines of decoded logs are what the log statements say", "statement": "A program that is built with the string catalog (its symbols are read by the script, the generated C++ file is compiled into it) links, and for any sequence of its log statements the decoder, given the generated JSON file and what the program wrote, prints for each statement, in order, the text with the values of its arguments in place (the name of an enumerator for an enumeration), and nothing else; statements with arguments are shown with level and module. It is assumed that the hash of the script tells the messages apart, that ids in the stable file and in the program do not contradict each other, that ids fit the record, that enumerations have different names, and that extra JSON files do not have messages or modules.", "quantifier": "all programs: any number of statements, formats, arguments, modules, enumerations; all stable files and reserved ids; all sequences of statements", "why_tests_cant": "it takes the whole chain from symbols to the decoder; tests of each step use made-up input of the next", "anchors": ["python/cib/gen_str_catalog.py: main", "python/cib/log_decode.py", "python/cib/mipi_messages.py", "include/log_binary/catalog/encoder.hpp", "include/log_binary/catalog/mipi_builder.hpp"]}
{"id": "C154", "title": "The generated C++ file has the definitions and nothing else", "statement": "What a compiler reads in the generated C++ file, comments left out, is the headers that were asked for, the declarations of enumerations and, for each message and module, one definition with its type that returns its id.", "quantifier": "all messages and modules with any texts, types and ids, all lists of headers", "why_tests_cant": "texts of messages are copied into comments; all texts", "anchors": ["python/cib/gen_str_catalog.py: write_cpp, make_cpp_catalog_defn, make_cpp_module_defn", "python/cib/gen_utils.py: disclaimer"]}
{"id": "C155", "title": "Options given to gen_str_catalog reach the script", "statement": "For a call of gen_str_catalog with the required options and any of the others, in any order, the script runs with what they ask for: the symbols of the libraries, the paths of extra and stable JSON files and headers, the output files, client name, version, GUIDs, highest module id, reserved ids, the flag to forget ids; what is not given has its default, and nothing else has an influence on the settings. A call whose numbers cannot be read ends with an error.", "quantifier": "all lists of options and values, all variables where the function is called", "why_tests_cant": "values that cmake takes for false, and variables of the caller, are not among those that tests use", "anchors": ["cmake/string_catalog.cmake: gen_str_catalog", "python/cib/gen_str_catalog.py: parse_cmdline, Intervals"]}
{"id": "C156", "title": "The file of generate_flow_graph is the picture of the flow", "statement": "The file that generate_flow_graph makes is the picture of the part of the flow between the two actions, line by line, with gcc and with clang, whatever else the compiler prints (also other pictures before it), as long as the mark of the end does not occur again after it.", "quantifier": "all flows, names and conditions; all outputs of the compiler before and after the picture", "why_tests_cant": "the test has one flow and needs a program that is mostly not installed", "anchors": ["cmake/debug_flow.cmake: generate_flow_graph", "include/flow/debug_builder.hpp: build", "include/flow/viz_builder.hpp: visualize"]}
{"id": "C157", "title": "A linear search answers the same on ARC processors", "statement": "The lookup of a linear search table with keys of any integral or enumeration type and values of any size gives the value of the last entry with the key, or the default value, at compile time, at run time on ARC (where the selection is written in assembler) and at run time elsewhere. The same holds for keys of floating point type.", "quantifier": "all key types, lists of entries, keys, sizes of values", "why_tests_cant": "tests run on one processor, at compile time, with a few keys", "anchors": ["include/lookup/detail/select.hpp: select, optimized_select", "include/lookup/linear_search_lookup.hpp: operator[]"]}
{"id": "C158", "title": "The data of the lookup benchmarks is one cycle through all keys", "statement": "When gen_map_data.py ends, the C++ file declares an array of the type and size asked for, and the numbers in it are pairs with distinct keys that are values of the type, such that repeated lookup (k = map[k], as in the benchmarks, with any table made by the library) visits every key once before it comes back to the first. It ends as soon as enough different numbers have been drawn.", "quantifier": "all sizes, both types, all sequences of random numbers (below 2^30 for uint32, as the distribution used never gives more), all orders in which Python lists a set, all keys to start from", "why_tests_cant": "the data is random; benchmarks do not check what they look up", "anchors": ["tools/benchmark/gen_map_data.py: gen_table, main", "benchmark/lookup/algorithms/pseudo_pext.hpp: bench_pseudo_pext"]}
{"id": "C159", "title": "An interrupt runs what the components added to its flows", "statement": "When the firmware compiles, interrupt names and status fields are each used once, and no action changes a field of the interrupts: running the interrupts of a number calls actions only of interrupts whose enable and status fields read true, as those of all interrupts above do, and to whose flows, or those of an interrupt below, some component added an action. Each interrupt that fulfils this, and that lists each flow once, runs its flows one after the other for each nexus; through a flow it calls the actions that the configuration of the nexus adds, each once and in the declared order, when none is under a runtime condition. An action with its own `*` under runtime conditions is called exactly when their predicates hold, for predicates that neither actions nor clearing status fields change; one added by a `*` before a group is always called. An interrupt without such work leaves everything as it is.", "quantifier": "all configurations of any number of nexus types, interrupt trees, hardware states, actions and predicates, orders of containers", "why_tests_cant": "needs all parts together: configuration, flow order, interrupt tree and hardware state", "anchors": ["include/interrupt/manager.hpp: manager", "include/interrupt/impl.hpp: run", "include/nexus/nexus.hpp: service", "include/flow/func_list.hpp: operator()"]}
{"id": "C160", "title": "A request gets its response once, and none is lost", "statement": "Each start of `send(f, as...) | then_receive<Name, Types...>(g, bs...)` calls f once with as; g is called for it at most once: when a trigger Name with arguments of Types runs after the start, with the arguments of the first such run followed by bs, and else never. The wait begins before f is called, so a response that comes while f runs is not lost, also if f hands a message to a service whose callback runs the trigger. All that threads, called functions and callbacks do is done as often as it is due, each thread's own actions in their order.", "quantifier": "all programs of any number of threads and interrupts that start senders, run triggers and hand over messages, all interleavings", "why_tests_cant": "interleavings of threads and nested calls are unbounded", "anchors": ["include/msg/send.hpp: send", "include/msg/send.hpp: then_receive", "include/msg/send.hpp: pipeable"]}
{"id": "C161", "title": "Both forms of then_receive are the same", "statement": "`then_receive<Name, Types...>(send(f, as...), g, bs...)` gives the same sender as `send(f, as...) | then_receive<Name, Types...>(g, bs...)`.", "quantifier": "all names, types, functions and bound values", "why_tests_cant": "whether an overload is chosen is seen only by compiling; the wrong one compiles", "anchors": ["include/msg/send.hpp: then_receive"]}
{"id": "C162", "title": "A callback reads the message that was handed over, however it takes it", "statement": "The condition and the function of a callback may take the message as `msg::const_view<M>`, as `msg::owning<M>`, as any view or owning message, or as the data itself (`auto`), with or without the nexus as template argument. Whenever this compiles, each field read in the function is the number at the field's bits in the array, span, owning message or view handed over. For data of 32-bit words with room for the message it always compiles.", "quantifier": "all message definitions, all arrays, spans, owning messages and views of elements of 8, 16 or 32 bits with room for the message, all these ways to take it", "why_tests_cant": "which of six forms is chosen depends on the types of data and function; tests try few pairs", "anchors": ["include/msg/message.hpp: call_with_message", "include/msg/message.hpp: view_t", "include/msg/message.hpp: owner_t", "include/msg/callback.hpp: handle"]}
{"id": "C163", "title": "The tables of benchmark results show what was measured", "statement": "From a file with the output of lookup benchmarks, parse_bench_data.py makes three tables. They have a row for each data set with times, in the order of the file, and a column for each algorithm with times, sorted. A cell shows the time printed for dependent lookups, for independent lookups, or the size printed, of that data set and algorithm, and is empty when there is none.", "quantifier": "all result files of any number of runs; names without colons; all ways to read numbers", "why_tests_cant": "the script has no tests; results differ from machine to machine", "anchors": ["tools/benchmark/parse_bench_data.py: parse_file, generate_csv_tables, main", "benchmark/lookup/pseudo_pext.cpp: main"]}
{"id": "C164", "title": "The description of the interrupts tells what was declared", "statement": "config() of the manager gives a text that is the declaration of the interrupts: each interrupt by its kind with its name, number, priority, fields, policies, and flows or shared interrupts, in the order in which they were declared. Managers with different interrupts have different texts.", "quantifier": "all managers with any number of interrupts, shared to any depth, with any names, numbers, types and flows", "why_tests_cant": "the tests compare the texts of a few interrupts; the text is meant for tools that are not part of the library", "anchors": ["include/interrupt/manager.hpp: manager::config", "include/interrupt/config.hpp: mcu_control_config::config, field_control_config::config, element_irq::config, container_irq::config", "include/interrupt/concepts.hpp: config_string1, config_string_for"]}
{"id": "C165", "title": "A decoder finds messages, modules and enumerations in the XML file", "statement": "In the XML file of the string catalog, an entry is for an id if they agree in the bits of its mask. For the id of a message a decoder finds, among the short messages if it has no arguments and else among the others, an entry with the format string made for the message (C139), and the reference to an enumeration. For the id of a module it finds the text of the module, and for the number an entry refers to, the name of that enumeration with its enumerators and values. For other ids it finds nothing. The file also names the client, its id and the version.", "quantifier": "all lists of messages and modules, all enumerations; different messages of one kind have different ids, and so have modules", "why_tests_cant": "the tests of the catalog compare a few small files; ids depend on all messages of a program", "anchors": ["python/cib/gen_str_catalog.py: write_xml, serialize_messages, serialize_modules, serialize_enums, serialize_guids"]}
{"id": "C166", "title": "Which messages a callback can be used with", "statement": "A matcher can be used with a message object exactly when the message has a field, of the same name, for each field that the matcher mentions anywhere, also in parts that are negated or never evaluated; with raw storage it can always be used. It then has an answer for every content: that of its formula, with the values of the message's own fields of these names, or on raw storage with the bits where the mentioned fields are.", "quantifier": "all matchers of comparisons, predicates, not, and, or; all lists of message fields (legal and within the storage), all contents, element widths 8, 16 and 32", "why_tests_cant": "a test compiles a few matchers; what does not compile cannot be in a test", "anchors": ["include/msg/field_matchers.hpp: rel_matcher_t, pred_matcher_t", "include/msg/message.hpp: get, owning, const_view", "include/msg/callback.hpp: callback::is_match"]}
{"id": "C167", "title": "Logs of older builds are shown with the JSON file of the newest build", "statement": "In a history of builds, each of which has the JSON file of the one before as stable file and does not forget, a statement keeps its message id and its module id as long as its text, the types of its arguments and its module stay the same, also when it is absent in between, and these ids stand for nothing else in any later build. A log to which programs of several builds have written is shown with the JSON file of the newest: each line says what the statement said that wrote it, also for statements that the newest build does not have; enumerators are shown with the names of the newest build. It is assumed for each build what C153 assumes, and that no explicit id is given to a message or module that has another one in the stable file; the hash may be another one in each build.", "quantifier": "all histories of builds of any length, all programs in them, all reserved ids and extra JSON files, all sequences of records of these programs", "why_tests_cant": "a test runs the script once or twice on one small list of messages; the ids depend on all earlier builds", "anchors": ["python/cib/gen_str_catalog.py: read_stable, assign_ids, write_json, main", "python/cib/log_decode.py: read_logs", "docs/logging.adoc stable ids"]}
{"id": "C168", "title": "Interrupts that are turned off do not run, and those that are on run", "statement": "While a firmware runs interrupts with the interrupt manager and turns resources, flows and interrupts on and off with the dynamic controller, also from flows that run in an interrupt: after a resource, an interrupt by its name, or all flows of an interrupt have been turned off, and as long as nothing turns them on again, no flow is called of the interrupts concerned nor of the interrupts below them; when an interrupt is run, an interrupt below it calls all its flows if from the top-level interrupt down to it nothing is turned off and all status fields are set, and none of its flows otherwise. One flow that is on keeps all flows of its interrupt running. It is assumed that names, resources and flows are different things, that enable fields have bits of their own, and that a field reads true when all its bits are set and false when none is.", "quantifier": "all interrupt configurations, all register layouts, all sequences of calls of the controller, of changes of fields and of interrupts, all behaviours of flows that call the controller", "why_tests_cant": "a test has one configuration and turns a few things on and off; controller and manager are tested apart from each other, with mocks for the registers", "anchors": ["include/interrupt/dynamic_controller.hpp: enable, disable, turn_on_resource, turn_off_resource, enable_by_name, disable_by_name", "include/interrupt/impl.hpp: run, read_field", "include/interrupt/manager.hpp: run", "docs/interrupts.adoc: Dynamic interrupt control, Resources"]}
{"id": "C169", "title": "Building a flow never runs out of room", "statement": "While a flow or a sequencer is built, nothing is inserted into a full container: the graph has room for all steps and for all successors of each step, the set of sources and the sorted list have room for all steps, in whatever order the sources are taken; building gives what it gives with containers without limits.", "quantifier": "all programs of flow or sequencer fragments of any size, all orders in which sources are taken", "why_tests_cant": "the sizes are computed from the flow by a formula; a test has a few small flows, the number of edges of one step is not bounded", "anchors": ["include/flow/graph_common.hpp: edge_size", "include/flow/graph_builder.hpp: build, make_graph, get_sources, topo_sort"]}
{"id": "C170", "title": "Callbacks are asked at their turn", "statement": "When callbacks change what conditions read, each callback of a service has one turn, and is called exactly when its condition holds at its turn, with what the callbacks before it have done; the result is true exactly when one was called, and there is one error line exactly when none was. With the operands from left to right the turns are in the order of registration. An indexed service calls the same callbacks in the same order, when the conditions are as in C25.", "quantifier": "all programs with a state of any type, all conditions that read it and callbacks that change it, all lists of callbacks, all messages", "why_tests_cant": "a test uses callbacks that record a call; whether a callback spoils the choice of later ones depends on the combination", "anchors": ["include/msg/callback.hpp: callback", "include/msg/handler.hpp: handler", "include/msg/detail/indexed_handler_common.hpp: indexed_handler", "include/msg/detail/indexed_builder_common.hpp: invoke_callback"]}
{"id": "C171", "title": "A log file that is cut or spoilt is noticed", "statement": "The decoder goes through a file without an error exactly when the file is a sequence of complete records, each with a known id and, in a catalog record, a known module and arguments as the catalog says; it prints the values which the bytes stand for. Any other file ends with an error after the records that stand before the first place which is no record.", "quantifier": "all catalogs, all files of bytes", "why_tests_cant": "a test decodes some good files; that no bad file is accepted, and where a bad one stops, is about all files", "anchors": ["python/cib/log_decode.py: construct_msg, read_logs", "python/cib/mipi_messages.py: convert, Short32, Short64, Catalog.extract_arg, read_struct"]}
{"id": "C172", "title": "Logs do not depend on the byte order of the host", "statement": "The bytes of a log statement, and of the version, that reach the file are the same whether the host is little-endian or big-endian, if the destination writes the words it is given one after the other, each as four bytes in a fixed way.", "quantifier": "all log statements, both byte orders, all ways of writing a word as four bytes", "why_tests_cant": "tests run on one host; that no destination can make both kinds of record right is about all destinations", "anchors": ["include/log_binary/catalog/mipi_builder.hpp: builder<short32_msg_t>::build, catalog_builder::build, pack_arg", "include/log_binary/catalog/encoder.hpp: to_span"]}
{"id": "C173", "title": "Log files can be joined", "statement": "If the decoder goes through a log file without an error, any other file can be appended to it: the decoder prints the lines of the first file and then what it prints for the second one alone, and ends as it ends for the second one alone.", "quantifier": "all catalogs, all pairs of files of bytes of which the first is decoded without an error", "why_tests_cant": "a test joins some files; this is about all pairs of files", "anchors": ["python/cib/log_decode.py: construct_msg, read_logs", "python/cib/mipi_messages.py: Short32, Short64, Catalog"]}
{"id": "C174", "title": "The decoder writes where it is told to", "statement": "Without --output, log_decode prints the lines of the records before the first error, and changes no file. With --output FILE it writes these lines to FILE and prints nothing.", "quantifier": "all arguments, files and catalogs", "why_tests_cant": "a test looks at some calls; that a file is written for all calls is about all of them", "anchors": ["python/cib/log_decode.py: parse_cmdline, main"]}
{"id": "C175", "title": "A run of the catalog generator writes all of its files or none", "statement": "A run of the catalog generator that ends well has written the C++, JSON and XML files that it was asked for, under different names, and no others. A run that fails leaves every file as it was.", "quantifier": "all symbols, stable files, options, file names and contents of the files before", "why_tests_cant": "tests run the script where it succeeds; what is left behind by a failure depends on where it fails", "anchors": ["python/cib/gen_str_catalog.py: main, write_cpp, write_json, write_xml, check_module_limit, make_cpp_scoped_enum_decl"]}
{"id": "C176", "title": "Exactly which indexed services fit in their tables", "statement": "An indexed service with index fields compiles exactly if the conditions of its callbacks, taken apart into alternatives, are at most 256 and compare each index field by == or != with at most 512 different values; then it does what it would do with tables without limits, so no callback is lost for lack of room. In particular no indexed service has more than 256 callbacks. (Compiles as far as the sizes of the tables go.)", "quantifier": "all lists of callbacks with any conditions, all non-empty lists of index fields, all messages", "why_tests_cant": "tests have services with a few callbacks; whether a limit is found by the compiler or loses callbacks shows only beyond it", "anchors": ["include/msg/detail/indexed_builder_common.hpp: temp_index, index_spec, create_temp_indices", "include/msg/indexed_builder.hpp: build"]}
{"id": "C177", "title": "With the validator, an indexed service is refused exactly if a callback is never called", "statement": "A program that chooses never_matcher_validator compiles an indexed service exactly if each alternative of each callback's condition, together with the required values of the definition, is met by some message.", "quantifier": "all callbacks with any conditions and definitions, all index fields", "why_tests_cant": "tests have two contradictions that are found; whether all contradictions and only contradictions are found ranges over all conditions", "anchors": ["include/msg/detail/indexed_builder_common.hpp: never_matcher_validator, validate_matcher, invoke_callback", "include/match/and.hpp: simplify"]}
{"id": "C178", "title": "The binary log keeps level, module and unit", "statement": "A reader of the binary log finds for each message with arguments the level, the module id and the unit with which it was logged, whatever enumeration the level is of and whatever number of type unit_t the function for the unit gives.", "quantifier": "all levels, module ids, units, ids and arguments; all catalogs that know the message", "why_tests_cant": "tests log with levels and units that fit; values that do not fit are a matter of the numbers that a program has at run time", "anchors": ["include/log_binary/catalog/encoder.hpp: log_msg", "include/log_binary/catalog/mipi_builder.hpp: catalog_builder::build", "include/log_binary/catalog/mipi_messages.hpp: unit_t, severity_f, unit_f, module_id_f", "include/log/unit.hpp: get_unit"]}
{"id": "C179", "title": "The order of matchers is transitive", "statement": "If a <= b and b <= c for matchers a, b and c then a <= c, and a < c if one of the two is a <; with the comparisons that C++ derives from `<=>`.", "quantifier": "all matchers a, b and c, of whatever size, of predicates, of comparisons of fields and of terms of the user's own that are ordered transitively themselves", "why_tests_cant": "std::partial_ordering promises a relation on all triples of matchers; tests compare pairs", "anchors": ["include/match/ops.hpp: operator<=>", "include/match/implies.hpp: implies", "include/match/and.hpp: and_t", "include/match/or.hpp: or_t", "include/msg/field_matchers.hpp: rel_matcher_t", "docs/match.adoc"]}
{"id": "C180", "title": "A conjunction of matchers is less than its terms, a disjunction greater", "statement": "`all(a, b, ...)` is less than or equivalent to each of a, b, ..., and `any(a, b, ...)` greater than or equivalent to each of them; so are `a and b` and `a or b`.", "quantifier": "all lists of matchers, of whatever length", "why_tests_cant": "docs/match.adoc: less means that fewer values match, as in a Boolean algebra; tests compare a few pairs", "anchors": ["include/match/and.hpp: all, and_t", "include/match/or.hpp: any, or_t", "include/match/ops.hpp: operator<=>", "include/match/bin_op.hpp: de_morgan", "docs/match.adoc"]}
{"id": "C181", "title": "Lookups take constant time", "statement": "A lookup in the table that lookup::make gives compares the key with at most four entries, however many entries there are: with each of them if there are at most four, and with at most three otherwise.", "quantifier": "all sets of entries that lookup::make accepts, all keys", "why_tests_cant": "the bound holds for the mask and the run lengths found for every set of keys; tests build a few tables and look at results only", "anchors": ["include/lookup/lookup.hpp: make", "include/lookup/linear_search_lookup.hpp: operator[]", "include/lookup/pseudo_pext_lookup.hpp: operator[], make", "include/lookup/strategies.hpp: strategies"]}
{"id": "C182", "title": "Indexed services find their callbacks with few comparisons", "statement": "With the tables that lookup::make gives, an indexed service does for every message what it would do with maps from the values of the index fields to sets of callbacks: no callback is missed or added because two values share a place in a table. Finding the callbacks of a message compares at most four keys for each index field, however many callbacks there are. The tables are made, so that the program compiles as far as they go, if the index fields have types of 8 or 16 bits and the service has room (C176). Conditions compare fields with values of their types, as the types of matchers enforce.", "quantifier": "all lists of index fields, all lists of callbacks whose conditions compare fields with values of their types, all messages", "why_tests_cant": "tables and masks are computed from the values in all callbacks of a project; tests have a few services with a few values", "anchors": ["include/msg/indexed_builder.hpp: get_entry, make_input, build", "include/msg/detail/indexed_handler_common.hpp: index, indexed_handler::handle", "include/msg/indexed_handler.hpp: indices", "include/lookup/lookup.hpp: make"]}
