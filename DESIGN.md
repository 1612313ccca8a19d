# Design of the Lean model of compile-time-init-build

## Trusted base

* The Lean 4.33.0 kernel.
* The axioms `propext`, `Classical.choice` and `Quot.sound`, and nothing else. No own axioms,
  no `sorry`, no `native_decide`, no `bv_decide`. `AXIOMS.md` lists the axioms of each theorem named
  in `MANIFEST.json` (output of `#print axioms`). `decide +kernel` is used for concrete witnesses; it
  adds no axiom, the kernel evaluates the decision procedure.
* The faithfulness of the hand-written model. Every model definition cites the file and lines
  in `/repo` it follows, and says what it leaves out.

Not trusted and not used: any compiled C++ (no build was possible here; the code was read as text).

## Layout

* `lean/Verif/<Area>/Model.lean` – functions that follow the code, one per function in the code.
* `lean/Verif/<Area>/Spec.lean` – small independent specification (where it is more than a line).
* `lean/Verif/<Area>/Lemmas.lean` – helper lemmas.
* `lean/Verif/<Area>/Props.lean` – the property theorems, named after the property id
  (`C01_…`), each with an `example` meeting its hypotheses non-trivially.
* Where the code violates a property: a theorem `Cnn_violated…` proves the negation with a concrete
  witness, and `Cnn_…_partial` proves the property under the exact guard that avoids the defect.

## What is modelled, and how each property is proved

Areas and the code they model:

| Area | Code | Model |
|------|------|-------|
| Match | `include/match/*.hpp`, `include/msg/field_matchers.hpp` (operators, implication, negation) | inductive type of matcher expressions; `simplify`, `negate`, `implies`, `cost`, `sum_of_products`, `<=>` as total functions following the overload sets |
| Bits | `include/msg/field.hpp` (locators) | storage = list of `BitVec W`, values = `BitVec`, shifts ≥ width and out-of-range indices are the distinct outcome `none` |
| Message | `include/msg/message.hpp` | list of fields; set/get/construct/extend/pack/relaxed |
| Handler | `include/msg/callback.hpp`, `handler.hpp`, `detail/indexed_builder_common.hpp`, `indexed_handler.hpp`, `detail/separate_sum_terms.hpp`, `remove_terms`, `index_terms` | callbacks as matcher expressions + id; index as association list from key to set of callback indices; `Room`: the same with tables of the given size |
| Lookup | `include/lookup/*.hpp` | exact integer arithmetic on `Nat` modulo the width; arrays as lists with checked access |
| Flow | `include/flow/**` | DSL tree, graph as node/edge lists, worklist sort with an arbitrary choice of container order, condition handling, execution; `Room`: the same with containers of the computed size |
| Seq | `include/seq/impl.hpp` | state machine with an arbitrary oracle for step answers and an explicit call trace |
| Interrupt | `include/interrupt/*.hpp` | configuration tree, static run, dynamic controller with register bit positions |
| Log | `include/log_binary/catalog/*.hpp`, `python/cib/mipi_messages.py`, `python/cib/log_decode.py` | byte lists, encoder and decoder |
| Catalog | `python/cib/gen_str_catalog.py` | id assignment |
| Nexus | `include/nexus/**` | configuration tree, gathering of extensions, builders, conditionals |
| Receive | `include/msg/field.hpp` options, `field_matchers.hpp`, `message.hpp` name matchers, `callback.hpp` | matchers of field types evaluated on raw storage and on message objects, on top of Match, Bits, Message and Handler |
| Viz | `include/flow/viz_builder.hpp`, `debug_builder.hpp`, `graph_common.hpp` | texts of the pictures of flows, on top of Flow; readers of the two picture languages as specification |
| Front | `include/log/*.hpp`, `log_fmt/logger.hpp`, `log_binary/catalog/encoder.hpp` (`log_handler`, `log_writer`), `flow/log.hpp`, `flow/func_list.hpp`, `cib/top.hpp` | log statements, environments and scopes, loggers and destinations, fatal errors, versions, logs of flows, the main program; on top of Log, Flow and Nexus |
| Explain | `match/*.hpp` (`describe`, `describe_match`), `msg/field_matchers.hpp` (`describe…`), `msg/callback.hpp`, `msg/handler.hpp`, `msg/detail/indexed_handler_common.hpp`, `indexed_builder_common.hpp` (`invoke_callback`), `msg/message.hpp` (`describe`) | texts of matchers and messages, logs of services; readers of these texts as specification; on top of Match, Handler, Receive and Front |
| Object | `msg/message.hpp` 336-682 (`owner_t`, `view_t`, `equivalent`), `msg/message_destructure.hpp` | programs that declare, copy, assign, view and set messages; memory of arrays; rows of bits as specification; on top of Bits and Message |
| Conc | `interrupt/dynamic_controller.hpp` 266-530 and `interrupt/impl.hpp` 12-39 in small steps, with the critical sections | threads with programs of calls; a schedule gives turns; on top of Interrupt |
| Sink | `log_binary/catalog/encoder.hpp` 84-147 (`log_writer`, `log_handler`), `log_fmt/logger.hpp` 48-79 | destinations under several threads, and destinations with a state; on top of Conc |
| Pending | `interrupt/impl.hpp` 12-43, 63-104, `interrupt/policies.hpp` 22-55 with hardware that raises requests between any two accesses | `run` of Interrupt with a list of coming requests; equal to it when there are none (`run_quiet`) |
| Release | `tools/gen_release_header.py`; the include lines of all headers (`Repo.lean`) | headers as lists of lines; the C++ preprocessor with `#pragma once` and conditions as specification |
| Symbols | `python/cib/gen_str_catalog.py` 17-37, 65-252, 287-297, 342-390: reading lines of `nm -uC`, writing types; the types of `encoder.hpp` 53-69 as specification | texts as lists of characters; regular expressions as lists of matches in the order in which backtracking tries them |
| Render | `python/cib/gen_str_catalog.py` 524-593, 729-735: format strings and texts of the XML file; `python/cib/mipi_messages.py` 54-75, 140-149, 159-202: lines of text, enumerators in texts, argument types | texts as lists of characters; `str.format`, `printf`, `fmt`, CDATA as functions on texts (environment) |
| Json | `python/cib/gen_str_catalog.py` 40-135, 147-284 (entries of the JSON file), 359-369, 396-398, 452-500, 533-545, 581-582, 752-781: JSON files, reserved ids, enumerations in the C++ and XML file; `python/cib/mipi_messages.py` 54-56 | JSON values as trees, dictionaries as association lists; writing and reading of JSON text as the function that makes keys strings and keeps the last of equal keys (environment) |
| Whole | `gen_str_catalog.py` 742-797 (`main`), `log_decode.py`, `mipi_messages.py` 19-56, 114-124, 158-202 on the JSON file itself; composed of the models of Symbols, Catalog, Json, Log, Render | that the linker takes the definition whose type is equal; a numbering of suffix, named arguments and tags (`Coding`, which exists) |
| Cpp | `gen_str_catalog.py` 372-421, `gen_utils.py` 6-16 | how a compiler splits lines, joins them at backslashes and leaves out comments (environment) |
| Args | `cmake/string_catalog.cmake` (arguments of the script), `gen_str_catalog.py` 40-49, 642-726 | `cmake_parse_arguments`, lists, `if(<variable>)`, `list(APPEND)`, real paths of cmake; `argparse` (environment) |
| Extract | `cmake/debug_flow.cmake` 75-90, `include/flow/debug_builder.hpp` 46-49 | `awk`, `tac`, `sed`, `tail`, `head` with the arguments that are used; how compilers show a line feed (environment) |
| Select | `include/lookup/detail/select.hpp`, `include/lookup/linear_search_lookup.hpp` 15-23 | the instructions `cmp`, `mov.eq`, `mov.lo` of ARC; conversions of C++ to `uint32_t` (environment) |
| Bench | `tools/benchmark/gen_map_data.py`, the loop of `benchmark/lookup/algorithms/pseudo_pext.hpp` | random numbers as a list; order of a Python set is any; formats `:08x` and decimal (environment) |
| Serve | Interrupt, Nexus and Flow put together: `interrupt/manager.hpp`, `interrupt/impl.hpp`, `nexus/nexus.hpp` 25-32, `flow/func_list.hpp` 21-52 | actions and predicates are any functions of the state |
| Send | `msg/send.hpp`; threads, interrupts and nested calls as interleaved lists of things to do; with Handler for services | `async::incite_on`, `trigger_scheduler`, `run_triggers` by their meaning (environment) |
| Call | `msg/message.hpp` (`call_with_message`, constructors and deduction guides of views and owning messages), `msg/callback.hpp` | which form of a message a function gets, by types; `stdx::span` as documented; on top of Object |
| Exact | none of its own | theorems that say of every case whether a partial claim holds there (C12, C57, C60, C145, C149) |
| Exact (Overlap) | none of its own | C14, C18, C22, C59 for definitions in which fields, or locations of one field, share bits |
| Exact (Init, Match, Pending) | none of its own | exactly what initialisation leaves in the registers (C43, C44, C65), which comparisons imply which (C05, C58), which requests are served (C132) |
| Results | `tools/benchmark/parse_bench_data.py` | the file as its lines, tables as rows of cells; `float` and `int` of Python are parameters; ASCII white space |
| Dump | `interrupt/manager.hpp` 59-62, `interrupt/config.hpp` 38-63, 146-148, 184-186, `interrupt/concepts.hpp` 82-101 | types by their `name` or the text of the compiler; texts as lists of characters |
| Xml | `python/cib/gen_str_catalog.py` 503-530, 572-637 | the file as a tree of elements; attributes as given to the library, texts of elements as in the file |
| Control | `interrupt/impl.hpp`, `config.hpp`, `policies.hpp`, `manager.hpp`, `dynamic_controller.hpp` on one machine | enable fields are read from the registers that the controller writes; flows are any function of the machine to a list of commands; a call event has the path of interrupts with the machine at the time each was entered |
| React | `msg/callback.hpp`, `handler.hpp`, `detail/indexed_handler_common.hpp`, `detail/indexed_builder_common.hpp` with callbacks that have effects | predicates, fields of the message and callables are any functions of a state of any type |

Not modelled: C++ template instantiation and overload resolution themselves (the model takes the overload
that the language picks; ambiguities resolve to the same value in each case looked at), the stdx library
(`cx_map`, `cx_multimap`, `bitset`, `tuple`, `ct_format` are taken to behave as their documented
mathematical objects), the log output text, compile-time performance, real memory-mapped I/O, and
the `conc` library (its critical sections are trusted to give mutual exclusion; see Conc).

Per property:

* C01 `simplify`-soundness by structural induction, with leaves = predicates. Specification: Boolean evaluation of the raw formula.
* C02 same engine with relational leaves. The code's implication rule for two `!=` on one field is unsound: negation with witness, and a partial theorem for formulas in which it cannot fire. The largest class (`Mixed`) decides field by field: one `==`/`!=` constant used anywhere, or any constants without `!=` and negated `==`. `C02_holds_when_repaired` shows that this one rule is the only cause: with it corrected every formula keeps its meaning.
* C03 evaluation is preserved by `sum_of_products`: induction on fuel/size measure.
* C04 result shape is DNF for trees in which `not_t` is never directly below `not_t`; negation for raw double `not_t`.
* C05 implication soundness for leaf pairs with width-limited integers, lifted to compounds; violated for `!=`.
* C06 from C05 and C01.
* C07 cost induction.
* C08 computation laws on leaves.
* C09, C10, C11, C14, C16 bit-level characterisation of the recursive extract/insert by induction over the element walk, for arbitrary element width; then composition over locations.
* C12 violated (the fit check is off by one): witness; and a partial theorem for the strict check. C13 arithmetic on extents.
* C15 single 8/16/32-bit integers proved; violated for 64-bit integers (dword index lost): witness, exactly which fields are read and written right, and what happens to the others.
* C17, C18, C22 lists of field operations on top of C09–C11.
* C19 violated (sort happens before the unique): witness; partial theorem when the overriding field sorts first.
* C20, C21 offsets arithmetic by induction over the message list.
* C23, C24 list induction.
* C25 violated in several ways: witnesses; partial theorem for callbacks in the supported form. C26 likewise.
* C27, C28, C29 arrays and hashing; the hash function itself is only required to be a function into the table range, which is proved from its final mask.
* C30–C34 worklist invariant; order of containers arbitrary. C35 violated for `*(group)` under a condition: witness; partial theorem.
* C36–C39 invariant on traces of the state machine with arbitrary oracle.
* C40, C41 tree recursion. C42–C44 invariants over operation histories; C43 violated for resources at depth 3: witness; partial theorem.
* C45–C47 encode/decode round trips on byte lists.
* C48 violated (explicit ids can collide with stable ids): witness; partial theorem. C49, C50 directly.
* C51–C54, C83–C87 configuration tree induction. C83 assumes that `stdx::gather_by` is stable. C53, C54, C84, C86, C87 are violated in corner cases: witnesses; partial theorems.
* C55, C56, C58 computation on leaves; C57 violated for compound matchers.
* C59, C61, C62 lists of field operations on top of C09–C11; C60 violated for fields with one lowest bit.
* C63, C64 the trace invariant of C36.
* C65 invariant over histories; violated with an inactive top-level interrupt.
* C66–C68 follow from the exact outcome of `handle` proved for C23 and C25; violated by evaluation order, by two alternatives of one callback, and by `is_match`. What happens instead is in `ExactProps`: the number of calls is that of the accepting alternatives; `is_match` is decided by the tests of index fields (`candidate_iff`).
* C69 violated by one; C70, C71 arithmetic of the hash and the duplicate check.
* C72, C73 condition check and sequencer steps; violated for starred groups and for second mentions of steps. `C35_exact` and `C72_exact` say for every program, starred groups included, when actions run and when the check fails. `C73_exact`: a sequencer that builds has all its functions exactly when every step is mentioned with its own `*` or by `_ref`.
* C74 the edges left over by the sort.
* C88–C92 matchers of field types evaluated on concrete storage: C01, C05 and C11 composed. The matcher of a field refers to the field's type before the option, so later moves and renames violate them: witnesses; partial theorems.
* C93 induction over the condition, on top of C02 for mixed expressions; violated like C02. C94 composes C88, C93, C23 and C25; violated by moved index fields.
* C95, C96 induction over the options; violated by `with_new_type`, and by values fixed after the condition: witnesses.
* C97, C98 the text is read back by a separate reader, for all lists of nodes and edges; nodes and edges by induction over fragments. C99 paths are transported from numbers to texts. C100 the search with fuel agrees with reachability when there is no cycle, and never ends on a cycle that avoids its target.
* C101, C103 induction over runs: each step gives the logger of its flavor one entry that answers as the specification says; C101 ends in C46. C102 code is compared with its text, read backwards from a statement. C104 a reader of lines as specification; with line breaks in texts, a reader that gives a line without the form of a message to the text before, and conversely every line of that form after a break makes the log the same as one of two messages. C105 the fields of a text are counted on its pieces. C107 the events of a run are computed from `Flow.run`; C109 from C51, C86 and C30.
* C110, C111 a reader of conditions finds the closing parenthesis by counting; induction over the matcher shows that it finds the same tree up to the grouping of rows of `and`. C112, C113 the calls equal those of `Receive.serve`, so C23 and its relatives apply. C115 from C104.
* C116 a simulation: after each statement the arrays hold the bits of the specification's rows and the variables are the specification's windows; the statement about a field comes from C09–C11's lemmas on `insert` and `extract`. `C116_defined` goes the other way: a statement that is legal in the specification is defined in the model. C117, C121 an effect of each statement: which storages it can write, and where the variables it declares can point. C120 from C60.
* C122–C128 a general theorem about threads whose calls are lists of steps on one part of the memory: the mutex gives that at most one thread is inside a call on a part (invariant over schedules), and that alone gives that the memory is the one of the calls made one after the other in the order in which they began (invariant with the steps done so far). The steps of each call of the controller, undisturbed, have the effect of the one-step operations of Interrupt (`controller_effect`), so C42–C44 carry over. C125 the remaining work decreases. C129 induction over messages.
* C130–C133 induction over the tree of interrupts with an invariant for programs: "if a request has been raised since the last call, all status fields on the way are set" is kept by each step of `run` (C131); status fields that are set stay so until their interrupt is reached (C130); calls and what is pending at the end are paid for by what was pending and by requests (C133).
* C134, C135 induction over the depth of includes and the lines of a header: the script has visited the headers that the compiler will not include again, and what it has kept reads as what the compiler has seen. The depth needed is bounded by the number of headers not read yet, so the script ends also when headers include each other. The hypotheses are checked for the 96 headers of `include/` by evaluation in the kernel. C136 follows what the compiler keeps from include to include; the release is shown to hold no guard, whatever the headers.
* C137, C138 each literal of the regular expression with a template name occurs once in what is left of the symbol, so the greedy groups have only one way to match; the last group is greedy and there are too few closing brackets behind it to go further. Splitting at commas is by induction over texts with matching brackets.
* C139 the loop on texts is the loop on lists of pieces, where it first takes all `{:…}` and then the `{}` from the left; `printf` and `fmt` agree field by field.
* C140 `str.format` piece by piece; truth values by computation.
* C141 one round on a text of pieces gives every enumerator the first name, and nothing matches afterwards; for all texts the number of `)` before a digit decreases in each round.
* C142 splitting at brackets and commas; for the XML file the greedy groups end at the last commas.
* C143 `]]>` does not arise from escaping, so CDATA ends where it should.
* C144 field by field; digits of a number are read back; what is read from a file is written as it is.
* C145, C146 the value of a key after merging is that of the last file that has it.
* C147 the keys of the program are numbers and come after the strings of the extra files, so in the file they are the last of equal keys and win.
* C148 entries of equal ids are equal, over one build and then by induction over histories.
* C149 splitting at commas and dashes; digits of both bases are read back; characters that are read as digits are few.
* C150 the search for the next free id has the same result if the same ids are taken.
* C151, C152 the regular expression on the types of arguments; merging of enumerations by name.
* C153 composition of the models of Symbols, Catalog, Json, Log and Render; induction on the statements.
* C154 lines of a text that is put together; characters that occur in types. For all texts, the lines of a part whose last line does not end with a backslash are read on their own; the comment with a text always ends in a quote.
* C155 the command as a list of options with values; lookup by name; induction on the list of options.
* C156 splitting of a text at a pattern that its parts do not contain; the last range of lines between two marks.
* C157 conversion to 32 bits is injective on integral types of at most 32 bits; induction on the entries.
* C158 invariant of the collected keys; reader of numbers as an automaton; indices modulo the length; with C27 for tables.
* C159 from C30, C31, C34, C38-C41 and C58; a run of a flow in the middle of an interrupt is a run of it alone with the predicates as they are then.
* C160 invariant of a machine with any number of threads: each started sender is waiting, being resumed or done, and everything caused by an event is still to be done or comes later in the log; with C23 for services. A balance of what is due and what is done says that no thread loses work or does it twice.
* C161 by cases on the overload; violated for all received types.
* C162 by cases on the kind of data and the parameter; bits of prefixes and copies as in C119.
* C163 the lines of a file become a list of measurements; what is stored by induction over it from the end.
* C164 a text that is one argument ends at the first comma or `>` outside of brackets and quotes; arguments, then interrupts, are read back one after the other.
* C165 the entries of each kind are in the order of the messages; finding the first entry for an id is finding the first message.
* C166 induction on the matcher; the fields a matcher mentions as an inductive predicate apart from the model.
* C167 invariant of a history: every entry of an older file is in each newer one; in one file ids and messages belong together one to one, so the decoder's dictionary has for an id the message with this id.
* C48, C79, C81 exact forms: the loop over the symbols keeps of each message the symbol listed last (`lastSame`); the id is that symbol's explicit id, else the recorded one, else a fresh one.
* C168 invariant: the controller's copy is in the hardware, and enable bits are set only if nothing of the interrupt itself is off; every operation of the controller keeps it, so it holds also when flows call the controller in the middle of a run. The exact form uses the run of `Verif.Interrupt` (C40).
* C169 refinement: the building with insertions that fail when a container is full equals the building without limits, by the invariant of the sorting loop (C32) and a count of the edges of each step.
* C170 induction over the callbacks, with the state carried along; the indexed service by C25 for the message at the turn of each candidate, since the index depends on the index fields only.
* C171 one equivalence for each reading function (`convert`, one argument, all arguments, each record kind), and induction over the records; that a record is no beginning of another one follows from the reader being a function.
* C172 `memcpy` after `to_le` stores little-endian bytes on either host, done twice it stores host order; then the record lemma of the round trip with the byte order as a parameter.
* C173 from C171: a file that is accepted consists of complete records, or can be completed with zeros, which alone are no records.
* C174 directly; the option is not used.
* C175 cases of where the run ends.
* C176 induction over the terms of the callbacks: the table has one key for each value, so the checks for room fail exactly when there are too many.
* C177 from the meaning of what is left after removing terms (C25); the two cases of one field by computation. Conjunctions of values are closed under simplification, which keeps what they require (`Handler/ValidMore.lean`).
* C178 from the word of the header that C45 uses, without the assumption that the numbers fit.
* C179 from a reading of `implies` as: some operand of the left row of `and` implies some operand of the right row of `or`.
* C180 by induction on the terms: what is simplified so far is a constant or a row of some of the terms, and simplifying it again changes nothing.
* C181 from C69 and the choice of the strategy.
* C182 from C27, C181 and C176: the keys of an index are different, and different values of a type have different bits.
* C75–C82 dictionary invariants of the generator for an arbitrary hash function.

## What each area leaves out

The head of every `Model.lean` says what the area simplifies. In short:

* Match: texts (`describe`), enumeration and floating-point fields.
* Bits: 32-bit wrap-around of location arithmetic; `bit_cast` is the identity on raw bits.
* Message: message environments, texts, const views. `mp_sort` is a stable sort.
* Handler: texts, extra callback arguments. A built lookup table answers like its map; that is what C27 proves of `lookup::make`, and `Verif.Handler` uses it as the definition of the index; `Verif.Handler.TableModel` has the tables themselves (C182).
* Lookup: the inline assembly of `detail::select`; `std::sort` on entries is any sorting function.
* Flow, Seq: texts and logging, capacities; containers give back their elements in any order.
* Interrupt: hardware initialisation, priorities; each operation is one atomic step (Conc has the steps and the critical sections).
* Log: parsing of argument type texts, `char8_t`, `char16_t`, `char32_t`, `wchar_t`.
* Catalog: regular expressions, generated C++ and XML text, enumerations, extra JSON inputs.
* Nexus: builders are the list of what was added; the order inside a group of `stdx::gather_by` is a parameter; callables that take the nexus; named services that cannot be called without arguments, with which `init` does not compile (`nexus.hpp` 53).
* Receive: comparison of values of different types; `with_matcher`; matchers without a field. Field types and template arguments are numbered by an arbitrary injective numbering, whose existence is proved in `Receive/Numbering.lean`.
* Viz: sequencer steps in pictures; the order in which sets list nodes and edges is left open; the depth limit of compilers. The readers of the two languages (`Viz/Spec.lean`) accept less than graphviz and mermaid do (identifiers without quotes, one statement per line); the characters that can make a label unreadable are excluded by hypothesis.
* Front: declarations in classes, where a member function also sees what stands after it; the formatting at compile time (`stdx::ct_format`) and at run time (`fmt`), which is a parameter; the file name and line, which no logger uses; concurrent logging; builders named by an environment (`get_builder`), tags and explicit ids (the latter are in Catalog).
* Explain: the texts of values that are not integers (`describe` uses `{:x}` for all fields); runtime callbacks without names; a field of a matcher is one of the message (owning or viewing, C61).
* Object: the end of the lifetime of variables; arrays and owning messages declared constant (they are used through constant views instead); temporaries; conversions between spans of equal element types; which overload of `equiv` is taken; assignments that convert; elements of 64 bits.
* Conc, Sink: the `conc` library (critical sections of one mutex exclude each other; that they may be entered again by the same thread is not used); weak memory orders; critical sections inside others (a destination that logs, a HAL that calls the controller); `Hal::write` and `Hal::read` are one step each; status fields, which `run` reads and clears outside the critical section.
* Pending: a read or a write of a register is one step; requests arrive before a read, before a clear and before each flow; clearing a field clears nothing else (write-one-to-clear or the like is up to the HAL); flows do not write the fields on the way; requests are edges that the hardware holds in status fields (level-triggered requests that are still high would be raised again).
* Release: how lines are told apart (the regular expression of the script against the rules of C++: quotes, comments, spaces after `#`); files without a newline at their end; conditions have one value each, whatever is defined before; `#elif`; the text of the version from `git describe`.
* Symbols: named arguments whose bounds print with a suffix (their types are `int`); types of anonymous namespaces, which are read and then cannot be named; flags of Python's `int` (`+`, underscores); `\\s` beyond space and tab; that a file of symbols has one symbol a line.
* Render: floating point arguments; format specifications other than a flag for zeros, a width and one of `d`, `x`, `X`; numbered and named arguments and nested braces of `str.format`; letters beyond ASCII in `\w`; backslashes in names of enumerators (which `re.sub` would interpret); line breaks in XML. That a SyS-T decoder prints by the rules of `printf`, with arguments in words of 4 or 8 bytes, is taken from the format.
* Json: JSON as text; signs and underscores in reserved ids; how enumerations are found (libclang); the rest of the generated C++ and XML.
* Whole, Cpp: the compilation and linking of the program; files that cannot be written; the parsing of the arguments of the Python programs; what libclang finds in the generated C++ file (an input of `script`);
  `dedent`; the encoding of the C++ file.
* Args: escaped `;` and brackets in lists of cmake; quoting of arguments by the build tool (there is no `VERBATIM`);
  abbreviated options, `--option=value`, values with `-` in front; targets and dependencies between files.
* Extract: what else the compiler prints; escapes of characters other than the line feed; `mmdc`.
* Select: keys of class and pointer types; immediate operands; code generation for values.
* Bench: measuring; the other maps that are compared.
* Serve: interrupts that come while another one is served; sequencer steps in flows of interrupts.
* Send: cancelling senders and errors in them; the life of senders (`sync_wait` keeps them); moved values, as the functions are called from const lambdas.
* Call: functions with several overloads; parameters that are spans or arrays of another type than the data; aliasing (in Object).
* Results: `argparse`, files, how `csv` quotes cells, what `nanobench` prints.
* Dump: `stdx::type_as_string`, flows and fields that have a `config()` of their own.
* Xml: writing and reading attributes, white space between elements (`xml.etree.ElementTree`).
* Control: calls of the controller at the same time (`Verif.Conc`), status fields in registers of enable fields.
* React: callbacks that do not return, operands of one `handle` whose evaluations overlap.

## Reading `seeded/LOG.jsonl`

Each line is one wrong edit of a model definition, tried in a scratch copy. `result` is one of

* `property_theorem_failed`: a theorem `Cnn_…` itself no longer proves;
* `property_refuted_by_input`: a supporting lemma fails, so the property theorems were not reached, and
  a concrete input (`refuting_input`) was found on which the edited model violates the property;
* `example_failed`: only an `example` beside a theorem fails;
* `supporting_lemma_failed`: only a supporting lemma fails and the property theorems above it were not
  built. This is weaker evidence: the proof breaks, but it was not shown that the property theorem
  became false. Some of these edits do not change any observable behaviour;
* `survived`: everything still proves.

Entries up to the lookup tables were first logged with the single word `caught` for the first four.
That word claimed too much for `supporting_lemma_failed`; the entries were relabelled.
