# Design of the formal model of protols

## Trusted base

* Lean 4.33.0's kernel and the three standard axioms `propext`, `Classical.choice`,
  `Quot.sound`. The section "Theorems and axioms" lists for every property theorem the
  axioms it depends on (output of `#print axioms`). No own axioms, no `sorry`, no
  `native_decide`/`bv_decide`.
* The reading of the Go sources: the Lean definitions in `lean/Verif/Model/*` are hand
  translations. Each definition cites the file and lines it models and states its
  simplifications. Nothing is extracted from the Go code, nothing was executed. The section
  "What is modelled" lists every function of the code and the module that models it, or
  says that it is not modelled.
* Semantics of Go that the translations rely on: strings are byte sequences (modelled as
  lists of characters or of bytes), slices share backing arrays (modelled explicitly where
  the code depends on it), map iteration order is arbitrary (a parameter, or the order of
  a list), mutexes, channels and goroutines are transition systems over explicit steps.
* The specifications (`lean/Verif/Spec/*` and the definitions at the top of
  `lean/Verif/Props/*`) say what the English statements mean. They do not use the functions
  of the model.

### Assumptions about the environment

What the code calls and this model does not contain is a parameter of the definitions or an
assumption stated in the comment of the definition. In detail:

* `sync.Mutex`, `sync.RWMutex` (with writer preference), `sync.WaitGroup`, `sync.Map`,
  channels: as documented by Go; each operation is one atomic step.
* `sort.Slice`: the result is a rearrangement in which no later element is less than an
  earlier one, provided the comparison is a strict weak order (C17, C42); for at most 12
  elements it is the insertion sort of the standard library (C41, C42).
* `filepath.WalkDir` visits entries in lexical order, with the documented meaning of
  `SkipDir` (C40). `encoding/base64`, `bytes.TrimSpace`, `strings.Fields`, `strings.Cut`,
  `strings.TrimSpace`, `strconv`: as documented; those the proofs need are part of the model.
* `strings.ToLower`, `unicode.IsPrint/IsLetter/IsDigit/IsNumber/ToUpper`, `token.IsKeyword`:
  parameters. The fuzzy matcher of the symbol search is a parameter; scores are rational
  numbers instead of floats. The floating-point test in `splitSegmentedFields` is a
  parameter.
* UUIDs do not repeat (C24). The clock behind result ids does not repeat where C07 says so.
* A request handler replies once (C26). Lock traces of requests are those of the paths
  without errors (C28).
* Operating system: a system call may fail at any point; the process may die between any
  two bytes written; the operating system itself does not crash (C31).
* Underlying `io.Writer`s do not fail (C33, C46). `Printer.Indent` consists of blanks and
  tabs (C34). The printed ranges have no options or source info (C35).
* The syntax tree given to the formatter belongs to a file that was read without errors:
  literals are valid UTF-8. In C45, C62 the nodes have no comments. Column widths are
  widths in bytes (C47).
* Regular expressions are parameters with the contract of Go's `regexp` (matches are
  ordered and do not overlap) (C58, C65).
* The compiler (`kralicky/protocompile`) is not part of the repository. It is the
  environment: it calls hooks and delivers results; linker results have distinct paths
  (C50, C63). Descriptors and syntax trees are modelled by the parts that the code reads.
* Tooling: `lake`, the Lean elaborator (checked by the kernel).

## Layout

* `lean/Verif/Model/X.lean`: the model of one area of the code.
* `lean/Verif/Spec/X.lean`: specifications used by several theorems.
* `lean/Verif/Lemmas/X.lean`: helper lemmas.
* `lean/Verif/Props/X.lean`: small specification, property theorems and concrete
  non-trivial examples. Theorem names start with the property id.
* `seeded/LOG.jsonl`: mutation tests (wrong programs) and what became of the theorems.

A theorem with suffix `_partial` proves less than the property; the missing part is said in
its comment. `_violated` theorems prove, by a concrete witness, that the code does not
satisfy the full property.


## Properties

Per property: how it is modelled and proved, and what the theorems say.

### C01 A wait for a document version is only satisfied by that version

State machine over wait/cancel/resume/update steps (Versions). Invariant over all reachable states, history is an explicit log. Proved by induction on executions.

* `Verif.Versions.C01_wait_sound`: **C01** A call `Wait(u, v)` returns nil only after a modification of the same document `u` whose version is `≥ v` or `-1`. More precisely such a modification came after the call started, or was the latest one of `u` when it started.
* `Verif.Versions.C01_wait_sound_plain`: C01 in its plain form: some modification of `u` with version `≥ v` or `-1` was processed before the call returned nil.

### C02 No lost wake-up for version waiters

Same state machine: in every reachable state a blocked waiter whose channel is not closed waits for a version above every later update. Proved.

* `Verif.Versions.C02_no_lost_wakeup`: **C02** No lost wake-up: if `Wait(u, v)` was called and afterwards a modification of `u` with version `≥ v` or `-1` was processed (or was the latest one of `u` already when the call was made), and the call has not returned yet, then it can return nil now.
* `Verif.Versions.C02_blocked_otherwise`: **C02**, converse direction (together with C01 this pins the behaviour down): a call that has not been satisfied and not been cancelled stays blocked.

### C03 A wake-up signal is raised at most once

Same state machine with an explicit 'panicked' flag set on close of a closed channel; invariant: never set, channels unique per (document, version).

* `Verif.Versions.C03_no_double_close`: **C03** No execution closes a channel twice (no run-time panic).
* `Verif.Versions.C03_channels_not_shared`: **C03** Calls that wait for different (document, version) pairs never block on the same channel.

### C04 Semantic tokens survive the wire encoding

Model of Data on fixed-width 32-bit words; independent LSP decoder; round-trip for every list sorted by (line,start); sorting step modelled by a stable merge sort.

* `Verif.Semantic.C04_tokens_round_trip`: **C04** For every list of tokens the walk over the document may have collected (`items`, in any order) and every outcome `sorted` of the server's sort, decoding the array sent to the editor by the LSP rule (over unbounded integers, so no relative offset has wrapped around) gives exactly the collected tokens, ordered by line and start.

### C05 Incremental edits are applied as the protocol prescribes

Text as list of characters, ranges as offsets. Violated for several changes (witness); partial theorem for a single change and for changes that are disjoint and listed from the end of the document.

* `Verif.Documents.C05_empty_rejected`: **C05** An empty change set is rejected.
* `Verif.Documents.C05_position`: **C05** (part): the positions of changes, in the specification and in the server, are meant as the protocol says: line and character, counted from zero.
* `Verif.Documents.C05_single_change`: **C05** A single change (full text or incremental; inside or outside the text) is applied as the protocol prescribes.
* `Verif.Documents.C05_descending_changes_partial`: **C05, partial** Several incremental changes are applied as the protocol prescribes *if* they are listed from the end of the document towards its start and do not overlap (the order many editors use for multi-cursor edits). Missing: any other order, see `C05_sequential_violated`.
* `Verif.Documents.C05_sequential_violated`: **C05 is violated** by two consecutive insertions in reading order: typing `x` at the start and then `y` behind it turns `ab` into `xayb` instead of `xyab`.
* `Verif.Documents.C05_full_text_in_batch_violated`: **C05 is violated** by a full-text change that is not alone: the server panics.

### C06 Unresolvable documents are dropped from a batch, all others are processed

Go slices.Delete loop modelled on lists with an explicit panic outcome. Violated (witness); partial for at most one unresolvable document.

* `Verif.Documents.C06_drop_at_most_one_partial`: **C06, partial** If at most one modification of the batch is unresolvable, exactly the others are processed, in order. Missing: two or more, see `C06_drop_violated` and `C06_crash_violated`.
* `Verif.Documents.C06_drop_violated`: **C06 is violated**: with two unresolvable documents a resolvable one is dropped and an unresolvable one processed.
* `Verif.Documents.C06_crash_violated`: **C06 is violated**: two unresolvable documents, the second one last in the batch, crash the server.

### C07 'Unchanged' diagnostics answers are sound

DiagnosticList as a state machine with a clock supplying result ids. Partial: assumes the clock never repeats a value (ids are RFC3339Nano timestamps); a witness shows the dependence.

* `Verif.Diagnostics.C07_contents`: C07: as long as no diagnostic is deleted as related to another one, the list contains what was added since it was cleared.
* `Verif.Diagnostics.C07_unchanged_sound_partial`: **C07, partial** (clock assumed to never repeat a value). After any history `a` let a pull be answered by a full report `ds` with id `id`; let any history `b` follow. If the pull for `id` is now answered 'unchanged' then the diagnostics are still `ds`.
* `Verif.Diagnostics.C07_change_visible_partial`: **C07, partial** (same clock assumption). Once a diagnostic was added or the list was cleared, the next pull with the old id is answered by a full report with the current diagnostics.
* `Verif.Diagnostics.C07_clock_violated`: Without the assumption on the clock the property fails: two additions with the same time stamp make a stale answer.

### C08 Published diagnostics reach the subscriber exactly once and in full

Handler state machine with subscriber. Violated for late subscribers (witness), partial: while subscribed.

* `Verif.Diagnostics.C08_view_current_partial`: **C08, partial** In every history in which somebody is subscribed whenever the server flushes, after a flush the client's view of every document is the current list of diagnostics. Missing: changes flushed while nobody is subscribed are lost, see `C08_late_subscriber_violated`.
* `Verif.Diagnostics.C08_no_republication`: **C08** Nothing is published for a document between two flushes unless a diagnostic of it was reported or some document was cleared in between (clearing a document may remove related diagnostics of others).
* `Verif.Diagnostics.C08_late_subscriber_violated`: **C08 is violated** for a client that subscribes after a flush: it never sees the diagnostics although they are still current.

### C09 Warnings are promoted to errors unless suppressed

Decision function on strings.Fields/strings.Cut models; full characterisation.

* `Verif.Diagnostics.C09_warning_promoted`: **C09** A warning with a category is shown as an error, unless the file's debug pragma names its category or `all`.
* `Verif.Diagnostics.C09_others_unchanged`: **C09** Every other diagnostic keeps its severity, whatever the pragma says.

### C10 Document URIs and proto paths stay in one-to-one correspondence

Two association maps; violated (witness with shared canonical path), partial: bijection kept when canonical paths are fresh.

* `Verif.Resolver.C10_round_trip_partial`: C10, partial: as long as no modification assigns a path that another document currently has (nor an empty path or one with a `;`), the document found for a document's path is that document, after any history. Missing: histories in which two documents get the same path (see `C10_shared_path_violated`).
* `Verif.Resolver.C10_inverse_partial`: C10, partial: if moreover documents are not created again under another path, the two lookups are inverse to each other.
* `Verif.Resolver.C10_after_create_partial`: C10, partial (unconditional part): directly after a document was created or resolved under a path without `;`, both lookups agree on it, whatever happened before.
* `Verif.Resolver.C10_after_change_partial`: C10, partial: a document that has its path because of its `go_package` gets a new path when the `go_package` changes; the old path leads nowhere then.
* `Verif.Resolver.C10_after_import`: C10 (part): the path of an imported document changes with its `go_package` exactly if it was found by means of the Go module of the workspace; every other imported document keeps its path.
* `Verif.Resolver.C10_change_keeps`: C10 (part): a document that has its path because of its place in the workspace keeps it when it changes.
* `Verif.Resolver.C10_after_delete`: A deleted document has no path, whatever happened before.
* `Verif.Resolver.C10_shared_path_violated`: C10 is violated: two documents with the same file name and the same go_package get the same path; the path of the first one then leads to the second one, and after the second one is deleted the first one's path leads nowhere.
* `Verif.Resolver.C10_stale_path_violated`: C10 is violated also in the other direction: creating a document again with another go_package leaves the old path behind, pointing to the document.
* `Verif.Resolver.C10_semicolon_violated`: C10 is violated for file names with a `;`: the path of the document is not found.

### C11 Suffix matching of imports is a function of its inputs

Heap-level slice model with capacity. Violated (witness); partial: with private copies the search returns a best candidate.

* `Verif.Resolver.C11_found`: C11, the decision: the search succeeds exactly if the first target directory occurs in the source directory.
* `Verif.Resolver.C11_candidate_partial`: C11, partial: the result is always built from the original source directory at a position where the target overlaps it. Missing: that the overlap is a best one, see `C11_best_partial` and `C11_best_violated`.
* `Verif.Resolver.C11_absolute`: C11: the result for a source with an absolute path is an absolute path: its first part is a slash, if the target is not absolute itself.
* `Verif.Resolver.C11_best_partial`: C11, partial: the result is a candidate of best overlap provided that, at every overlapping position except the first, the target reaches beyond the end of the source directory (so that Go's `append` does not overwrite the source parts). In particular this holds if the first target directory occurs only once in the source.
* `Verif.Resolver.C11_best_violated`: C11 is violated: `append` overwrites the source parts, which inflates the score of a later candidate. Importing `a/a/a/a/x` from a file in `a/a/z/a/a/a`: the only possible result is the candidate at position 0, which overlaps in two directories, although the candidate at position 3 overlaps in three.

### C12 go_package is read exactly

Line scanner on character lists. Violated (witness); partial when the line has exactly two quotes.

* `Verif.Resolver.C12_value_partial`: C12, partial: if the first line of the file that may hold a go_package option is one with a single quoted value, the result is that value up to its first `;`. Missing: lines with further quotes (`C12_quote_violated`) and values starting with `;`.
* `Verif.Resolver.C12_nothing`: C12: a file none of whose lines may hold a go_package option has none.
* `Verif.Resolver.C12_quote_violated`: C12 is violated: a quote in a trailing comment becomes part of the package.
* `Verif.Resolver.C12_name_only_violated`: C12 is violated: for a value that consists of a package name only, the `;name` part is returned.

### C13 Position lookup finds the token under the cursor

Early-exit scan; equals List.find? on sorted lists.

* `Verif.Search.C13_found_iff`: C13: for tokens produced in any order and sorted as the server does, the lookup finds a token exactly if an eligible one covers the position.
* `Verif.Search.C13_first`: C13: the token found is eligible, covers the position, and no eligible token before it in the sorted list does; so every other covering eligible token starts at the same column or later.

### C14 Workspace symbol search keeps the best matches

Insertion-evicting store; refinement to the multiset of top-k scores for any k.

* `Verif.Symbols.C14_best`: C14: for any sequence of stored symbols and any resolver, the store never fails, and the answer consists of the resolved forms of symbols `kept` such that: they are among the stored ones (each as often at most as it was stored), they are ordered best first, and their scores are the 100 highest of all positive scores.
* `Verif.Symbols.C14_at_most_100`: C14: at most 100 entries are returned.
* `Verif.Symbols.C14_order_independent`: C14: the scores returned do not depend on the order in which symbols are found.

### C15 Query words are combined with AND

Field splitting and fold of scores; characterisation. Plain words are matched by the fuzzy matcher of a library, a parameter of which only that scores are not negative is assumed.

* `Verif.Symbols.C15_words_and`: C15: a symbol matches a query exactly if the query has a word and the symbol matches every one of its words (the maximal runs of non-blank characters). The fuzzy scores of the library are assumed not to be negative.
* `Verif.Symbols.C15_smart_case`: C15: case. A word with an upper-case letter (i.e. one changed by lower-casing) that is written with one of the special characters is compared with the symbol as it is; one without, with the lower-cased symbol. (Plain words are left to the fuzzy-matching library.)

### C16 Completion lists keep their order and preselect exactly one item

Fold over items; lexicographic comparison of zero-padded decimals equals numeric comparison below 100000 items; violated above (witness), hence partial.

* `Verif.Completion.C16_items_kept`: C16: the items and their order are kept.
* `Verif.Completion.C16_one_preselected`: C16: a non-empty list has exactly one preselected item: the first one that was marked, or the first of all if none was.
* `Verif.Completion.C16_sort_text_partial`: C16, partial: for lists of up to 100000 items, sorting the items by their sort text (in any way) reproduces the order of the list. Missing: longer lists, see `C16_long_list_violated`.
* `Verif.Completion.C16_long_list_violated`: C16 is violated for more than 100000 items: item 100000 sorts before item 99999.

### C17 Type suggestions are ordered by a consistent order

Strict weak order laws, permutation and sortedness of the result.

* `Verif.Completion.C17_less_iff`: C17: the comparison is the documented one.
* `Verif.Completion.C17_strict_weak_order`: C17: the comparison is a strict weak order: irreflexive, transitive, and entries that are not ordered either way have the same distances and name.
* `Verif.Completion.C17_deterministic`: C17: whatever the sorting algorithm does, candidates with distinct full names end up in one definite order, which is a rearrangement of the candidates.
* `Verif.Completion.C17_distance_zero`: C17: distance zero means the same name.
* `Verif.Completion.C17_local_first`: C17: candidates of the current package come before all others.
* `Verif.Completion.C17_distance`: **C17** (part): the distance is the signed number of steps between the names.
* `Verif.Completion.C17_ordered`: **C17** (part): the candidates are ordered by the distance of their package; those of the current package by the distance of their name from the scope, if there is one; and then by name.

### C18 Inserted relative type names denote the chosen type

Violated by byte-wise prefix cut (witness); partial for component-aligned packages.

* `Verif.Completion.C18_shortest_partial`: **C18**, the inserted text: if `c` is the common part of the package of the chosen type and of the package of the file, the inserted name is the rest of the chosen type's name. Partial: the packages must be `Aligned`, see `C18_misaligned_violated`.
* `Verif.Completion.C18_denotes_partial`: **C18**: the inserted name denotes the chosen type. Partial: the packages must be `Aligned` (see `C18_misaligned_violated`), and no package or type in a scope of the file's package that the chosen type does not share has the same first name (see `C18_shadowed_violated`).
* `Verif.Completion.C18_misaligned_violated`: C18 is violated when one package is a textual prefix of the other one in the middle of a component: the inserted names do not name the chosen type.
* `Verif.Completion.C18_wrong_type_violated`: The first of them, against the specification: with the types `foo.barbaz.A` and the package `foo.bar`, the inserted name denotes nothing at all.
* `Verif.Completion.C18_shadowed_violated`: C18 is violated when a type of the same name exists in an inner scope: the name inserted for `foo.A` in package `foo.bar` is `A`, which denotes `foo.bar.A`.

### C19 Printed type references denote the referenced type

Full: result is a suffix after an enclosing scope.

* `Verif.Qualify.C19_enclosing_scope`: **C19** (all names, packages, scopes and all values of `required`; the name may or may not have a leading dot): the printed name is the fully-qualified name without an enclosing scope `c` of the current scope. `c` contains the whole package of the file, and it is the longest scope that may be cut.
* `Verif.Qualify.C19_option_name`: C19 (names of options of a message): the scope of the message itself is never cut off; the longest scope around it that contains the package is.
* `Verif.Qualify.C19_literal_name`: C19 (names of extensions in message literals): only the package is cut off.
* `Verif.Qualify.C19_forced`: C19 with the option `ForceFullyQualifiedNames`: the name is printed with a leading dot.
* `Verif.Qualify.C19_denotes_partial`: **C19**: a printed type reference denotes the referenced type, under the lookup rules of protobuf. Partial: no definition in an inner scope may have the same first name, see `C19_shadowed_violated`.
* `Verif.Qualify.C19_shadowed_violated`: C19 is violated by shadowing: inside message `p.M`, a field of type `p.A` is printed as `A`, although that denotes the nested `p.M.A`.

### C20 Generated names are unused

Violated when 99 names are taken (witness over the generated list); partial below that.

* `Verif.Refactor.C20_message_partial`: **C20** for messages: the invented name differs from every message next to it. Partial: (1) only if there are fewer than 100 siblings (`C20_exhausted_violated`); (2) names of siblings that are not messages may clash (`C20_enum_violated`).
* `Verif.Refactor.C20_field_partial`: **C20** for fields: a name is found (the given prefix or the prefix with a number), and it differs from the name of every field of the message. Partial: only if the message has fewer than 100 fields (`C20_exhausted_violated`); other declarations of the message, like oneofs and nested messages, may clash (`C20_enum_violated`).
* `Verif.Refactor.C20_exhausted_violated`: C20 is violated if 100 messages `NewMessage`, `NewMessage1`, …, `NewMessage99` exist: the invented name is one of them.
* `Verif.Refactor.C20_enum_violated`: C20 is violated by siblings of another kind: next to an enum `NewMessage`, the new message is called `NewMessage`.

### C21 Renumbering yields distinct consecutive field numbers

Violated with map fields/oneofs (witness); partial for messages with plain fields only.

* `Verif.Refactor.C21_only_numbers`: **C21**: renumbering changes nothing but the numbers of plain fields: same declarations, same order, same names, types and options.
* `Verif.Refactor.C21_consecutive_partial`: **C21**: afterwards the fields are numbered 1, 2, 3, … in declaration order. Partial: only if the message has no map fields, groups or oneofs with fields (`C21_map_violated`).
* `Verif.Refactor.C21_plain_consecutive`: In any message, the plain fields are numbered 1, 2, 3, …
* `Verif.Refactor.C21_map_violated`: C21 is violated by map fields (and, in the same way, by groups and oneofs): they keep their number, here 1, which a plain field gets as well.
* `Verif.Refactor.C21_fields`: The fields that are looked at are all fields of the message: plain fields, map fields, groups and the fields of oneofs, in the order in which they are declared.
* `Verif.Refactor.C21_offered`: The refactoring is offered exactly if the fields are not yet numbered 1, 2, 3, …

### C22 Inlining a message keeps names and numbers distinct

Violated (witness); partial under freshness hypotheses.

* `Verif.Refactor.C22_distinct_partial`: **C22**: inlining the message of the field `f` replaces `f` by one field for each field of that message (in order, same types), keeps all other declarations, and field names and numbers stay distinct. Partial: (1) all fields of the containing message must be plain (`C22_number_violated`); (2) the inlined message must have a field (`C22_empty_violated`); (3) no field name of the inlined message may be another one followed by digits and underscores (`C22_name_violated`); (4) the containing message must have fewer than 100 fields (C20).
* `Verif.Refactor.C22_number_violated`: C22 is violated by map fields (likewise groups and oneofs): their numbers are not counted, so an inlined field gets the number of the map field.
* `Verif.Refactor.C22_name_violated`: C22 is violated if the inlined message has the fields `a` and `a1` and the containing message has a field `a`: both new fields are called `a1`.
* `Verif.Refactor.C22_empty_violated`: C22 is violated by an inlined message without fields: the server panics, for every containing message.

### C23 Extracting fields preserves the remaining message

List surgery on the declarations of a message, `nodeListAdapter`-like deletion modelled on lists; the result is characterised completely.

* `Verif.Refactor.C23_extract`: **C23**: let `d`, behind `pre`, be the declaration of the first extracted field. The new message has exactly the extracted fields (same labels, names and options, in order), numbered from 1. The old message keeps, in order, every declaration that is not extracted, and has one new field, with the new message's name as its type, in place of the first extracted field and with its number.
* `Verif.Refactor.C23_numbers`: **C23**: after extraction, the numbers of the fields of the old message are still distinct.

### C24 A deferred code action is resolved at most once

Transition system of create/store/resolve/expire steps; invariants over all executions.

* `Verif.ActionQueue.C24_at_most_once`: **C24**: an action is resolved at most once: in no execution is a successful resolution of an identifier followed by another one.
* `Verif.ActionQueue.C24_same_action`: **C24**: a resolution runs the very action that was handed out before under that identifier, and no other action was handed out under it.
* `Verif.ActionQueue.C24_available`: **C24**: an action that was handed out, has not expired and was not resolved can be resolved: the request is not refused.
* `Verif.ActionQueue.C24_not_after_expiry_partial`: **C24**: an expired action is not resolved any more. Partial: if the timer fires after the action was stored. (It could fire before, if the server stops for 30 s between two statements, `C24_early_expiry_violated`.)
* `Verif.ActionQueue.C24_early_expiry_violated`: C24 is violated if the timer fires between its start and the storing of the action: the action can be resolved although it expired (and is never removed otherwise).

### C25 Reference search reports each reference once

Interleaving semantics of n producers with a LoadOrStore set, a bounded channel, a WaitGroup and a closing goroutine; invariants and a decreasing measure.

* `Verif.FanIn.C25_exactly_once`: **C25** (every scheduling, any number of files and references): when the consumer's loop has ended, it has received every reference found in any file exactly once (references with the same textual form count as the same), and nothing else.
* `Verif.FanIn.C25_never_twice`: **C25**: at every moment, no reference was delivered twice.
* `Verif.FanIn.C25_ends_last`: **C25**: the stream ends only after all files were searched.
* `Verif.FanIn.C25_no_panic`: **C25**: no value is ever sent on the closed channel: once it is closed, nothing is left to send.
* `Verif.FanIn.C25_terminates`: **C25**, termination: every execution is finite (its length is bounded by the input), and an execution that cannot be continued has ended the consumer's loop. The channel has at least one place per goroutine.

### C26 Requests are handled in the order they arrive

Labelled transition system of requests; violated with long-lived requests in between (witness), partial: order with respect to requests not separated by a long-lived one; all-ordinary streams are FIFO.

* `Verif.Async.C26_order_partial`: **C26**, order: in every execution, when request `j` is started, every ordinary request `i` received before has been answered. Partial: if no long-lived request was received between `i` and `j` (`C26_overtaking_violated`).
* `Verif.Async.C26_fifo`: **C26**: if there are only ordinary requests, they are handled strictly one after the other.
* `Verif.Async.C26_not_twice`: **C26**: no request is started twice.
* `Verif.Async.C26_not_skipped`: **C26**: no request is skipped: a received request that was not started can be started as soon as all ordinary requests before it are answered. Long-lived requests do not hold it up.
* `Verif.Async.C26_long_lived_no_hold_up`: **C26**: a request right behind a long-lived one can be started at once, whatever the state of earlier requests.
* `Verif.Async.C26_no_panic`: No channel is closed twice (which would crash the server).
* `Verif.Async.C26_overtaking_violated`: C26 is violated with a long-lived request in between: request 0 (say, a document change) is still being handled when request 2 (say, hover) starts, because request 1 is long-lived.

### C27 Every command releases the workspace lock

The workspace lock is part of the state of a small command semantics; violated for one command (witness), exact characterisation of the leaking requests, partial otherwise.

* `Verif.Workspaces.C27_leak_iff`: **C27** (part): exactly which requests keep the lock: `protols/refreshModules` when some workspace has no Go driver.
* `Verif.Workspaces.C27_no_refresh_partial`: **C27** (partial): in every sequence of requests without `protols/refreshModules`, no request waits for ever on the workspace lock. Missing: that command, see the next two theorems.
* `Verif.Workspaces.C27_drivers_partial`: **C27** (partial): if the Go driver is available for every folder, no request of any sequence waits for ever on the workspace lock, starting from a new server. Missing: folders without a Go driver, for which the property fails (`C27_refresh_violated`).
* `Verif.Workspaces.C27_refresh_violated`: The code violates C27: in a workspace without Go driver, `protols/refreshModules` returns an error and keeps the lock, so that the next request (for any document) waits for ever.

### C28 Read requests never block each other for ever

RWMutex with writer preference as a transition system over arbitrary numbers of requests given by their lock traces; deadlock witnesses for nested read locks; progress and termination for separate sections.

* `Verif.RWLock.C28_sections_partial`: **C28** (partial): any number of requests and updates that take the lock in separate sections, in every schedule: nothing is ever stuck before all are done, the number of steps is bounded (so all of them do finish), and no unlock fails. Missing: requests that take the read lock again while they hold it, for which the property fails (`C28_nested_violated`).
* `Verif.RWLock.C28_read_only_partial`: **C28** (partial): without updates, requests with arbitrarily nested read sections never get stuck.
* `Verif.RWLock.C28_exclusion`: **C28** (part): writers exclude readers and other writers in every schedule of well-formed requests, nested or not.
* `Verif.RWLock.C28_nested_violated`: The code violates C28: each of these requests together with one document update can block for ever, since it takes the read lock again while it holds it.
* `Verif.RWLock.C28_balanced`: **C28** (part): every read request releases each read lock that it takes, in the right order.
* `Verif.RWLock.C28_server_reads_partial`: **C28** (partial): any number of read requests of the server, in every schedule and without updates: nothing gets stuck, all finish after a bounded number of steps and no unlock fails.
* `Verif.RWLock.C28_server_updates_partial`: **C28** (partial): any number of updates together with requests that are not nested.
* `Verif.RWLock.C28_released`: **C28** (part): whatever requests and updates run, in every schedule: no unlock fails, writers exclude readers, and when all requests are done the lock is free.
* `Verif.RWLock.C28_unlock_fatal`: **C28** (part): the unlock failures that are excluded above: a goroutine that releases a lock nobody holds ends the process.

### C29 Organize-imports merging loses nothing

Fold over the actions; violated (edits with the same text are merged across documents, deletions are repeated); partial for distinct texts.

* `Verif.CodeActions.C29_others`: **C29** (part): merging never fails on actions with edits, keeps all other actions unchanged and in order, and adds at most one action, at the end, of kind organize-imports.
* `Verif.CodeActions.C29_sound`: **C29** (part): the merged action contains no edit that was not requested, none of them more often than it was requested.
* `Verif.CodeActions.C29_texts`: **C29** (part): of the requested insertions and replacements with the same text exactly one is kept, and every requested deletion is kept.
* `Verif.CodeActions.C29_exactly_once_partial`: **C29** (partial): if no two different requested edits have the same text and no deletion is requested twice, the merged action contains each requested edit exactly once. Missing: edits with the same text in several documents or places, and repeated deletions, for which the property fails.
* `Verif.CodeActions.C29_cross_document_violated`: The code violates C29: the same import added to two documents is merged into one edit, so that the second document is not changed.
* `Verif.CodeActions.C29_deletion_violated`: The code violates C29: the same deletion requested by two actions is contained twice.

### C30 Code-action kind filters are honoured

Violated (error never reported); partial: offered set characterised.

* `Verif.CodeActions.C30_offered_partial`: **C30** (partial): for a non-empty filter the supported kinds that are wanted are exactly those that equal or are sub-kinds of a requested kind, whatever the iteration order of the map; for an empty filter all supported kinds are wanted. Missing: the error for a filter without any supported kind, which is never reported (`C30_error_violated`).
* `Verif.CodeActions.C30_nothing_else`: **C30** (part): nothing outside the supported kinds is ever wanted, except kinds that are given only on explicit request and were requested.
* `Verif.CodeActions.C30_error_violated`: The code violates C30: for a filter that names no supported kind, no error is reported. In fact it never is, for any filter.
* `Verif.CodeActions.C30_actions`: **C30** (end to end): every action returned by a request is of a kind that was asked for: it is in the wanted set. Assumes that the import search and the analyzers return actions of the kind they are asked for.

### C31 In-place overwriting never loses the original

Every prefix of every execution with failing system calls; case analysis over all outcomes, induction over the bytes written.

* `Verif.Overwrite.C31_crash_safe`: **C31** (crash safety): whatever fails and whenever the process dies, the original is still in the file or in the backup, or the file has the complete new content.
* `Verif.Overwrite.C31_success_partial`: **C31** (success): when success is reported the file has exactly the new content, and no backup is left provided that removing it did not fail. (Partial: the code ignores a failure to remove the backup, see `C31_leftover_violated`.)
* `Verif.Overwrite.C31_failure`: **C31** (failure): when failure is reported and no backup is left, the file has exactly its original content.
* `Verif.Overwrite.C31_no_failure_succeeds`: **C31** (liveness of the model): if nothing fails, success is reported, so the theorems above are not vacuous.
* `Verif.Overwrite.C31_leftover_violated`: The code violates the letter of C31: if the backup cannot be removed, success is reported although it is left behind.

### C32 Printed string and bytes literals denote the original value

Printer on bytes and an independent reader of protobuf literals; violated for double quotes (witness), partial without.

* `Verif.Quote.C32_bytes_partial`: **C32** (partial): the literal printed for a bytes value without a `"` denotes that value. Missing: values with a `"`, for which the property fails (`C32_quote_violated`).
* `Verif.Quote.C32_string_partial`: **C32** (partial): the literal printed for a string value (any bytes, valid UTF-8 or not) without a `"` denotes that value, whatever the printable runes are, as long as U+0000 is not printable. Missing: values with a `"`, for which the property fails (`C32_quote_violated`).
* `Verif.Quote.C32_quote_violated`: The code violates C32: a value with a `"` is printed as an unterminated literal, or as a literal with another value.
* `Verif.Quote.C32_printable`: **C32** (part): the quoted form of bytes consists of printable ASCII characters, and bytes that are printable and need no escape are written as they are.

### C33 The printer's writer only drops redundant trailing blanks

Writer automaton; full.

* `Verif.PrintWriter.C33_text`: **C33**: for every sequence of writes the printed text is the concatenation of the texts, except for blanks directly before `;` or `,` and possibly one blank at the end.
* `Verif.PrintWriter.C33_no_blanks`: **C33** (part): nothing but blanks is dropped: without blanks, both texts are the same.
* `Verif.PrintWriter.C33_length`: **C33** (part): every write reports the full length, as `io.Writer` requires.
* `Verif.PrintWriter.C33_newline`: **C33** (part): the writer only believes to be at the start of a line if it is.

### C34 Printed comments are well-formed

Comment printer on characters, independent grammar of comments; violated (crash witness), crash characterised exactly.

* `Verif.PrintComment.C34_wellformed`: **C34** (part): whatever the comment, the style and the indentation (of blanks and tabs), what is printed is nothing, or - after blanks - a block comment whose terminator does not occur inside, followed by at most a newline, or a sequence of `//` lines.
* `Verif.PrintComment.C34_flag`: **C34** (part): the returned flag tells whether the text ends with a newline.
* `Verif.PrintComment.C34_no_crash_partial`: **C34** (partial): printing crashes for exactly one comment, two newlines, and only in multi-line style (always used for inlined comments). Missing: not crashing there.
* `Verif.PrintComment.C34_crash_violated`: The code violates C34: printing the comment of two newlines in multi-line style crashes.

### C35 Reserved and extension ranges print faithfully

Printer through the writer of C33 and an independent reader of range statements; full for messages and extensions; violated for enums (witness).

* `Verif.Ranges.C35_message_reserved`: **C35** (messages): a reserved statement of a message reads back as the same numbers, including `max`, for normal messages and message sets.
* `Verif.Ranges.C35_extensions`: **C35** (extension ranges): an extensions statement reads back as the same numbers.
* `Verif.Ranges.C35_enum_exact`: A reserved statement of an enum reads back as ranges of which the last number is missing, unless it is a single number.
* `Verif.Ranges.C35_enum_partial`: **C35** (enums, partial): a reserved statement of an enum with single numbers reads back as the same numbers. Missing: longer ranges, for which the property fails (`C35_enum_violated`).
* `Verif.Ranges.C35_enum_violated`: The code violates C35: `reserved 2 to 5;` in an enum is printed as `reserved 2 to 4;`, and `2 to max` as a range that ends one number too early.

### C36 Source-info lookup never confuses two descriptor paths

Injectivity of 4-byte little-endian keys; map laws.

* `Verif.SourceInfo.C36_key_inj`: **C36** (part): different paths have different keys.
* `Verif.SourceInfo.C36_getAll`: **C36**: after any sequence of `Add` and `PutIfAbsent` calls, the locations of a path are those of the calls for exactly that path, in order, where `PutIfAbsent` has an effect only for a path without a location.
* `Verif.SourceInfo.C36_first_wins`: **C36** (part): the first location added for a path wins: once there is one, `Get` always returns it.
* `Verif.SourceInfo.C36_put_result`: **C36** (part): `PutIfAbsent` reports whether it stored the location.

### C37 Scope prefixes are complete and ordered

Full.

* `Verif.PrefixList.C37_prefixes`: **C37**: the list consists of the enclosing scopes of the package - the package itself and what precedes each of its dots -, longest first, each once, followed by the root.
* `Verif.PrefixList.C37_root`: **C37** (part): without a package, the root is the only scope.

### C38 Default JSON names contain no underscore and keep all other letters

Full.

* `Verif.PrefixList.C38_json_name`: **C38**: the default JSON name is the name without underscores, in which exactly the characters directly after an underscore are upper-cased, whatever `toUpper` does.
* `Verif.PrefixList.C38_no_underscore`: **C38** (part): it contains no underscore.
* `Verif.PrefixList.C38_identity`: **C38** (part): names without underscores are their own default.
* `Verif.PrefixList.C38_roundtrip`: **C38** (part): a field other than an extension with a (non-empty) JSON name that is printed and read back - the option if there is one, the default name otherwise - has the same JSON name, and the option is printed only if necessary.

### C39 Go identifiers derived from proto names are valid and stable

Character lists; normal form as an independent predicate.

* `Verif.GoNames.C39_normal`: **C39** (part): the derived name is in normal form; in particular it contains no `.`, and no lower-case letter at the start, after `_` or after a digit.
* `Verif.GoNames.C39_no_dot`: **C39** (part): no dot.
* `Verif.GoNames.C39_start`: **C39** (part): a name that does not start with a dot leads to a Go name that starts neither with a lower-case letter nor with `_`; and one that starts with a letter or `_` to a Go name that starts with an upper-case letter, i.e. is exported.
* `Verif.GoNames.C39_idempotent`: **C39** (part): deriving the name again changes nothing, for names that do not start with a dot.
* `Verif.GoNames.C39_letters`: **C39** (part): the derived name keeps all letters, digits and other characters in order, up to capitalisation; only dots and underscores are dropped (or changed: an underscore at the start or after a dot becomes an `X`).
* `Verif.GoNames.C39_sanitized`: **C39** (`GoSanitized`): the result is a valid Go identifier: not empty, letters, digits and `_` only, not starting with a digit, and not a keyword - as long as no keyword starts with `_`.

### C40 Workspace scanning finds exactly the eligible proto files

Directory trees as rose trees; violated by marker order (witness), partial.

* `Verif.SearchDirs.C40_complete`: **C40** (part): every eligible file is found.
* `Verif.SearchDirs.C40_sound`: **C40** (part): only proto files outside of the directories excluded by name are found.
* `Verif.SearchDirs.C40_exact_partial`: **C40** (partial): if in every directory with a marker the marker is the first entry, exactly the eligible files are found. Missing: directories with entries that sort before the marker, for which the property fails (`C40_marker_violated`).
* `Verif.SearchDirs.C40_once`: **C40** (part): in one directory tree every file is found once.
* `Verif.SearchDirs.C40_marker_violated`: The code violates C40: a file that sorts before the marker is found although its directory is marked.
* `Verif.SearchDirs.C40_twice_violated`: The code violates C40: with overlapping directories a file is returned twice.

### C41 Formatting keeps every import

Violated (witness), partial.

* `Verif.FileHeader.C41_sorted`: **C41** (part): the imports are sorted by path and modifier, although the comparison function is not a strict order for imports of the same path and modifier. For at most 12 imports; for more imports the theorems below take it as a hypothesis.
* `Verif.FileHeader.C41_sound`: **C41** (part): only imports of the file are written, no more often than they occur.
* `Verif.FileHeader.C41_order`: **C41** (part): the written imports are in order.
* `Verif.FileHeader.C41_paths`: **C41** (part): every imported path is still imported, with the strongest modifier it had.
* `Verif.FileHeader.C41_commented`: **C41** (part): no import with a comment is removed.
* `Verif.FileHeader.C41_kept_partial`: **C41** (partial): if all imports of the same path have the same modifier, every import is kept with its modifier. Missing: files that import a path with different modifiers, for which the property fails (`C41_violated`).
* `Verif.FileHeader.C41_once`: **C41** (part): repetitions without comments are removed: a path is written again only for the sake of a comment.
* `Verif.FileHeader.C41_comments_first`: **C41** (part): of the imports with the same path and modifier, the ones with comments come first.
* `Verif.FileHeader.C41_no_duplicates`: **C41** (part): of two written imports with the same path and modifier, both have a comment: there is no import that could be removed.
* `Verif.FileHeader.C41_violated`: The code violates C41: when a file imports a path and also imports it publicly, the public import is removed, and with it the visibility of the path for the importers of the file.

### C42 Formatting keeps and orders file options

Sort abstracted as any function with the contract of `sort.Slice`; stability for at most 12 options (insertion sort). `C42_stable_violated`: with 13 options `sort.Slice` is a quicksort (Util/GoPdq.lean models it for short slices), and the values of a repeated file option change their order, which changes the value of the option.

* `Verif.FileHeader.C42_order`: **C42** (part): every sort that satisfies the contract of `sort.Slice` writes every option exactly once, the built-in options before the custom ones, in alphabetical order.
* `Verif.FileHeader.C42_stable_partial`: **C42** (partial): with at most 12 options, options of the same name keep their order. Missing: files with more options, see the violation.
* `Verif.FileHeader.C42_stable_violated`: **C42** (violated): with 13 options, the values of a repeated option are written in another order, by a result that meets the contract of `sort.Slice`.

### C43 Re-quoting string literals keeps their value

Violated (witness), partial.

* `Verif.Requote.C43_value`: **C43**: a literal keeps its value exactly if it is not a single-quoted literal with a bare double quote; otherwise what is written is not a literal at all.
* `Verif.Requote.C43_partial`: **C43** (partial): a literal without bare double quotes keeps its value. Missing: single-quoted literals with bare double quotes, for which the property fails (`C43_violated`).
* `Verif.Requote.C43_idempotent`: **C43** (part): formatting again changes nothing.
* `Verif.Requote.C43_violated`: The code violates C43: a single-quoted literal that consists of a double quote becomes three double quotes.

### C44 Comments converted to block style stay comments

Independent scanner for comments; violated for line comments that contain `*/` (witness), otherwise partial (iff).

* `Verif.InlineComment.C44_block`: **C44** (part): a block comment stays exactly one block comment, on one line, and only its white space is changed.
* `Verif.InlineComment.C44_line`: **C44** (part): a line comment becomes exactly one block comment, with the same text up to white space at its ends, if and only if it does not contain the end of a block comment.
* `Verif.InlineComment.C44_line_partial`: **C44** (partial): a line comment that does not contain the end of a block comment is turned into exactly one block comment, on one line. Missing: line comments with `*/`, for which the property fails (`C44_violated`).
* `Verif.InlineComment.C44_violated`: The code violates C44: the rest of a line comment that contains the end of a block comment becomes code.
* `Verif.InlineComment.C44_all`: **C44** (part): all comments that are not virtual are written, in order; nothing else is.

### C45 Formatting keeps every compact option

Operations of the formatter's writer; violated: everything after an option with a compound string is lost (witness for all continuations), partial otherwise.

* `Verif.CompactOptions.C45_partial`: **C45** (part): of a well-formed option list in which strings next to each other only occur in the last option, all options are written: in order, with commas between them, in brackets, each with its name, the sign `=` and its value. (Missing: strings next to each other in another option, see `C45_violated`; options without a value; comments.)
* `Verif.CompactOptions.C45_violated`: **C45** (violated): everything after the first option whose value are strings next to each other is lost, whatever it is.
* `Verif.CompactOptions.C45_layout`: **C45** (part): options with simple values are written as `[a = 1, b = 2]`.

### C46 The formatter's writer adds only white space

Writer automaton; violated for empty texts (dangling blank) and for lines with several brackets (indentation), otherwise partial.

* `Verif.FormatWriter.C46_content`: **C46** (part): without its white space, the output consists of the written texts, in order.
* `Verif.FormatWriter.C46_write`: **C46** (part): a text is written verbatim, after a space exactly if one is pending and neither the character before nor the one after forbids it.
* `Verif.FormatWriter.C46_dangling_partial`: **C46** (partial): as long as only non-empty texts without spaces are written, and the indentation only in front of such a text, no space ends up in front of a line break, a semicolon or a comma. Missing: empty texts, for which the property fails (`C46_dangling_violated`).
* `Verif.FormatWriter.C46_dangling_violated`: The code violates C46: writing an empty text turns a pending space into a space, which may then be followed by a line break.
* `Verif.FormatWriter.C46_levels`: **C46** (part): every line changes the indentation by at most one level, in the direction of its brackets.
* `Verif.FormatWriter.C46_indent_partial`: **C46** (partial): if no line opens or closes more than one bracket in sum, the indentation returns to its value after balanced brackets, and no error is reported. Missing: lines with more brackets, for which the property fails (`C46_indent_violated`).
* `Verif.FormatWriter.C46_indent_violated`: The code violates C46: after a line that opens two brackets that are closed on different lines, the indentation is decremented too often; an error is reported.
* `Verif.FormatWriter.C46_margin`: **C46** (part): a new line starts with two spaces for every level, one level less in front of a closing bracket, and then the text.
* `Verif.FormatWriter.C46_last`: **C46** (part): the decision about a pending space is made with the character that was really written last: as long as no empty text is written, the formatter knows the last character of its output.
* `Verif.FormatWriter.C46_tokens`: **C46** (part): what is written are the tokens that the formatter was asked to write, each of them verbatim, in order, with nothing but white space around them.

### C47 Column alignment keeps content and aligns columns

Full on rows of column texts.

* `Verif.ColumnFormat.C47_small`: **C47** (part): fields that are not long are all aligned with each other.
* `Verif.ColumnFormat.C47_content`: **C47** (part): aligning a block only adds blanks between the parts of each field, and removes at most one blank before the end of the field; fields stay in order.
* `Verif.ColumnFormat.C47_aligned`: **C47** (part): in a block, all names start in the same column, all signs `=` start in the same column, and so do all ends of fields that do not start with a semicolon. Columns are counted from the start of the first part; a part is present in all fields of the block or in none.
* `Verif.ColumnFormat.C47_narrow`: **C47** (part): the columns are as narrow as possible: there is at least one blank after every type that is present, and after the longest one there is exactly one; the same for names.
* `Verif.ColumnFormat.C47_size`: The size of a field lies between two thirds of its width and its width.
* `Verif.ColumnFormat.C47_short`: **C47** (part): fields of at most 40 bytes (type and name) are all aligned with each other.
* `Verif.ColumnFormat.C47_blocks`: **C47** (part): exactly which fields of a group are aligned with each other: a field starts a new block if and only if there is a break before it.
* `Verif.ColumnFormat.C47_break_long`: **C47** (part): a new block is only started next to a field of more than 40 bytes.
* `Verif.ColumnFormat.C47_absent`: **C47** (part): a part that no field has takes no room: if no field has a type, nothing is put between the context and the name; if no field has a name, nothing between it and the sign `=`.

### C48 Grouping for alignment loses no field

Full.

* `Verif.ColumnFormat.C48_groups`: **C48** (part): the groups contain every declaration exactly once and in order, and no group is empty.
* `Verif.ColumnFormat.C48_kinds`: **C48** (part): a group contains declarations of one kind, and a node that cannot be aligned is in a group of its own; so the writer of a group never meets a node that it cannot write.
* `Verif.ColumnFormat.C48_incomplete`: **C48** (part): an incomplete field is always the first one of its group.
* `Verif.ColumnFormat.C48_index`: **C48** (part): the index computed for an element of a group is its index in the list of declarations.
* `Verif.ColumnFormat.C48_blocks`: **C48** (part): the blocks contain every field exactly once and in order, and no block is empty.
* `Verif.ColumnFormat.C48_written`: **C48** (part): the declarations of a group in which only the first one may be incomplete (which is always so, `C48_incomplete`) are all written, once and in order.
* `Verif.ColumnFormat.C48_close`: **C48** (part): exactly which declarations are aligned with each other: neighbours in a group are close, and where a group ends its last declaration is not close to the first one of the next group, except after a declaration that is written on several lines.

### C49 Block comments keep their text when re-indented

Character lists; violated: not idempotent with CRLF line ends (witness), partial for blanks, tabs and line breaks.

* `Verif.BlockComment.C49_written`: **C49** (part): what is written is white space and the formatted text of the comment.
* `Verif.BlockComment.C49_lines`: **C49** (part): line by line, only the white space at the ends of the lines of a comment changes.
* `Verif.BlockComment.C49_block`: **C49** (part): a block comment stays exactly one block comment; no part of it becomes code.
* `Verif.BlockComment.C49_idempotent_partial`: **C49** (part): formatting a comment again changes nothing, if its only white space are blanks, tabs and line breaks. (Missing: other white space; see `C49_idempotent_violated`.)
* `Verif.BlockComment.C49_idempotent_violated`: **C49** (violated): with carriage returns at the ends of the lines, formatting again changes a comment.
* `Verif.BlockComment.C49_prefixed`: **C49** (part): if all lines after the first one start with the same prefix, they are put one column after the start of the comment; so is the end of the comment, if the prefix is a star, otherwise it is put at the start of the comment.
* `Verif.BlockComment.C49_relative`: **C49** (part): if there is no such prefix, the lines keep their columns relative to each other (for comments that are indented with blanks): the leftmost one is put three columns after the start of the comment.

### C50 Compiled files are delivered in dependency order

Depth-first search with the recursion of the code; termination measure is the set of unseen files. Full.

* `Verif.Transform.C50_total`: **C50** (part): the sort always ends; it succeeds exactly if all imported files are there.
* `Verif.Transform.C50_once`: **C50** (part): every file is delivered exactly once (also if there are import cycles).
* `Verif.Transform.C50_order`: **C50** (part): without import cycles, every file comes after all files that it imports.
* `Verif.Transform.C50_local`: **C50** (part): the files local to the workspace are delivered in the same order: each of them after the local files that it imports.

### C51 Restoring original file names is complete and idempotent

Violated: dependencies of unmapped files keep synthesized names, and the second call in `Compile` may rename again (witnesses); partial otherwise.

* `Verif.Transform.C51_partial`: **C51** (part): restoring the names of a list of different files gives every file with a URI, except those synthesized under their original name, the original names everywhere, and changes no other file. (Missing: files without a URI and files synthesized under their original name: their dependencies are not restored, see `C51_violated`.)
* `Verif.Transform.C51_idempotent`: **C51** (part): restoring the names of some of the files again, as `Compile` does with the files local to the workspace, changes nothing, if no original name is the name of a synthesized file.
* `Verif.Transform.C51_violated`: **C51** (violated): the dependencies of a file that is not in the mapping, and those of a file synthesized under its original name, keep the names of synthesized files.
* `Verif.Transform.C51_idempotent_violated`: **C51** (violated): without the condition on original names, the second call in `Compile` renames files again.

### C52 Inferred Go packages do not depend on file order

Two passes over the files with association maps; violated (order decides about an error; packages share a Go package), partial for consistent directories.

* `Verif.GoPackage.C52_value_partial`: C52 (partial): if the files of each directory agree on the package and on the Go package, there is no error, and each file gets the Go package of its option, else that of its siblings, else its directory. Missing: directories with several packages, see `C52_violated` and `C52_share_violated`.
* `Verif.GoPackage.C52_order_partial`: C52 (partial): the Go packages do not depend on the order of the files, in consistent directories.
* `Verif.GoPackage.C52_violated`: C52 fails: the order of the files decides whether there is an error.
* `Verif.GoPackage.C52_share_violated`: C52 fails: a file gets the Go package of a file of another package.
* `Verif.GoPackage.C52_conflict`: C52: if no file of a directory has an option and two of them have different packages, there is an error in every order of the files.

### C53 Binary input is decoded as given

Base64 codecs and trimming on bytes; round trip proved; violated for binary input starting with 0x0A (the tag of field 1) and others; exact characterisation.

* `Verif.Decode.C53_base64`: C53: the base64 encoding of a byte string, in the standard or the URL alphabet, with or without padding, surrounded by any white space, is read as that byte string.
* `Verif.Decode.C53_partial`: C53 (partial): an input is decoded byte for byte exactly when it does not start or end with white space and is not itself a text in base64. Missing: binary input which starts or ends with white space or has the form of base64, see `C53_violated`.
* `Verif.Decode.C53_violated`: C53 fails: a message that starts with the byte 0x0A, the tag of a first field of type string, bytes or message, is never read as given.

### C54 Message type selection prefers the most exact match

Full.

* `Verif.Decode.C54_select`: C54: the choice is right: the exact full name, else the short name, else the containing names.
* `Verif.Decode.C54_order`: C54: the choice does not depend on the order in which the messages are listed.

### C55 A document is routed to the workspace that contains it

Violated (witness), partial.

* `Verif.Workspaces.C55_routed_partial`: **C55** (partial): if no folder path is a prefix of another one, a document inside a folder (and not below its vendor directories, which the code excludes on purpose) is served by the innermost folder containing it, whatever the iteration order of the map. Missing: nested folders, siblings sharing a prefix and directories like `vendored`, for which the property fails.
* `Verif.Workspaces.C55_outside`: **C55** (part): whatever the order and the folders, a document in no folder (not even byte-wise) is only given to a workspace that tracks it, and rejected if there is none.
* `Verif.Workspaces.C55_fragment`: **C55** (part): whatever the order, a document URI with a fragment is given to a workspace with that name, and rejected if there is none.
* `Verif.Workspaces.C55_nested_violated`: The code violates C55 for nested folders: the folder serving a document depends on the iteration order.
* `Verif.Workspaces.C55_sibling_violated`: The code violates C55 for siblings: a document in `/w/subway` may be given to `/w/sub`, which does not contain it.
* `Verif.Workspaces.C55_vendor_violated`: The code violates C55 for a directory whose name merely starts with `vendor`: the only folder, which contains the document, does not serve it.
* `Verif.Workspaces.C55_refused`: **C55**: a request is answered with an error exactly for these reasons; in particular a document that a folder serves is not refused.

### C56 Workspace folders own exactly one live background task

Violated (witness), partial.

* `Verif.Workspaces.C56_present`: **C56** (part): the server keeps a cache for exactly the folders that are present, after every sequence of changes.
* `Verif.Workspaces.C56_cancel_once`: **C56** (part): after every sequence of changes each task was cancelled at most once, only started tasks were cancelled, and no nil cancel function was called.
* `Verif.Workspaces.C56_at_least_one`: **C56** (part): after every sequence of changes every present folder has a running task.
* `Verif.Workspaces.C56_exactly_one_partial`: **C56** (partial): if no folder is added while it is present, then every present folder has exactly one running task and every other folder has none. Missing: folders added twice, for which the property fails (`C56_readd_violated`).
* `Verif.Workspaces.C56_orphan_forever`: **C56** (part): a task that lost its cancel function keeps running whatever happens later, including shutdown.
* `Verif.Workspaces.C56_readd_violated`: The code violates C56: adding a folder twice leaves two running tasks for it, and one of them survives even the shutdown.
* `Verif.Workspaces.C56_replaced_violated`: The code violates C56 in another way: a folder that is replaced in one event (removed and added under a new name, as an editor does when it renames a folder) ends up without cache, while the task started for its old name (number 0) keeps running.

### C57 Computing import hints does not modify compiled files

Slice aliasing model (`slices.Delete` on the dependency list of the descriptor); violated (witness); exact characterisation.

* `Verif.Links.C57_partial`: C57 (partial): a request leaves the list of dependencies of a file unchanged exactly when the file imports descriptor.proto itself, does not depend on it, or has it as its last dependency. Missing: a dependency on descriptor.proto without an import at another place of the list, see `C57_violated`.
* `Verif.Links.C57_answers`: C57: as long as a request finds a path for each import, every later request gives the same answer.
* `Verif.Links.C57_violated`: C57 fails: a file that depends on descriptor.proto without importing it, followed by other dependencies, loses it from the list and has its last dependency twice.

### C58 Generated-code lookup only considers files generated from the source

Line scanner and filter; violated: the filter on the source is inverted, versions are never reported (witnesses).

* `Verif.GenFiles.C58_source`: C58: the source of a header is reported.
* `Verif.GenFiles.C58_complete`: C58: every file of the package that is generated from the source is returned.
* `Verif.GenFiles.C58_partial`: C58 (partial): in a package in which every file is either generated from the given source or written by hand, the files returned are those generated from the source. Missing: packages with files generated from several sources, see `C58_violated`.
* `Verif.GenFiles.C58_violated`: C58 fails: every file with a header is returned, whatever its source.
* `Verif.GenFiles.C58_versions_violated`: C58 fails: the versions of a header are never reported.

### C59 Only workspace files count as workspace-local

Violated (witness), partial.

* `Verif.Resolver.C59_local_partial`: C59, partial: what is treated as workspace-local is a real file whose path begins with the folder's path; conversely every real file inside the folder is. Missing: that the path continues with `/` (`C59_sibling_violated`).
* `Verif.Resolver.C59_exact_partial`: C59, partial: exact when no sibling of the folder has a name starting with the folder's name, i.e. when the path is the folder's or continues with `/`.
* `Verif.Resolver.C59_sibling_violated`: C59 is violated: a file in `/ws2` is workspace-local for the folder `/ws`.

### C60 Completion replaces exactly the identifier under the cursor

Interval arithmetic on offsets; violated for cursors outside of the identifier (witness).

* `Verif.Completion.C60_under_cursor_partial`: C60, partial: with the cursor in the identifier or at one of its ends, the replaced range is exactly the identifier, and the two parts are the text of the identifier before and after the cursor. Missing: cursors outside, see `C60_outside_violated`.
* `Verif.Completion.C60_outside_violated`: C60 is violated when the cursor stands behind the identifier (as in `package foo ;` with the cursor after the blank, see `completePackageNames`): the last letters of the identifier and the blank are replaced.

### C61 References without declaration leave out only the declaration

Full for types and for package names.

* `Verif.References.C61_type`: C61: for a type, the request without the declaration gives all references; with the declaration it gives the declaration in front of them.
* `Verif.References.C61_package_all`: C61: for a package name, the request with the declaration gives the location of the package statement of each file that has one, in valid files.
* `Verif.References.C61_package`: C61: for a package name, the request without the declaration leaves out exactly the package statement of the document itself.

### C62 Type names with a leading dot are formatted unchanged

Violated: a leading dot is doubled in fields without label (for every type), otherwise proved.

* `Verif.CompactOptions.C62_label`: **C62** (part): the type of a field with a label is written as it is.
* `Verif.CompactOptions.C62_partial`: **C62** (part): the type of a field without a label is written as it is, if it does not start with a dot. (Missing: a type that starts with a dot; see `C62_violated`.)
* `Verif.CompactOptions.C62_violated`: **C62** (violated): every type that starts with a dot is written with two dots, if the field has no label.

### C63 Compile bookkeeping keeps one result per file

State machine over hook events, invariant over all histories. Full.

* `Verif.Compile.C63_results`: C63: after any history of compilations and deletions each file has at most one entry among the results; it has one exactly if it was linked since it was last deleted; and an entry with a linked result holds the result of the last compilation of the file that gave one.
* `Verif.Compile.C63_records`: C63: a file is recorded as partially linked, or as unlinked, exactly if its last compilation ended so; never as both.
* `Verif.Compile.C63_pragmas`: C63: the pragmas of a file are those of its last result.
* `Verif.Compile.C63_lookup`: C63: a lookup gives the result of the last compilation of the file, unless it was linked and the file was deleted since.

### C64 Indented insertion keeps the text

Full.

* `Verif.Refactor.C64_hanging`: **C64**: hanging indentation keeps the lines of the text and puts `k` blanks in front of every line but the first.
* `Verif.Refactor.C64_first`: **C64**: `indentText` also indents the first line.
* `Verif.Refactor.C64_undo`: **C64**: the indentation can be undone by removing the blanks again: for every text.

### C65 String literal tokens tile the literal

Regex matches are a parameter; token list as intervals; violated when text follows the last escape (witness), partial otherwise.

* `Verif.StringTokens.C65_contiguous`: C65: the tokens start at the opening quote, follow each other without gaps or overlaps, and each escape is a token of its own at the right place.
* `Verif.StringTokens.C65_escapes`: C65: the tokens of the type for escapes are exactly the escapes; the quotes and the text between them are not.
* `Verif.StringTokens.C65_reach`: C65: the column up to which the tokens reach. Of text after the last escape the last character has no token, and if there are not more than two characters after it, none of them has.
* `Verif.StringTokens.C65_partial`: C65 (partial): the tokens cover the whole literal, quotes included, exactly when it ends with an escape. Missing: literals with text after the last escape, see `C65_violated`.
* `Verif.StringTokens.C65_violated`: C65 fails: `"\nabc"`: the token of the closing quote is one column too early, at the `c`.

### C66 Inlining keeps each field's type and cardinality

Violated for repeated fields (witness), partial for singular fields.

* `Verif.Refactor.C66_singular_partial`: Every inlined field has the label `optional` of proto2 files, or no label: a singular field. **C66**, partial: fields of the inlined message that are singular stay so; others do not (`C66_repeated_violated`).
* `Verif.Refactor.C66_repeated_violated`: C66 is violated: a repeated field is inlined without the label `repeated`.

### C67 Notifications about several files are processed

DidModifyFiles composed of the path map machine (C10) and the slice deletion loop (C06). Violated for every notification of two or more deletions (panic) and for two renames (second creation lost); partial for at most one deletion.

* `Verif.FileEvents.C67_recompiled`: **C67** (part): a notification recompiles the paths that deleted documents had before and those that all other documents of the notification have afterwards, except documents that are closed or opened in another language; and nothing else.
* `Verif.FileEvents.C67_others_kept`: **C67** (part): documents that a notification is not about keep their paths.
* `Verif.FileEvents.C67_forgotten`: **C67** (part): a document whose last modification in a notification is its deletion has no path afterwards, whatever the state was.
* `Verif.FileEvents.C67_created`: **C67** (part): a document whose last modification in a notification is its creation has a path afterwards: that of its Go module, or its path in the folder, if the file can be opened and looked up.
* `Verif.FileEvents.C67_batch_partial`: **C67** (partial): a notification in which every document occurs once, at most one is deleted and all others have a path afterwards: the deletion is left out of the batch and everything else is processed in order. Missing: several deletions, see `C67_delete_violated` and `C67_rename_violated`.
* `Verif.FileEvents.C67_delete_violated`: The code violates C67: a notification of two or more deleted files always crashes the server.
* `Verif.FileEvents.C67_rename_violated`: The code violates C67: when two files are renamed, the creation of the second one is not processed, but the deletion of its old name is; for all (different) names, whatever the paths of the new files.

### C68 A code action request returns exactly the applicable actions

GetCodeActions modelled as a total function; membership of every action characterised by a relation stated with the sub-kind relation.

* `Verif.CodeActions.C68_error`: **C68** (part): a request fails exactly if a diagnostic has data that cannot be read, or a refactoring is wanted for a linked document whose text mapper is not available.
* `Verif.CodeActions.C68_actions`: **C68** (part): a request returns exactly the wanted actions of its diagnostics, the imports for undeclared names and the wanted refactorings, as far as they are not merged into the organize-imports action.
* `Verif.CodeActions.C68_no_crash`: **C68** (part): a request never crashes if all organize-imports actions carry edits.
* `Verif.CodeActions.C68_organize`: **C68** (part): the merged organize-imports action has an edit for each text of the wanted organize-imports actions and no others: every insertion text once, every deletion, and nothing that was not requested.

### C69 A printed comment shows its lines in order at the right place

Same model as C34; the exact output is related to the source lines by a relation for the text of a line (Rendered) and one for the placement (Place).

* `Verif.PrintComment.C69_nothing`: **C69** (part): nothing is printed exactly for the empty comment and the comment of one line break.
* `Verif.PrintComment.C69_line_style`: **C69** (part): a comment in line style, that is one with `*/` inside, or not within a line when block comments are not preferred, is printed as its lines, each after `//`, at the place and indentation given by `Place`; and nothing else.
* `Verif.PrintComment.C69_block_one`: **C69** (part): a comment of one line in block style is printed as `/*…*/` with its text, with a blank at the end if there is one at the start, at the place given by `Place`.
* `Verif.PrintComment.C69_block_many`: **C69** (part): a comment of several lines in block style is printed as `/*`, its lines, each after ` *`, and ` */`, at the place and indentation given by `Place`.

### C70 Formatting keeps the tokens of a file

The whole formatter over an inductive syntax tree (Model/Formatter), a lexer as a state machine (Spec/Lexer), and triples `Emits` between the state of the writer and that of the lexer, proved for every function by induction over the tree. Violated for a type that starts with a dot in a field without label (witness); partial because FileOk also excludes what C43, C44 and C45 show to be wrong.

* `Verif.Formatter.C70_tokens_partial`: C70: the formatter does not panic, and the tokens of the text are exactly those of `File.out`: no token is split, joined with its neighbour, put in a comment, or lost, wherever there are comments and however the text is laid out.
* `Verif.Formatter.C70_rewrites_partial`: C70: the tokens of the text are those of the source, except for separators, colons and closing parentheses that are missing, empty option lists and empty bodies of methods.
* `Verif.Formatter.C70_significant_partial`: C70: the identifiers, numbers, string literals and signs of the text are those of the source, in the same order.
* `Verif.Formatter.C70_dot_violated`: C70 is violated: before the type of a field without a label, a dot is written twice.
* `Verif.Formatter.C70_missing_violated`: C70 is violated for trees in which a token is missing: formatting a package statement without its semicolon panics, whatever the name and the comments, so the condition `FileOk` of `C70_tokens_partial` is needed.
* `Verif.Formatter.C70_errors_violated`: Errors that are reported while elements are written in columns are dropped: the copy of the formatter has them, the formatter has not.

### C71 Clearing the diagnostics of a file keeps those of other files

Model of the handler (Model/Diagnostics). C71_others counts, for every place of every other file, exactly what is removed; C71_partial covers the files that the cleared diagnostics do not refer to. The full claim is false: DeleteRelated removes the first diagnostic at the same range whatever caused it (C71_violated).

* `Verif.Diagnostics.C71_cleared`: C71: after the diagnostics of a file are cleared, it has none.
* `Verif.Diagnostics.C71_others`: C71: what is removed from another file: for each place that the cleared diagnostics refer to, one diagnostic at that place; everything else stays, in the same order.
* `Verif.Diagnostics.C71_partial`: C71 (partial): the diagnostics of the files that the cleared ones do not refer to stay as they are, and so does the result id. Missing: files to which they refer, see `C71_violated`.
* `Verif.Diagnostics.C71_violated`: C71 fails: when the diagnostics of `a` are cleared, an error of `b` is removed because the error of `a` refers to the same place, although it does not refer to `a` and `b` has not changed.

### C72 The lookup of a descriptor finds what the identifier stands for

`Model/PathSearch` follows both loops of `deepPathSearch` with the case distinctions on the types of descriptors and nodes; descriptors are opaque with the methods the code calls (`Schema`). `Spec/PathSearch` says, without a stack and from the outside to the inside, what a declaration (`Decl`), a literal (`Lit`) and an identifier (`Denotes`) stand for. Proved by induction over `Decl` and `Lit` with an invariant on the stack (`Reached`): all pushed entries up to a node are resolved to the descriptors of the specification. Positions where the code differs are excluded (`Placed`, `Supported`) and shown by witnesses. Trusted: `paths.DereferenceAll`, the maps from nodes to descriptors of the parser, and the methods of the descriptors (`Typed`).

* `Verif.PathSearch.C72_declaration_partial`: **C72** (part): the lookup finds the descriptor of every declaration, at any depth, and returns its range.
* `Verif.PathSearch.C72_denotes_partial`: **C72** (part): the lookup finds what an identifier stands for: names and types of declarations at any depth, inputs and outputs of methods, parts of option names, values of options, and fields and values in message literals at any depth. The range is that of the whole (compound) identifier. Partial: for the declarations in `Placed` and the identifiers in `Supported`, and if the linker does not return wrappers for extensions in literals; see the `C72_..._violated` theorems.
* `Verif.PathSearch.C72_scalar_partial`: **C72** (part): nothing is found at a scalar type.
* `Verif.PathSearch.C72_import_partial`: **C72** (part): at an import the lookup finds the imported file; at an unfinished one it finds nothing, without an error; for an import of a file that the linker has not resolved it fails.
* `Verif.PathSearch.C72_map_violated`: **C72** fails for a map in a message that is not nested, in a file without package: at the *name* of the field the lookup finds the message that is the value type.
* `Verif.PathSearch.C72_map_enum_violated`: **C72** fails for the type of the values of a map if it is an enum: nothing is found.
* `Verif.PathSearch.C72_qualified_enum_violated`: **C72** fails for the components of an enum type that is parsed as a compound identifier (`p.E`): nothing is found.
* `Verif.PathSearch.C72_list_violated`: **C72** fails for the elements of a list of enum values in a message literal: nothing is found.
* `Verif.PathSearch.C72_group_violated`: **C72** fails for a message that is declared in a group: nothing is found (or the message of the file with the same name).
* `Verif.PathSearch.C72_extendee_violated`: **C72** fails for the extended message of an `extend` in a message if its name is relative: nothing is found.
* `Verif.PathSearch.C72_literal_extension_violated`: **C72** fails for an extension in a message literal if the linker has a wrapper for it: nothing is found.

### C73 Extracting fields keeps field names distinct

Proved for messages with fewer than 100 fields from `C23_extract` and the specification of the name search (C20); the witness has fields with all candidate names.

* `Verif.Refactor.C73_distinct_partial`: **C73**: after extraction, the names of the fields of the old message are still distinct. Partial: for fewer than 100 fields (`C73_exhausted_violated`).
* `Verif.Refactor.C73_exhausted_violated`: C73 is violated if 100 fields `newField`, `newField1`, …, `newField99` exist: the new field gets the name of one of them.

### C74 Rename changes exactly the short name at the definition and every reference, or nothing

`Model/Rename` follows the three functions with the switch on the node types; lookup, definition, references, resolver and descriptor table are parameters (C72, C25, C10). The specification names the place of the short name in a node (`Node.short`) and the wanted edits per document; the result of the loop is characterised by induction over the references with the map of edits as accumulator. `FullName.IsValid` is modelled as in protoreflect and related to identifiers between dots. Witnesses show the two failures.

* `Verif.Rename.C74_succeeds_partial`: **C74** (part): a rename succeeds exactly if the descriptor may be renamed, the new full name is valid and not used, and all references are in files of the workspace; otherwise the whole rename is refused. Partial: for simple references (`C74_qualified_violated`).
* `Verif.Rename.C74_nothing`: **C74** (part): if nothing is found at the position, or there is no definition, the rename is refused.
* `Verif.Rename.C74_edits_partial`: **C74** (part): the edits for a document replace exactly the short name in each reference in it and in the definition, by the new name; documents without references have no edits, and all documents are files of the workspace. Partial: for simple references (`C74_qualified_violated`).
* `Verif.Rename.C74_prepare`: **C74** (part): preparing a rename succeeds exactly if the descriptor at the position may be renamed, and offers its short name; it does so whenever the rename succeeds.
* `Verif.Rename.C74_identifier_partial`: **C74** (part): after a successful rename the new name is an identifier, and no descriptor has the new full name. Partial: if the new name has no dot (`C74_dotted_violated`).
* `Verif.Rename.C74_qualified_violated`: The code violates C74: a qualified type of a method is replaced as a whole, so that the package is lost.
* `Verif.Rename.C74_dotted_violated`: The code violates C74: a new name with a dot is accepted.

### C75 Node under the cursor and nodes in a selection

Model of the two searches over arbitrary finite syntax trees. The nodes the walker reaches are described by an inductive relation, extents by the reading order of positions. The collected list is shown to be ordered and complete by mutual induction over the tree; the loops are characterised by invariants. Partial: an rpc with a body is never considered (search.go 714, `node.Semicolon != nil &&`), `C75_rpc_violated` is a service in which the cursor between the braces of an rpc is attributed to the service.

* `Verif.CursorPath.C75_cursor_partial`: C75. The path returned for a cursor leads to a node that contains the cursor, no path to such a node is longer, and it is the first of the longest in document order; the search fails exactly if no node contains the cursor. Full statement: this for every tree. Missing: trees with an rpc that has a body and that contains the cursor, see `C75_rpc_violated`.
* `Verif.CursorPath.C75_selection`: C75. The paths returned for a selection are exactly those of the recorded nodes that are longest, in document order; the search fails exactly if no node is recorded.
* `Verif.CursorPath.C75_selection_default`: C75. The same for the visitor of the server's own searches: all nodes are recorded to which a cursor can be attributed, and no other; groups, map fields and nodes of other kinds hide what is below them.
* `Verif.CursorPath.C75_selection_fields`: C75. The same for the visitor of the refactorings of fields: messages, groups, fields and map fields are recorded, and only these and the file are entered.
* `Verif.CursorPath.C75_rpc_violated`: C75 fails for an rpc with a body: the cursor between its braces is attributed to the service, although the rpc contains it and has the longer path.

### C76 Order of printed descriptor elements

Model of the three Less functions and of SortElements. Each documented order is given in the specification by a key, a list of integers compared lexicographically; the comparison is shown to agree with the order of the keys for all pairs of elements of a scope, so that the stable sort yields the keys in order. Partial: with partial source information the comparison has cycles (`C76_mixed_violated`), without any it is not a strict weak order (`C76_bare_violated`); for up to 20 elements, which sort.Stable sorts by insertion, the order is right all the same (`C76_bare_partial`).

* `Verif.PrintOrder.C76_located_partial`: C76. The elements of a scope that have source locations are printed in the documented order: package, imports by name, builtin options, custom options, then everything else by the list of the descriptor it is in, numbered elements by number; elements that this does not tell apart keep their order. `sort.Stable` is a stable sort. Full statement: this for all descriptors. Missing: descriptors with incomplete source information, see `C76_mixed_violated` and `C76_bare_partial`.
* `Verif.PrintOrder.C76_canonical`: C76. The canonical order (`Printer.SortElements`) of the elements of a scope is the documented one.
* `Verif.PrintOrder.C76_bare_partial`: C76. Without source locations, and for as many elements as `sort.Stable` sorts by insertion (20), the elements are printed in the documented order, too, the kinds in the order in which the printer lists them. Full statement: this for any number of elements. Missing: more than 20 elements; the comparison is not a strict weak order then (`C76_bare_violated`), so that nothing follows from the documentation of `sort.Stable`.
* `Verif.PrintOrder.C76_source_order`: C76. The order by source location (`elementSrcOrder`), which decides where `SortElements` leaves the order open: elements the source info knows are ordered by the path of their location; elements it does not know are not told apart and go after those it knows, except that the package, imports and options go first, in this order.
* `Verif.PrintOrder.C76_bare_violated`: C76: without source locations the comparison is not a strict weak order: neither field can be told apart from the nested message, but they can from each other.
* `Verif.PrintOrder.C76_mixed_violated`: C76: if only some of the elements have a location, the comparison can have cycles; then the order of the output is not determined by it.

### C77 A printed descriptor declares what the descriptor contains

Model/Printer.lean models all of `printFile` and what it calls, over descriptors as trees; Spec/Decls.lean says which tokens a declaration has, Spec/PrintedDecls.lean which declarations describe a descriptor, Spec/Lexer.lean is the lexer. Every printing function is shown to write the tokens of some declarations (`Emits`, a triple over the state of the lexer and the pending blank of the writer) that describe the element; the loops with `skip` are shown to print every key once; messages by structural induction. Partial: extensions in a file with source info crash the printer (`C77_extension_violated`), infinities are printed as `+Inf` (`C77_infinity_violated`), a file of an edition gets `syntax = "editions"` (`C77_editions_violated`), and the exclusions of C32, C34 and C35.

* `Verif.Printer.C77_declarations_partial`: C77. The text that is printed for a file descriptor consists of the declarations of the descriptor: a lexer finds the tokens of a list of declarations `ds`, and every element of the descriptor (package, imports, options, messages, fields, groups, oneofs, enums, values, reserved and extension ranges and names, extensions, services, methods) is declared exactly once in its scope, with its name, number, type, label, options, default value and JSON name, and nothing else is declared. This holds for all settings of the printer, all comments, and every order of the elements. Full statement: this for all descriptors. Missing: extensions in a file with locations for them (see `C77_extension_violated`), infinite numbers (`C77_infinity_violated`), editions (`C77_editions_violated`), strings with `"` (C32), ranges of enums with several numbers (C35), and comments that are two newlines (C34).
* `Verif.Printer.C77_extension_violated`: C77, extensions: a file with an extension whose location and the location of whose `extend` block are known, as in every compiled file with source information, is not printed: `isSpanWithin` gets paths instead of spans and indexes the path `[7]` out of its bounds.
* `Verif.Printer.C77_infinity_violated`: C77, infinite numbers: they are printed as Go does, `+Inf`, which is not a constant.
* `Verif.Printer.C77_editions_violated`: C77, editions: the text declares a syntax `editions`, which does not exist, and no edition.

### C78 "Simplify repeated options" keeps the meaning of the options

Model/Simplify.lean models the choice of the target, the walk that collects the references, and all edits, with nodes as values that have an identity and the panics of `slices.Replace` explicit; Spec/Simplify.lean says what the options of a message set (`contents`, by path) and what the grammar of an array is. Proved for messages with a literal for the extension before the options that set the field: the list of references is computed (`refs_setting`), then removals and replacement are evaluated by induction over the declarations. Partial: crashes (`C78_documented_violated`, the example of the doc comment; `C78_before_violated`, `C78_nested_violated`), loss of fields (`C78_lost_violated`), reordering (`C78_order_violated`), duplication in enums and services (`C78_enum_violated`), mixing of fields (`C78_prefix_violated`), a missing comma (`C78_comma_violated`).

* `Verif.Simplify.C78_simplify_partial`: C78. In a message with an option `option (e) = { ... }` that sets the repeated field `x`, and perhaps options `option (e).x = ...` after it, the action makes one array of the values, in the grammar of protobuf; nothing else is changed, and every field of every option has the same contents as before, in the same order. Full statement: this for all options. Missing: everything not in `Setting` and `Handled`, see the `C78_..._violated` theorems.
* `Verif.Simplify.C78_documented_violated`: C78 fails for the example in the documentation of the function (refactor.go 198-210), `option (e).x = 13; option (e).x = 17;`: the option that is to be replaced has been removed, the server crashes.
* `Verif.Simplify.C78_before_violated`: C78 fails if the option with the literal comes after one that sets the field: the server crashes.
* `Verif.Simplify.C78_lost_violated`: C78 fails for a literal without an array, `option (e) = { x: 10 y: 11 x: 12 };`: the field `y` is lost.
* `Verif.Simplify.C78_order_violated`: C78 fails if a value comes before the array, `option (e) = { x: 10 x: [12,] };`: the order changes.
* `Verif.Simplify.C78_enum_violated`: C78 fails in enums and services: values are added to the array, the options with them are not removed.
* `Verif.Simplify.C78_nested_violated`: C78 fails if a nested message has an option for the same field: the server crashes.
* `Verif.Simplify.C78_prefix_violated`: C78 fails if the extension is used in two fields of the options, `option a.(e) = { x: [10,] }; option b.(e).x = 13;`: the value for the one is added to the other.
* `Verif.Simplify.C78_comma_violated`: C78 fails for an array without a comma at its end (the parser, which is not modelled, may have added one): there is none between its last value and the first one that is added.

### C79 Imports are found, and the files found are those that the server shows

Model/FindFile.lean models `FindFileByPath` with its five strategies, the import of Go modules and generated code, the translation of relative paths and `CheckIncompleteDescriptors`, as functions on the maps of the resolver; file system, module cache, editor and generated code are a `World`, which may change between steps. Spec/FindFile.lean says what the editor shows and when a result is `Located`. Proved by invariants over histories (`Registered`: what a path is registered for; `Settled`: what was found is found again; `Known`: synthetic texts of files of the program). Props/FindFilePaths.lean adds which file a relative import stands for: `walk` says where a path with `.` and `..` leads, and the theorems give the candidates in the order in which they are tried. Partial: files of Go modules that are open (`C79_open_violated`) or large (`C79_large_violated`), documents of the workspace with `google/` paths (`C79_google_violated`, `C79_unregistered_violated`), relative paths without Go module (`C79_relative_violated`, `C79_sibling_violated`), the path of files found by generated code (`C79_reverse_violated`), `gogo.proto` (`C79_gogo_violated`).

* `Verif.FindFile.C79_located_partial`: C79, partial: after any history, what is found for a path is the text of a document, which the server knows by the path of the result: the text in the editor, if the document is open there; or a descriptor of a synthetic document. Missing: files of Go modules that are open in the editor (`C79_open_violated`), and documents of the workspace with a path that begins with `google/` (`C79_google_violated`).
* `Verif.FindFile.C79_again_partial`: C79, partial: as long as nothing changes but by lookups, a second lookup, of the path of the result, gives the same result: the compiler and the editor do not see different files. Missing: files of Go modules that are open in the editor or larger than 1 MB (`C79_large_violated`).
* `Verif.FindFile.C79_well_known`: C79 (part): a path that begins with `google/` and that is linked into the program always stands for the file that is linked in, whatever happened before, whatever documents and modules there are, and from wherever it is imported.
* `Verif.FindFile.C79_document`: C79 (part): the path of a document of at most 1 MB that does not begin with `google/` stands for that document as it is shown; the lookup changes nothing.
* `Verif.FindFile.C79_module`: C79 (part): a path that belongs to no document stands for the proto file in the Go package with that path, if there is one; after that, it is the path of that file.
* `Verif.FindFile.C79_generated`: C79 (part): if a Go package has only code generated from the file, the path stands for the descriptor in it; after that, it is the path of a synthetic document.
* `Verif.FindFile.C79_context`: C79 (part): the importing file matters only for paths that are not found without it.
* `Verif.FindFile.C79_relative_partial`: C79, partial: in the Go module of the workspace, a path that is not found otherwise stands for the file with that path relative to the directory of the importing file. Its path is then that of its package. Missing: workspaces without Go module (`C79_relative_violated`).
* `Verif.FindFile.C79_relative_module_partial`: C79, partial: the same for files in other Go modules; the path is that of the importing file with the last parts replaced.
* `Verif.FindFile.C79_incomplete`: C79 (part): after a compilation, every synthetic document without text, for which the compiler has a result that can be printed, gets that text; texts that are there already stay, and no other document gets one. The paths to be compiled again are those of the documents that got a text, each once.
* `Verif.FindFile.C79_open_violated`: C79 fails for a file of a Go module that is open in the editor: the first lookup gives the compiler the saved text.
* `Verif.FindFile.C79_large_violated`: C79 fails for a large file of a Go module: the first lookup succeeds, the next one is refused.
* `Verif.FindFile.C79_google_violated`: C79 fails for a file of the workspace with the path of a file of the program: the path leads to the one, its text is that of the other.
* `Verif.FindFile.C79_unregistered_violated`: C79 fails for a document of the workspace with a path that begins with `google/`, but is no file of the program: the document is there, its path is known, and it is not found (the comment on the order at resolver.go:275-282 says that documents are tried next).
* `Verif.FindFile.C79_relative_violated`: C79 fails in a workspace without Go module: `import "./b.proto"` in `s/a.proto` gives `b.proto` in the directory above, although `s/b.proto` was found first.
* `Verif.FindFile.C79_sibling_violated`: C79 fails there for `import "b.proto"`, too, if there is no such file in the directory above: `s/b.proto` is not found.
* `Verif.FindFile.C79_reverse_violated`: C79 fails for a path that is found by means of generated code and that leads to a file of the program: the path of the result is replaced by one that belongs to no document.
* `Verif.FindFile.C79_gogo_violated`: C79 fails for `gogo.proto` in a Go package without that file: the lookup ends with an error, the file of `gogo/protobuf` (here in `/c`) is not tried, as it is for other paths.
* `Verif.FindFile.C79_join_file`: C79 (part): the files that are tried for an import are those one comes to from the directory, part by part.
* `Verif.FindFile.C79_join_path`: C79 (part): a joined path leads to the same place as its parts, from every directory, and is as short as can be: names below some `..`.
* `Verif.FindFile.C79_local`: C79 (part): a path is searched for relative to the importing file iff it is relative and does not lead out of any directory.
* `Verif.FindFile.C79_relative_dots_partial`: C79, partial: as `C79_relative_partial`, for paths with `.` and `..`.
* `Verif.FindFile.C79_duplicated_partial`: C79, partial: if there is no such file, and the path begins with the name of the directory of the importing file, it stands for the file relative to the directory above, whatever other files there are.
* `Verif.FindFile.C79_above_partial`: C79, partial: if there is no such file either, and none that is found by the end of the directory (C11), the path stands for the file relative to the directory above.
* `Verif.FindFile.C79_outside`: C79 (part): a path that leads out of its directory is not searched for, neither relative to the importing file nor among the imports of generated code (parts of the paths of Go packages do not end with a dot): the import fails.
* `Verif.FindFile.C79_registered`: C79 (part): the path of a document stands for that document only: if it cannot be read, no other file is found instead.
* `Verif.FindFile.C79_moved`: C79 (part): after a file got another path, it is found by that, and the old path belongs to no document.

### C80 Printing a descriptor keeps the comments of its elements

Extends the model of C77 (Model/Printer.lean). Spec/PrintedComments.lean says what a text with the lines of comments around a statement is (`Framed`, `Statement`, `Commented`) and which path and tokens the elements of a descriptor have (`FileEl`, `MsgEl`, `FieldEl`, `EnumEl`, `HeaderEl`). Lemmas/PrinterLocal.lean proves that every printing function only appends, and that what it appends does not depend on what was printed before but for the state of the writer; Lemmas/PrinterComments.lean that comments are framed; Lemmas/PrinterKeeps.lean and PrinterKept.lean follow the path of an element by induction. The text says that the comments stand at a declaration with these tokens, not at which of two equal declarations in different scopes. Partial: comments of `reserved` and `extensions` statements are lost (`C80_reserved_violated`, `C80_extensions_violated`); a file with extensions and locations for them is not printed at all (`C77_extension_violated`). Comments of options and of tokens in a declaration are not covered.

* `Verif.Printer.C80_comments_partial`: C80. If there is a location for a message, field, group, oneof, enum, value, service, method, or extension of a descriptor, the printed text has the detached and leading comments of the location (all lines, in order) directly before the declaration of the element, and the trailing comment directly after its `;` or `{`: there are only comments and white space between them. Full statement: this for all elements. Missing: the comments of `reserved` and `extensions` statements (`C80_reserved_violated`, `C80_extensions_violated`), extensions in a file with locations for them (`C77_extension_violated`), and what C77 does not cover.
* `Verif.Printer.C80_header_partial`: C80, syntax, package, and imports: likewise, unless the comments of tokens are omitted.
* `Verif.Printer.C80_reserved_violated`: C80, reserved ranges and names: the comments of a `reserved` statement, whose location has the path of the list of ranges or names, are not printed: the text is that for a file without comments.
* `Verif.Printer.C80_extensions_violated`: C80, extension ranges: likewise for an `extensions` statement.

### C81 The outline of a document lists its declarations

Model/Outline.lean models symbols.go:16-48, 155-269 and range.go:13-29 on a syntax tree with positions; the parser is not modelled. Spec/Outline.lean says what a tree declares (`declared`, one recursion for all kinds of declarations and places), what an outline shows (`shown`), the grammar, and nesting of ranges. Proved by mutual induction over trees. Positions are those of the parser (`NodeInfo`), as long as they fit into `uint32`; whether its columns are those of the protocol is not modelled. Partial: fields in oneofs, and groups with what they contain, are not listed (`C81_oneof_violated`, `C81_group_violated`).

* `Verif.Outline.C81_only`: C81 (part): whatever the syntax tree, the outline lists declarations of the file only, each at most as often as it is declared, below what it is declared in, and in the order of the file.
* `Verif.Outline.C81_all_partial`: C81, partial: the outline lists everything that is declared. Missing: files with oneofs or groups (`C81_oneof_violated`, `C81_group_violated`).
* `Verif.Outline.C81_nested`: C81 (part): the range of a symbol contains the name that is selected and the ranges of the symbols below; all are inside the file.
* `Verif.Outline.C81_range`: C81 (part): the ranges are those of the declarations; lines and columns begin with 0 instead of 1.
* `Verif.Outline.C81_missing`: C81 (part): without a result of the compiler there is an error, without syntax tree an empty outline.
* `Verif.Outline.C81_oneof_violated`: C81 fails for oneofs: their fields are not in the outline.
* `Verif.Outline.C81_group_violated`: C81 fails for groups: neither they nor what they declare is in the outline.

### C82 Semantic tokens of names and comments cover exactly their text

Model/TokenCells.lean models semantic.go:288-314, 331-443 and 686-702. Spec/TokenCells.lean says which places a text occupies (`cells`, by moving over it character by character) and which places a token covers. A character is a byte. Positions, comments and raw texts are those of the parser, which is not modelled; comments are not empty and do not end in a line feed. Partial: the value of a pragma with at most 10 characters has no token (`C82_pragma_violated`: `text` in line 371 is the variable shadowed in line 347), and a name with a line feed inside gets a token whose length wraps around (`C82_multiline_violated`; this concerns names given to `mktokens` directly, such as package names and option names).

* `Verif.TokenCells.C82_leading`: A leading comment that is no pragma of the `syntax` or `edition` keyword is covered by comment tokens, character by character, in any number of lines.
* `Verif.TokenCells.C82_trailing`: The same for trailing comments, without the copies that stand in for a comment elsewhere.
* `Verif.TokenCells.C82_order`: No character is covered twice: the places of a text, hence the tokens of a comment, are in strict order.
* `Verif.TokenCells.C82_places`: Every character of the text but a line feed has its place: `q` is covered iff it is the place of such a character.
* `Verif.TokenCells.C82_pragma_partial`: A pragma, `//protols:key value`, at the `syntax` or `edition` keyword: `//` is a comment, `protols:key` a macro, and the rest a comment again. Full claim: for every value. Here: for no value, or one with more than 10 characters.
* `Verif.TokenCells.C82_pragma_violated`: The value of a pragma that has at most 10 characters (with the space) is covered by no token, whatever the key: the comparison in line 371 is with the text behind the prefix.
* `Verif.TokenCells.C82_no_key`: A pragma without a key is an ordinary comment.
* `Verif.TokenCells.C82_node`: The name of a node in one line, and its comments: first the token of the name, then the comments before it, then those behind it; nothing else.
* `Verif.TokenCells.C82_none`: A missing node or one without tokens has no tokens.
* `Verif.TokenCells.C82_all_partial`: The tokens of a whole node: where the comments stand is covered by comment tokens, where the name stands by one token of its type. Full claim: with pragmas and names in several lines. Here: without.
* `Verif.TokenCells.C82_multiline_violated`: A name in two lines gets one token that is longer than any line: `foo.` in column 4 and `ba` in the next line.
* `Verif.TokenCells.C82_compound_whole`: A type whose text is its name is one token, also when it is a name with dots.
* `Verif.TokenCells.C82_compound_parts`: A type that is broken up by spaces, line feeds or comments has one token for each part: exactly the characters of the parts are covered, in any number of lines.
* `Verif.TokenCells.C82_library`: Types of the package `google.protobuf` are marked as library types, with or without a leading dot.
* `Verif.TokenCells.C82_no_library`: A name that does not contain `google.protobuf.` is not marked.

### C83 The search for declarations by prefix finds what begins with the prefix

Model/FindTypes.lean models cache.go:329-451 as a transition system (the loop that starts goroutines through an errgroup with a limit, the goroutines that write into their slots, cancellation, `Wait`), the filters and the choice of the search in completion.go:1015-1054. The external `FindDescriptorsByPrefix` is a parameter with the assumptions `LibOk`: it returns; without cancellation it returns the matching declarations of the file and no error; with cancellation a part of them. Invariant over all steps; termination by a measure. Partial: with a leading dot only files are searched whose package begins with the whole prefix (`C83_leading_dot_violated`: `.p.Ba` does not find `p.Bar`, cache.go:432-435), and files without package are not searched (`C83_no_package_violated`, cache.go:380-383). Not modelled: the type assertion `res.(linker.Result)`.

* `Verif.FindTypes.C83_unqualified`: The search with an unqualified prefix returns, whatever the order in which the goroutines run, the declarations of all files with a package that pass the filter and whose names below the package begin with the prefix: file by file, in the order of the files, in each file in the order of the library.
* `Verif.FindTypes.C83_qualified`: The search with a qualified prefix without leading dot returns the declarations of all files with a package that pass the filter and whose full names begin with the prefix.
* `Verif.FindTypes.C83_leading_dot_partial`: With a leading dot, only the files are searched whose packages begin with the rest of the prefix. Missing: the declarations of other packages whose full names begin with it.
* `Verif.FindTypes.C83_sound`: Even if a search fails or the request is cancelled, nothing is returned that does not belong to the answer: the result of each file is part of the declarations that match.
* `Verif.FindTypes.C83_views`: `Len` is the number of the descriptors of `All`; `Range` does not panic and visits one entry per file, in their order: with the path of the file (empty for a placeholder without partial result), and all the entries together are `All`.
* `Verif.FindTypes.C83_limit`: At no time more goroutines run than the limit allows.
* `Verif.FindTypes.C83_returns`: The search comes to an end: it takes at most two steps per file and two more, and the only states without a next step are those in which it has returned.
* `Verif.FindTypes.C83_types`: Completion of a type name without dot: the candidates are the messages other than map entries, and the enums, of all files with a package, whose names below the package begin with the text before the cursor.
* `Verif.FindTypes.C83_qualified_types`: Completion of a type name with a dot, but not at its beginning: the candidates are the types of all files with a package whose full names begin with the text before the cursor.
* `Verif.FindTypes.C83_extendable`: Completion of the type that is extended, in a proto2 file: only messages with extension ranges.
* `Verif.FindTypes.C83_no_package_violated`: A type in a file without package is not found, although its name begins with the text.
* `Verif.FindTypes.C83_leading_dot_violated`: A type that begins with the text after a leading dot is not found if the text goes beyond the package: with `.p.Ba` typed, `p.Bar` is not among the candidates.

### C84 Quick fixes for unused imports and undeclared names

Model/QuickFix.lean models diagnostics.go:256-387, refactor.go:132-189 and completion.go:588-595 on top of the search of C83. Texts, edits and positions are those of the specification of document changes (C05): `posAfter` counts line breaks and characters, `Denotes` is the lookup of names of Spec/Names.lean. The errors, their positions and the insertion point for imports come from the compiler, which is not modelled. Partial: an import that shares its line with something else takes that along (`C84_remove_import_violated`); an import is also offered for nested declarations and for fields (`C84_nested_violated`: `protoreflect.ExtensionDescriptor` in the type switch is an alias of `FieldDescriptor`); nothing is offered for names with a leading dot (`C84_leading_dot_violated`).

* `Verif.QuickFix.C84_remove_import_partial`: "Remove unused import" removes exactly the lines on which the import stands: the text is `before`, ending with a line break or empty, then the `lines` with the import, then `after`. Missing: that nothing else is removed that stands on these lines.
* `Verif.QuickFix.C84_remove_import_violated`: `import "a";import "b";` on one line: removing the first import removes the second, too.
* `Verif.QuickFix.C84_unused_import`: An unused import is a warning, tagged as unnecessary, and its metadata names the import. No other error is made a warning or tagged.
* `Verif.QuickFix.C84_metadata`: The metadata of an error name exactly the undeclared name and the hint for it; errors of other kinds have no such metadata.
* `Verif.QuickFix.C84_new_message`: For an undeclared name without dot, one action is offered: it inserts a message of that name behind the last token of the file, changes nothing else, and the ranges of its command are, in the new text, the new message and the place between its braces.
* `Verif.QuickFix.C84_no_new_message`: For a name with a dot, and for errors of other kinds, no action of this sort is offered.
* `Verif.QuickFix.C84_add_import`: The edit of an import inserts one line at the insertion point and changes nothing else.
* `Verif.QuickFix.C84_imports`: The imports offered for a name without dot, in a file `cur` of package `pkg`: one for each type or field in another file with a package whose full name begins with the name in the package `pkg`, and whose last component is the name.
* `Verif.QuickFix.C84_imports_qualified`: The imports offered for a name `p.n` with a dot, but not at its beginning.
* `Verif.QuickFix.C84_fixes_partial`: A type with the missing name in the package of the file, declared in another file, is offered, and with the import the name denotes it: `scope` are the components of the scope in which the name is used, and nothing of that name is declared in a scope between it and the package. Missing: an import is also offered for declarations that the name does not denote.
* `Verif.QuickFix.C84_nested_violated`: An import is offered for a field of another message that has the missing name; the name does not denote it.
* `Verif.QuickFix.C84_leading_dot_violated`: For a name that begins with a dot no import is offered, although the type exists in another file: `.p.T`.

### C85 Generated code is written next to its sources and nowhere else

Model/Generate.lean models `doGenerate` on a disk that maps paths to files and directories, with every system call failing or not; `OverwriteFile` is the model of C31, `path.Dir`, `path.Base`, `path.Join` and `path.Clean` are modelled on strings (Model/GoPath.lean). The specification says where an absolute path leads by walking it part by part (`place`, Spec/GoPath.lean). The plugin and the generators are a parameter. Invariant over the loops (table of directories, confinement). Partial: two documents in different directories that have the same go_package (`C85_shared_package_violated`: the code of the first is written next to the second), and a go_package that is not clean, such as `./;foo` (`C85_dot_violated`: refused). `C85_recoverable_partial`: no content is lost whatever call fails (whole old or new content, or a backup), except that an existing file for which `os.Stat` fails is overwritten without a backup (`C85_stat_violated`). Not modelled: symbolic links, permissions.

* `Verif.Generate.C85_confined`: **C85** (confinement): whatever the generators answer and whatever fails, every file that is changed, created, or left as a backup is in the directory of a requested document that has a package and no pragma `nogen`.
* `Verif.Generate.C85_targets`: **C85** (targets): code is generated for exactly the requested documents that have a package and no pragma `nogen`: what the generators would answer for other lists of documents does not matter.
* `Verif.Generate.C85_failed`: **C85** (failure): if a document is not found, or the plugin or a generator fails, nothing is written.
* `Verif.Generate.C85_recoverable_partial`: **C85** (nothing is lost): whatever the system does, as long as files that exist are found, every path holds what it held before or one of the generated files, or is a new file with the beginning of a generated file, or has a backup of its last content. (Partial: an existing file that `os.Stat` does not find is overwritten without a backup, see `C85_stat_violated`.)
* `Verif.Generate.C85_next_to_source_partial`: **C85** (next to the source): a generated file in a directory that belongs to a document (its import path or its `go_package`) is written into the directory of the document with the generated content. (Partial: the documents that the directory of the response belongs to must be in one directory, see `C85_shared_package_violated`, and import paths and `go_package` must be names separated by slashes, see `C85_dot_violated`.)
* `Verif.Generate.C85_refused`: **C85** (refusal): if a generated file is in a directory that belongs to no document, the command reports an error.
* `Verif.Generate.C85_succeeds`: **C85** (success): if every document is found, no call fails, every generated file is in a directory that belongs to a document and none of them would replace a directory, the command succeeds.
* `Verif.Generate.C85_shared_package_violated`: The full claim is false when two documents in different directories have the same Go package (or one has the import path of the other as Go package): the code of the first one is written next to the second one.
* `Verif.Generate.C85_dot_violated`: The full claim is false for a Go package that is not clean: with `go_package = "./;foo"` the generators put the file into the directory `.` (`path.Join("./", "z.go")` is `z.go`), the table has `./`, and the file is refused.
* `Verif.Generate.C85_stat_violated`: handler.go:176: every error of `os.Stat` counts as "there is no such file". If it fails for another reason and writing fails in the middle, an existing file is lost: only the beginning of the new content is there, and no backup.

### C86 The code generation API selects the files below the search directories and returns their places

Model/GenerateCode.lean models `GenerateCode` up to the plugin; the driver and the generators are parameters. `C86_selected_partial` characterises the selection exactly by places on the disk: below a search directory, or below a sibling whose name begins with the name of the search directory (`C86_sibling_violated`, generator.go:123 compares strings). Other violations with witnesses: an absolute search directory with a slash at the end selects nothing directly in it (`C86_slash_violated`); files of a go_package that is not the import directory get a path relative to the working directory (`C86_go_package_violated`); the slice of the caller is modified (`C86_arguments_violated`, with an exact condition); the repaired go_package may be as invalid as before (`C86_fix_violated`).

* `Verif.GenerateCode.C86_selected_partial`: **C86** (selection): code is generated for a document of the workspace exactly if it is below one of the search directories, or below a sibling of one whose name begins with the name of the search directory. (Partial: the second case is a mistake, see `C86_sibling_violated`; absolute search directories must be clean, see `C86_slash_violated`.)
* `Verif.GenerateCode.C86_all`: **C86** (selection of everything): with the other strategy code is generated for every descriptor except those of `google.protobuf`.
* `Verif.GenerateCode.C86_place_partial`: **C86** (places): a generated file in the directory of the import path of a document is to be written into the directory of the document. (Partial: nothing is said about files in other directories, such as a `go_package` that differs from the import path, see `C86_go_package_violated`.)
* `Verif.GenerateCode.C86_elsewhere`: **C86** (other places): a generated file in a directory that is not the directory of the import path of any document keeps its name as a path relative to the working directory; in a directory with `google/` in its name only what begins there.
* `Verif.GenerateCode.C86_contents`: **C86** (all or nothing): the result is an error, or has the contents of all generated files in their order.
* `Verif.GenerateCode.C86_arguments_partial`: **C86** (arguments): the list of search directories that the caller passed is unchanged exactly if all of them are absolute. (Partial: see `C86_arguments_violated`.)
* `Verif.GenerateCode.C86_fix_partial`: **C86** (Go packages): with `WithFixInvalidGoPackages` an option that is only a name becomes the directory of the file, which is a valid import path if it has more than one part or a dot; other options are unchanged. (Partial: see `C86_fix_violated`.)
* `Verif.GenerateCode.C86_sibling_violated`: Code is generated for `/w/ab/x` although only `a` is searched.
* `Verif.GenerateCode.C86_slash_violated`: Nothing is generated for `/w/a/y` when the search directory is `/w/a/`.
* `Verif.GenerateCode.C86_go_package_violated`: A file that is generated into another Go package than the import path is to be written to a path relative to the working directory, although the documentation promises the directory of its source.
* `Verif.GenerateCode.C86_arguments_violated`: The slice of the caller is changed.
* `Verif.GenerateCode.C86_fix_violated`: A Go package that is only a name stays one if the directory of the file is only a name.

### C87 Calling an external generator returns what the plugin answers

Model/ExtPlugin.lean models the server and a plugin (any program that reads, writes and exits) as two processes with two bounded pipes, one step per byte. The specification (`Runs`) is the result of the plugin alone on its input. Invariant in continuation style (`Inv`), a measure for termination, and an invariant for plugins that read their whole input before they write more than a pipe holds (`Patient`). Violated, with witnesses for every capacity: the request is written completely before anything is read (`C87_deadlock_violated`), a plugin that exits without reading the request may be reported as failed (`C87_exit_violated`), continued files and insertion points of the plugin protocol are not honoured. Not modelled: standard error, marshalling, plugins that close their output before they exit.

* `Verif.ExtPlugin.C87_answer`: An answer is the whole output of the plugin on the whole request, and the plugin exited successfully.
* `Verif.ExtPlugin.C87_terminates`: If the plugin exits after `k` actions, no call takes more than `2 * k + length of the request + 3` steps, whatever the order of the steps.
* `Verif.ExtPlugin.C87_deadlock`: A call that has not returned cannot continue exactly if both processes are writing and both pipes are full.
* `Verif.ExtPlugin.C87_result_partial`: With a plugin that, as long as its input has not ended, does not exit and writes at most `n0` bytes, `n0` being at most the capacity of a pipe, every call comes to an end: it is never stuck, and what it returns is the output of the plugin if the plugin succeeds, and an error if it fails. Partial: for other plugins see `C87_deadlock_violated` and `C87_exit_violated`.
* `Verif.ExtPlugin.C87_files_partial`: A response whose files all have a name and no insertion point: these are the files that are generated. Partial: see `C87_chunks_violated` and `C87_insertion_violated`.
* `Verif.ExtPlugin.C87_deadlock_violated`: generator.go:70-78 writes the whole request before it reads anything: for every capacity of the pipes there is a request, no longer than two pipes and two bytes, with which a plugin that answers while it reads, and would exit successfully, comes to a state in which neither process can continue, and the call has not returned.
* `Verif.ExtPlugin.C87_exit_violated`: generator.go:70: if the plugin answers without reading the request and exits before the request is written, the call fails although the plugin succeeded; in another order of the same steps the answer is returned (if the request fits into the pipe).
* `Verif.ExtPlugin.C87_chunks_violated`: generator.go:104-106 skips a file without name; by the protocol its content continues the file before.
* `Verif.ExtPlugin.C87_insertion_violated`: generator.go:107 makes a new file of an insertion into an existing file.

### C88 Compiling from the command line reports every diagnostic and delivers every file

Model/Driver.lean models `Compile` with the diagnostics of the files and the linked files as inputs; the sort is the model of C50. The specification splits a text into lines and describes the message of a diagnostic (`Reports`). `C88_error` is complete. Partial, with witnesses: a diagnostic over several lines has no message (`C88_multiline_violated`); in a last line without line feed the last character is lost (`C88_last_line_violated`); a diagnostic at the end of a text that ends with a line feed makes the program panic (`C88_eof_violated`); one behind the end hides all others (`C88_beyond_violated`); files with editions are left out and imports of them panic (`C88_editions_violated`); `os.Stat` is called with a path relative to the workspace (`C88_cwd_violated`). Columns count bytes; layout and colours of messages are not modelled.

* `Verif.Driver.C88_error`: **C88** (errors): the result is an error exactly if a diagnostic of a file is an error, and then it has no descriptors.
* `Verif.Driver.C88_messages_partial`: **C88** (messages): if the texts of all files are known and no diagnostic in one line is in the last line of its file, then the messages correspond one to one, in order, to the diagnostics in one line: each names its file and line and shows the line with the range marked; and the call returns, unless there is no error and the linked files cannot be sorted. (Partial: see `C88_multiline_violated`, `C88_last_line_violated`, `C88_eof_violated` and `C88_beyond_violated`.)
* `Verif.Driver.C88_descriptors_partial`: **C88** (descriptors): if there is no error diagnostic, no file uses editions and every file that is imported was linked, the call returns all linked files but the placeholders, each once, each after the files that it imports. (Partial: see `C88_editions_violated`.)
* `Verif.Driver.C88_local_partial`: **C88** (workspace): when the process runs in the directory of the workspace, the files of the workspace are those delivered files that lie in it and exist. (Partial: see `C88_cwd_violated`.)
* `Verif.Driver.C88_multiline_violated`: driver.go:118: a diagnostic over more than one line gives no message; compiling fails without any explanation.
* `Verif.Driver.C88_last_line_violated`: driver.go:166: in a last line without line feed the last character is cut off.
* `Verif.Driver.C88_eof_violated`: driver.go:166: an error at the end of a text that ends with a line feed (such as a missing closing brace) makes the program panic.
* `Verif.Driver.C88_beyond_violated`: driver.go:127-133: one diagnostic behind the end of its text hides all others; the call returns an error of the mapper.
* `Verif.Driver.C88_editions_violated`: externalapi.go:37-39: files that use editions are left out without a message; if another file imports one of them, sorting the files panics.
* `Verif.Driver.C88_cwd_violated`: driver.go:233: `os.Stat` is given a path relative to the workspace: if the process runs in another directory, the files of the workspace are not found.

### C89 Formatting a document changes the current text into its formatted form

Model/FormatDoc.lean models one document (overlay, file, last parse result, diagnostics), the notifications and the request; parser, formatter and difference of texts are parameters (a parser that gives no tree reports a syntax error; the difference changes one text into the other). An invariant says that the parse result of an open document is that of its text. The positions of the edits are computed as gopls does and converted back with the model of C05. Partial, with witnesses: a document opened with another language than `protobuf` is not compiled, and formatting replaces the text of the editor by that of the file (`C89_language_violated`); a document that is closed is not compiled again, and formatting brings back the discarded text (`C89_closed_violated`).

* `Verif.FormatDoc.C89_current_partial`: **C89** (what is formatted): after any notifications about a document that is open, a formatting request that returns edits returns none at all if the text has syntax errors or the pragma `nofmt`; otherwise the edits change exactly the current text into the output of the formatter for the tree of the current text. (Partial: a document opened with another language than `protobuf` is not parsed, see `C89_language_violated`, and neither is a closed document, see `C89_closed_violated`.)
* `Verif.FormatDoc.C89_formats_partial`: **C89** (it is formatted): a text without syntax errors and without the pragma that the formatter can format is formatted: the request returns edits with which the client gets the formatted text.
* `Verif.FormatDoc.C89_language_violated`: documents.go:66-68: a document that is opened with another language (some editors call the language `proto`) gets an overlay but is not compiled; a formatting request then replaces the text of the editor by the text of the file, although the formatter keeps every text as it is.
* `Verif.FormatDoc.C89_closed_violated`: documents.go:79: closing a document does not compile it again: a formatting request for the file puts the text that was thrown away into the file.

### C90 Every name, keyword, literal and comment is highlighted exactly once

Model/Inspect.lean models the walk over a tree whose nodes are those that the visitor distinguishes; the result is the list of calls of `mktokens` and `mkcomments` (their positions are C82). The specification lists, in the order of the text, which leaf gets which type (`expected`) and which leaves only have comments (`quiet`). Both lists are proved to be permutations of what the walk makes; no leaf occurs twice. Partial, with witnesses: the slash of `[url/name]` has two tokens (`C90_any_violated`); so has `inf` in a field of floating point (`C90_inf_violated`); a truth value in an array has two or none (`C90_bool_array_violated`); comments before a type with a leading dot or before `[name]` in a message literal are highlighted twice (`C90_dot_violated`, `C90_extension_violated`); comments at the end of a file not at all (`C90_eof_violated`). Whether the parser marks a word as a keyword is an input; incomplete nodes are those without named children.

* `Verif.Inspect.C90_tokens_partial`: **C90** (tokens): the walk over a syntax tree makes exactly one token for each leaf of a name, each keyword, number, string and operator, of the right type, and none for punctuation; words that are values of options and fields get a token according to the type of the option or field. (Partial: not for names `[url/name]` in message literals, see `C90_any_violated`; not for `inf` and `nan` in a field of floating point, see `C90_inf_violated`; not for truth values in an array, see `C90_bool_array_violated`.)
* `Verif.Inspect.C90_once_partial`: **C90** (no overlap): no leaf has two tokens.
* `Verif.Inspect.C90_comments_partial`: **C90** (comments): for trees whose names are single words, the comments before and behind each leaf that has a token or is punctuation are highlighted exactly once. (Partial: comments at dots and brackets of names are highlighted twice, see `C90_dot_violated` and `C90_extension_violated`; comments at the end of the file are not highlighted, see `C90_eof_violated`.)
* `Verif.Inspect.C90_comments_once_partial`: **C90** (comments, no overlap): no comment is highlighted twice.
* `Verif.Inspect.C90_any_violated`: In `[url/name]: value` the slash gets two tokens, one as part of the type and one as an operator (lines 636 and 497).
* `Verif.Inspect.C90_inf_violated`: `inf` in a field of floating point gets two tokens (lines 808 and 483).
* `Verif.Inspect.C90_bool_array_violated`: A truth value in an array gets two tokens if the parser marks it as a keyword (lines 861 and 487), and none otherwise.
* `Verif.Inspect.C90_dot_violated`: A type with a leading dot: the comments before the field are highlighted twice (once for the name, once for the dot).
* `Verif.Inspect.C90_extension_violated`: `[name]: value` in a message literal: the comments before the bracket are highlighted twice.
* `Verif.Inspect.C90_eof_violated`: The comments at the end of a file belong to the rune 0 and are not highlighted (lines 490-492).

### C91 The tokens of CEL expressions cover the words of the expression

Model/CelTokens.lean models `inspectCelExpr` with the CEL parser as a parameter (list of expressions with positions, or an error). The specification says which text of the file a token covers (`Covers`) and where a word stands in the expression (`At`). `C91_tokens_partial` holds for literals in one line without escape sequences other than the backslash itself. `C91_other` is complete. Violated, with witnesses: `expression` is not a string and the server panics (`C91_value_violated`; the CEL parser rejects the empty text), a line feed in the string makes it panic (`C91_newline_violated`), a field without a name makes it panic (`C91_unnamed_violated`), tokens are shifted by escape sequences (`C91_escape_violated`) and by white space at the start of a part (`C91_trim_violated`), numbers that are printed differently have tokens of the wrong length (`C91_number_violated`).

* `Verif.CelTokens.C91_tokens_partial`: **C91** (words): if the first field `expression` of a CEL rule can be parsed, each operator, identifier and literal of it gets one token of its type, inside the quotes of the literal in which it is written, that covers exactly its text in the file. (Partial: only for literals in one line without escape sequences other than `\\`, which do not start with white space, see `C91_escape_violated`, `C91_trim_violated` and `C91_newline_violated`, and only for literals that are printed as they are written, see `C91_number_violated`.)
* `Verif.CelTokens.C91_other`: **C91** (other literals): a message literal without a field `id` or without a field `expression` is not touched.
* `Verif.CelTokens.C91_no_panic_partial`: **C91** (no panic): highlighting does not panic if all fields have names, all fields `expression` are strings, and the parser finds no expression behind the lines that stand for literals. (Partial: see `C91_value_violated`, `C91_newline_violated` and `C91_unnamed_violated`.)
* `Verif.CelTokens.C91_value_violated`: `{ id: …, expression: 5 }`: if `expression` is not a string, the text of the expression is empty, which the CEL parser rejects, and `stringNodes[0]` in line 909 panics.
* `Verif.CelTokens.C91_newline_violated`: `expression: "a\n&& b"`: a line feed in the string makes a second line, for which there is no literal: line 930 panics, whatever stands in that line.
* `Verif.CelTokens.C91_unnamed_violated`: A field without a name before `expression`: line 604 expects this, line 885 does not.
* `Verif.CelTokens.C91_escape_violated`: `"\"x\" == y"`: the operator is at column 4 of the expression, and the token covers `\" ` instead of `==`.
* `Verif.CelTokens.C91_trim_violated`: `"a" " || b"`: white space at the start of a part is removed before the expression is parsed, and the token is two columns too far to the left.
* `Verif.CelTokens.C91_number_violated`: `"0x10"`: the number is printed as `16`, and the token covers only `0x`.

### C92 Completing an import inserts the path of a known file

Model/ImportComplete.lean models the two cases of `GetCompletions` from the text of the line to the edits, `completeImports` and `completeSyntaxVersions`; the sort is any sort by label. The specification describes a line as parts around the cursor and says what the text is after an item has been accepted. `C92_label` is complete. Partial, with witnesses: files already imported are offered while the statement at the cursor is not resolved (`C92_again_violated`); the file itself is offered (`C92_self_violated`); in single quotes only `public` is offered (`C92_single_violated`); a second string in the line gets nothing (`C92_line_violated`); quotation marks are inserted twice if the tree is older than the text (`C92_quotes_violated`). Which files a workspace contains is C40; trees and compiled imports are inputs.

* `Verif.ImportComplete.C92_import_partial`: **C92** (import paths): with the cursor in the string of an import statement, one item is offered for each file that the server knows, whose path begins as typed and that no other statement imports; accepting it makes the string that path and changes nothing else; the items are sorted by label. (Partial: the statement at the cursor must be resolved, see `C92_again_violated`; the file itself is offered, too, see `C92_self_violated`; the string must be the first of its line and in double quotes, see `C92_line_violated` and `C92_single_violated`.)
* `Verif.ImportComplete.C92_new_partial`: **C92** (new import): behind the keyword of an import without string, one item is offered for each file that the server knows; accepting it inserts the path in quotation marks. In addition, the keyword `public` is offered unless it is already there. (Partial: only if the line has no quotation mark, and files that are already imported are offered, too.)
* `Verif.ImportComplete.C92_label`: **C92** (labels): the label of a file is its path without the directory that has been typed.
* `Verif.ImportComplete.C92_syntax_partial`: **C92** (syntax): with the cursor in the string of the syntax statement, those of `proto2` and `proto3` are offered that begin as typed, and accepting one makes the string that version. (Partial: only if the string is the first of its line and in double quotes.)
* `Verif.ImportComplete.C92_again_violated`: While an import is being written, the statement is not among the imports of the compiled file, and files that are already imported are offered again (and the compiler rejects a second import).
* `Verif.ImportComplete.C92_self_violated`: The file in which the import is written is offered, too, although a file cannot import itself.
* `Verif.ImportComplete.C92_single_violated`: `import 'a`: in single quotes, no paths are offered, but the keyword `public` in the middle of the string.
* `Verif.ImportComplete.C92_line_violated`: `import "a"; import "b`: what is taken as the beginning of the path starts in the first string, and nothing is offered.
* `Verif.ImportComplete.C92_quotes_violated`: If the syntax tree has no string yet but the text has (`import ;` and then `"` is typed), the path is inserted in quotation marks inside of quotation marks.

### C93 Completing the name of an option inserts that name

Model/OptionComplete.lean models the four callers, the computation of the replaced range and `findCompletionScope`. The specification describes a text as parts around the cursor and compares, for the whole list of items, label, text after acceptance, preselection and added imports. `C93_new` and `C93_nothing` are complete. Partial, with witnesses: an extension completed at a word without parentheses is inserted without them (`C93_bare_violated`); an unclosed parenthesis stays unclosed (`C93_unclosed_violated`); white space inside of the parentheses doubles them (`C93_spaces_violated`); brackets in message literals become parentheses (`C93_brackets_violated`); options that are set are offered while a name is written (`C93_set_violated`); in compact options, the fields of the type of the field are offered in place of its options (`C93_compact_violated`); in methods, oneofs and enum values, the options of another declaration are offered (`C93_scope_violated`). The name of an extension relative to the package is C18; which declaration `deepPathSearch` finds, the list of extensions and the edit of the import are inputs; columns and bytes coincide.

* `Verif.OptionComplete.C93_new`: **C93** (new option): behind the keyword `option`, the items are the fields of the options message that are repeated or not set yet, in order, and then the extensions of that message; accepting one inserts the name of the field, or the name of the extension in parentheses together with the import it needs.
* `Verif.OptionComplete.C93_ext_partial`: **C93** (name in parentheses): with the cursor anywhere in or beside a name in parentheses, the items are the extensions of the options message, and accepting one replaces the name and its parentheses by the name of the extension in parentheses. (Partial: nothing may stand between the parentheses and the name, see `C93_spaces_violated`, and both must be there, see `C93_unclosed_violated`.)
* `Verif.OptionComplete.C93_field_partial`: **C93** (name without parentheses): the first items are the fields of the options message that begin as typed, in order; accepting one replaces the word at the cursor, and the field that is the word is selected; then come the extensions. (Partial: accepting an extension inserts it without parentheses, see `C93_bare_violated`, and options that are set are offered, see `C93_set_violated`.)
* `Verif.OptionComplete.C93_sub_partial`: **C93** (later parts): behind a dot, the items are the fields of the message of the part before that begin as typed; accepting one replaces the word at the cursor. Extensions only follow if the message can be extended. (Partial: as above.)
* `Verif.OptionComplete.C93_sub_ext_partial`: **C93** (later parts in parentheses): if the message of the part before can be extended, the items are its extensions, and accepting one replaces the name and its parentheses. (Partial: as above.)
* `Verif.OptionComplete.C93_nothing`: **C93** (no fields): behind a part that is not a message, is a map entry, or is unknown, nothing is offered.
* `Verif.OptionComplete.C93_literal_partial`: **C93** (message literals): the first items are the fields of the message that begin as typed and that are repeated, not in the literal yet, or the one at the cursor. (Partial: extensions, see `C93_brackets_violated`.)
* `Verif.OptionComplete.C93_scope_partial`: **C93** (whose options): if the innermost declaration around the cursor is a file, message, field, enum or service and the compiler knows it, its options are completed. (Partial: see `C93_scope_violated` for the other declarations.)
* `Verif.OptionComplete.C93_bare_violated`: `option my_<cursor>`: an extension is inserted without its parentheses.
* `Verif.OptionComplete.C93_set_violated`: While the name of an option is being written, options that are already set are offered, although they must not be set twice.
* `Verif.OptionComplete.C93_compact_violated`: In the brackets of compact options, not the options of the declaration are offered, but the fields of its type, if it has one.
* `Verif.OptionComplete.C93_unclosed_violated`: `option (na<cursor>me`: the closing parenthesis is not inserted.
* `Verif.OptionComplete.C93_brackets_violated`: `[na<cursor>me]` in a message literal: the brackets are replaced by parentheses, which are an error there.
* `Verif.OptionComplete.C93_spaces_violated`: With white space inside of the parentheses, they are doubled.
* `Verif.OptionComplete.C93_scope_violated`: The options of a method are taken for those of the file, the options of a oneof or of an enum value for those of what is around it.

### C94 Generated gRPC clients call the right method of the server

Model/GrpcGen.lean keeps of the generated text the declared names, signatures and what bodies refer to. Spec/GrpcGen.lean is a semantics of such a package: a client method looks up the constant of the path and the element of the stream table, the server splits the path at the last slash and looks up the description and the handler. `C94_call` shows that exactly one outcome is possible, for all packages without duplicate declarations. `C94_names_partial` shows that there are none, by injectivity of all name schemes, for Go names without underscores and without the prefixes that the generator uses, with generic streams (the default). Violations: `C94_underscore_violated` (service `A` with method `B_C` and service `A_B` with method `C`), `C94_prefix_violated` (services `X` and `UnsafeX`), `C94_methods_violated` (methods `get` and `Get`), `C94_stream_violated` (without generics, service `A` with streaming method `B`, and service `AB`). The rules of `google.golang.org/grpc` and names in Go (from `protogen`) are trusted; comments and formatting are left out.

* `Verif.GrpcGen.C94_call`: **C94** (calls): if the generated package compiles, a call of a method of a generated client leads to exactly the method of the same name of the server of the same service; client and server use the streaming mode of the method, and the client sends the request at once if and only if the handler receives it at once.
* `Verif.GrpcGen.C94_implements`: **C94** (interfaces): the generated client has the methods of the client interface, and the type for unimplemented servers has those of the server interface, with the same signatures.
* `Verif.GrpcGen.C94_embed`: **C94** (embedding): implementations must embed the type for unimplemented servers (or opt out) if and only if the option asks for it.
* `Verif.GrpcGen.C94_opt_out`: **C94** (opting out): a type that has the methods of the service and embeds the interface `Unsafe…Server` is a server.
* `Verif.GrpcGen.C94_signature`: **C94** (signatures): the request is an argument at both sides if and only if the client does not stream; the response is a result at both sides if and only if nobody streams; otherwise both sides get a stream.
* `Verif.GrpcGen.C94_modes`: **C94** (stream modes): the stream types with and without generics have the same operations; a client stream can send if and only if the server stream can receive, and the other way round.
* `Verif.GrpcGen.C94_names_partial`: **C94** (names): the generated package declares no name twice. (Partial: the Go names of services and methods must have no underscores, those of services must not begin with one of the prefixes that the generator uses, and generics must be used for streams, which is the default; see the violations below.)
* `Verif.GrpcGen.C94_files`: **C94** (files): exactly the files that are to be generated and have services get a file of their own, with the options set in the file, by default without mandatory embedding and with generics.
* `Verif.GrpcGen.C94_declared`: **C94** (declared names): the names that programs use are declared: the constant with the path of each method, client, constructor, server, the two structs to embed, the function to register a server, the description, and the streams of streaming methods.
* `Verif.GrpcGen.C94_embed_names`: **C94** (embedding): if it is required, a server has to have the method `mustEmbedUnimplemented…Server`, which only the structs to embed have; the registration can find out that the struct is embedded by value.
* `Verif.GrpcGen.C94_underscore_violated`: Service `A` with method `B_C` and service `A_B` with method `C`: the names of the constants collide, the package does not compile.
* `Verif.GrpcGen.C94_prefix_violated`: Services `X` and `UnsafeX` (or `NewX`, `UnimplementedX`, `RegisterX`) in one package: types collide.
* `Verif.GrpcGen.C94_methods_violated`: Methods `get` and `Get` of one service get the same name in Go.
* `Verif.GrpcGen.C94_stream_violated`: Without generics, service `A` with the streaming method `B` and service `AB` collide.

### C95 Hover shows the declaration of what the cursor is on

Model/Hover.lean is `ComputeHover` over the search for the innermost declaration (C75), the last step of `PrintNode`, and the search for parts of package names. `C95_declaration_partial` shows that the declaration is shown for the kinds that the search knows, if the tree is the one that the definition was found in; `C95_around` says what is shown otherwise. Violations: map fields (`C95_map_violated`) and RPCs with a body (`C95_rpc_violated`) show the enclosing declaration, and no tree makes hover show one of them (`C95_kinds_violated`); an import shows the syntax statement of the imported file (`C95_import_violated`); while a file does not compile, another declaration may be shown (`C95_stale_violated`); a line of three backticks in a block comment ends the code block (`C95_block_violated`, otherwise `C95_block_partial`). `C95_print` shows that `PrintNode` panics only for a text that is a single line break. The formatter and the search for definitions are parameters.

* `Verif.Hover.C95_print`: **C95** (text): the last step of `PrintNode` panics exactly for a text that is a single line break, and otherwise takes away nothing but one line break at either end.
* `Verif.Hover.C95_declaration_partial`: **C95** (declarations): hovering over the name of something, or over a reference to it, shows the declaration. (Partial: declarations of the kinds that the search knows; not RPCs with a body. The tree must be the one that the definition was found in.)
* `Verif.Hover.C95_around`: What hover shows instead of declarations of other kinds: the innermost declaration around the name that the search knows.
* `Verif.Hover.C95_kinds_violated`: **C95** (violated): whatever the tree and the position, hover never shows a map field, a group, a oneof or another declaration that the search does not know, and never an RPC with a body.
* `Verif.Hover.C95_package`: **C95** (package): the part of a package name at the cursor decides what is shown: for the last one the statement, otherwise the name up to this part, with `.*`; the references are searched for the same name, and for packages below it unless it is the last part.
* `Verif.Hover.C95_package_none`: **C95** (package): nothing is shown and no references are found for tokens other than the parts of the name.
* `Verif.Hover.C95_block_partial`: **C95** (block): the answer is one block of code with the lines of the text, if none of them ends the block.
* `Verif.Hover.C95_package_text`: **C95** (package): the text that is shown for a part of a package name.
* `Verif.Hover.C95_failures`: **C95** (failures): without a definition, or if its file cannot be read, the request fails; if there is nothing to define, the answer is the one for package names; something is shown only for a definition in a file that can be parsed.
* `Verif.Hover.C95_map_violated`: **C95** (violated): for a map field, hover shows the whole message.
* `Verif.Hover.C95_rpc_violated`: **C95** (violated): for an RPC with a body, hover shows the whole service.
* `Verif.Hover.C95_import_violated`: **C95** (violated): for an import, hover shows the syntax statement of the imported file.
* `Verif.Hover.C95_stale_violated`: **C95** (violated): if the file with the definition does not compile at the moment, the position in the last linked version is used in the current text, and another declaration is shown (here, the first in place of the second, which has moved down by a line).
* `Verif.Hover.C95_block_violated`: **C95** (violated): a block comment with a line of three backticks, which the formatter indents by three spaces, ends the block; the declaration is not shown as code.

### C96 Diagnostics reach the client

Model/Publish.lean is a transition system with one step for each access to shared state; it uses the lists of C07/C08. Spec/Publish.lean states what the client sees in terms of the events of an execution. `C96_order`, `C96_version` and `C96_progress` hold for all executions (progress: until the workspace is removed, every way to go on is finite and ends with nothing under way). `C96_current_partial` needs that flushes find a listener and that sending does not fail. Violations: `C96_start_violated` (what the files have when the workspace is opened is never shown, in all continuations, until it changes: they are compiled and flushed before the listener is installed, and `Stream` does not replay), `C96_end_violated` (removing the workspace during a flush of two documents can block the flush, which holds `resultsMu`, for ever; `C96_stuck_iff` says exactly when), `C96_failed_violated`, `C96_removed_violated`. Trusted: mutexes and channels as in Go; URIs of paths do not change; the conversion of diagnostics is left out.

* `Verif.Publish.C96_order`: **C96** (order): the client is sent the reports that were made, in this order, each once; at most three are under way, and none when nothing is going on.
* `Verif.Publish.C96_current_partial`: **C96** (content): when nothing is going on after a flush, and no diagnostics of the path were added or removed since, the client shows the current diagnostics of the path. (Partial: unless a flush came across them without a listener, or a report could not be sent. Every URI belongs to one path.)
* `Verif.Publish.C96_version`: **C96** (version): a report carries the URI of its path and the version that was last given for it.
* `Verif.Publish.C96_progress`: **C96** (progress): until the workspace is removed, the server finishes whatever is going on, in a bounded number of steps, whatever the order of the steps of its goroutines. (Sending a report to the client counts as a step.)
* `Verif.Publish.C96_end_partial`: **C96** (end): when a workspace is removed while nothing is flushed, both goroutines end. (Partial: see the next two theorems.)
* `Verif.Publish.C96_stuck_iff`: A flush is stuck exactly if the publishing goroutine has ended and the channel is full.
* `Verif.Publish.C96_start`: **C96** (start): what was flushed before the listener was installed is not shown until it changes.
* `Verif.Publish.C96_start_violated`: **C96** (violated): what the files of a workspace have when it is opened is not shown. `LoadFiles` compiles them and flushes (server.go:85) before the listener is installed (line 89): the client gets nothing until the diagnostics change.
* `Verif.Publish.C96_end_violated`: **C96** (violated): if a workspace is removed while its diagnostics are flushed, the flush may never end, and with it the request and the lock.
* `Verif.Publish.C96_failed_violated`: **C96** (violated): a report that could not be sent is not sent again.
* `Verif.Publish.C96_removed_violated`: **C96** (violated): the diagnostics of a workspace that was removed stay with the client: both goroutines have ended and nothing was sent to take them back.

### C97 Completing fields, values and keywords offers what may stand at the cursor

`Model/ValueComplete.lean` has the items of fields, values and keywords and the cases of `GetCompletions` that make them; the literal under the cursor is found with the model of `deepPathSearch` (C72). The specification applies the edit of an item to the text and splits it at the cursor (`${0}` in snippets). Violations: groups get no braces, fields of a oneof that is set are offered, an extension hides a field with the same name, no field is offered in the literal of an extension, the details of maps and enums, no values in lists, editions, `oneof` and other keywords are missing, a message that is not linked makes the request panic, `stream` replaces the type. The functions in completion.go:1195-1306 other than `newExtensionFieldCompletionItem` are not called by any code.

* `Verif.ValueComplete.C97_fields_partial`: **C97** (fields): at an empty place of a message literal at any depth, the items are the fields of its message that may be added, in their order; accepting one inserts its name and a colon at the cursor, with brackets for a list and braces for a message around the cursor, and changes nothing else. (Partial: without the groups, the oneofs and the extensions of the `violated` theorems, and if the linker does not return wrappers for extensions in literals.)
* `Verif.ValueComplete.C97_colon`: **C97** (colon): in a message literal, no item is ever offered with `=`, the operator of options: the part of the code that makes such items is not reached.
* `Verif.ValueComplete.C97_docs`: **C97** (docs): the documentation of an item is the comment of the field, and the item is marked as deprecated exactly if the field is.
* `Verif.ValueComplete.C97_detail_partial`: **C97** (detail): the detail of an item is the type of the field as declared, with `repeated`. (Partial: not for enums, maps and extensions, see `C97_detail_violated`.)
* `Verif.ValueComplete.C97_detail_extension`: **C97** (detail of extensions): the detail of an extension is its scope, its name in parentheses and the kind of its type.
* `Verif.ValueComplete.C97_values`: **C97** (values): with the cursor in the value of a field of a message literal or of an option, or where such a value is to stand, the items are the values of the enum (or `true` and `false`) that begin as typed, in their order; accepting one replaces the word at the cursor and nothing else.
* `Verif.ValueComplete.C97_message`: **C97** (messages): where the value of a message field is to stand, the only item inserts braces with the cursor in between; once a value is there, nothing is offered.
* `Verif.ValueComplete.C97_no_value`: **C97** (nothing else): no value is offered for fields of other types, for unknown fields, with the cursor in front of the value or behind it, or in the name of an option.
* `Verif.ValueComplete.C97_values_marks`: **C97** (marks): no value is marked as deprecated, and none is selected in advance.
* `Verif.ValueComplete.C97_top_marks`: **C97** (marks): of the items at the top level, none is marked as deprecated, and only `syntax: proto3` is selected in advance; the inserted text of the items without an edit is the syntax statement of the label.
* `Verif.ValueComplete.C97_top_partial`: **C97** (top level): with the cursor in a word at the top level, or at an empty place, the items are the keywords that can stand there and begin as typed; accepting one replaces the word. If the file has no syntax statement and the word begins `syntax`, two items without an edit come first. (Partial: `edition` is not offered, and files with an edition are treated as if they had neither, see `C97_edition_violated`.)
* `Verif.ValueComplete.C97_empty`: **C97** (empty file): in an empty file, the items insert a syntax statement; `proto3` is selected.
* `Verif.ValueComplete.C97_body_partial`: **C97** (messages): in a message, the keywords offered can all stand there, and accepting one replaces the word at the cursor. In `proto3` types are offered for the same word. (Partial: not all keywords are offered and files with an edition are taken for `proto2`, see `C97_body_violated`; the message must be known to the linker, see `C97_unlinked_violated`.)
* `Verif.ValueComplete.C97_decl`: **C97** (field declarations): with the cursor in the type of a field, types and keywords are offered for the parts of the word before and behind the cursor; in its name, nothing; behind a label whose type stands in a later line, types for an empty word and no keywords; for a declaration without type the same.
* `Verif.ValueComplete.C97_rpc_partial`: **C97** (rpc types): types are offered for the word at the cursor, and the keyword `stream` if it is not there and begins as typed; on the keyword itself nothing is offered. (Partial: see `C97_stream_violated` for the effect of accepting `stream`.)
* `Verif.ValueComplete.C97_group_violated`: **C97** fails for groups: no braces are inserted.
* `Verif.ValueComplete.C97_oneof_violated`: **C97** fails for oneofs: a field is offered although another one of its oneof is set, so that the literal becomes invalid.
* `Verif.ValueComplete.C97_extension_violated`: **C97** fails for extensions: a field is not offered because an extension with the same name is set.
* `Verif.ValueComplete.C97_extension_literal_violated`: **C97** fails in the literal of an extension if the linker has a wrapper for it: no field is offered.
* `Verif.ValueComplete.C97_detail_violated`: **C97** fails for the details of enums and maps: for a map, the names of the fields of the map entry are shown instead of the types; for an enum, the word `enum` instead of its name.
* `Verif.ValueComplete.C97_list_violated`: **C97** fails in lists: with the cursor at an element of a list of enum values, nothing is offered.
* `Verif.ValueComplete.C97_edition_violated`: **C97** fails for editions: `edition` is not offered in a file that has no such statement; and in a file with an edition, `syntax` is offered, which must not stand there.
* `Verif.ValueComplete.C97_body_violated`: **C97** fails in messages: `oneof` is not offered; and with an edition `required` is, which must not stand there.
* `Verif.ValueComplete.C97_unlinked_violated`: **C97** fails for a message that the linker does not know (it was added since the last link): in a `proto3` file the request panics.
* `Verif.ValueComplete.C97_stream_violated`: **C97** fails for `stream`: accepted in front of the type, it replaces the type.

### C98 Go to definition leads to the declaration

`Model/Definition.lean` has `findDefinition`, `FindDefinitionForTypeDescriptor`, the lookups of results and `Definition`; it is composed with the models of `deepPathSearch` (C72), of package names (C95) and package references (C61). The specification has source files with lists of declarations; `Built` says how a result of the linker belongs to a source file. Violations: the lock is released between the two lookups, so a compilation in between makes the request panic; a file that is parsed but not linked has a placeholder as result, for which the type assertion panics. The panic for an unknown proto is that of the type assertion in the methods of the parser's result (trusted; not in /repo).

* `Verif.Definition.C98_declaration`: **C98** (declaration): for a descriptor of the last result of its file, the location is the name of the declaration with the full name of the descriptor, in the file that declares it.
* `Verif.Definition.C98_cursor_partial`: **C98** (cursor): with the cursor on an identifier, the answer is one location: that of the name of the declaration that the identifier stands for, in whatever file. (Partial: for the identifiers for which the lookup of C72 is proved, and if no compilation ends between the two lookups, see `C98_race_violated`; the file with the declaration must be linked, see `C98_unlinked_violated`.)
* `Verif.Definition.C98_import`: **C98** (imports): with the cursor on an import, the answer is the imported file.
* `Verif.Definition.C98_package`: **C98** (packages): with the cursor on a part of the name in the package statement, the answer is the package statements of all files with this package, or (if it is not the last part) with a package below the one that the name up to the cursor denotes: the parts of this name in the statement.
* `Verif.Definition.C98_nothing`: **C98** (nothing): at a scalar type the request fails; at an unfinished import, with the cursor outside of a package statement, the answer is empty.
* `Verif.Definition.C98_sound`: **C98** (no guessing): whatever the states of the cache are, a location that is returned for a descriptor that a result owns is in the file of the descriptor, and it is the name of a declaration of this file or the whole file. Nothing is returned if there is no source, no URI or no result.
* `Verif.Definition.C98_no_panic`: C98. The lookup of a definition does not panic, but returns an error, if it cannot be done: the file of the descriptor is stored as a placeholder only if it is stored as a partial result as well, and the node of the descriptor is known to each stored result of its file.
* `Verif.Definition.C98_race_violated`: **C98** fails if a compilation ends between the two lookups: the lock is released in between, and the descriptor that the first one has found is not a descriptor of the new result, in which its proto is unknown; the request panics. Both before and after the compilation the answer would be the same location.
* `Verif.Definition.C98_unlinked_violated`: **C98** fails if the file with the declaration has errors that keep it from being linked: after a compilation that only parses the file `a`, the request panics for everything that is declared in `a`, also in the file `b`, whose result is still the one that refers to `a`.

### C99 Inlay hints and document links show what imports and extensions stand for

Model/InlayHints.lean has the two kinds of hints, the settings and the links; the list of dependencies is that of Model/Links.lean (C57), positions are those of the compiler. A document is a text around each literal (Spec/InlayHints.lean: Site), so that the accepted text and the place of a hint are stated on the text. C99_import and C99_links are inductions over the statements; C99_extension_partial relates token numbers to the text between two offsets. Violations: a range that ends on white space has no extension hints (C99_blank_violated; TokenAtOffset is assumed to return TokenError there, as other callers do), quotation marks in a path (C99_quote_violated), strings in parts with different marks (C99_parts_violated) or on several lines (C99_line_violated), import hints outside of the requested range (C99_range_violated), and a panic for an import that stands for descriptor.proto under another name (C99_descriptor_violated). Not modelled: where the resolved paths in the dependency list come from (the compiler), and the check for a well-formed document, whose answer is a parameter.

* `Verif.InlayHints.C99_import`: **C99** (imports): hints are given for exactly the complete imports that stand for a file with another path than the one written, in the order of the text; each shows the path, and accepting it writes the path between the quotation marks and changes nothing else.
* `Verif.InlayHints.C99_shown`: **C99** (imports, what is seen): if the literal is written without escapes, the text shown with a hint inside the literal is the text with the path of the file.
* `Verif.InlayHints.C99_accepted_partial`: **C99** (imports, accepted): after accepting a hint, the import statement has the path as its string (Partial: the quotation marks must be the same, and the path must not have them, a backslash or a line break in it, see `C99_parts_violated` and `C99_quote_violated`).
* `Verif.InlayHints.C99_extension_partial`: **C99** (extensions): if the requested range begins and ends on tokens, hints are given for exactly the references in parentheses to extension fields of a message type, not repeated, that touch the range; the hint is the name of the message, shown before the closing parenthesis, with the place of its definition. (Partial: the range must begin and end on tokens, see `C99_blank_violated`.)
* `Verif.InlayHints.C99_settings`: **C99** (settings): a document that is well formed gets the hints for extensions unless they are switched off, followed by those for imports unless they are switched off.
* `Verif.InlayHints.C99_error`: **C99** (errors): for documents that are not well formed, or not known, there is an error and no hints.
* `Verif.InlayHints.C99_links`: **C99** (links): the links of a document are those of the complete imports whose file is found and has a URI, in the order of the text; each covers the literal of its statement and leads to that URI.
* `Verif.InlayHints.C99_unknown`: **C99** (links, errors): a document that is not known has an error instead of links, and one whose statements cannot be read has no import hints.
* `Verif.InlayHints.C99_blank_violated`: If the requested range ends on white space, there are no hints for extensions at all: the token there is `TokenError`, which is less than every token. (The extraction of fields handles this case, `/repo/pkg/lsp/refactor.go:451-466`.)
* `Verif.InlayHints.C99_outside_violated`: A range that is not in the text (such as one that ends behind the last line) is taken for the beginning of the text: only what touches the first token gets hints.
* `Verif.InlayHints.C99_quote_violated`: The path is written into the literal as it is: a quotation mark in the path ends the literal.
* `Verif.InlayHints.C99_parts_violated`: A string may be written in parts with different quotation marks: `import "a." 'p';`. Accepting the hint leaves the first mark in front and the last one behind, and the literal does not end.
* `Verif.InlayHints.C99_line_violated`: For a string that is written in parts on several lines, a hint that is to be shown behind the statement is shown in the first line, at the column of the last.
* `Verif.InlayHints.C99_range_violated`: The requested range is not taken into account for imports: here it is the first line, and the hint is for line 8.
* `Verif.InlayHints.C99_descriptor_violated`: If an import is written in another way but stands for descriptor.proto, the dependency is taken for one that the compiler has added: the list of dependencies is too short, and the request panics.

### C100 Printed options give the options message back

Model/OptionValues.lean: messages as trees, `extractOptions`, `valueToOptions`, `valueForOption`, `sortKeys`, the literal of a message and of map entries, Go's `%f`, with the order of `Range` as a parameter. Spec/OptionValues.lean: an interpreter of option settings for a schema (repeated settings, map entries with defaults, message literals, Any) and well-formed messages. C100_options_partial: whatever settings the printed options mean (the relation of C77), the interpreter gives the message, for every visiting order and every order of the groups; C100_file_partial combines it with C77 to the printed text of a file. C100_float: a finite number survives exactly if it is a multiple of 10^-6. Violations: unknown enum numbers are silently dropped, `%f` loses small digits, options in unknown fields are re-parsed in a copy that is thrown away. Not modelled: uninterpreted options; the lookup of names is a parameter (C19).

* `Verif.OptionValues.C100_options_partial`: C100. The options that are printed for an options message, read as settings of the language, give the message again: single values, one setting for each element of a list and each entry of a map, messages within messages with their lists, maps, extensions and `Any`s; in whatever order `Range` visits the fields and entries, and in whatever order the groups of settings are printed. Full statement: this for all options messages. Missing: enum values that are not known (`C100_enum_violated`), numbers that are not multiples of 10⁻⁶ (`C100_float_violated`), unknown fields (`C100_unknown_violated`), uninterpreted options.
* `Verif.OptionValues.C100_file_partial`: C100. The text that is printed for a file with an options message: it consists of the tokens of declarations whose option declarations give the message.
* `Verif.OptionValues.C100_float`: C100. A finite number is read back as it is if and only if it is a multiple of 10⁻⁶; the sign is kept.
* `Verif.OptionValues.C100_nearest`: C100. Any finite number is read as a nearest multiple of 10⁻⁶, of two as the even one.
* `Verif.OptionValues.C100_enum_violated`: C100. An option whose enum value is not known, for example from a newer version of the enum, is not printed: the settings give an empty message. The same holds for elements of lists and values of maps.
* `Verif.OptionValues.C100_float_violated`: C100. The number 10⁻⁷ is printed as `0.000000` and read as 0.
* `Verif.OptionValues.C100_unknown_violated`: C100. Options that are unknown fields of the options message, for example because the extension was not known when the descriptor was made, are not printed, although they are parsed with the types of the file and its imports: the parsed message is a copy that is not used.

### C101 Formatting keeps the comments

Model/Formatter.lean as for C70. Spec/FormatComments.lean: the comments of a text with the lexer of C70, what a comment says (its words), the comments of a tree in the order of the tokens, and `File.Plain`, the list of the places without comments. C101_comments_partial: for every well-formed file with comments only at the other places, the comments of the text are those of the tree, by a second layer of rules over the whole formatter (Lemmas/FormatKeeps*.lean: each writer adds exactly the comments of its tokens, also in cells of columns that are written later). Missing: the places of `File.Plain`. At these the code loses comments or doubles them: at the value of an option in columns, after the semicolon of a method without a body, after a semicolon that follows a closing brace, at empty declarations, at dots of option names, in empty lists of options, and after the name of an option in a list on several lines (written twice); one `_violated` theorem for each.

* `Verif.Formatter.C101_comments_partial`: C101: if there are comments only at the places of `File.Plain`, the formatted text has exactly the comments of the source, each once and in the order of the tokens, with the same words. Missing: the places that are not in `File.Plain`, where the formatter loses comments or writes them twice (the theorems below).
* `Verif.Formatter.C101_option_violated`: C101 is violated: a comment before the value of an option is lost.
* `Verif.Formatter.C101_rpc_violated`: C101 is violated: a comment after the semicolon of a method without a body is lost.
* `Verif.Formatter.C101_semicolon_violated`: C101 is violated: a comment after a semicolon that follows the closing brace of a declaration is lost.
* `Verif.Formatter.C101_empty_violated`: C101 is violated: a comment at an empty declaration is lost.
* `Verif.Formatter.C101_twice_violated`: C101 is violated: a comment after the name of an option in a list on several lines is written twice.
* `Verif.Formatter.C101_dot_violated`: C101 is violated: a comment after a dot in the name of an option is lost.
* `Verif.Formatter.C101_brackets_violated`: C101 is violated: a comment in an empty list of options is lost.

### C102 The fmt command formats the files it is given

Model/FmtCmd.lean: goroutines as a state machine with one system call (one byte of a write) per step, the semaphore `fdSem`, the error of the group, panics; the formatter is a parameter. C102_files_partial, C102_safe_partial: invariants of all reachable states if no two arguments denote the same file. C102_progress: no deadlock. C102_ends: no infinite execution. C102_program_partial: with the formatter of C70 and C101 and any parser, the tokens and comments of each file are kept. Violations: a file that is given twice may get a mixture of old and new content; the flag -w is never read; a panic for one file leaves others half written. Not modelled here: failing system calls (C31).

* `Verif.FmtCmd.C102_files_partial`: C102: if no two arguments denote the same file, then at the end every file that can be formatted has its formatted content, all others are unchanged, and there are no backups; the command succeeds exactly if all files could be formatted, and else reports what is wrong with one of them.
* `Verif.FmtCmd.C102_safe_partial`: C102: at each moment, for every argument the file has its old content or its new one, or there is a backup with the old content; and no other file is changed.
* `Verif.FmtCmd.C102_progress`: C102: the command does not hang: before the end a goroutine can continue, unless the program has panicked because of a file for which the formatter panics.
* `Verif.FmtCmd.C102_ends`: C102: the command ends: there is no infinite execution, also if arguments denote the same file.
* `Verif.FmtCmd.C102_program_partial`: C102: after the command, a file with a well-formed syntax tree has the same identifiers, numbers, literals and signs as its tree, and, if its comments are at the places of C101, the same comments; and the formatter has not panicked for it.
* `Verif.FmtCmd.C102_twice_violated`: C102 is violated: if a file is given twice, one goroutine may read it while the other one is writing it, and the command succeeds but the file has neither its old content nor the formatted one.
* `Verif.FmtCmd.C102_stdout_violated`: C102 is violated: without the flag `write`, whose description says that else the result goes to the standard output, the file is overwritten and nothing is printed.
* `Verif.FmtCmd.C102_panic_violated`: C102 is violated: if the formatter panics for one file, another file is left with neither its old content nor its new one.

### C103 The shared maps of the server are not accessed concurrently

Model/Races.lean: every request is a program of lock operations and accesses (an access has a beginning and an end), run by the asynchronous handler of C26; any part of a program that is neutral with respect to the locks may be left out (branches, errors). C103_guarded_partial: an invariant of all executions relates the holders of each mutex to the operations that are behind each request; a race needs a request that accesses the data without the mutex. C103_commands: without commands there is no race at all. C103_unlocks: the programs release only what they hold. Violations with concrete executions: workspace/symbol and shutdown go through the map of the caches without the mutex, completion reads the results without the mutex, the commands that generate code read the path maps with the wrong mutex. Not modelled: the goroutines within one request, the goroutines that publish diagnostics, the maps of the diagnostics and pragmas (own mutexes).

* `Verif.Races.C103_guarded_partial`: **C103** (partial: the requests that access the data without the mutex are left out): if two requests access the same map at the same time, and one of them changes it, then one of the two is a workspace/symbol, shutdown or exit request (for the map of the caches), a completion request (for the results), or a command that generates code (for the paths).
* `Verif.Races.C103_commands`: **C103**: between two requests that access data at the same time a command (or the first of them is one) has arrived: as long as the client sends no commands, no two requests access any data at the same time, whether they take the mutexes or not.
* `Verif.Races.C103_unlocks`: **C103**: no request releases a mutex that it does not hold.
* `Verif.Races.C103_symbol_violated`: **C103** does not hold for workspace/symbol: `Symbol` goes through the map of the caches without the mutex while the command "protols/reindexWorkspaces" deletes from it.
* `Verif.Races.C103_shutdown_violated`: **C103** does not hold for shutdown: the caches are deleted without the mutex while the command "protols/refreshModules" goes through them.
* `Verif.Races.C103_generate_violated`: **C103** does not hold for code generation: "protols/generateWorkspace" goes through the map from URIs to paths with the mutex of the results only, while a notification about a document changes it.
* `Verif.Races.C103_completion_violated`: **C103** does not hold for completion: the names of packages are collected from the results without the mutex. The notification that changes them arrives first, but a command in between lets the completion request start (see `C26_overtaking_violated`).

### C104 A workspace symbol request finds every matching declaration

Model/SymbolQuery.lean: a transition system of the request, one goroutine per file (limited to NumCPU), the channel of NumCPU+1 places, the consumer and the cancellation. An invariant says that what is stored, in the channel and still to be sent is a permutation of the declarations that can be found; with C14_best (store) and C15_words_and (query) this gives C104_only, C104_found and C104_order. C104_nil, C104_no_panic from the invariant; C104_progress: in every reachable state that is not final a step other than cancellation is possible; C104_ends: a weight decreases with every step, which bounds the length of every run. C104_caches: the concatenation over the caches. Scores are natural numbers (ScoredBy relates them to the query). Parameters: the declarations of a file (RangeDescriptors), PathToURI, the syntax nodes. Not covered: files that have only a placeholder result (their declarations are not searched); the recursive read lock of FindResultByURI is in C28, the unlocked map of the caches in C103.

* `Verif.SymbolQuery.C104_only`: **C104**: an answer has at most 100 symbols, each is a declaration of a file of the workspace, shown with its own name, kind, container and place, and its name matches all words of the query.
* `Verif.SymbolQuery.C104_found`: **C104**: a declaration whose name matches all words of the query is found, if its file has a URI and it has a place in the text; unless 100 other declarations match at least as well. This does not depend on the interleaving of the goroutines.
* `Verif.SymbolQuery.C104_order`: **C104**: the symbols are ordered by their scores, whatever the interleaving: the scores of the answer are those of the best matches in descending order.
* `Verif.SymbolQuery.C104_nil`: **C104**: the request answers without symbols only if it was cancelled.
* `Verif.SymbolQuery.C104_no_panic`: **C104**: nothing is sent on the closed channel, when it is closed the goroutines of all files have ended, and the store does not fail.
* `Verif.SymbolQuery.C104_limit`: **C104**: no more goroutines than processors walk through files at the same time, and no more declarations wait than the channel has places.
* `Verif.SymbolQuery.C104_progress`: **C104**: there is no deadlock: until the request has answered and the consumer has ended, some goroutine can go on (without the request being cancelled).
* `Verif.SymbolQuery.C104_ends`: **C104**: the request ends: a run has at most four steps, and two for each file and for each declaration.
* `Verif.SymbolQuery.C104_caches`: **C104**: the request over several caches has the symbols of each of them, and nothing else.

### C105 The decode command prints the input as the named message

Model/DecodeCmd.lean: the whole command over the choice of the type (C54) and the reading of the input (C53). Spec/DecodeCmd.lean defines Best (a message at the top level fits in a way in which no other fits better). best_iff and best_of_right relate it to C54_select; from this C105_typed (what is printed), C105_full_name, C105_choice (each of the messages that fit best can be chosen), C105_wire (without a type). Violations: C105_missing_violated (for every type that fits no message the command fails, although its help promises the wire format), C105_nested_violated (nested messages are not found, and their names select other messages without a question), C105_format_violated (an unknown format prints nothing and succeeds). Parameters: the decoders and formatters of the protobuf library, the prompt.

* `Verif.DecodeCmd.C105_typed`: **C105** (typed): what is printed for a type is the value of the input in the format that was asked for, decoded as a message at the top level that fits the type best; if several do, it is the one that the user has chosen.
* `Verif.DecodeCmd.C105_choice`: **C105** (choice): if several messages fit best, the user is asked, and each of them can be chosen.
* `Verif.DecodeCmd.C105_full_name`: **C105** (full name): a message at the top level is found by its full name, without a question.
* `Verif.DecodeCmd.C105_wire`: **C105** (no type): without a type the tokens of the wire format are printed, without tabs.
* `Verif.DecodeCmd.C105_missing_violated`: **C105** (violated): the help says that the wire format is printed if the message is not found; the command fails.
* `Verif.DecodeCmd.C105_nested_violated`: **C105** (violated): a nested message is not found by its full name, and with its name the input is decoded as a message with a longer name instead, without a question.
* `Verif.DecodeCmd.C105_format_violated`: **C105** (violated): with a format that does not exist the command succeeds and prints nothing.

### C106 Accepting a type makes its name stand in the document and known there

Model/TypeComplete.lean: completeTypeNamesFromList with maybeResolveImport, over the order of C17 and the import edit of C84. Spec/TypeComplete.lean: import graph (Via: imports, then public imports), Visible, Acyclic, what a label is to be (Shows), what a text refers to (Refers, over Denotes of C18), the text after all edits. C106_offered, C106_text, C106_visible, C106_import_once, C106_detail hold without restriction under the contract that FindDescriptorByName finds a name iff it is Visible (external linker). C106_refers_partial: unless a name of an inner scope hides the first word; witnesses C106_hidden_violated (nested message of the same name: another type is referred to), C106_package_violated (type b.T in package a.b: refers to nothing). C106_acyclic_partial: if the file of the type does not import the document; C106_cycle_violated: otherwise accepting the item makes two files import each other. Not modelled: ImportInsertionPoint (a parameter, C84).

* `Verif.TypeComplete.C106_offered`: **C106**, what is offered: the items are those of the messages and enums among the candidates, each of them once, in the order of the sort (C17); an item has the name that is to be shown as its label and is marked as an enum iff it is one.
* `Verif.TypeComplete.C106_text`: **C106**, the document afterwards: accepting an item replaces the word at the cursor by the name of the type. If the document does not see a declaration of that name, one line with an import of the file of the type is inserted at the insertion point; otherwise nothing else is changed.
* `Verif.TypeComplete.C106_visible`: **C106**, the type is known: once the item has been accepted, the document sees a declaration of the name of the type, and everything that it saw before.
* `Verif.TypeComplete.C106_import_once`: **C106**, imports: an item adds an import only if the type is not known without it. It adds at most one, that of a file with a declaration of the name; this is not the document itself, nor a file that the document imports already.
* `Verif.TypeComplete.C106_detail`: **C106**, details: the full name of the type is to be seen in the label or in the detail; the file is given iff the type is not known yet or is of another package.
* `Verif.TypeComplete.C106_refers_partial`: **C106**, the name refers to the type. `pkg` is the package of the document, `inner` the messages around the place. Partial: what stands in an inner scope must not hide the first word of the inserted name, see `C106_hidden_violated` and `C106_package_violated`; names with a leading dot always refer to the type.
* `Verif.TypeComplete.C106_hidden_violated`: **C106** is violated by names of inner scopes: inside a message `p.M` with a nested message `T`, the item of the type `p.T` inserts `T`, which refers to `p.M.T`.
* `Verif.TypeComplete.C106_package_violated`: **C106** is violated by the package of the document: in a document of package `a.b`, the item of the type `b.T` inserts `b.T`, which refers to nothing, because `b` is the package of the document.
* `Verif.TypeComplete.C106_acyclic_partial`: **C106**, import cycles: accepting an item does not let files import each other in a circle. Partial: the file of the type must not import the document, see `C106_cycle_violated`.
* `Verif.TypeComplete.C106_cycle_violated`: **C106** is violated by types of files that import the document: such a type is offered, and accepting it makes the two files import each other.

### C107 The report of all diagnostics shows what the compiler reported

Model/AllDiags.lean: a heap of diagnostics with addresses, the map of lists, HandleError, HandleWarning, ClearDiagnosticsForPath with DeleteRelated, toProtocolDiagnostics writing to the heap, FullDiagnosticSnapshot copying, XGetAllDiagnostics. Spec/AllDiags.lean: the reports of a file since its last invalidation as a fold over the history (entries), without heap, and what an item is to show (Shows). Lemmas: no address occurs in two lists, and the views of the lists are related to the entries by induction over the history. C107_all_partial and C107_published_partial: histories without invalidation, or in which no report has an other declaration (otherwise DeleteRelated removes reports, C71 says which). C107_pure, C107_no_panic and C107_fails_iff: all histories. C107_removed_violated: after a file with reports was removed, XGetAllDiagnostics fails for ever, although nothing is held for it. C107_alias_violated: of two paths with one URI one list is lost, depending on the order of a map. Not modelled: result ids (C07, C08), tags and code actions (part of the identity, C84), locks.

* `Verif.AllDiags.C107_all_partial`: **C107**: the report of all diagnostics has an entry for each file that the compiler has reported something for, and no other; the entry shows the reports since the file was last invalidated, in order, each with its place, its category and its severity. That is, whatever happened before. Full statement: this for every history. Missing: files without a document, see `C107_removed_violated`; several files with one document, see `C107_alias_violated`; histories in which a file is invalidated that has, or had, a report with an other declaration.
* `Verif.AllDiags.C107_published_partial`: **C107** for the publication of a file: the client gets the reports since the file was last invalidated, in the same way.
* `Verif.AllDiags.C107_no_panic`: **C107**: nothing panics, whatever is reported, invalidated, published and asked for.
* `Verif.AllDiags.C107_pure`: **C107**: asking for all diagnostics changes nothing: what is published and reported after that is what would have been without it.
* `Verif.AllDiags.C107_fails_iff`: **C107**: the report fails exactly if there was ever a report for a file without a document.
* `Verif.AllDiags.C107_removed_violated`: **C107** fails after a file has been removed: once the compiler has reported something for it, the report of all diagnostics fails for ever, also if the file has been invalidated since and nothing is held for it.
* `Verif.AllDiags.C107_alias_violated`: **C107** fails if two paths stand for one document: one of the lists is lost, and which one depends on the order of a map.

### C108 The command vet fails exactly if the compiler found an error

Model/Vet.lean composes Model/AllDiags (reports to the map of diagnostics) and Model/Driver (map to messages). Spec/Vet.lean: Stands (a report stands, by the fold of C107 over the history), Tells (what a message says). C108_status_partial and C108_exit_zero (if the files with reports have different documents, C10; histories as for C107), C108_messages_partial (if texts are known and no report is in the last line of its file). C108_multiline_violated: an error over more than one line makes the command fail without a message. C108_eof_violated: an error at the end of a text, such as a missing brace, makes the command panic. Not modelled: the search for files (C40), the compiler, colours.

* `Verif.Vet.C108_status_partial`: **C108** (status): if the command returns, then it fails exactly if a report stands that is an error, or has a category that its file does not tolerate. So it never passes although the compiler has found an error. (Partial: the command may not return, see `C108_eof_violated`; and `hd` as for `C107_all_partial`.)
* `Verif.Vet.C108_exit_zero`: **C108** (exit status): the program ends with status 0 only if no report stands that is an error, and every file with a report has a document.
* `Verif.Vet.C108_exit_partial`: **C108**: if the command returns from loading and reporting, the status of the program is 1 if a report stands that is shown as error, and 0 otherwise.
* `Verif.Vet.C108_fails`: **C108**: without a working directory, and if a file with a report has no document, the command fails without a panic, with status 1.
* `Verif.Vet.C108_messages_partial`: **C108** (messages): if the command returns, it prints a message for each report that stands and lies in one line, and only such messages. (Partial: if the texts are known and no report is in the last line of its file; reports over more than one line have no message, see `C108_multiline_violated`.)
* `Verif.Vet.C108_multiline_violated`: **C108** fails for an error over more than one line: the command fails without any message.
* `Verif.Vet.C108_eof_violated`: **C108** fails for an error at the end of a text, such as a missing brace: the command panics.

### C109 Every option has a source location, and its own

Model/OptionLocations.lean: the table of edges, the loop over a path, the stored paths, PopulateSourceInfoMap and extendOptionLocations over the map of C36. Spec/OptionLocations.lean: elements and their options by the field numbers of descriptor.proto, what a path asks for, which location can stand for it. C109_found (the exact answer), C109_every_option, C109_own, C109_others. By induction over the path for the loop in one direction and over the element in the other; the map by the refinement of C36.

* `Verif.OptionLocations.C109_found`: **C109**: the location found under a path is the first with exactly that path; if there is none, and the path asks for an option, it is the first location of the option (of the element of its value, unless the first element is asked for).
* `Verif.OptionLocations.C109_every_option`: **C109**: an option with any location (of its whole, of an element, or of a part of its value) has one under each path that the printer may ask for: the whole and the first element.
* `Verif.OptionLocations.C109_own`: **C109**: a location that is found for an option is never one of another option: it lies at or below the path of the option; and for another element than the first, at or below the path of the element.
* `Verif.OptionLocations.C109_others`: **C109**: paths that do not ask for an option have the locations of the source info and no other.

### C110 A descriptor that is printed on its own has its own comments

Model/PrintPath.lean: findElement over descriptors (parent and index), the path that each printing function looks under, and printOneOf with slices as array, length and capacity. Spec/PrintPath.lean: files as trees, the element at a path by the field numbers of descriptor.proto, own places. C110_path, C110_distinct, C110_own_partial (with the map of C109), C110_elements_partial (options before fields, as the order of the package format gives, any capacity) and C110_any_order_partial. Violated: C110_oneof_violated and C110_oneof_nowhere_violated (a oneof that is printed on its own is looked for under a path that leads nowhere, in every file), C110_alias_violated (in a message nested twice, an option after a field of a oneof is looked for under an overwritten path). Not modelled: what is printed (C77, C80).

* `Verif.PrintPath.C110_path`: **C110**: the path that is computed for a descriptor leads to the element for which it stands.
* `Verif.PrintPath.C110_at_unique`: **C110**: a path leads to at most one element.
* `Verif.PrintPath.C110_distinct`: **C110**: different descriptors of a file have different paths.
* `Verif.PrintPath.C110_own_partial`: **C110**: an element other than a oneof that is printed on its own has the comments of the first location for its own place in the file, and none if there is no such location. (Partial: not oneofs, see `C110_oneof_violated`.)
* `Verif.PrintPath.C110_oneof_nowhere_violated`: **C110** fails for every oneof of every file: the path under which its location is looked for leads nowhere (it has an odd length), and neither do those of its fields.
* `Verif.PrintPath.C110_elements_partial`: **C110**: if the options of a oneof are printed before its fields, as the order that the package format gives has it (C76), then the oneof, its name, its options and its fields are looked for in their own places, whatever the capacity of the path is. (Partial: for other orders see `C110_alias_violated`.)
* `Verif.PrintPath.C110_any_order_partial`: **C110**: in every order, if the array of the path has no room for two more numbers.
* `Verif.PrintPath.C110_oneof_violated`: **C110** fails for a oneof that is printed on its own: its comment is not found.
* `Verif.PrintPath.C110_alias_violated`: **C110** fails for an option after a field of a oneof in a message that is nested twice: it is looked for below the place of the field, since the paths share an array.

### C111 The printer knows exactly the types that a file may use

Model/Registry.lean: both recursions, and protoregistry.Types (external) as two maps that refuse conflicts. Spec/Registry.lean: Inside, Declares, Reexports, Sees, Usable and Linked, by the visibility rules of the language. C111_by_name, C111_by_number, C111_extensions_only. The recursions are unfolded to a list of calls, whose members are characterised by mutual induction over messages and files; an invariant of the registry over the list. Weak imports and placeholders are files without declarations.

* `Verif.Registry.C111_by_name`: **C111**: the printer finds under a name exactly the type that the file may use under this name, at whatever depth it is declared and by whatever chain of imports it comes.
* `Verif.Registry.C111_by_number`: **C111**: the printer finds for a number of a message exactly the extension that the file may use. So no option of the file whose extension the compiler has found stays unknown, and none is taken for another.
* `Verif.Registry.C111_extensions_only`: **C111**: `RegisterExtensionsForFile` does the same for extensions and leaves all other types out.

### C112 Edits of a code action reach only the text for which they were made

Model/ResolveEdit.lean: a transition system of client documents with versions, texts told to the server, pending actions (with the text for which they were made), answers in flight, and a client that compares versions as the protocol says. C112_answer (the answer itself), C112_applied_partial by an invariant over executions (each version has one text while documents are not reopened), C112_refused_partial (refused only if the document was changed), C112_current. Violated: C112_changes_violated (a client that did not announce that it resolves edits gets edits without version), C112_reopen_violated (versions begin anew when a document is opened again). The edits themselves are the subject of C78 and the other refactorings; the queue that of C24.

* `Verif.ResolveEdit.C112_answer`: **C112** (answer): resolving fails exactly if the closure fails; otherwise the answer has the edits of the action, for its document and, if the client can resolve edits, its version, and nothing else.
* `Verif.ResolveEdit.C112_applied_partial`: **C112**: if the client can resolve edits, then whatever happens between the offer of an action, its resolution and the application of the edits, edits are applied only to the text for which they were made. (Partial: while documents are not closed and opened again, see `C112_reopen_violated`; for other clients see `C112_changes_violated`.)
* `Verif.ResolveEdit.C112_current`: **C112**: and an edit for the current version of the document is not refused.
* `Verif.ResolveEdit.C112_refused_partial`: **C112** (refusals): edits are refused only if the document was changed since the text for which they were made, and a refusal changes nothing. (Partial: while documents are not closed and opened again, as `C112_applied_partial`.)
* `Verif.ResolveEdit.C112_changes_violated`: **C112** fails for a client that did not announce that it resolves edits: the document changes between offer and resolution, and the edits, which have no version, are applied to the new text.
* `Verif.ResolveEdit.C112_reopen_violated`: **C112** fails if a document is closed and opened again with another text while an action is pending: the version is the same.

### C113 The dump of a syntax tree shows the whole tree

Model/DumpAst.lean: the traversal with the functions before and after a node and the visitor, all cases. Spec/DumpAst.lean: the line of a node from a list of properties, the nodes with their depths, the shape. C113_lines_partial by induction over the tree (for nodes that are `Fine`), C113_shape_partial (lines are injective in depth, source line and kind; pre-order with depths determines the tree). Violated: C113_package_violated (no line break after a package without name), C113_string_violated (strings are written without quotes). Quoting, the texts of floats and types and `ast.Inspect` are external.

* `Verif.DumpAst.C113_lines_partial`: C113: a dump consists of exactly one line for each node, each before its children, with the line of the source, the type, the numbers of comments and the properties of the node, indented by its depth. Missing: packages without name, and texts with line breaks.
* `Verif.DumpAst.C113_shape_partial`: C113: trees with the same dump have the same shape: the same kinds of nodes from the same lines, nested in the same way.
* `Verif.DumpAst.C113_types`: C113: the types that are shown.
* `Verif.DumpAst.C113_package_violated`: C113 is violated: after a package without name there is no line break, so that two nodes share a line.
* `Verif.DumpAst.C113_string_violated`: C113 is violated: a string with a line break is written as it is.

### C114 What generating a workspace leaves on the disk

Model/GenerateWorkspace.lean: the loop of writes over a disk (places to contents) with an arbitrary failing write, on top of the model of `GenerateCode` (C86). C114_written, C114_failed, C114_error by induction over the files; C114_selected_partial and C114_beside_partial compose them with C86. Violated: C114_collision_violated (two Go packages with `google/` in their names get the same place and one file is lost without an error), C114_atomic_violated (an error leaves some of the files).

* `Verif.GenerateWorkspace.C114_written`: **C114** (success): if no error is returned then all generated files are on the disk, unless a later one has the same place, and nothing else is changed.
* `Verif.GenerateWorkspace.C114_failed`: **C114** (failure): if an error is returned then nothing is changed, or exactly one file could not be written: the files before it are on the disk, and those after it are as they were.
* `Verif.GenerateWorkspace.C114_error`: **C114** (errors): an error is returned exactly if compiling, generating or one of the writes fails.
* `Verif.GenerateWorkspace.C114_selected_partial`: **C114** (selection): the documents for which code is generated are those of the workspace that are below the working directory, or below a sibling whose name begins with its name (`C86_sibling_violated`).
* `Verif.GenerateWorkspace.C114_beside_partial`: **C114** (place): after a success, a file that was generated into the directory of the import path of a document is in the directory of the document with its content, if no later file has the same place. (Partial: see `C114_collision_violated` and `C86_go_package_violated`.)
* `Verif.GenerateWorkspace.C114_collision_violated`: C114 is violated: of two files that are generated into directories with `google/` in their names, one replaces the other, without an error.
* `Verif.GenerateWorkspace.C114_atomic_violated`: C114 is violated: if a write fails, the files before it are written.

### C115 Semantic tokens of a range

Model/RangeTokens.lean: the walk of Model/Inspect (C90) with the option `ast.WithRange` (external: skips nodes that end before the first token or begin behind the last), with offsets and tokens as in Model/InlayHints (C99). C115_within, C115_complete_partial and C115_whole by induction over the tree; C115_tokens_partial composes them with C90; C115_answered says when there is an error. Violated: C115_blank_violated (a range that ends on white space or at the end of the text gets no tokens at all), C115_outside_violated (a range that is not in the text is taken for the beginning of the text, the error is ignored), C115_excess_violated (tokens of names outside of the range are answered, too).

* `Verif.RangeTokens.C115_within`: **C115** (nothing new): what is answered for a range is part of what is answered for the whole document, in the same order; for every document, every list of tokens and every range, also one that is not in the text.
* `Verif.RangeTokens.C115_complete_partial`: **C115** (nothing missing): if the range begins and ends on tokens, the answer has all tokens and comments of the leaves in the range, in the order of the answer for the whole document. (Partial: the range must begin and end on tokens, see `C115_blank_violated`.)
* `Verif.RangeTokens.C115_tokens_partial`: **C115** (tokens): in the range, exactly one token is answered for each leaf of a name, each keyword, number, string and operator, of the right type, and none for punctuation. (Partial: as `C90_tokens_partial`, and the range must begin and end on tokens.)
* `Verif.RangeTokens.C115_whole`: **C115** (whole document): a range from the first to the last token gets the answer for the whole document, without exception.
* `Verif.RangeTokens.C115_answered`: **C115** (errors): a request is answered exactly if the text is well formed and there are a parse result with a syntax tree and a mapper; the range does not matter for that, and what is answered is part of the answer for the whole document.
* `Verif.RangeTokens.C115_blank_violated`: If the requested range ends on white space or at the end of the text, nothing at all is answered: the token there is `TokenError`, which is less than every token. Editors ask for the visible lines, and lines end in white space.
* `Verif.RangeTokens.C115_outside_violated`: A range that is not in the text (such as one that ends behind the last line) is no error; it is taken for the beginning of the text.
* `Verif.RangeTokens.C115_excess_violated`: The answer is not restricted to the range: with a declaration that touches the range come the tokens of its names, even if they do not touch it.

### C116 Printing many files

Model/PrintFiles.lean: the loop as a log of events of writers in arbitrary surroundings, and what the events do to a disk (as in C114). C116_success, C116_all, C116_error, C116_closed and C116_disk_partial by induction over the files. Violated: C116_path_violated (`open` is given `fd.Name()`, the last component of the package, and not the path: no file with an extension is ever opened), C116_package_violated (of two files of a package only the later one remains, without an error), C116_close_violated (errors of `Close` are dropped). External: `Name()` of file descriptors, `filepath.Join`, the file system. C116_place, C116_distinct_partial: with the model of paths of Model/GoPath.lean, below an absolute root directory each file is found under the last component of its package; if these are different, all files are there.

* `Verif.PrintFiles.C116_success`: **C116** (success): no error is returned exactly if all files can be opened and printed.
* `Verif.PrintFiles.C116_all`: **C116** (order): without an error all files are printed, in order and one after the other.
* `Verif.PrintFiles.C116_error`: **C116** (errors): after an error the files before the one that could not be opened or printed are printed, and those behind it are not opened.
* `Verif.PrintFiles.C116_closed`: **C116** (writers): at the end no writer is open, with or without an error; at no time are two open, and none is closed that is not open.
* `Verif.PrintFiles.C116_disk_partial`: **C116** (disk): without an error, each file whose name no later file has is on the disk below the root with what was printed, and nothing else is changed. (Partial: the name is not the path of the file, see `C116_path_violated`, and files of a package have the same name, see `C116_package_violated`.)
* `Verif.PrintFiles.C116_place`: **C116** (places): below an absolute root directory, a file is in the directory itself under its name, wherever the program was started.
* `Verif.PrintFiles.C116_distinct_partial`: **C116** (packages): if the last components of the packages are different, all files are below the root directory afterwards.
* `Verif.PrintFiles.C116_path_violated`: `open` is not given the name of the file, as the comment says, but the last component of its package: no name with an extension ever is.
* `Verif.PrintFiles.C116_package_violated`: Of two files of the same package only the later one remains, and no error is returned.
* `Verif.PrintFiles.C116_close_violated`: An error of `Close`, which may mean that the text was not stored, is not returned.

### C117 Blank lines

On Model/Formatter.lean (C70) and Model/FormatWriter.lean (C46). C117_blank: by cases over the writers of tokens that end a line, each leaves the writer at the start of a line with nothing pending; then the text of the next token is computed for every state. C117_close the same for closing brackets. C117_comments: by induction over the comments before the token (comments of one line; comments of several lines are in C49). C117_level: the level after opening and closing brackets. C117_inline: the text of one token of a line, for every state. C117_strings: by induction over the parts of a string literal. C117_remembered: what the state says about the token before.

* `Verif.Formatter.C117_blank`: **C117** (blank lines): after a token that ends a line, the first token of the next element is written on a line of its own, preceded by exactly one blank line if there was a blank line (or several) before it in the source and the line before does not open a block, and by none otherwise.
* `Verif.Formatter.C117_close`: **C117** (ends of blocks): before the closing bracket of a block there is no blank line, whatever was there in the source, and its line ends behind it.
* `Verif.Formatter.C117_comments`: **C117** (comments): the comments before an element stand on lines of their own at the level of the element, in the order of the source, and between comments, and between the last comment and the element, there is one blank line exactly if there was one (or several) in the source; before the first one too, except behind an opening bracket. (For comments of one line; the others are the subject of C49.)
* `Verif.Formatter.C117_level`: **C117** (levels): what follows a bracket that opens a block is one level deeper than the line of the bracket, and what follows the bracket that closes it is one level less deep than the content. (For brackets without comments, and if no other bracket was written on the same line.)
* `Verif.Formatter.C117_inline`: **C117** (within a line): if a blank is to stand before a token of a line, exactly one is written, unless the text before ends with a blank or an opening bracket, or the token begins with a separator or a closing bracket; otherwise none.
* `Verif.Formatter.C117_remembered`: **C117** (state): however a token is written, the formatter knows afterwards whether it opened a block, and writing a token within a line leaves the mode for lines, whatever the mode before.
* `Verif.Formatter.C117_strings`: **C117** (literals of several parts): the parts of a string literal stand on lines of their own, one level deeper than the line that the literal belongs to, in the order of the source, and what follows is at the level of that line again.

## What is modelled

Per source file: functions modelled, wholly or in part (in brackets the modules that cite them; what is left out of a function is said in the comment of the definition), and functions not modelled. Tests, `test/` and `magefile.go` are not modelled.

* **cmd/protols/main.go**
  - not modelled: all (main)
* **pkg/format/alg.go**
  - modelled: `splitSegmentedFields` (ColumnFormat)
* **pkg/format/ast.go**
  - modelled: `DumpAST` (DumpAst), `maybe` (DumpAst), `maybeValue` (DumpAst), `dumpVisitor.Visit` (DumpAst)
* **pkg/format/column_format.go**
  - modelled: `groupableNodeType` (Formatter), `columnFormatElements` (ColumnFormat, Formatter)
* **pkg/format/format.go**
  - modelled: `Format` (FmtCmd), `FileInPlace` (FmtCmd), `PrintNode` (Hover)
  - not modelled: File, PrintDescriptor, NewDefaultPrinter, PrintAndFormatFileDescriptor, NodeInfoOverlay, fileNodeInfoOverlay.NodeInfo
* **pkg/format/formatter.go**
  - modelled: `formatter.saveState` (Formatter), `formatter.mergeState` (Formatter), `formatter.P` (FormatWriter), `formatter.Space` (FormatWriter), `formatter.In` (FormatWriter), `formatter.Out` (FormatWriter), `formatter.Indent` (FormatWriter), `formatter.WriteString` (FormatWriter), `formatter.writeFile` (Formatter), `formatter.writeFileHeader` (FileHeader, Formatter), `formatter.writeFileTypes` (Formatter), `formatter.writeSyntax` (Formatter), `formatter.writeEdition` (Formatter), `formatter.writePackage` (Formatter), `formatter.writeImport` (Formatter), `fileOptionNodesGroup.GetElements` (Formatter), `formatter.writeFileOptions` (Formatter), `formatter.writeFileOption` (Formatter), `formatter.writeOption` (Formatter), `formatter.writeLastCompactOption` (Formatter), `formatter.writeOptionPrefix` (Formatter), `formatter.writeOptionName` (Formatter), `formatter.writeMessage` (Formatter), `formatter.writeMessageLiteral` (Formatter), `formatter.writeMessageLiteralForArray` (Formatter), `formatter.messageLiteralShouldBeExpanded` (Formatter), `formatter.arrayLiteralShouldBeExpanded` (Formatter), `formatter.maybeWriteCompactMessageLiteral` (Formatter), `messageLiteralHasNestedMessageOrArray` (Formatter), `messageLiteralHasNestedArray` (Formatter), `arrayLiteralHasNestedMessageOrArray` (Formatter), `formatter.writeMessageLiteralElements` (Formatter), `formatter.writeMessageField` (Formatter), `formatter.writeMessageFieldWithSeparator` (Formatter), `formatter.writeMessageFieldPrefix` (Formatter), `formatter.writeEnum` (Formatter), `formatter.writeEnumValue` (Formatter), `formatter.writeField` (CompactOptions, Formatter), `formatter.writeMapField` (Formatter), `formatter.writeMapType` (Formatter), `formatter.writeFieldReference` (Formatter), `formatter.writeExtend` (Formatter), `formatter.writeService` (Formatter), `formatter.writeRPC` (Formatter), `formatter.writeRPCType` (Formatter), `formatter.writeOneOf` (Formatter), `formatter.writeGroup` (Formatter), `formatter.writeExtensionRange` (Formatter), `formatter.writeReserved` (Formatter), `formatter.writeRange` (Formatter), `formatter.compactOptionsShouldBeExpanded` (Formatter), `formatter.writeCompactOptions` (CompactOptions, Formatter), `hasInteriorComments` (Formatter), `formatter.writeArrayLiteral` (Formatter), `formatter.writeCompositeValueForArrayLiteral` (Formatter), `formatter.writeCompositeTypeBody` (Formatter), `formatter.writeCompositeValueBody` (Formatter), `formatter.writeBody` (Formatter), `formatter.writeOpenBracePrefix` (Formatter), `formatter.writeOpenBracePrefixInline` (Formatter), `formatter.writeOpenBracePrefixForArray` (Formatter), `formatter.writeCompoundIdent` (CompactOptions, Formatter), `formatter.writeCompountIdentForFieldName` (CompactOptions, Formatter), `formatter.writeCompoundStringLiteral` (CompactOptions, Formatter), `formatter.writeCompoundStringLiteralIndent` (CompactOptions, Formatter), `formatter.writeCompoundStringLiteralIndentEndInline` (CompactOptions, Formatter), `formatter.writeCompoundStringLiteralNoIndentEndInline` (CompactOptions, Formatter), `formatter.writeCompoundStringLiteralForArray` (Formatter), `formatter.writeFloatLiteral` (Formatter), `formatter.writeSignedFloatLiteral` (Formatter), `formatter.writeSignedFloatLiteralForArray` (Formatter), `formatter.writeSpecialFloatLiteral` (Formatter), `formatter.writeStringLiteral` (Formatter, Requote), `formatter.writeUintLiteral` (Formatter), `formatter.writeNegativeIntLiteral` (Formatter), `formatter.writeNegativeIntLiteralForArray` (Formatter), `formatter.writeIdent` (Formatter), `formatter.writeKeyword` (Formatter), `formatter.writeRune` (CompactOptions, FormatWriter, Formatter), `formatter.writeNode` (Formatter), `formatter.writeStart` (CompactOptions, Formatter), `formatter.writeStartMaybeCompact` (CompactOptions, Formatter), `formatter.writeInline` (CompactOptions, Formatter), `formatter.writeBodyEnd` (CompactOptions, Formatter), `formatter.writeLineElement` (CompactOptions, Formatter), `formatter.writeBodyEndInline` (Formatter), `formatter.writeLineEnd` (Formatter), `formatter.writeMultilineComments` (Formatter), `formatter.writeMultilineCommentsMaybeCompact` (Formatter), `formatter.writeInlineComments` (Formatter, InlineComment), `formatter.writeTrailingEndComments` (Formatter), `formatter.writeComment` (BlockComment, Formatter), `isCommentPrefix` (BlockComment), `unindent` (BlockComment), `computeIndent` (BlockComment), `formatter.leadingCommentsContainBlankLine` (Formatter), `formatter.importHasComment` (FileHeader), `formatter.nodeHasComment` (FileHeader), `importSortOrder` (FileHeader), `StringForOptionName` (FileHeader), `StringForFieldReference` (FileHeader), `isOpenBrace` (Formatter), `newlineCount` (Formatter)
  - not modelled: NewFormatter, formatter.Run, formatter.SetPreviousNode
* **pkg/format/protoprint/internal/registry.go**
  - modelled: `RegisterExtensionsForFile` (Registry), `RegisterTypesForFile` (Registry), `registerTypesForFile` (Registry), `registerTypes` (Registry)
* **pkg/format/protoprint/internal/source_info.go**
  - modelled: `SourceInfoMap.Get` (Printer, SourceInfo), `SourceInfoMap.GetAll` (Printer, SourceInfo), `SourceInfoMap.Add` (SourceInfo), `SourceInfoMap.PutIfAbsent` (SourceInfo), `asMapKey` (SourceInfo), `PopulateSourceInfoMap` (OptionLocations)
  - not modelled: CreateSourceInfoMap, SourceInfoComputeFunc.recomputeSourceInfo, RecomputeSourceInfo
* **pkg/format/protoprint/internal/util.go**
  - modelled: `JsonName` (PrefixList), `InitCap` (PrefixList), `CreatePrefixList` (PrefixList), `GetMaxTag` (Ranges)
* **pkg/format/protoprint/message_literal.go**
  - modelled: `Printer.printMessageLiteralToBuffer` (OptionValues, Printer), `Printer.printMessageLiteralToBufferMaybeCompact` (Printer), `Printer.maybePrintAnyMessageToBuffer` (OptionValues, Printer), `Printer.printValueLiteralToBuffer` (OptionValues, Printer), `Printer.maybeNewline` (Printer), `Printer.printArrayLiteralToBufferMaybeCompact` (Printer), `Printer.printArrayLiteralToBuffer` (Printer), `Printer.printMapLiteralToBufferMaybeCompact` (Printer), `Printer.printMapLiteralCompact` (Printer), `Printer.printMapLiteralToBuffer` (OptionValues, Printer)
  - not modelled: Printer.printMessageLiteralCompact, Printer.printMessageLiteral, Printer.printArrayLiteralCompact, mapAsList.Len, mapAsList.Get, mapAsList.Set, mapAsList.Append, mapAsList.AppendMutable, mapAsList.Truncate, mapAsList.NewElement, mapAsList.IsValid
* **pkg/format/protoprint/print.go**
  - modelled: `Printer.PrintProtoFiles` (PrintFiles), `Printer.PrintProtosToFileSystem` (PrintFiles), `Printer.PrintProto` (OptionLocations, OptionValues, PrintPath, Printer, Registry), `findElement` (PrintPath), `Printer.newLine` (Printer), `reparseUnknown` (OptionValues), `Printer.printFile` (PrintOrder, Printer), `findExtSi` (Printer), `isSpanWithin` (Printer), `Printer.computeExtensions` (Printer), `Printer.sort` (Printer), `Printer.qualifyMessageOptionName` (Qualify), `Printer.qualifyExtensionLiteralName` (Qualify), `Printer.qualifyName` (Qualify), `Printer.qualifyElementName` (Printer, Qualify), `Printer.typeString` (Printer), `Printer.printMessage` (Printer), `Printer.printMessageBody` (PrintOrder, Printer), `Printer.printField` (PrefixList, Printer), `shouldEmitLabel` (Printer), `labelString` (Printer), `Printer.printOneOf` (PrintOrder, PrintPath, Printer), `Printer.printExtensions` (Printer), `Printer.printExtensionRanges` (Printer, Ranges), `Printer.printReservedRanges` (Printer, Ranges), `Printer.printReservedNames` (Printer), `Printer.printEnum` (PrintOrder, Printer), `Printer.printEnumValue` (Printer), `Printer.printService` (PrintOrder, Printer), `Printer.printMethod` (Printer), `Printer.printOptionsLong` (Printer), `Printer.printOptionsShort` (Printer), `Printer.printOptionElementsShort` (Printer), `Printer.printOptions` (Printer), `inline` (PrintComment, Printer), `sortKeys` (OptionValues), `Printer.printOption` (OptionValues, Printer), `extendOptionLocations` (OptionLocations), `Printer.extractOptions` (OptionValues, Printer), `valueToOptions` (OptionValues), `valueForOption` (OptionValues), `uninterpretedToOptions` (Printer), `optionsAsElementAddrs` (Printer), `quotedBytes` (Quote), `quotedString` (Quote), `elementAddrs.Len` (PrintOrder), `elementAddrs.Less` (PrintOrder), `elementAddrs.at` (PrintOrder, Ranges), `elementSrcOrder.Less` (PrintOrder), `customSortOrder.Less` (PrintOrder), `optionsByName.Len` (PrintOrder), `optionsByName.Less` (PrintOrder), `optionsByName.Swap` (PrintOrder), `optionLess` (PrintOrder), `Printer.printBlockElement` (Printer), `Printer.printElement` (Printer), `Printer.printfElementString` (Printer), `Printer.printElementString` (Printer), `Printer.printLeadingComments` (Printer), `Printer.printTrailingComments` (Printer), `Printer.printComment` (PrintComment, Printer), `Printer.indent` (PrintComment, Printer), `Printer.maybeIndent` (PrintComment), `newWriter` (PrintWriter), `writer.Write` (PrintWriter)
  - not modelled: collect, Printer.PrintProtoFile, Printer.PrintProtoToString, getMessageIndex, getFieldIndex, getOneOfIndex, getEnumIndex, getEnumValueIndex, getServiceIndex, getMethodIndex, isGroup, Printer.extractAndPrintOptionsShort, toUninterpretedOption, elementAddrs.Swap, Printer.includeCommentType
* **pkg/format/protoprint/sort.go**
  - not modelled: all (asElement, pkgElement.Kind, pkgElement.Name, pkgElement.Number, pkgElement.NumberRange, pkgElement.Extendee, pkgElement.IsCustomOption, impElement.Kind, impElement.Name, impElement.Number, impElement.NumberRange, impElement.Extendee, impElement.IsCustomOption, optionElement.Kind, optionElement.Name, optionElement.Number, optionElement.NumberRange, optionElement.Extendee, optionElement.IsCustomOption, resvdRangeElement.Kind, resvdRangeElement.Name, resvdRangeElement.Number, resvdRangeElement.NumberRange, resvdRangeElement.Extendee, resvdRangeElement.IsCustomOption, resvdNameElement.Kind, resvdNameElement.Name, resvdNameElement.Number, resvdNameElement.NumberRange, resvdNameElement.Extendee, resvdNameElement.IsCustomOption, fieldElement.Kind, fieldElement.Name, fieldElement.Number, fieldElement.NumberRange, fieldElement.Extendee, fieldElement.IsCustomOption, msgElement.Kind, msgElement.Name, msgElement.Number, and 33 more)
* **pkg/format/sort.go**
  - modelled: `SortElements` (PrintOrder)
* **pkg/lsp/cache.go**
  - modelled: `NewCache` (Races, SymbolQuery), `Cache.LoadFiles` (Races, SymbolQuery), `Cache.FindDescriptorByName` (RWLock), `Cache.FindExtensionByName` (RWLock), `Cache.FindExtensionByNumber` (RWLock), `Cache.FindExtensionsByMessage` (RWLock), `Cache.FindResultByPath` (RWLock, Races), `Cache.FindResultByURI` (RWLock, Races), `Cache.FindResultOrPartialResultByPath` (RWLock, Races), `Cache.FindResultOrPartialResultByURI` (RWLock, Races), `Cache.FindParseResultByPath` (RWLock, Races), `Cache.FindParseResultByURI` (RWLock, Races), `Cache.findResultByPathLocked` (Definition, RWLock, Races), `Cache.findResultOrPartialResultByPathLocked` (Definition, RWLock, Races), `Cache.findParseResultByPathLocked` (Compile, RWLock, Races), `Cache.FindFileByURI` (RWLock), `Cache.TracksURI` (RWLock), `Cache.FindTypeDescriptorAtLocation` (RWLock), `Cache.FindDefinitionForTypeDescriptor` (Definition), `workspaceDescriptors.All` (FindTypes), `workspaceDescriptors.Range` (FindTypes), `workspaceDescriptors.Len` (FindTypes), `Cache.FindAllDescriptorsByPrefix` (FindTypes), `Cache.findAllDescriptorsByPrefixLocked` (FindTypes), `Cache.FindAllDescriptorsByQualifiedPrefix` (FindTypes), `Cache.findAllDescriptorsByQualifiedPrefixLocked` (FindTypes), `Cache.rangeAllDescriptorsLocked` (SymbolQuery)
  - not modelled: CacheOptions.apply, Cache.FindMessageByName, Cache.FindMessageByURL, Cache.DidChangeConfiguration, Cache.RangeAllDescriptors, Cache.FindImportPathsByPrefix, Cache.FindPragmasByPath
* **pkg/lsp/codeactions.go**
  - modelled: `Cache.GetCodeActions` (CodeActions), `Cache.toProtocolCodeActions` (CodeActions), `aggregateOrganizeImportsActions` (CodeActions), `requestedActionKinds` (CodeActions)
* **pkg/lsp/codelens.go**
  - modelled: `Cache.ComputeCodeLens` (RWLock)
* **pkg/lsp/commands.go**
  - modelled: `Server.ExecuteCommand` (DumpAst, Races, Workspaces)
  - not modelled: NewSelectRangeCommand
* **pkg/lsp/compiler.go**
  - modelled: `Cache.preInvalidateHook` (Compile), `Cache.postInvalidateHook` (Compile, Races), `Cache.preCompile` (Compile, Races), `Cache.postCompile` (Compile), `Cache.Compile` (Compile, FormatDoc, Publish, RWLock, Races), `Cache.compileLocked` (Compile, FormatDoc, Races)
* **pkg/lsp/completion.go**
  - modelled: `Cache.GetCompletions` (Completion, ImportComplete, OptionComplete, Races, ValueComplete), `Cache.completeOptionOrExtensionName` (OptionComplete), `editAddImport` (QuickFix), `Cache.completePackageNames` (Completion, Races), `Cache.completeFieldLiteralValues` (ValueComplete), `fieldCompletion` (ValueComplete), `fieldTypeDetail` (ValueComplete), `findCompletionScope` (OptionComplete), `findExistingOptions` (OptionComplete), `Cache.deepCompleteOptionNames` (Completion, OptionComplete), `completeKeywords` (Completion, ValueComplete), `completeTypeNames` (FindTypes), `completeExtendeeTypeNames` (FindTypes), `completeTypeNamesFromList` (Completion, TypeComplete), `completeImports` (ImportComplete), `completeSyntaxVersions` (ImportComplete), `completeEnumValues` (ValueComplete), `newExtensionFieldCompletionItem` (OptionComplete), `isProto2` (ValueComplete), `messageKeywordCompletions` (ValueComplete), `fileKeywordCompletions` (ValueComplete), `syntaxSnippets` (ValueComplete), `distanceSort` (Completion, TypeComplete), `affineEntrySort` (Completion), `nameDistance` (Completion), `relativeFullName` (Completion), `findPartialNames` (Completion), `maybeResolveImport` (TypeComplete)
  - not modelled: init, newMapFieldCompletionItem, newMessageFieldCompletionItem, newDefaultPseudoOptionCompletionItem, newJsonNamePseudoOptionCompletionItem, newBuiltinScalarOptionCompletionItem, newNonMessageFieldCompletionItem, newNonMessageRepeatedOptionCompletionItem
* **pkg/lsp/diagnostics.go**
  - modelled: `Cache.toProtocolDiagnostics` (AllDiags, Diagnostics), `Cache.StreamWorkspaceDiagnostics` (AllDiags, Publish), `DiagnosticList.Add` (AllDiags, Diagnostics), `DiagnosticList.Get` (Diagnostics), `DiagnosticList.getLocked` (Diagnostics), `DiagnosticList.Clear` (Diagnostics), `DiagnosticList.DeleteRelated` (AllDiags, Diagnostics), `DiagnosticList.Flush` (Diagnostics), `DiagnosticList.resetResultId` (Diagnostics), `tagsForError` (QuickFix), `severityForError` (QuickFix), `codeActionsForError` (QuickFix), `metadataForError` (QuickFix), `werrorCategoryForError` (AllDiags), `relatedInformationForError` (AllDiags), `DiagnosticHandler.getOrCreateDiagnosticListLocked` (AllDiags), `DiagnosticHandler.HandleError` (AllDiags, Diagnostics), `DiagnosticHandler.HandleWarning` (AllDiags, Diagnostics), `DiagnosticHandler.FullDiagnosticSnapshot` (AllDiags), `DiagnosticHandler.ClearDiagnosticsForPath` (AllDiags, Diagnostics), `DiagnosticHandler.Stream` (Publish), `DiagnosticHandler.Flush` (Diagnostics, Publish)
  - not modelled: NewDiagnosticHandler, DiagnosticHandler.GetDiagnosticsForPath
* **pkg/lsp/documents.go**
  - modelled: `Cache.ChangedText` (Documents), `contentChangeEventsToDiffEdits` (Documents, Races), `Cache.DidModifyFiles` (Documents, FileEvents, FormatDoc, Publish, Races), `Cache.LatestDocumentContentsWellFormed` (FormatDoc, RWLock), `Cache.latestDocumentContentsWellFormedLocked` (FormatDoc), `Cache.GetMapper` (FormatDoc)
  - not modelled: Cache.WaitDocumentVersion, Cache.GetSyntheticFileContents
* **pkg/lsp/externalapi.go**
  - modelled: `Cache.XGetAllDiagnostics` (AllDiags), `Cache.XGetLinkerResults` (Driver), `Cache.XGetMapper` (DecodeCmd), `Cache.XGetURIPathMappings` (DecodeCmd, Races), `Cache.XListWorkspaceLocalURIs` (DecodeCmd, Races), `Cache.XGetAllMessages` (DecodeCmd)
  - not modelled: Cache.XGetResolver
* **pkg/lsp/format.go**
  - modelled: `Cache.FormatDocument` (FormatDoc)
* **pkg/lsp/generated.go**
  - modelled: `Cache.FindGeneratedDefinition` (RWLock), `tryResolvePathToGeneratedImport` (FindFile)
  - not modelled: nodeLocation, lookupObjDecl, GoIdent
* **pkg/lsp/golang.go**
  - modelled: `GoLanguageDriver.HasGoModule` (FindFile), `GoLanguageDriver.FindGeneratedFiles` (GenFiles), `GoLanguageDriver.ImportFromGoModule` (FindFile), `GoLanguageDriver.ImplicitGoPackagePath` (FindFile), `GoLanguageDriver.SynthesizeFromGoSource` (FindFile), `DecodeRawFileDescriptor` (GenFiles), `ParseGeneratedPreamble` (GenFiles)
  - not modelled: NewGoLanguageDriver, GoLanguageDriver.RefreshModules, ParsedGoFile.Position
* **pkg/lsp/hover.go**
  - modelled: `Cache.ComputeHover` (Hover)
  - not modelled: makeTooltip
* **pkg/lsp/inlayhints.go**
  - modelled: `Cache.ComputeInlayHints` (InlayHints, RWLock), `Cache.computeMessageLiteralHints` (InlayHints, RWLock), `Cache.computeImportHints` (InlayHints, Links, RWLock)
  - not modelled: buildMessageLiteralHints
* **pkg/lsp/links.go**
  - modelled: `Cache.ComputeDocumentLinks` (InlayHints, Links, RWLock)
* **pkg/lsp/log.go**
  - not modelled: all (AtomicLeveler.SetLevel, AtomicLeveler.Level, ParseLogLevel)
* **pkg/lsp/packages.go**
  - modelled: `Cache.TryFindPackageReferences` (Definition, Hover), `Cache.FindPackageNameRefs` (References), `Cache.tryHoverPackageNode` (Hover)
* **pkg/lsp/pragmas.go**
  - modelled: `pragmaMap.Lookup` (Diagnostics)
  - not modelled: init, pragmaMap.update
* **pkg/lsp/range.go**
  - modelled: `toRange` (Outline), `toPosition` (Outline, QuickFix), `positionsToRange` (Outline), `adjustColumns` (InlayHints), `adjustColumn` (ImportComplete)
  - not modelled: pointToRange
* **pkg/lsp/refactor.go**
  - modelled: `pendingCodeActionManager.enqueue` (ActionQueue, ResolveEdit), `pendingCodeActionManager.resolve` (ActionQueue, ResolveEdit), `resolveCodeAction` (ActionQueue, ResolveEdit), `FindRefactorActions` (CodeActions), `RefactorUndeclaredName` (QuickFix), `simplifyRepeatedOptions` (ResolveEdit, Simplify), `collectRepeatedOptionRefs` (Simplify), `newFieldVisitor` (CursorPath), `extractFields` (Refactor, ResolveEdit), `inlineMessageFields` (Refactor, ResolveEdit), `renumberFields` (Refactor, ResolveEdit), `findNewUnusedMessageName` (Refactor), `findNewUnusedFieldName` (Refactor), `indentTextHanging` (Refactor), `indentText` (Refactor), `calcSimplifyRepeatedOptionsEdits` (Simplify)
  - not modelled: calcInsertIndex, formatNodeInsertEdit, formatNodeRemovalEdits, buildSimplifyOptionsASTChanges, unwrapIndex
* **pkg/lsp/references.go**
  - modelled: `Cache.FindReferenceLocationsForTypeDescriptor` (FanIn), `Cache.FindReferences` (RWLock, References)
  - not modelled: Cache.FindReferencesForTypeDescriptor
* **pkg/lsp/rename.go**
  - modelled: `Cache.PrepareRename` (RWLock, Rename), `Cache.canRename` (RWLock, Rename), `Cache.Rename` (RWLock, Rename)
* **pkg/lsp/resolver.go**
  - modelled: `Resolver.PathToURI` (Races, Resolver), `Resolver.URIToPath` (Races, Resolver), `Resolver.SyntheticFileContents` (Races), `Resolver.UpdateURIPathMappings` (FileEvents, FindFile, Races, Resolver), `Resolver.CheckIncompleteDescriptors` (FindFile, Races), `Resolver.FindFileByPath` (FindFile, Races), `Resolver.findFileByPathLocked` (FindFile), `Resolver.checkWellKnownImportPath` (FindFile), `Resolver.checkFS` (FindFile), `Resolver.checkGoModule` (FindFile), `Resolver.checkGlobalCache` (FindFile), `Resolver.LookupGoModule` (FindFile), `Resolver.IsRealWorkspaceLocalFile` (Races, Resolver), `Resolver.findImportPathsByPrefix` (ImportComplete, Races), `FastLookupGoModule` (Resolver), `Resolver.tryReverseLookupLocked` (FindFile), `Resolver.translatePathLocked` (FindFile, Resolver), `FindSuffixMatchedPath` (Resolver)
  - not modelled: NewResolver, Resolver.OpenFileFromDisk, Resolver.SyntheticFiles, Resolver.PreloadWellKnownPaths, Resolver.FindGeneratedFiles
* **pkg/lsp/search.go**
  - modelled: `deepPathSearch` (ImportComplete, PathSearch), `stackEntry.isResolved` (PathSearch), `stackEntry.nextResolved` (PathSearch), `stack.push` (PathSearch), `findNarrowestSemanticToken` (Search), `findPathIntersectingToken` (CursorPath), `visitEnclosingRange` (CursorPath), `DefaultEnclosingRangeVisitor` (CursorPath), `findPathsEnclosingRange` (CursorPath), `findDefinition` (Definition), `findNodeReferences` (FanIn)
* **pkg/lsp/semantic.go**
  - modelled: `Cache.ComputeSemanticTokens` (RWLock), `Cache.ComputeSemanticTokensRange` (RangeTokens), `semanticTokensFull` (RWLock), `semanticTokensRange` (RangeTokens), `computeSemanticTokens` (Search, Semantic), `semanticItems.mktokens` (TokenCells), `semanticItems.mktokens_cel` (CelTokens), `semanticItems.mkcomments` (Inspect, TokenCells), `semanticItems.multilineComment` (TokenCells), `semanticItems.inspect` (CelTokens, Inspect, RangeTokens), `semanticItems.inspectCompoundIdent` (Inspect, TokenCells), `semanticItems.inspectStringLiteralWithEscapeSequences` (StringTokens), `semanticItems.inspectFieldLiteral` (Inspect), `semanticItems.inspectArrayLiteral` (Inspect), `semanticItems.inspectCelExpr` (CelTokens), `semanticItems.Data` (Semantic)
  - not modelled: semanticItems.AST, init, getAst
* **pkg/lsp/server.go**
  - modelled: `ServerOptions.apply` (Workspaces), `WithUnknownCommandHandler` (Workspaces), `Server.cacheInitLocked` (Publish, Races, Workspaces), `Server.cacheDestroyLocked` (Publish, Workspaces), `Server.Initialize` (Races, Workspaces), `Server.CacheForURI` (Races, Workspaces), `Server.CacheForWorkspace` (Races, Workspaces), `Server.Completion` (Races), `Server.Definition` (Definition), `Server.DidOpen` (FileEvents, Races), `Server.DidClose` (FileEvents, Races), `Server.DidChange` (FileEvents, Races), `Server.DidChangeWatchedFiles` (FileEvents, Races), `changeTypeToFileAction` (FileEvents, Races), `Server.DidCreateFiles` (FileEvents, Races), `Server.DidDeleteFiles` (FileEvents, Races), `Server.DidRenameFiles` (FileEvents, Races), `Server.DidSave` (FileEvents, Races), `Server.DiagnosticWorkspace` (Races), `Server.Formatting` (FormatDoc), `Server.Shutdown` (Races), `Server.Exit` (Races, Workspaces), `Server.shutdown` (Races, Workspaces), `Server.DidChangeWorkspaceFolders` (Races, Workspaces), `Server.clientSupportsResolveEdits` (ResolveEdit), `Server.Symbol` (Races, SymbolQuery), `Server.ResolveCodeAction` (ResolveEdit), `Server.DidChangeConfiguration` (Races, Workspaces)
  - not modelled: NewServer, Server.Initialized, Server.Hover, Server.SemanticTokensFull, Server.SemanticTokensFullDelta, Server.SemanticTokensRange, Server.SemanticTokensRefresh, Server.DocumentSymbol, Server.Diagnostic, Server.DocumentColor, Server.DocumentHighlight, Server.DocumentLink, Server.InlayHint, Server.References, Server.CodeAction, changesToDocumentChanges, Server.PrepareRename, Server.Rename, Server.CodeLens, notImplemented, Server.Declaration, Server.SignatureHelp, Server.Subtypes, Server.Supertypes, Server.TypeDefinition, Server.WillCreateFiles, Server.WillDeleteFiles, Server.WillRenameFiles, Server.WillSave, Server.WillSaveWaitUntil, Server.WorkDoneProgressCancel, Server.CodeLensRefresh, Server.CodeLensResolve, Server.ColorPresentation, Server.CompletionResolve, Server.Resolve, Server.ResolveCodeLens, Server.ResolveCompletionItem, Server.ResolveDocumentLink, Server.ResolveWorkspaceSymbol, and 23 more
* **pkg/lsp/settings.go**
  - modelled: `InlayHintsSettings.GetExtensionTypes` (InlayHints), `InlayHintsSettings.GetImports` (InlayHints)
* **pkg/lsp/symbols.go**
  - modelled: `Cache.DocumentSymbolsForFile` (Outline, RWLock), `Cache.documentSymbolsForFileLocked` (Outline, RWLock), `Cache.QueryWorkspaceSymbols` (RWLock, SymbolQuery, Symbols), `toSymbolInformation` (SymbolQuery), `symbolKind` (SymbolQuery), `messageSymbols` (Outline), `enumSymbols` (Outline), `extendSymbols` (Outline), `serviceSymbols` (Outline)
* **pkg/lsp/tokentype_string.go**
  - not modelled: all (_, tokenType.String, _, tokenModifier.String)
* **pkg/lsp/versions.go**
  - modelled: `newDocumentVersionQueue` (Versions), `documentVersionQueue.Wait` (Versions), `documentVersionQueue.Update` (Publish, Versions)
  - not modelled: documentVersionQueue.Get
* **pkg/lsp/wellknown.go**
  - modelled: `IsWellKnownPath` (FindFile)
* **pkg/lsprpc/handler.go**
  - modelled: `AsyncHandler` (Async), `unknownHandler.Execute` (Races), `unknownHandler.doGenerate` (Generate, Races)
  - not modelled: NewStreamServer, streamServer.ServeStream
* **pkg/protols/commands/decode.go**
  - modelled: `BuildDecodeCmd` (DecodeCmd), `decodeWithNoType` (DecodeCmd), `decodeWithType` (Decode, DecodeCmd), `chooseAndDecode` (DecodeCmd), `decodeWithDescriptor` (DecodeCmd), `looksLikeBase64` (Decode), `readMaybeBase64AndTrim` (Decode)
* **pkg/protols/commands/fmt.go**
  - modelled: `BuildFmtCmd` (FmtCmd)
* **pkg/protols/commands/serve.go**
  - not modelled: all (BuildServeCmd)
* **pkg/protols/commands/vet.go**
  - modelled: `BuildVetCmd` (Vet)
* **pkg/protols/root.go**
  - modelled: `Execute` (Vet)
  - not modelled: BuildRootCmd
* **pkg/sources/search.go**
  - modelled: `SearchDirs` (SearchDirs)
* **pkg/util/gofmt_helpers.go**
  - modelled: `OverwriteFile` (FmtCmd, Overwrite), `backupFile` (FmtCmd, Overwrite)
* **pkg/version/version.go**
  - not modelled: all (FriendlyVersion)
* **pkg/x/protogen/strs/strs.go**
  - modelled: `GoSanitized` (GoNames), `GoCamelCase` (GoNames), `isASCIILower` (GoNames), `isASCIIUpper` (GoNames), `isASCIIDigit` (GoNames)
* **pkg/x/symbols/symbols.go**
  - modelled: `symbolStore[T].Store` (Symbols), `symbolStore[T].TooLow` (Symbols), `symbolStore[T].Results` (Symbols), `ParseQuery` (Symbols), `SmartCase` (Symbols), `ComboMatcher.Match` (Symbols)
  - not modelled: NewSymbolStore, MatchExact, NewFuzzyMatcher
* **sdk/codegen/generator.go**
  - modelled: `GeneratedFile.Read` (GrpcGen), `GeneratedFile.WriteToDisk` (GenerateWorkspace, GrpcGen), `GenerateCode` (GenerateCode), `GenerateWorkspace` (GenerateWorkspace)
  - not modelled: GenerateCodeOptions.apply, WithGenerateStrategy, WithFixInvalidGoPackages, DefaultGenerators
* **sdk/codegen/generators/external/generator.go**
  - modelled: `extGenerator.Generate` (ExtPlugin)
  - not modelled: NewGenerator, extGenerator.Name
* **sdk/codegen/generators/golang/generator.go**
  - not modelled: all (r.Name, r.Generate)
* **sdk/codegen/generators/golang/grpc/generator.go**
  - not modelled: all (r.Name, r.Generate)
* **sdk/codegen/generators/golang/grpc/grpc.pb.go**
  - not modelled: all (GeneratorOptions.Reset, GeneratorOptions.String, GeneratorOptions.ProtoMessage, GeneratorOptions.ProtoReflect, GeneratorOptions.Descriptor, GeneratorOptions.GetRequireUnimplemented, GeneratorOptions.GetUseGenericStreams, file_github_com_kralicky_protols_sdk_codegen_generators_golang_grpc_grpc_proto_rawDescGZIP, init, file_github_com_kralicky_protols_sdk_codegen_generators_golang_grpc_grpc_proto_init)
* **sdk/codegen/generators/golang/grpc/upstream_gen.go**
  - modelled: `generator.formatFullMethodSymbol` (GrpcGen), `generator.genFullMethods` (GrpcGen), `generator.generateUnimplementedServerType` (GrpcGen), `generator.generateFile` (GrpcGen), `generator.generateFileContent` (GrpcGen), `generator.genService` (GrpcGen), `generator.clientSignature` (GrpcGen), `generator.clientStreamInterface` (GrpcGen), `generator.genClientMethod` (GrpcGen), `generator.serverSignature` (GrpcGen), `generator.genServiceDesc` (GrpcGen), `generator.serverStreamInterface` (GrpcGen), `generator.genServerMethod` (GrpcGen), `generator.unexport` (GrpcGen)
  - not modelled: generator.generateClientStruct, generator.generateNewClientDefinitions, generator.generateServerFunctions, generator.formatHandlerFuncName, generator.protocVersion, generator.genServiceComments, generator.genLeadingComments
* **sdk/driver/driver.go**
  - modelled: `Driver.Compile` (Driver, Transform, Vet), `Driver.sortAndFilterResults` (Driver, Transform)
  - not modelled: DriverOptions.apply, WithRenameStrategy, NewDriver
* **sdk/plugin/protogen.go**
  - modelled: `New` (GoPackage)
* **sdk/util/transform.go**
  - modelled: `TopologicalSort` (Transform), `topologicalSort` (Transform), `RestoreDescriptorNames` (Transform)

## Theorems and axioms

P = `propext`, C = `Classical.choice`, Q = `Quot.sound`, - = none.

* `Verif.Versions.C01_wait_sound`: P C Q
* `Verif.Versions.C01_wait_sound_plain`: P C Q
* `Verif.Versions.C02_no_lost_wakeup`: P C Q
* `Verif.Versions.C02_blocked_otherwise`: P C Q
* `Verif.Versions.C03_no_double_close`: P C Q
* `Verif.Versions.C03_channels_not_shared`: P C Q
* `Verif.Semantic.C04_tokens_round_trip`: P Q
* `Verif.Documents.C05_empty_rejected`: P
* `Verif.Documents.C05_position`: P C Q
* `Verif.Documents.C05_single_change`: P Q
* `Verif.Documents.C05_descending_changes_partial`: P C Q
* `Verif.Documents.C05_sequential_violated`: P C Q
* `Verif.Documents.C05_full_text_in_batch_violated`: P
* `Verif.Documents.C06_drop_at_most_one_partial`: P C Q
* `Verif.Documents.C06_drop_violated`: -
* `Verif.Documents.C06_crash_violated`: -
* `Verif.Diagnostics.C07_contents`: P Q
* `Verif.Diagnostics.C07_unchanged_sound_partial`: P Q
* `Verif.Diagnostics.C07_change_visible_partial`: P C Q
* `Verif.Diagnostics.C07_clock_violated`: -
* `Verif.Diagnostics.C08_view_current_partial`: P Q
* `Verif.Diagnostics.C08_no_republication`: P Q
* `Verif.Diagnostics.C08_late_subscriber_violated`: P
* `Verif.Diagnostics.C09_warning_promoted`: P C Q
* `Verif.Diagnostics.C09_others_unchanged`: P C Q
* `Verif.Resolver.C10_round_trip_partial`: P Q
* `Verif.Resolver.C10_inverse_partial`: P Q
* `Verif.Resolver.C10_after_create_partial`: P Q
* `Verif.Resolver.C10_after_change_partial`: P Q
* `Verif.Resolver.C10_after_import`: P Q
* `Verif.Resolver.C10_change_keeps`: P Q
* `Verif.Resolver.C10_after_delete`: P Q
* `Verif.Resolver.C10_shared_path_violated`: P C Q
* `Verif.Resolver.C10_stale_path_violated`: P C Q
* `Verif.Resolver.C10_semicolon_violated`: P C Q
* `Verif.Resolver.C11_found`: P C Q
* `Verif.Resolver.C11_candidate_partial`: P Q
* `Verif.Resolver.C11_absolute`: P C Q
* `Verif.Resolver.C11_best_partial`: P C Q
* `Verif.Resolver.C11_best_violated`: P C Q
* `Verif.Resolver.C12_value_partial`: P C Q
* `Verif.Resolver.C12_nothing`: P C Q
* `Verif.Resolver.C12_quote_violated`: P C Q
* `Verif.Resolver.C12_name_only_violated`: P C Q
* `Verif.Search.C13_found_iff`: P Q
* `Verif.Search.C13_first`: P Q
* `Verif.Symbols.C14_best`: P C Q
* `Verif.Symbols.C14_at_most_100`: P C Q
* `Verif.Symbols.C14_order_independent`: P C Q
* `Verif.Symbols.C15_words_and`: P C Q
* `Verif.Symbols.C15_smart_case`: P Q
* `Verif.Completion.C16_items_kept`: P Q
* `Verif.Completion.C16_one_preselected`: P Q
* `Verif.Completion.C16_sort_text_partial`: P C Q
* `Verif.Completion.C16_long_list_violated`: P C Q
* `Verif.Completion.C17_less_iff`: P C Q
* `Verif.Completion.C17_strict_weak_order`: P C Q
* `Verif.Completion.C17_deterministic`: P C Q
* `Verif.Completion.C17_distance_zero`: P Q
* `Verif.Completion.C17_local_first`: P C Q
* `Verif.Completion.C17_distance`: P Q
* `Verif.Completion.C17_ordered`: P C Q
* `Verif.Completion.C18_shortest_partial`: P C Q
* `Verif.Completion.C18_denotes_partial`: P C Q
* `Verif.Completion.C18_misaligned_violated`: P C Q
* `Verif.Completion.C18_wrong_type_violated`: P C Q
* `Verif.Completion.C18_shadowed_violated`: P C Q
* `Verif.Qualify.C19_enclosing_scope`: P C Q
* `Verif.Qualify.C19_option_name`: P C Q
* `Verif.Qualify.C19_literal_name`: P C Q
* `Verif.Qualify.C19_forced`: P
* `Verif.Qualify.C19_denotes_partial`: P C Q
* `Verif.Qualify.C19_shadowed_violated`: P C Q
* `Verif.Refactor.C20_message_partial`: P C Q
* `Verif.Refactor.C20_field_partial`: P C Q
* `Verif.Refactor.C20_exhausted_violated`: P C Q
* `Verif.Refactor.C20_enum_violated`: P C Q
* `Verif.Refactor.C21_only_numbers`: P
* `Verif.Refactor.C21_consecutive_partial`: P C Q
* `Verif.Refactor.C21_plain_consecutive`: P
* `Verif.Refactor.C21_map_violated`: P C Q
* `Verif.Refactor.C21_fields`: P Q
* `Verif.Refactor.C21_offered`: P Q
* `Verif.Refactor.C22_distinct_partial`: P C Q
* `Verif.Refactor.C22_number_violated`: P C Q
* `Verif.Refactor.C22_name_violated`: P C Q
* `Verif.Refactor.C22_empty_violated`: P Q
* `Verif.Refactor.C23_extract`: P C Q
* `Verif.Refactor.C23_numbers`: P C Q
* `Verif.ActionQueue.C24_at_most_once`: P C Q
* `Verif.ActionQueue.C24_same_action`: P C Q
* `Verif.ActionQueue.C24_available`: P C Q
* `Verif.ActionQueue.C24_not_after_expiry_partial`: P C Q
* `Verif.ActionQueue.C24_early_expiry_violated`: P Q
* `Verif.FanIn.C25_exactly_once`: P C Q
* `Verif.FanIn.C25_never_twice`: P C Q
* `Verif.FanIn.C25_ends_last`: P C Q
* `Verif.FanIn.C25_no_panic`: P C Q
* `Verif.FanIn.C25_terminates`: P C Q
* `Verif.Async.C26_order_partial`: P C Q
* `Verif.Async.C26_fifo`: P C Q
* `Verif.Async.C26_not_twice`: P C Q
* `Verif.Async.C26_not_skipped`: P C Q
* `Verif.Async.C26_long_lived_no_hold_up`: P C Q
* `Verif.Async.C26_no_panic`: P C Q
* `Verif.Async.C26_overtaking_violated`: P Q
* `Verif.Workspaces.C27_leak_iff`: P C Q
* `Verif.Workspaces.C27_no_refresh_partial`: P C Q
* `Verif.Workspaces.C27_drivers_partial`: P C Q
* `Verif.Workspaces.C27_refresh_violated`: P C Q
* `Verif.RWLock.C28_sections_partial`: P C Q
* `Verif.RWLock.C28_read_only_partial`: P C Q
* `Verif.RWLock.C28_exclusion`: P C Q
* `Verif.RWLock.C28_nested_violated`: P
* `Verif.RWLock.C28_balanced`: P
* `Verif.RWLock.C28_server_reads_partial`: P C Q
* `Verif.RWLock.C28_server_updates_partial`: P C Q
* `Verif.RWLock.C28_released`: P C Q
* `Verif.RWLock.C28_unlock_fatal`: P Q
* `Verif.CodeActions.C29_others`: P C Q
* `Verif.CodeActions.C29_sound`: P C Q
* `Verif.CodeActions.C29_texts`: P C Q
* `Verif.CodeActions.C29_exactly_once_partial`: P C Q
* `Verif.CodeActions.C29_cross_document_violated`: P C Q
* `Verif.CodeActions.C29_deletion_violated`: P C Q
* `Verif.CodeActions.C30_offered_partial`: P C Q
* `Verif.CodeActions.C30_nothing_else`: P C Q
* `Verif.CodeActions.C30_error_violated`: P C Q
* `Verif.CodeActions.C30_actions`: P C Q
* `Verif.Overwrite.C31_crash_safe`: P Q
* `Verif.Overwrite.C31_success_partial`: P Q
* `Verif.Overwrite.C31_failure`: P Q
* `Verif.Overwrite.C31_no_failure_succeeds`: P
* `Verif.Overwrite.C31_leftover_violated`: -
* `Verif.Quote.C32_bytes_partial`: P C Q
* `Verif.Quote.C32_string_partial`: P C Q
* `Verif.Quote.C32_quote_violated`: P Q
* `Verif.Quote.C32_printable`: P Q
* `Verif.PrintWriter.C33_text`: P Q
* `Verif.PrintWriter.C33_no_blanks`: P Q
* `Verif.PrintWriter.C33_length`: P Q
* `Verif.PrintWriter.C33_newline`: P
* `Verif.PrintComment.C34_wellformed`: P Q
* `Verif.PrintComment.C34_flag`: P Q
* `Verif.PrintComment.C34_no_crash_partial`: P Q
* `Verif.PrintComment.C34_crash_violated`: P Q
* `Verif.Ranges.C35_message_reserved`: P Q
* `Verif.Ranges.C35_extensions`: P Q
* `Verif.Ranges.C35_enum_exact`: P Q
* `Verif.Ranges.C35_enum_partial`: P Q
* `Verif.Ranges.C35_enum_violated`: P Q
* `Verif.SourceInfo.C36_key_inj`: P Q
* `Verif.SourceInfo.C36_getAll`: P Q
* `Verif.SourceInfo.C36_first_wins`: P Q
* `Verif.SourceInfo.C36_put_result`: P
* `Verif.PrefixList.C37_prefixes`: P Q
* `Verif.PrefixList.C37_root`: -
* `Verif.PrefixList.C38_json_name`: P Q
* `Verif.PrefixList.C38_no_underscore`: P Q
* `Verif.PrefixList.C38_identity`: P
* `Verif.PrefixList.C38_roundtrip`: P
* `Verif.GoNames.C39_normal`: P Q
* `Verif.GoNames.C39_no_dot`: P Q
* `Verif.GoNames.C39_start`: P C Q
* `Verif.GoNames.C39_idempotent`: P C Q
* `Verif.GoNames.C39_letters`: P Q
* `Verif.GoNames.C39_sanitized`: P Q
* `Verif.SearchDirs.C40_complete`: P C Q
* `Verif.SearchDirs.C40_sound`: P C Q
* `Verif.SearchDirs.C40_exact_partial`: P C Q
* `Verif.SearchDirs.C40_once`: P C Q
* `Verif.SearchDirs.C40_marker_violated`: P C Q
* `Verif.SearchDirs.C40_twice_violated`: P C Q
* `Verif.FileHeader.C41_sorted`: P C Q
* `Verif.FileHeader.C41_sound`: P Q
* `Verif.FileHeader.C41_order`: -
* `Verif.FileHeader.C41_paths`: P Q
* `Verif.FileHeader.C41_commented`: P Q
* `Verif.FileHeader.C41_kept_partial`: P Q
* `Verif.FileHeader.C41_once`: P C Q
* `Verif.FileHeader.C41_comments_first`: P C Q
* `Verif.FileHeader.C41_no_duplicates`: P C Q
* `Verif.FileHeader.C41_violated`: -
* `Verif.FileHeader.C42_order`: P Q
* `Verif.FileHeader.C42_stable_partial`: P
* `Verif.FileHeader.C42_stable_violated`: P C Q
* `Verif.Requote.C43_value`: P Q
* `Verif.Requote.C43_partial`: P Q
* `Verif.Requote.C43_idempotent`: P
* `Verif.Requote.C43_violated`: P Q
* `Verif.InlineComment.C44_block`: P Q
* `Verif.InlineComment.C44_line`: P C Q
* `Verif.InlineComment.C44_line_partial`: P C Q
* `Verif.InlineComment.C44_violated`: P C Q
* `Verif.InlineComment.C44_all`: P Q
* `Verif.CompactOptions.C45_partial`: P C Q
* `Verif.CompactOptions.C45_violated`: P C Q
* `Verif.CompactOptions.C45_layout`: P Q
* `Verif.FormatWriter.C46_content`: P C Q
* `Verif.FormatWriter.C46_write`: P
* `Verif.FormatWriter.C46_dangling_partial`: P C Q
* `Verif.FormatWriter.C46_dangling_violated`: P C Q
* `Verif.FormatWriter.C46_levels`: P Q
* `Verif.FormatWriter.C46_indent_partial`: P Q
* `Verif.FormatWriter.C46_indent_violated`: P
* `Verif.FormatWriter.C46_margin`: P Q
* `Verif.FormatWriter.C46_last`: P Q
* `Verif.FormatWriter.C46_tokens`: P C Q
* `Verif.ColumnFormat.C47_small`: P Q
* `Verif.ColumnFormat.C47_content`: P
* `Verif.ColumnFormat.C47_aligned`: P Q
* `Verif.ColumnFormat.C47_narrow`: P Q
* `Verif.ColumnFormat.C47_size`: P C Q
* `Verif.ColumnFormat.C47_short`: P C Q
* `Verif.ColumnFormat.C47_blocks`: P C Q
* `Verif.ColumnFormat.C47_break_long`: P C Q
* `Verif.ColumnFormat.C47_absent`: P Q
* `Verif.ColumnFormat.C48_groups`: P C Q
* `Verif.ColumnFormat.C48_kinds`: P C Q
* `Verif.ColumnFormat.C48_incomplete`: P C Q
* `Verif.ColumnFormat.C48_index`: P C Q
* `Verif.ColumnFormat.C48_blocks`: P
* `Verif.ColumnFormat.C48_written`: P Q
* `Verif.ColumnFormat.C48_close`: P C Q
* `Verif.BlockComment.C49_written`: P Q
* `Verif.BlockComment.C49_lines`: P Q
* `Verif.BlockComment.C49_block`: P Q
* `Verif.BlockComment.C49_idempotent_partial`: P C Q
* `Verif.BlockComment.C49_idempotent_violated`: P C Q
* `Verif.BlockComment.C49_prefixed`: P Q
* `Verif.BlockComment.C49_relative`: P Q
* `Verif.Transform.C50_total`: P C Q
* `Verif.Transform.C50_once`: P C Q
* `Verif.Transform.C50_order`: P C Q
* `Verif.Transform.C50_local`: P C Q
* `Verif.Transform.C51_partial`: P Q
* `Verif.Transform.C51_idempotent`: P C Q
* `Verif.Transform.C51_violated`: P
* `Verif.Transform.C51_idempotent_violated`: -
* `Verif.GoPackage.C52_value_partial`: P Q
* `Verif.GoPackage.C52_order_partial`: P C Q
* `Verif.GoPackage.C52_violated`: P C Q
* `Verif.GoPackage.C52_share_violated`: P
* `Verif.GoPackage.C52_conflict`: P Q
* `Verif.Decode.C53_base64`: P C Q
* `Verif.Decode.C53_partial`: P C Q
* `Verif.Decode.C53_violated`: P C Q
* `Verif.Decode.C54_select`: P Q
* `Verif.Decode.C54_order`: P C Q
* `Verif.Workspaces.C55_routed_partial`: P C Q
* `Verif.Workspaces.C55_outside`: P C Q
* `Verif.Workspaces.C55_fragment`: P C Q
* `Verif.Workspaces.C55_nested_violated`: P C Q
* `Verif.Workspaces.C55_sibling_violated`: P C Q
* `Verif.Workspaces.C55_vendor_violated`: P C Q
* `Verif.Workspaces.C55_refused`: P C Q
* `Verif.Workspaces.C56_present`: P C Q
* `Verif.Workspaces.C56_cancel_once`: P C Q
* `Verif.Workspaces.C56_at_least_one`: P C Q
* `Verif.Workspaces.C56_exactly_one_partial`: P C Q
* `Verif.Workspaces.C56_orphan_forever`: P C Q
* `Verif.Workspaces.C56_readd_violated`: P Q
* `Verif.Workspaces.C56_replaced_violated`: P Q
* `Verif.Links.C57_partial`: P Q
* `Verif.Links.C57_answers`: P Q
* `Verif.Links.C57_violated`: P
* `Verif.GenFiles.C58_source`: P Q
* `Verif.GenFiles.C58_complete`: P Q
* `Verif.GenFiles.C58_partial`: P Q
* `Verif.GenFiles.C58_violated`: P Q
* `Verif.GenFiles.C58_versions_violated`: P Q
* `Verif.Resolver.C59_local_partial`: P Q
* `Verif.Resolver.C59_exact_partial`: P Q
* `Verif.Resolver.C59_sibling_violated`: P C Q
* `Verif.Completion.C60_under_cursor_partial`: P C Q
* `Verif.Completion.C60_outside_violated`: P C Q
* `Verif.References.C61_type`: P
* `Verif.References.C61_package_all`: P C Q
* `Verif.References.C61_package`: P C Q
* `Verif.CompactOptions.C62_label`: P C Q
* `Verif.CompactOptions.C62_partial`: P C Q
* `Verif.CompactOptions.C62_violated`: P C Q
* `Verif.Compile.C63_results`: P Q
* `Verif.Compile.C63_records`: P Q
* `Verif.Compile.C63_pragmas`: P Q
* `Verif.Compile.C63_lookup`: P Q
* `Verif.Refactor.C64_hanging`: P
* `Verif.Refactor.C64_first`: P
* `Verif.Refactor.C64_undo`: P Q
* `Verif.StringTokens.C65_contiguous`: P Q
* `Verif.StringTokens.C65_escapes`: P Q
* `Verif.StringTokens.C65_reach`: P Q
* `Verif.StringTokens.C65_partial`: P Q
* `Verif.StringTokens.C65_violated`: P Q
* `Verif.Refactor.C66_singular_partial`: P Q
* `Verif.Refactor.C66_repeated_violated`: P C Q
* `Verif.FileEvents.C67_recompiled`: P Q
* `Verif.FileEvents.C67_others_kept`: P Q
* `Verif.FileEvents.C67_forgotten`: P Q
* `Verif.FileEvents.C67_created`: P Q
* `Verif.FileEvents.C67_batch_partial`: P C Q
* `Verif.FileEvents.C67_delete_violated`: P C Q
* `Verif.FileEvents.C67_rename_violated`: P C Q
* `Verif.CodeActions.C68_error`: P C Q
* `Verif.CodeActions.C68_actions`: P C Q
* `Verif.CodeActions.C68_no_crash`: P C Q
* `Verif.CodeActions.C68_organize`: P C Q
* `Verif.PrintComment.C69_nothing`: P Q
* `Verif.PrintComment.C69_line_style`: P Q
* `Verif.PrintComment.C69_block_one`: P Q
* `Verif.PrintComment.C69_block_many`: P Q
* `Verif.Formatter.C70_tokens_partial`: P C Q
* `Verif.Formatter.C70_rewrites_partial`: P C Q
* `Verif.Formatter.C70_significant_partial`: P C Q
* `Verif.Formatter.C70_dot_violated`: P C Q
* `Verif.Formatter.C70_missing_violated`: P
* `Verif.Formatter.C70_errors_violated`: P
* `Verif.Diagnostics.C71_cleared`: P C Q
* `Verif.Diagnostics.C71_others`: P C Q
* `Verif.Diagnostics.C71_partial`: P C Q
* `Verif.Diagnostics.C71_violated`: P
* `Verif.PathSearch.C72_declaration_partial`: P Q
* `Verif.PathSearch.C72_denotes_partial`: P Q
* `Verif.PathSearch.C72_scalar_partial`: P Q
* `Verif.PathSearch.C72_import_partial`: P Q
* `Verif.PathSearch.C72_map_violated`: P Q
* `Verif.PathSearch.C72_map_enum_violated`: P Q
* `Verif.PathSearch.C72_qualified_enum_violated`: P Q
* `Verif.PathSearch.C72_list_violated`: P Q
* `Verif.PathSearch.C72_group_violated`: P Q
* `Verif.PathSearch.C72_extendee_violated`: P Q
* `Verif.PathSearch.C72_literal_extension_violated`: P Q
* `Verif.Refactor.C73_distinct_partial`: P C Q
* `Verif.Refactor.C73_exhausted_violated`: P C Q
* `Verif.Rename.C74_succeeds_partial`: P C Q
* `Verif.Rename.C74_nothing`: P Q
* `Verif.Rename.C74_edits_partial`: P Q
* `Verif.Rename.C74_prepare`: P Q
* `Verif.Rename.C74_identifier_partial`: P C Q
* `Verif.Rename.C74_qualified_violated`: P
* `Verif.Rename.C74_dotted_violated`: P
* `Verif.CursorPath.C75_cursor_partial`: P C Q
* `Verif.CursorPath.C75_selection`: P C Q
* `Verif.CursorPath.C75_selection_default`: P C Q
* `Verif.CursorPath.C75_selection_fields`: P C Q
* `Verif.CursorPath.C75_rpc_violated`: P
* `Verif.PrintOrder.C76_located_partial`: P C Q
* `Verif.PrintOrder.C76_canonical`: P C Q
* `Verif.PrintOrder.C76_bare_partial`: P C Q
* `Verif.PrintOrder.C76_source_order`: P C Q
* `Verif.PrintOrder.C76_bare_violated`: P
* `Verif.PrintOrder.C76_mixed_violated`: P
* `Verif.Printer.C77_declarations_partial`: P C Q
* `Verif.Printer.C77_extension_violated`: P C Q
* `Verif.Printer.C77_infinity_violated`: P C Q
* `Verif.Printer.C77_editions_violated`: P C Q
* `Verif.Simplify.C78_simplify_partial`: P C Q
* `Verif.Simplify.C78_documented_violated`: P Q
* `Verif.Simplify.C78_before_violated`: P Q
* `Verif.Simplify.C78_lost_violated`: P Q
* `Verif.Simplify.C78_order_violated`: P Q
* `Verif.Simplify.C78_enum_violated`: P Q
* `Verif.Simplify.C78_nested_violated`: P Q
* `Verif.Simplify.C78_prefix_violated`: P Q
* `Verif.Simplify.C78_comma_violated`: P Q
* `Verif.FindFile.C79_located_partial`: P Q
* `Verif.FindFile.C79_again_partial`: P Q
* `Verif.FindFile.C79_well_known`: P Q
* `Verif.FindFile.C79_document`: P
* `Verif.FindFile.C79_module`: P Q
* `Verif.FindFile.C79_generated`: P Q
* `Verif.FindFile.C79_context`: P
* `Verif.FindFile.C79_relative_partial`: P Q
* `Verif.FindFile.C79_relative_module_partial`: P Q
* `Verif.FindFile.C79_incomplete`: P Q
* `Verif.FindFile.C79_open_violated`: P
* `Verif.FindFile.C79_large_violated`: P
* `Verif.FindFile.C79_google_violated`: P
* `Verif.FindFile.C79_unregistered_violated`: P
* `Verif.FindFile.C79_relative_violated`: P
* `Verif.FindFile.C79_sibling_violated`: P
* `Verif.FindFile.C79_reverse_violated`: P
* `Verif.FindFile.C79_gogo_violated`: P
* `Verif.FindFile.C79_join_file`: P Q
* `Verif.FindFile.C79_join_path`: P Q
* `Verif.FindFile.C79_local`: P C Q
* `Verif.FindFile.C79_relative_dots_partial`: P Q
* `Verif.FindFile.C79_duplicated_partial`: P Q
* `Verif.FindFile.C79_above_partial`: P Q
* `Verif.FindFile.C79_outside`: P C Q
* `Verif.FindFile.C79_registered`: P
* `Verif.FindFile.C79_moved`: P
* `Verif.Printer.C80_comments_partial`: P C Q
* `Verif.Printer.C80_header_partial`: P C Q
* `Verif.Printer.C80_reserved_violated`: P C Q
* `Verif.Printer.C80_extensions_violated`: P C Q
* `Verif.Outline.C81_only`: P
* `Verif.Outline.C81_all_partial`: P
* `Verif.Outline.C81_nested`: P C Q
* `Verif.Outline.C81_range`: P Q
* `Verif.Outline.C81_missing`: P
* `Verif.Outline.C81_oneof_violated`: P Q
* `Verif.Outline.C81_group_violated`: P Q
* `Verif.TokenCells.C82_leading`: P C Q
* `Verif.TokenCells.C82_trailing`: P C Q
* `Verif.TokenCells.C82_order`: P C Q
* `Verif.TokenCells.C82_places`: P
* `Verif.TokenCells.C82_pragma_partial`: P C Q
* `Verif.TokenCells.C82_pragma_violated`: P C Q
* `Verif.TokenCells.C82_no_key`: P C Q
* `Verif.TokenCells.C82_node`: P Q
* `Verif.TokenCells.C82_none`: P
* `Verif.TokenCells.C82_all_partial`: P C Q
* `Verif.TokenCells.C82_multiline_violated`: -
* `Verif.TokenCells.C82_compound_whole`: P Q
* `Verif.TokenCells.C82_compound_parts`: P Q
* `Verif.TokenCells.C82_library`: P C Q
* `Verif.TokenCells.C82_no_library`: P Q
* `Verif.FindTypes.C83_unqualified`: P C Q
* `Verif.FindTypes.C83_qualified`: P C Q
* `Verif.FindTypes.C83_leading_dot_partial`: P C Q
* `Verif.FindTypes.C83_sound`: P Q
* `Verif.FindTypes.C83_views`: P Q
* `Verif.FindTypes.C83_limit`: P Q
* `Verif.FindTypes.C83_returns`: P C Q
* `Verif.FindTypes.C83_types`: P C Q
* `Verif.FindTypes.C83_qualified_types`: P C Q
* `Verif.FindTypes.C83_extendable`: P C Q
* `Verif.FindTypes.C83_no_package_violated`: P Q
* `Verif.FindTypes.C83_leading_dot_violated`: P Q
* `Verif.QuickFix.C84_remove_import_partial`: P C Q
* `Verif.QuickFix.C84_remove_import_violated`: P
* `Verif.QuickFix.C84_unused_import`: P
* `Verif.QuickFix.C84_metadata`: -
* `Verif.QuickFix.C84_new_message`: P C Q
* `Verif.QuickFix.C84_no_new_message`: P
* `Verif.QuickFix.C84_add_import`: P C Q
* `Verif.QuickFix.C84_imports`: P C Q
* `Verif.QuickFix.C84_imports_qualified`: P C Q
* `Verif.QuickFix.C84_fixes_partial`: P C Q
* `Verif.QuickFix.C84_nested_violated`: P Q
* `Verif.QuickFix.C84_leading_dot_violated`: P Q
* `Verif.Generate.C85_confined`: P Q
* `Verif.Generate.C85_targets`: P Q
* `Verif.Generate.C85_failed`: P Q
* `Verif.Generate.C85_recoverable_partial`: P Q
* `Verif.Generate.C85_next_to_source_partial`: P Q
* `Verif.Generate.C85_refused`: P Q
* `Verif.Generate.C85_succeeds`: P Q
* `Verif.Generate.C85_shared_package_violated`: P
* `Verif.Generate.C85_dot_violated`: P
* `Verif.Generate.C85_stat_violated`: P
* `Verif.GenerateCode.C86_selected_partial`: P C Q
* `Verif.GenerateCode.C86_all`: P C Q
* `Verif.GenerateCode.C86_place_partial`: P C Q
* `Verif.GenerateCode.C86_elsewhere`: P C Q
* `Verif.GenerateCode.C86_contents`: P C Q
* `Verif.GenerateCode.C86_arguments_partial`: P C Q
* `Verif.GenerateCode.C86_fix_partial`: P
* `Verif.GenerateCode.C86_sibling_violated`: P C Q
* `Verif.GenerateCode.C86_slash_violated`: P C Q
* `Verif.GenerateCode.C86_go_package_violated`: P C Q
* `Verif.GenerateCode.C86_arguments_violated`: P C Q
* `Verif.GenerateCode.C86_fix_violated`: P
* `Verif.ExtPlugin.C87_answer`: P
* `Verif.ExtPlugin.C87_terminates`: P Q
* `Verif.ExtPlugin.C87_deadlock`: P C Q
* `Verif.ExtPlugin.C87_result_partial`: P C Q
* `Verif.ExtPlugin.C87_files_partial`: P
* `Verif.ExtPlugin.C87_deadlock_violated`: P C Q
* `Verif.ExtPlugin.C87_exit_violated`: -
* `Verif.ExtPlugin.C87_chunks_violated`: -
* `Verif.ExtPlugin.C87_insertion_violated`: -
* `Verif.Driver.C88_error`: P Q
* `Verif.Driver.C88_messages_partial`: P C Q
* `Verif.Driver.C88_descriptors_partial`: P C Q
* `Verif.Driver.C88_local_partial`: P Q
* `Verif.Driver.C88_multiline_violated`: P Q
* `Verif.Driver.C88_last_line_violated`: P Q
* `Verif.Driver.C88_eof_violated`: P Q
* `Verif.Driver.C88_beyond_violated`: P Q
* `Verif.Driver.C88_editions_violated`: P Q
* `Verif.Driver.C88_cwd_violated`: P Q
* `Verif.FormatDoc.C89_current_partial`: P C Q
* `Verif.FormatDoc.C89_formats_partial`: P C Q
* `Verif.FormatDoc.C89_language_violated`: P C Q
* `Verif.FormatDoc.C89_closed_violated`: P C Q
* `Verif.Inspect.C90_tokens_partial`: P C Q
* `Verif.Inspect.C90_once_partial`: P C Q
* `Verif.Inspect.C90_comments_partial`: P C Q
* `Verif.Inspect.C90_comments_once_partial`: P C Q
* `Verif.Inspect.C90_any_violated`: P Q
* `Verif.Inspect.C90_inf_violated`: P Q
* `Verif.Inspect.C90_bool_array_violated`: P Q
* `Verif.Inspect.C90_dot_violated`: P Q
* `Verif.Inspect.C90_extension_violated`: P Q
* `Verif.Inspect.C90_eof_violated`: P
* `Verif.CelTokens.C91_tokens_partial`: P Q
* `Verif.CelTokens.C91_other`: P Q
* `Verif.CelTokens.C91_no_panic_partial`: P Q
* `Verif.CelTokens.C91_value_violated`: P Q
* `Verif.CelTokens.C91_newline_violated`: P Q
* `Verif.CelTokens.C91_unnamed_violated`: P
* `Verif.CelTokens.C91_escape_violated`: P
* `Verif.CelTokens.C91_trim_violated`: P Q
* `Verif.CelTokens.C91_number_violated`: P
* `Verif.ImportComplete.C92_import_partial`: P C Q
* `Verif.ImportComplete.C92_new_partial`: P C Q
* `Verif.ImportComplete.C92_label`: P Q
* `Verif.ImportComplete.C92_syntax_partial`: P C Q
* `Verif.ImportComplete.C92_again_violated`: P C Q
* `Verif.ImportComplete.C92_self_violated`: P C Q
* `Verif.ImportComplete.C92_single_violated`: P
* `Verif.ImportComplete.C92_line_violated`: P C Q
* `Verif.ImportComplete.C92_quotes_violated`: P C Q
* `Verif.OptionComplete.C93_new`: P C Q
* `Verif.OptionComplete.C93_ext_partial`: P C Q
* `Verif.OptionComplete.C93_field_partial`: P C Q
* `Verif.OptionComplete.C93_sub_partial`: P C Q
* `Verif.OptionComplete.C93_sub_ext_partial`: P C Q
* `Verif.OptionComplete.C93_nothing`: P Q
* `Verif.OptionComplete.C93_literal_partial`: P C Q
* `Verif.OptionComplete.C93_scope_partial`: P
* `Verif.OptionComplete.C93_bare_violated`: P C Q
* `Verif.OptionComplete.C93_set_violated`: P C Q
* `Verif.OptionComplete.C93_compact_violated`: P C Q
* `Verif.OptionComplete.C93_unclosed_violated`: P C Q
* `Verif.OptionComplete.C93_brackets_violated`: P C Q
* `Verif.OptionComplete.C93_spaces_violated`: P
* `Verif.OptionComplete.C93_scope_violated`: P
* `Verif.GrpcGen.C94_call`: P Q
* `Verif.GrpcGen.C94_implements`: P
* `Verif.GrpcGen.C94_embed`: P Q
* `Verif.GrpcGen.C94_opt_out`: P
* `Verif.GrpcGen.C94_signature`: P
* `Verif.GrpcGen.C94_modes`: P
* `Verif.GrpcGen.C94_names_partial`: P Q
* `Verif.GrpcGen.C94_files`: P Q
* `Verif.GrpcGen.C94_declared`: P C Q
* `Verif.GrpcGen.C94_embed_names`: P C Q
* `Verif.GrpcGen.C94_underscore_violated`: P Q
* `Verif.GrpcGen.C94_prefix_violated`: P Q
* `Verif.GrpcGen.C94_methods_violated`: P Q
* `Verif.GrpcGen.C94_stream_violated`: P Q
* `Verif.Hover.C95_print`: P Q
* `Verif.Hover.C95_declaration_partial`: P C Q
* `Verif.Hover.C95_around`: P C Q
* `Verif.Hover.C95_kinds_violated`: P Q
* `Verif.Hover.C95_package`: P C Q
* `Verif.Hover.C95_package_none`: P Q
* `Verif.Hover.C95_block_partial`: P Q
* `Verif.Hover.C95_package_text`: P C Q
* `Verif.Hover.C95_failures`: P Q
* `Verif.Hover.C95_map_violated`: P
* `Verif.Hover.C95_rpc_violated`: P
* `Verif.Hover.C95_import_violated`: P
* `Verif.Hover.C95_stale_violated`: P
* `Verif.Hover.C95_block_violated`: P Q
* `Verif.Publish.C96_order`: P Q
* `Verif.Publish.C96_current_partial`: P Q
* `Verif.Publish.C96_version`: P Q
* `Verif.Publish.C96_progress`: P Q
* `Verif.Publish.C96_end_partial`: P Q
* `Verif.Publish.C96_stuck_iff`: P Q
* `Verif.Publish.C96_start`: P Q
* `Verif.Publish.C96_start_violated`: P Q
* `Verif.Publish.C96_end_violated`: P Q
* `Verif.Publish.C96_failed_violated`: P Q
* `Verif.Publish.C96_removed_violated`: P Q
* `Verif.ValueComplete.C97_fields_partial`: P C Q
* `Verif.ValueComplete.C97_colon`: P Q
* `Verif.ValueComplete.C97_docs`: P Q
* `Verif.ValueComplete.C97_detail_partial`: P C Q
* `Verif.ValueComplete.C97_detail_extension`: P C Q
* `Verif.ValueComplete.C97_values`: P C Q
* `Verif.ValueComplete.C97_message`: P C Q
* `Verif.ValueComplete.C97_no_value`: P Q
* `Verif.ValueComplete.C97_values_marks`: P Q
* `Verif.ValueComplete.C97_top_marks`: P C Q
* `Verif.ValueComplete.C97_top_partial`: P C Q
* `Verif.ValueComplete.C97_empty`: P C Q
* `Verif.ValueComplete.C97_body_partial`: P C Q
* `Verif.ValueComplete.C97_decl`: P C Q
* `Verif.ValueComplete.C97_rpc_partial`: P C Q
* `Verif.ValueComplete.C97_group_violated`: P C Q
* `Verif.ValueComplete.C97_oneof_violated`: P
* `Verif.ValueComplete.C97_extension_violated`: P
* `Verif.ValueComplete.C97_extension_literal_violated`: P Q
* `Verif.ValueComplete.C97_detail_violated`: P C Q
* `Verif.ValueComplete.C97_list_violated`: P C Q
* `Verif.ValueComplete.C97_edition_violated`: P C Q
* `Verif.ValueComplete.C97_body_violated`: P C Q
* `Verif.ValueComplete.C97_unlinked_violated`: P C Q
* `Verif.ValueComplete.C97_stream_violated`: P C Q
* `Verif.Definition.C98_declaration`: P Q
* `Verif.Definition.C98_cursor_partial`: P Q
* `Verif.Definition.C98_import`: P Q
* `Verif.Definition.C98_package`: P C Q
* `Verif.Definition.C98_nothing`: P Q
* `Verif.Definition.C98_sound`: P Q
* `Verif.Definition.C98_no_panic`: P Q
* `Verif.Definition.C98_race_violated`: P Q
* `Verif.Definition.C98_unlinked_violated`: P
* `Verif.InlayHints.C99_import`: P C Q
* `Verif.InlayHints.C99_shown`: P C Q
* `Verif.InlayHints.C99_accepted_partial`: P C Q
* `Verif.InlayHints.C99_extension_partial`: P C Q
* `Verif.InlayHints.C99_settings`: P C Q
* `Verif.InlayHints.C99_error`: P C Q
* `Verif.InlayHints.C99_links`: P C Q
* `Verif.InlayHints.C99_unknown`: P C Q
* `Verif.InlayHints.C99_blank_violated`: P C Q
* `Verif.InlayHints.C99_outside_violated`: P C Q
* `Verif.InlayHints.C99_quote_violated`: P C Q
* `Verif.InlayHints.C99_parts_violated`: P C Q
* `Verif.InlayHints.C99_line_violated`: P C Q
* `Verif.InlayHints.C99_range_violated`: P C Q
* `Verif.InlayHints.C99_descriptor_violated`: P C Q
* `Verif.OptionValues.C100_options_partial`: P C Q
* `Verif.OptionValues.C100_file_partial`: P C Q
* `Verif.OptionValues.C100_float`: P C Q
* `Verif.OptionValues.C100_nearest`: P C Q
* `Verif.OptionValues.C100_enum_violated`: P C Q
* `Verif.OptionValues.C100_float_violated`: P C Q
* `Verif.OptionValues.C100_unknown_violated`: P Q
* `Verif.Formatter.C101_comments_partial`: P C Q
* `Verif.Formatter.C101_option_violated`: P C Q
* `Verif.Formatter.C101_rpc_violated`: P C Q
* `Verif.Formatter.C101_semicolon_violated`: P C Q
* `Verif.Formatter.C101_empty_violated`: P C Q
* `Verif.Formatter.C101_twice_violated`: P C Q
* `Verif.Formatter.C101_dot_violated`: P C Q
* `Verif.Formatter.C101_brackets_violated`: P C Q
* `Verif.FmtCmd.C102_files_partial`: P C Q
* `Verif.FmtCmd.C102_safe_partial`: P Q
* `Verif.FmtCmd.C102_progress`: P C Q
* `Verif.FmtCmd.C102_ends`: P C Q
* `Verif.FmtCmd.C102_program_partial`: P C Q
* `Verif.FmtCmd.C102_twice_violated`: P Q
* `Verif.FmtCmd.C102_stdout_violated`: P Q
* `Verif.FmtCmd.C102_panic_violated`: P Q
* `Verif.Races.C103_guarded_partial`: P C Q
* `Verif.Races.C103_commands`: P C Q
* `Verif.Races.C103_unlocks`: P Q
* `Verif.Races.C103_symbol_violated`: P Q
* `Verif.Races.C103_shutdown_violated`: P Q
* `Verif.Races.C103_generate_violated`: P Q
* `Verif.Races.C103_completion_violated`: P Q
* `Verif.SymbolQuery.C104_only`: P C Q
* `Verif.SymbolQuery.C104_found`: P C Q
* `Verif.SymbolQuery.C104_order`: P C Q
* `Verif.SymbolQuery.C104_nil`: P C Q
* `Verif.SymbolQuery.C104_no_panic`: P C Q
* `Verif.SymbolQuery.C104_limit`: P Q
* `Verif.SymbolQuery.C104_progress`: P C Q
* `Verif.SymbolQuery.C104_ends`: P C Q
* `Verif.SymbolQuery.C104_caches`: P C Q
* `Verif.DecodeCmd.C105_typed`: P C Q
* `Verif.DecodeCmd.C105_choice`: P C Q
* `Verif.DecodeCmd.C105_full_name`: P C Q
* `Verif.DecodeCmd.C105_wire`: P C Q
* `Verif.DecodeCmd.C105_missing_violated`: P C Q
* `Verif.DecodeCmd.C105_nested_violated`: P C Q
* `Verif.DecodeCmd.C105_format_violated`: P C Q
* `Verif.TypeComplete.C106_offered`: P C Q
* `Verif.TypeComplete.C106_text`: P C Q
* `Verif.TypeComplete.C106_visible`: P C Q
* `Verif.TypeComplete.C106_import_once`: P C Q
* `Verif.TypeComplete.C106_detail`: P C Q
* `Verif.TypeComplete.C106_refers_partial`: P C Q
* `Verif.TypeComplete.C106_hidden_violated`: P Q
* `Verif.TypeComplete.C106_package_violated`: P Q
* `Verif.TypeComplete.C106_acyclic_partial`: P C Q
* `Verif.TypeComplete.C106_cycle_violated`: P Q
* `Verif.AllDiags.C107_all_partial`: P C Q
* `Verif.AllDiags.C107_published_partial`: P C Q
* `Verif.AllDiags.C107_no_panic`: P C Q
* `Verif.AllDiags.C107_pure`: P C Q
* `Verif.AllDiags.C107_fails_iff`: P C Q
* `Verif.AllDiags.C107_removed_violated`: P C Q
* `Verif.AllDiags.C107_alias_violated`: P C Q
* `Verif.Vet.C108_status_partial`: P C Q
* `Verif.Vet.C108_exit_zero`: P C Q
* `Verif.Vet.C108_exit_partial`: P C Q
* `Verif.Vet.C108_fails`: P C Q
* `Verif.Vet.C108_messages_partial`: P C Q
* `Verif.Vet.C108_multiline_violated`: P C Q
* `Verif.Vet.C108_eof_violated`: P C Q
* `Verif.OptionLocations.C109_found`: P C Q
* `Verif.OptionLocations.C109_every_option`: P C Q
* `Verif.OptionLocations.C109_own`: P C Q
* `Verif.OptionLocations.C109_others`: P C Q
* `Verif.PrintPath.C110_path`: P
* `Verif.PrintPath.C110_at_unique`: P
* `Verif.PrintPath.C110_distinct`: P
* `Verif.PrintPath.C110_own_partial`: P C Q
* `Verif.PrintPath.C110_oneof_nowhere_violated`: P Q
* `Verif.PrintPath.C110_elements_partial`: P Q
* `Verif.PrintPath.C110_any_order_partial`: P Q
* `Verif.PrintPath.C110_oneof_violated`: P
* `Verif.PrintPath.C110_alias_violated`: P
* `Verif.Registry.C111_by_name`: P C Q
* `Verif.Registry.C111_by_number`: P C Q
* `Verif.Registry.C111_extensions_only`: P C Q
* `Verif.ResolveEdit.C112_answer`: P C Q
* `Verif.ResolveEdit.C112_applied_partial`: P C Q
* `Verif.ResolveEdit.C112_current`: P C Q
* `Verif.ResolveEdit.C112_refused_partial`: P C Q
* `Verif.ResolveEdit.C112_changes_violated`: P
* `Verif.ResolveEdit.C112_reopen_violated`: P
* `Verif.DumpAst.C113_lines_partial`: P C Q
* `Verif.DumpAst.C113_shape_partial`: P C Q
* `Verif.DumpAst.C113_types`: P C Q
* `Verif.DumpAst.C113_package_violated`: P C Q
* `Verif.DumpAst.C113_string_violated`: P C Q
* `Verif.GenerateWorkspace.C114_written`: P C Q
* `Verif.GenerateWorkspace.C114_failed`: P C Q
* `Verif.GenerateWorkspace.C114_error`: P C Q
* `Verif.GenerateWorkspace.C114_selected_partial`: P C Q
* `Verif.GenerateWorkspace.C114_beside_partial`: P C Q
* `Verif.GenerateWorkspace.C114_collision_violated`: P C Q
* `Verif.GenerateWorkspace.C114_atomic_violated`: P C Q
* `Verif.RangeTokens.C115_within`: P
* `Verif.RangeTokens.C115_complete_partial`: P C Q
* `Verif.RangeTokens.C115_tokens_partial`: P C Q
* `Verif.RangeTokens.C115_whole`: P C Q
* `Verif.RangeTokens.C115_answered`: P Q
* `Verif.RangeTokens.C115_blank_violated`: P C Q
* `Verif.RangeTokens.C115_outside_violated`: P C Q
* `Verif.RangeTokens.C115_excess_violated`: P C Q
* `Verif.PrintFiles.C116_success`: P Q
* `Verif.PrintFiles.C116_all`: P Q
* `Verif.PrintFiles.C116_error`: P Q
* `Verif.PrintFiles.C116_closed`: P C Q
* `Verif.PrintFiles.C116_disk_partial`: P Q
* `Verif.PrintFiles.C116_place`: P Q
* `Verif.PrintFiles.C116_distinct_partial`: P Q
* `Verif.PrintFiles.C116_path_violated`: P Q
* `Verif.PrintFiles.C116_package_violated`: P Q
* `Verif.PrintFiles.C116_close_violated`: -
* `Verif.Formatter.C117_blank`: P C Q
* `Verif.Formatter.C117_close`: P
* `Verif.Formatter.C117_comments`: P C Q
* `Verif.Formatter.C117_level`: P
* `Verif.Formatter.C117_inline`: P
* `Verif.Formatter.C117_remembered`: P Q
* `Verif.Formatter.C117_strings`: P C Q
