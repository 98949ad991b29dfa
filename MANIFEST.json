{
 "claims": [
  {
   "property": "C01",
   "status": "proved",
   "theorems": [
    "Verif.Versions.C01_wait_sound",
    "Verif.Versions.C01_wait_sound_plain"
   ],
   "note": "State machine over wait/cancel/resume/update steps (Versions). Invariant over all reachable states, history is an explicit log. Proved by induction on executions."
  },
  {
   "property": "C02",
   "status": "proved",
   "theorems": [
    "Verif.Versions.C02_no_lost_wakeup",
    "Verif.Versions.C02_blocked_otherwise"
   ],
   "note": "Same state machine: in every reachable state a blocked waiter whose channel is not closed waits for a version above every later update. Proved."
  },
  {
   "property": "C03",
   "status": "proved",
   "theorems": [
    "Verif.Versions.C03_no_double_close",
    "Verif.Versions.C03_channels_not_shared"
   ],
   "note": "Same state machine with an explicit 'panicked' flag set on close of a closed channel; invariant: never set, channels unique per (document, version)."
  },
  {
   "property": "C04",
   "status": "proved",
   "theorems": [
    "Verif.Semantic.C04_tokens_round_trip"
   ],
   "note": "Model of Data on fixed-width 32-bit words; independent LSP decoder; round-trip for every list sorted by (line,start); sorting step modelled by a stable merge sort."
  },
  {
   "property": "C05",
   "status": "partial",
   "theorems": [
    "Verif.Documents.C05_empty_rejected",
    "Verif.Documents.C05_position",
    "Verif.Documents.C05_single_change",
    "Verif.Documents.C05_descending_changes_partial",
    "Verif.Documents.C05_sequential_violated",
    "Verif.Documents.C05_full_text_in_batch_violated"
   ],
   "note": "Text as list of characters, ranges as offsets. Violated for several changes (witness); partial theorem for a single change and for changes that are disjoint and listed from the end of the document."
  },
  {
   "property": "C06",
   "status": "partial",
   "theorems": [
    "Verif.Documents.C06_drop_at_most_one_partial",
    "Verif.Documents.C06_drop_violated",
    "Verif.Documents.C06_crash_violated"
   ],
   "note": "Go slices.Delete loop modelled on lists with an explicit panic outcome. Violated (witness); partial for at most one unresolvable document."
  },
  {
   "property": "C07",
   "status": "partial",
   "theorems": [
    "Verif.Diagnostics.C07_contents",
    "Verif.Diagnostics.C07_unchanged_sound_partial",
    "Verif.Diagnostics.C07_change_visible_partial",
    "Verif.Diagnostics.C07_clock_violated"
   ],
   "note": "DiagnosticList as a state machine with a clock supplying result ids. Partial: assumes the clock never repeats a value (ids are RFC3339Nano timestamps); a witness shows the dependence."
  },
  {
   "property": "C08",
   "status": "partial",
   "theorems": [
    "Verif.Diagnostics.C08_view_current_partial",
    "Verif.Diagnostics.C08_no_republication",
    "Verif.Diagnostics.C08_late_subscriber_violated"
   ],
   "note": "Handler state machine with subscriber. Violated for late subscribers (witness), partial: while subscribed."
  },
  {
   "property": "C09",
   "status": "proved",
   "theorems": [
    "Verif.Diagnostics.C09_warning_promoted",
    "Verif.Diagnostics.C09_others_unchanged"
   ],
   "note": "Decision function on strings.Fields/strings.Cut models; full characterisation."
  },
  {
   "property": "C10",
   "status": "partial",
   "theorems": [
    "Verif.Resolver.C10_round_trip_partial",
    "Verif.Resolver.C10_inverse_partial",
    "Verif.Resolver.C10_after_create_partial",
    "Verif.Resolver.C10_after_change_partial",
    "Verif.Resolver.C10_after_import",
    "Verif.Resolver.C10_change_keeps",
    "Verif.Resolver.C10_after_delete",
    "Verif.Resolver.C10_shared_path_violated",
    "Verif.Resolver.C10_stale_path_violated",
    "Verif.Resolver.C10_semicolon_violated"
   ],
   "note": "Two association maps; violated (witness with shared canonical path), partial: bijection kept when canonical paths are fresh."
  },
  {
   "property": "C11",
   "status": "partial",
   "theorems": [
    "Verif.Resolver.C11_found",
    "Verif.Resolver.C11_candidate_partial",
    "Verif.Resolver.C11_absolute",
    "Verif.Resolver.C11_best_partial",
    "Verif.Resolver.C11_best_violated"
   ],
   "note": "Heap-level slice model with capacity. Violated (witness); partial: with private copies the search returns a best candidate."
  },
  {
   "property": "C12",
   "status": "partial",
   "theorems": [
    "Verif.Resolver.C12_value_partial",
    "Verif.Resolver.C12_nothing",
    "Verif.Resolver.C12_quote_violated",
    "Verif.Resolver.C12_name_only_violated"
   ],
   "note": "Line scanner on character lists. Violated (witness); partial when the line has exactly two quotes."
  },
  {
   "property": "C13",
   "status": "proved",
   "theorems": [
    "Verif.Search.C13_found_iff",
    "Verif.Search.C13_first"
   ],
   "note": "Early-exit scan; equals List.find? on sorted lists."
  },
  {
   "property": "C14",
   "status": "proved",
   "theorems": [
    "Verif.Symbols.C14_best",
    "Verif.Symbols.C14_at_most_100",
    "Verif.Symbols.C14_order_independent"
   ],
   "note": "Insertion-evicting store; refinement to the multiset of top-k scores for any k."
  },
  {
   "property": "C15",
   "status": "proved",
   "theorems": [
    "Verif.Symbols.C15_words_and",
    "Verif.Symbols.C15_smart_case"
   ],
   "note": "Field splitting and fold of scores; characterisation. Plain words are matched by the fuzzy matcher of a library, a parameter of which only that scores are not negative is assumed."
  },
  {
   "property": "C16",
   "status": "partial",
   "theorems": [
    "Verif.Completion.C16_items_kept",
    "Verif.Completion.C16_one_preselected",
    "Verif.Completion.C16_sort_text_partial",
    "Verif.Completion.C16_long_list_violated"
   ],
   "note": "Fold over items; lexicographic comparison of zero-padded decimals equals numeric comparison below 100000 items; violated above (witness), hence partial."
  },
  {
   "property": "C17",
   "status": "proved",
   "theorems": [
    "Verif.Completion.C17_less_iff",
    "Verif.Completion.C17_strict_weak_order",
    "Verif.Completion.C17_deterministic",
    "Verif.Completion.C17_distance_zero",
    "Verif.Completion.C17_local_first",
    "Verif.Completion.C17_distance",
    "Verif.Completion.C17_ordered"
   ],
   "note": "Strict weak order laws, permutation and sortedness of the result."
  },
  {
   "property": "C18",
   "status": "partial",
   "theorems": [
    "Verif.Completion.C18_shortest_partial",
    "Verif.Completion.C18_denotes_partial",
    "Verif.Completion.C18_misaligned_violated",
    "Verif.Completion.C18_wrong_type_violated",
    "Verif.Completion.C18_shadowed_violated"
   ],
   "note": "Violated by byte-wise prefix cut (witness); partial for component-aligned packages."
  },
  {
   "property": "C19",
   "status": "partial",
   "theorems": [
    "Verif.Qualify.C19_enclosing_scope",
    "Verif.Qualify.C19_option_name",
    "Verif.Qualify.C19_literal_name",
    "Verif.Qualify.C19_forced",
    "Verif.Qualify.C19_denotes_partial",
    "Verif.Qualify.C19_shadowed_violated"
   ],
   "note": "Full: result is a suffix after an enclosing scope."
  },
  {
   "property": "C20",
   "status": "partial",
   "theorems": [
    "Verif.Refactor.C20_message_partial",
    "Verif.Refactor.C20_field_partial",
    "Verif.Refactor.C20_exhausted_violated",
    "Verif.Refactor.C20_enum_violated"
   ],
   "note": "Violated when 99 names are taken (witness over the generated list); partial below that."
  },
  {
   "property": "C21",
   "status": "partial",
   "theorems": [
    "Verif.Refactor.C21_only_numbers",
    "Verif.Refactor.C21_consecutive_partial",
    "Verif.Refactor.C21_plain_consecutive",
    "Verif.Refactor.C21_map_violated",
    "Verif.Refactor.C21_fields",
    "Verif.Refactor.C21_offered"
   ],
   "note": "Violated with map fields/oneofs (witness); partial for messages with plain fields only."
  },
  {
   "property": "C22",
   "status": "partial",
   "theorems": [
    "Verif.Refactor.C22_distinct_partial",
    "Verif.Refactor.C22_number_violated",
    "Verif.Refactor.C22_name_violated",
    "Verif.Refactor.C22_empty_violated"
   ],
   "note": "Violated (witness); partial under freshness hypotheses."
  },
  {
   "property": "C23",
   "status": "proved",
   "theorems": [
    "Verif.Refactor.C23_extract",
    "Verif.Refactor.C23_numbers"
   ],
   "note": "List surgery on the declarations of a message, `nodeListAdapter`-like deletion modelled on lists; the result is characterised completely."
  },
  {
   "property": "C24",
   "status": "partial",
   "theorems": [
    "Verif.ActionQueue.C24_at_most_once",
    "Verif.ActionQueue.C24_same_action",
    "Verif.ActionQueue.C24_available",
    "Verif.ActionQueue.C24_not_after_expiry_partial",
    "Verif.ActionQueue.C24_early_expiry_violated"
   ],
   "note": "Transition system of create/store/resolve/expire steps; invariants over all executions."
  },
  {
   "property": "C25",
   "status": "proved",
   "theorems": [
    "Verif.FanIn.C25_exactly_once",
    "Verif.FanIn.C25_never_twice",
    "Verif.FanIn.C25_ends_last",
    "Verif.FanIn.C25_no_panic",
    "Verif.FanIn.C25_terminates"
   ],
   "note": "Interleaving semantics of n producers with a LoadOrStore set, a bounded channel, a WaitGroup and a closing goroutine; invariants and a decreasing measure."
  },
  {
   "property": "C26",
   "status": "partial",
   "theorems": [
    "Verif.Async.C26_order_partial",
    "Verif.Async.C26_fifo",
    "Verif.Async.C26_not_twice",
    "Verif.Async.C26_not_skipped",
    "Verif.Async.C26_long_lived_no_hold_up",
    "Verif.Async.C26_no_panic",
    "Verif.Async.C26_overtaking_violated"
   ],
   "note": "Labelled transition system of requests; violated with long-lived requests in between (witness), partial: order with respect to requests not separated by a long-lived one; all-ordinary streams are FIFO."
  },
  {
   "property": "C27",
   "status": "partial",
   "theorems": [
    "Verif.Workspaces.C27_leak_iff",
    "Verif.Workspaces.C27_no_refresh_partial",
    "Verif.Workspaces.C27_drivers_partial",
    "Verif.Workspaces.C27_refresh_violated"
   ],
   "note": "The workspace lock is part of the state of a small command semantics; violated for one command (witness), exact characterisation of the leaking requests, partial otherwise."
  },
  {
   "property": "C28",
   "status": "partial",
   "theorems": [
    "Verif.RWLock.C28_sections_partial",
    "Verif.RWLock.C28_read_only_partial",
    "Verif.RWLock.C28_exclusion",
    "Verif.RWLock.C28_nested_violated",
    "Verif.RWLock.C28_balanced",
    "Verif.RWLock.C28_server_reads_partial",
    "Verif.RWLock.C28_server_updates_partial",
    "Verif.RWLock.C28_released",
    "Verif.RWLock.C28_unlock_fatal"
   ],
   "note": "RWMutex with writer preference as a transition system over arbitrary numbers of requests given by their lock traces; deadlock witnesses for nested read locks; progress and termination for separate sections."
  },
  {
   "property": "C29",
   "status": "partial",
   "theorems": [
    "Verif.CodeActions.C29_others",
    "Verif.CodeActions.C29_sound",
    "Verif.CodeActions.C29_texts",
    "Verif.CodeActions.C29_exactly_once_partial",
    "Verif.CodeActions.C29_cross_document_violated",
    "Verif.CodeActions.C29_deletion_violated"
   ],
   "note": "Fold over the actions; violated (edits with the same text are merged across documents, deletions are repeated); partial for distinct texts."
  },
  {
   "property": "C30",
   "status": "partial",
   "theorems": [
    "Verif.CodeActions.C30_offered_partial",
    "Verif.CodeActions.C30_nothing_else",
    "Verif.CodeActions.C30_error_violated",
    "Verif.CodeActions.C30_actions"
   ],
   "note": "Violated (error never reported); partial: offered set characterised."
  },
  {
   "property": "C31",
   "status": "partial",
   "theorems": [
    "Verif.Overwrite.C31_crash_safe",
    "Verif.Overwrite.C31_success_partial",
    "Verif.Overwrite.C31_failure",
    "Verif.Overwrite.C31_no_failure_succeeds",
    "Verif.Overwrite.C31_leftover_violated"
   ],
   "note": "Every prefix of every execution with failing system calls; case analysis over all outcomes, induction over the bytes written."
  },
  {
   "property": "C32",
   "status": "partial",
   "theorems": [
    "Verif.Quote.C32_bytes_partial",
    "Verif.Quote.C32_string_partial",
    "Verif.Quote.C32_quote_violated",
    "Verif.Quote.C32_printable"
   ],
   "note": "Printer on bytes and an independent reader of protobuf literals; violated for double quotes (witness), partial without."
  },
  {
   "property": "C33",
   "status": "proved",
   "theorems": [
    "Verif.PrintWriter.C33_text",
    "Verif.PrintWriter.C33_no_blanks",
    "Verif.PrintWriter.C33_length",
    "Verif.PrintWriter.C33_newline"
   ],
   "note": "Writer automaton; full."
  },
  {
   "property": "C34",
   "status": "partial",
   "theorems": [
    "Verif.PrintComment.C34_wellformed",
    "Verif.PrintComment.C34_flag",
    "Verif.PrintComment.C34_no_crash_partial",
    "Verif.PrintComment.C34_crash_violated"
   ],
   "note": "Comment printer on characters, independent grammar of comments; violated (crash witness), crash characterised exactly."
  },
  {
   "property": "C35",
   "status": "partial",
   "theorems": [
    "Verif.Ranges.C35_message_reserved",
    "Verif.Ranges.C35_extensions",
    "Verif.Ranges.C35_enum_exact",
    "Verif.Ranges.C35_enum_partial",
    "Verif.Ranges.C35_enum_violated"
   ],
   "note": "Printer through the writer of C33 and an independent reader of range statements; full for messages and extensions; violated for enums (witness)."
  },
  {
   "property": "C36",
   "status": "proved",
   "theorems": [
    "Verif.SourceInfo.C36_key_inj",
    "Verif.SourceInfo.C36_getAll",
    "Verif.SourceInfo.C36_first_wins",
    "Verif.SourceInfo.C36_put_result"
   ],
   "note": "Injectivity of 4-byte little-endian keys; map laws."
  },
  {
   "property": "C37",
   "status": "proved",
   "theorems": [
    "Verif.PrefixList.C37_prefixes",
    "Verif.PrefixList.C37_root"
   ],
   "note": "Full."
  },
  {
   "property": "C38",
   "status": "proved",
   "theorems": [
    "Verif.PrefixList.C38_json_name",
    "Verif.PrefixList.C38_no_underscore",
    "Verif.PrefixList.C38_identity",
    "Verif.PrefixList.C38_roundtrip"
   ],
   "note": "Full."
  },
  {
   "property": "C39",
   "status": "proved",
   "theorems": [
    "Verif.GoNames.C39_normal",
    "Verif.GoNames.C39_no_dot",
    "Verif.GoNames.C39_start",
    "Verif.GoNames.C39_idempotent",
    "Verif.GoNames.C39_letters",
    "Verif.GoNames.C39_sanitized"
   ],
   "note": "Character lists; normal form as an independent predicate."
  },
  {
   "property": "C40",
   "status": "partial",
   "theorems": [
    "Verif.SearchDirs.C40_complete",
    "Verif.SearchDirs.C40_sound",
    "Verif.SearchDirs.C40_exact_partial",
    "Verif.SearchDirs.C40_once",
    "Verif.SearchDirs.C40_marker_violated",
    "Verif.SearchDirs.C40_twice_violated"
   ],
   "note": "Directory trees as rose trees; violated by marker order (witness), partial."
  },
  {
   "property": "C41",
   "status": "partial",
   "theorems": [
    "Verif.FileHeader.C41_sorted",
    "Verif.FileHeader.C41_sound",
    "Verif.FileHeader.C41_order",
    "Verif.FileHeader.C41_paths",
    "Verif.FileHeader.C41_commented",
    "Verif.FileHeader.C41_kept_partial",
    "Verif.FileHeader.C41_once",
    "Verif.FileHeader.C41_comments_first",
    "Verif.FileHeader.C41_no_duplicates",
    "Verif.FileHeader.C41_violated"
   ],
   "note": "Violated (witness), partial."
  },
  {
   "property": "C42",
   "status": "partial",
   "theorems": [
    "Verif.FileHeader.C42_order",
    "Verif.FileHeader.C42_stable_partial",
    "Verif.FileHeader.C42_stable_violated"
   ],
   "note": "Sort abstracted as any function with the contract of `sort.Slice`; stability for at most 12 options (insertion sort). `C42_stable_violated`: with 13 options `sort.Slice` is a quicksort (Util/GoPdq.lean models it for short slices), and the values of a repeated file option change their order, which changes the value of the option."
  },
  {
   "property": "C43",
   "status": "partial",
   "theorems": [
    "Verif.Requote.C43_value",
    "Verif.Requote.C43_partial",
    "Verif.Requote.C43_idempotent",
    "Verif.Requote.C43_violated"
   ],
   "note": "Violated (witness), partial."
  },
  {
   "property": "C44",
   "status": "partial",
   "theorems": [
    "Verif.InlineComment.C44_block",
    "Verif.InlineComment.C44_line",
    "Verif.InlineComment.C44_line_partial",
    "Verif.InlineComment.C44_violated",
    "Verif.InlineComment.C44_all"
   ],
   "note": "Independent scanner for comments; violated for line comments that contain `*/` (witness), otherwise partial (iff)."
  },
  {
   "property": "C45",
   "status": "partial",
   "theorems": [
    "Verif.CompactOptions.C45_partial",
    "Verif.CompactOptions.C45_violated",
    "Verif.CompactOptions.C45_layout"
   ],
   "note": "Operations of the formatter's writer; violated: everything after an option with a compound string is lost (witness for all continuations), partial otherwise."
  },
  {
   "property": "C46",
   "status": "partial",
   "theorems": [
    "Verif.FormatWriter.C46_content",
    "Verif.FormatWriter.C46_write",
    "Verif.FormatWriter.C46_dangling_partial",
    "Verif.FormatWriter.C46_dangling_violated",
    "Verif.FormatWriter.C46_levels",
    "Verif.FormatWriter.C46_indent_partial",
    "Verif.FormatWriter.C46_indent_violated",
    "Verif.FormatWriter.C46_margin",
    "Verif.FormatWriter.C46_last",
    "Verif.FormatWriter.C46_tokens"
   ],
   "note": "Writer automaton; violated for empty texts (dangling blank) and for lines with several brackets (indentation), otherwise partial."
  },
  {
   "property": "C47",
   "status": "proved",
   "theorems": [
    "Verif.ColumnFormat.C47_small",
    "Verif.ColumnFormat.C47_content",
    "Verif.ColumnFormat.C47_aligned",
    "Verif.ColumnFormat.C47_narrow",
    "Verif.ColumnFormat.C47_size",
    "Verif.ColumnFormat.C47_short",
    "Verif.ColumnFormat.C47_blocks",
    "Verif.ColumnFormat.C47_break_long",
    "Verif.ColumnFormat.C47_absent"
   ],
   "note": "Full on rows of column texts."
  },
  {
   "property": "C48",
   "status": "proved",
   "theorems": [
    "Verif.ColumnFormat.C48_groups",
    "Verif.ColumnFormat.C48_kinds",
    "Verif.ColumnFormat.C48_incomplete",
    "Verif.ColumnFormat.C48_index",
    "Verif.ColumnFormat.C48_blocks",
    "Verif.ColumnFormat.C48_written",
    "Verif.ColumnFormat.C48_close"
   ],
   "note": "Full."
  },
  {
   "property": "C49",
   "status": "partial",
   "theorems": [
    "Verif.BlockComment.C49_written",
    "Verif.BlockComment.C49_lines",
    "Verif.BlockComment.C49_block",
    "Verif.BlockComment.C49_idempotent_partial",
    "Verif.BlockComment.C49_idempotent_violated",
    "Verif.BlockComment.C49_prefixed",
    "Verif.BlockComment.C49_relative"
   ],
   "note": "Character lists; violated: not idempotent with CRLF line ends (witness), partial for blanks, tabs and line breaks."
  },
  {
   "property": "C50",
   "status": "proved",
   "theorems": [
    "Verif.Transform.C50_total",
    "Verif.Transform.C50_once",
    "Verif.Transform.C50_order",
    "Verif.Transform.C50_local"
   ],
   "note": "Depth-first search with the recursion of the code; termination measure is the set of unseen files. Full."
  },
  {
   "property": "C51",
   "status": "partial",
   "theorems": [
    "Verif.Transform.C51_partial",
    "Verif.Transform.C51_idempotent",
    "Verif.Transform.C51_violated",
    "Verif.Transform.C51_idempotent_violated"
   ],
   "note": "Violated: dependencies of unmapped files keep synthesized names, and the second call in `Compile` may rename again (witnesses); partial otherwise."
  },
  {
   "property": "C52",
   "status": "partial",
   "theorems": [
    "Verif.GoPackage.C52_value_partial",
    "Verif.GoPackage.C52_order_partial",
    "Verif.GoPackage.C52_violated",
    "Verif.GoPackage.C52_share_violated",
    "Verif.GoPackage.C52_conflict"
   ],
   "note": "Two passes over the files with association maps; violated (order decides about an error; packages share a Go package), partial for consistent directories."
  },
  {
   "property": "C53",
   "status": "partial",
   "theorems": [
    "Verif.Decode.C53_base64",
    "Verif.Decode.C53_partial",
    "Verif.Decode.C53_violated"
   ],
   "note": "Base64 codecs and trimming on bytes; round trip proved; violated for binary input starting with 0x0A (the tag of field 1) and others; exact characterisation."
  },
  {
   "property": "C54",
   "status": "proved",
   "theorems": [
    "Verif.Decode.C54_select",
    "Verif.Decode.C54_order"
   ],
   "note": "Full."
  },
  {
   "property": "C55",
   "status": "partial",
   "theorems": [
    "Verif.Workspaces.C55_routed_partial",
    "Verif.Workspaces.C55_outside",
    "Verif.Workspaces.C55_fragment",
    "Verif.Workspaces.C55_nested_violated",
    "Verif.Workspaces.C55_sibling_violated",
    "Verif.Workspaces.C55_vendor_violated",
    "Verif.Workspaces.C55_refused"
   ],
   "note": "Violated (witness), partial."
  },
  {
   "property": "C56",
   "status": "partial",
   "theorems": [
    "Verif.Workspaces.C56_present",
    "Verif.Workspaces.C56_cancel_once",
    "Verif.Workspaces.C56_at_least_one",
    "Verif.Workspaces.C56_exactly_one_partial",
    "Verif.Workspaces.C56_orphan_forever",
    "Verif.Workspaces.C56_readd_violated",
    "Verif.Workspaces.C56_replaced_violated"
   ],
   "note": "Violated (witness), partial."
  },
  {
   "property": "C57",
   "status": "partial",
   "theorems": [
    "Verif.Links.C57_partial",
    "Verif.Links.C57_answers",
    "Verif.Links.C57_violated"
   ],
   "note": "Slice aliasing model (`slices.Delete` on the dependency list of the descriptor); violated (witness); exact characterisation."
  },
  {
   "property": "C58",
   "status": "partial",
   "theorems": [
    "Verif.GenFiles.C58_source",
    "Verif.GenFiles.C58_complete",
    "Verif.GenFiles.C58_partial",
    "Verif.GenFiles.C58_violated",
    "Verif.GenFiles.C58_versions_violated"
   ],
   "note": "Line scanner and filter; violated: the filter on the source is inverted, versions are never reported (witnesses)."
  },
  {
   "property": "C59",
   "status": "partial",
   "theorems": [
    "Verif.Resolver.C59_local_partial",
    "Verif.Resolver.C59_exact_partial",
    "Verif.Resolver.C59_sibling_violated"
   ],
   "note": "Violated (witness), partial."
  },
  {
   "property": "C60",
   "status": "partial",
   "theorems": [
    "Verif.Completion.C60_under_cursor_partial",
    "Verif.Completion.C60_outside_violated"
   ],
   "note": "Interval arithmetic on offsets; violated for cursors outside of the identifier (witness)."
  },
  {
   "property": "C61",
   "status": "proved",
   "theorems": [
    "Verif.References.C61_type",
    "Verif.References.C61_package_all",
    "Verif.References.C61_package"
   ],
   "note": "Full for types and for package names."
  },
  {
   "property": "C62",
   "status": "partial",
   "theorems": [
    "Verif.CompactOptions.C62_label",
    "Verif.CompactOptions.C62_partial",
    "Verif.CompactOptions.C62_violated"
   ],
   "note": "Violated: a leading dot is doubled in fields without label (for every type), otherwise proved."
  },
  {
   "property": "C63",
   "status": "proved",
   "theorems": [
    "Verif.Compile.C63_results",
    "Verif.Compile.C63_records",
    "Verif.Compile.C63_pragmas",
    "Verif.Compile.C63_lookup"
   ],
   "note": "State machine over hook events, invariant over all histories. Full."
  },
  {
   "property": "C64",
   "status": "proved",
   "theorems": [
    "Verif.Refactor.C64_hanging",
    "Verif.Refactor.C64_first",
    "Verif.Refactor.C64_undo"
   ],
   "note": "Full."
  },
  {
   "property": "C65",
   "status": "partial",
   "theorems": [
    "Verif.StringTokens.C65_contiguous",
    "Verif.StringTokens.C65_escapes",
    "Verif.StringTokens.C65_reach",
    "Verif.StringTokens.C65_partial",
    "Verif.StringTokens.C65_violated"
   ],
   "note": "Regex matches are a parameter; token list as intervals; violated when text follows the last escape (witness), partial otherwise."
  },
  {
   "property": "C66",
   "status": "partial",
   "theorems": [
    "Verif.Refactor.C66_singular_partial",
    "Verif.Refactor.C66_repeated_violated"
   ],
   "note": "Violated for repeated fields (witness), partial for singular fields."
  },
  {
   "property": "C67",
   "status": "partial",
   "theorems": [
    "Verif.FileEvents.C67_recompiled",
    "Verif.FileEvents.C67_others_kept",
    "Verif.FileEvents.C67_forgotten",
    "Verif.FileEvents.C67_created",
    "Verif.FileEvents.C67_batch_partial",
    "Verif.FileEvents.C67_delete_violated",
    "Verif.FileEvents.C67_rename_violated"
   ],
   "note": "DidModifyFiles composed of the path map machine (C10) and the slice deletion loop (C06). Violated for every notification of two or more deletions (panic) and for two renames (second creation lost); partial for at most one deletion."
  },
  {
   "property": "C68",
   "status": "proved",
   "theorems": [
    "Verif.CodeActions.C68_error",
    "Verif.CodeActions.C68_actions",
    "Verif.CodeActions.C68_no_crash",
    "Verif.CodeActions.C68_organize"
   ],
   "note": "GetCodeActions modelled as a total function; membership of every action characterised by a relation stated with the sub-kind relation."
  },
  {
   "property": "C69",
   "status": "proved",
   "theorems": [
    "Verif.PrintComment.C69_nothing",
    "Verif.PrintComment.C69_line_style",
    "Verif.PrintComment.C69_block_one",
    "Verif.PrintComment.C69_block_many"
   ],
   "note": "Same model as C34; the exact output is related to the source lines by a relation for the text of a line (Rendered) and one for the placement (Place)."
  },
  {
   "property": "C70",
   "status": "partial",
   "theorems": [
    "Verif.Formatter.C70_tokens_partial",
    "Verif.Formatter.C70_rewrites_partial",
    "Verif.Formatter.C70_significant_partial",
    "Verif.Formatter.C70_dot_violated",
    "Verif.Formatter.C70_missing_violated",
    "Verif.Formatter.C70_errors_violated"
   ],
   "note": "The whole formatter over an inductive syntax tree (Model/Formatter), a lexer as a state machine (Spec/Lexer), and triples `Emits` between the state of the writer and that of the lexer, proved for every function by induction over the tree. Violated for a type that starts with a dot in a field without label (witness); partial because FileOk also excludes what C43, C44 and C45 show to be wrong."
  },
  {
   "property": "C71",
   "status": "partial",
   "theorems": [
    "Verif.Diagnostics.C71_cleared",
    "Verif.Diagnostics.C71_others",
    "Verif.Diagnostics.C71_partial",
    "Verif.Diagnostics.C71_violated"
   ],
   "note": "Model of the handler (Model/Diagnostics). C71_others counts, for every place of every other file, exactly what is removed; C71_partial covers the files that the cleared diagnostics do not refer to. The full claim is false: DeleteRelated removes the first diagnostic at the same range whatever caused it (C71_violated)."
  },
  {
   "property": "C72",
   "status": "partial",
   "theorems": [
    "Verif.PathSearch.C72_declaration_partial",
    "Verif.PathSearch.C72_denotes_partial",
    "Verif.PathSearch.C72_scalar_partial",
    "Verif.PathSearch.C72_import_partial",
    "Verif.PathSearch.C72_map_violated",
    "Verif.PathSearch.C72_map_enum_violated",
    "Verif.PathSearch.C72_qualified_enum_violated",
    "Verif.PathSearch.C72_list_violated",
    "Verif.PathSearch.C72_group_violated",
    "Verif.PathSearch.C72_extendee_violated",
    "Verif.PathSearch.C72_literal_extension_violated"
   ],
   "note": "`Model/PathSearch` follows both loops of `deepPathSearch` with the case distinctions on the types of descriptors and nodes; descriptors are opaque with the methods the code calls (`Schema`). `Spec/PathSearch` says, without a stack and from the outside to the inside, what a declaration (`Decl`), a literal (`Lit`) and an identifier (`Denotes`) stand for. Proved by induction over `Decl` and `Lit` with an invariant on the stack (`Reached`): all pushed entries up to a node are resolved to the descriptors of the specification. Positions where the code differs are excluded (`Placed`, `Supported`) and shown by witnesses. Trusted: `paths.DereferenceAll`, the maps from nodes to descriptors of the parser, and the methods of the descriptors (`Typed`)."
  },
  {
   "property": "C73",
   "status": "partial",
   "theorems": [
    "Verif.Refactor.C73_distinct_partial",
    "Verif.Refactor.C73_exhausted_violated"
   ],
   "note": "Proved for messages with fewer than 100 fields from `C23_extract` and the specification of the name search (C20); the witness has fields with all candidate names."
  },
  {
   "property": "C74",
   "status": "partial",
   "theorems": [
    "Verif.Rename.C74_succeeds_partial",
    "Verif.Rename.C74_nothing",
    "Verif.Rename.C74_edits_partial",
    "Verif.Rename.C74_prepare",
    "Verif.Rename.C74_identifier_partial",
    "Verif.Rename.C74_qualified_violated",
    "Verif.Rename.C74_dotted_violated"
   ],
   "note": "`Model/Rename` follows the three functions with the switch on the node types; lookup, definition, references, resolver and descriptor table are parameters (C72, C25, C10). The specification names the place of the short name in a node (`Node.short`) and the wanted edits per document; the result of the loop is characterised by induction over the references with the map of edits as accumulator. `FullName.IsValid` is modelled as in protoreflect and related to identifiers between dots. Witnesses show the two failures."
  },
  {
   "property": "C75",
   "status": "partial",
   "theorems": [
    "Verif.CursorPath.C75_cursor_partial",
    "Verif.CursorPath.C75_selection",
    "Verif.CursorPath.C75_selection_default",
    "Verif.CursorPath.C75_selection_fields",
    "Verif.CursorPath.C75_rpc_violated"
   ],
   "note": "Model of the two searches over arbitrary finite syntax trees. The nodes the walker reaches are described by an inductive relation, extents by the reading order of positions. The collected list is shown to be ordered and complete by mutual induction over the tree; the loops are characterised by invariants. Partial: an rpc with a body is never considered (search.go 714, `node.Semicolon != nil &&`), `C75_rpc_violated` is a service in which the cursor between the braces of an rpc is attributed to the service."
  },
  {
   "property": "C76",
   "status": "partial",
   "theorems": [
    "Verif.PrintOrder.C76_located_partial",
    "Verif.PrintOrder.C76_canonical",
    "Verif.PrintOrder.C76_bare_partial",
    "Verif.PrintOrder.C76_source_order",
    "Verif.PrintOrder.C76_bare_violated",
    "Verif.PrintOrder.C76_mixed_violated"
   ],
   "note": "Model of the three Less functions and of SortElements. Each documented order is given in the specification by a key, a list of integers compared lexicographically; the comparison is shown to agree with the order of the keys for all pairs of elements of a scope, so that the stable sort yields the keys in order. Partial: with partial source information the comparison has cycles (`C76_mixed_violated`), without any it is not a strict weak order (`C76_bare_violated`); for up to 20 elements, which sort.Stable sorts by insertion, the order is right all the same (`C76_bare_partial`)."
  },
  {
   "property": "C77",
   "status": "partial",
   "theorems": [
    "Verif.Printer.C77_declarations_partial",
    "Verif.Printer.C77_extension_violated",
    "Verif.Printer.C77_infinity_violated",
    "Verif.Printer.C77_editions_violated"
   ],
   "note": "Model/Printer.lean models all of `printFile` and what it calls, over descriptors as trees; Spec/Decls.lean says which tokens a declaration has, Spec/PrintedDecls.lean which declarations describe a descriptor, Spec/Lexer.lean is the lexer. Every printing function is shown to write the tokens of some declarations (`Emits`, a triple over the state of the lexer and the pending blank of the writer) that describe the element; the loops with `skip` are shown to print every key once; messages by structural induction. Partial: extensions in a file with source info crash the printer (`C77_extension_violated`), infinities are printed as `+Inf` (`C77_infinity_violated`), a file of an edition gets `syntax = \"editions\"` (`C77_editions_violated`), and the exclusions of C32, C34 and C35."
  },
  {
   "property": "C78",
   "status": "partial",
   "theorems": [
    "Verif.Simplify.C78_simplify_partial",
    "Verif.Simplify.C78_documented_violated",
    "Verif.Simplify.C78_before_violated",
    "Verif.Simplify.C78_lost_violated",
    "Verif.Simplify.C78_order_violated",
    "Verif.Simplify.C78_enum_violated",
    "Verif.Simplify.C78_nested_violated",
    "Verif.Simplify.C78_prefix_violated",
    "Verif.Simplify.C78_comma_violated"
   ],
   "note": "Model/Simplify.lean models the choice of the target, the walk that collects the references, and all edits, with nodes as values that have an identity and the panics of `slices.Replace` explicit; Spec/Simplify.lean says what the options of a message set (`contents`, by path) and what the grammar of an array is. Proved for messages with a literal for the extension before the options that set the field: the list of references is computed (`refs_setting`), then removals and replacement are evaluated by induction over the declarations. Partial: crashes (`C78_documented_violated`, the example of the doc comment; `C78_before_violated`, `C78_nested_violated`), loss of fields (`C78_lost_violated`), reordering (`C78_order_violated`), duplication in enums and services (`C78_enum_violated`), mixing of fields (`C78_prefix_violated`), a missing comma (`C78_comma_violated`)."
  },
  {
   "property": "C79",
   "status": "partial",
   "theorems": [
    "Verif.FindFile.C79_located_partial",
    "Verif.FindFile.C79_again_partial",
    "Verif.FindFile.C79_well_known",
    "Verif.FindFile.C79_document",
    "Verif.FindFile.C79_module",
    "Verif.FindFile.C79_generated",
    "Verif.FindFile.C79_context",
    "Verif.FindFile.C79_relative_partial",
    "Verif.FindFile.C79_relative_module_partial",
    "Verif.FindFile.C79_incomplete",
    "Verif.FindFile.C79_open_violated",
    "Verif.FindFile.C79_large_violated",
    "Verif.FindFile.C79_google_violated",
    "Verif.FindFile.C79_unregistered_violated",
    "Verif.FindFile.C79_relative_violated",
    "Verif.FindFile.C79_sibling_violated",
    "Verif.FindFile.C79_reverse_violated",
    "Verif.FindFile.C79_gogo_violated",
    "Verif.FindFile.C79_join_file",
    "Verif.FindFile.C79_join_path",
    "Verif.FindFile.C79_local",
    "Verif.FindFile.C79_relative_dots_partial",
    "Verif.FindFile.C79_duplicated_partial",
    "Verif.FindFile.C79_above_partial",
    "Verif.FindFile.C79_outside",
    "Verif.FindFile.C79_registered",
    "Verif.FindFile.C79_moved"
   ],
   "note": "Model/FindFile.lean models `FindFileByPath` with its five strategies, the import of Go modules and generated code, the translation of relative paths and `CheckIncompleteDescriptors`, as functions on the maps of the resolver; file system, module cache, editor and generated code are a `World`, which may change between steps. Spec/FindFile.lean says what the editor shows and when a result is `Located`. Proved by invariants over histories (`Registered`: what a path is registered for; `Settled`: what was found is found again; `Known`: synthetic texts of files of the program). Props/FindFilePaths.lean adds which file a relative import stands for: `walk` says where a path with `.` and `..` leads, and the theorems give the candidates in the order in which they are tried. Partial: files of Go modules that are open (`C79_open_violated`) or large (`C79_large_violated`), documents of the workspace with `google/` paths (`C79_google_violated`, `C79_unregistered_violated`), relative paths without Go module (`C79_relative_violated`, `C79_sibling_violated`), the path of files found by generated code (`C79_reverse_violated`), `gogo.proto` (`C79_gogo_violated`)."
  },
  {
   "property": "C80",
   "status": "partial",
   "theorems": [
    "Verif.Printer.C80_comments_partial",
    "Verif.Printer.C80_header_partial",
    "Verif.Printer.C80_reserved_violated",
    "Verif.Printer.C80_extensions_violated"
   ],
   "note": "Extends the model of C77 (Model/Printer.lean). Spec/PrintedComments.lean says what a text with the lines of comments around a statement is (`Framed`, `Statement`, `Commented`) and which path and tokens the elements of a descriptor have (`FileEl`, `MsgEl`, `FieldEl`, `EnumEl`, `HeaderEl`). Lemmas/PrinterLocal.lean proves that every printing function only appends, and that what it appends does not depend on what was printed before but for the state of the writer; Lemmas/PrinterComments.lean that comments are framed; Lemmas/PrinterKeeps.lean and PrinterKept.lean follow the path of an element by induction. The text says that the comments stand at a declaration with these tokens, not at which of two equal declarations in different scopes. Partial: comments of `reserved` and `extensions` statements are lost (`C80_reserved_violated`, `C80_extensions_violated`); a file with extensions and locations for them is not printed at all (`C77_extension_violated`). Comments of options and of tokens in a declaration are not covered."
  },
  {
   "property": "C81",
   "status": "partial",
   "theorems": [
    "Verif.Outline.C81_only",
    "Verif.Outline.C81_all_partial",
    "Verif.Outline.C81_nested",
    "Verif.Outline.C81_range",
    "Verif.Outline.C81_missing",
    "Verif.Outline.C81_oneof_violated",
    "Verif.Outline.C81_group_violated"
   ],
   "note": "Model/Outline.lean models symbols.go:16-48, 155-269 and range.go:13-29 on a syntax tree with positions; the parser is not modelled. Spec/Outline.lean says what a tree declares (`declared`, one recursion for all kinds of declarations and places), what an outline shows (`shown`), the grammar, and nesting of ranges. Proved by mutual induction over trees. Positions are those of the parser (`NodeInfo`), as long as they fit into `uint32`; whether its columns are those of the protocol is not modelled. Partial: fields in oneofs, and groups with what they contain, are not listed (`C81_oneof_violated`, `C81_group_violated`)."
  },
  {
   "property": "C82",
   "status": "partial",
   "theorems": [
    "Verif.TokenCells.C82_leading",
    "Verif.TokenCells.C82_trailing",
    "Verif.TokenCells.C82_order",
    "Verif.TokenCells.C82_places",
    "Verif.TokenCells.C82_pragma_partial",
    "Verif.TokenCells.C82_pragma_violated",
    "Verif.TokenCells.C82_no_key",
    "Verif.TokenCells.C82_node",
    "Verif.TokenCells.C82_none",
    "Verif.TokenCells.C82_all_partial",
    "Verif.TokenCells.C82_multiline_violated",
    "Verif.TokenCells.C82_compound_whole",
    "Verif.TokenCells.C82_compound_parts",
    "Verif.TokenCells.C82_library",
    "Verif.TokenCells.C82_no_library"
   ],
   "note": "Model/TokenCells.lean models semantic.go:288-314, 331-443 and 686-702. Spec/TokenCells.lean says which places a text occupies (`cells`, by moving over it character by character) and which places a token covers. A character is a byte. Positions, comments and raw texts are those of the parser, which is not modelled; comments are not empty and do not end in a line feed. Partial: the value of a pragma with at most 10 characters has no token (`C82_pragma_violated`: `text` in line 371 is the variable shadowed in line 347), and a name with a line feed inside gets a token whose length wraps around (`C82_multiline_violated`; this concerns names given to `mktokens` directly, such as package names and option names)."
  },
  {
   "property": "C83",
   "status": "partial",
   "theorems": [
    "Verif.FindTypes.C83_unqualified",
    "Verif.FindTypes.C83_qualified",
    "Verif.FindTypes.C83_leading_dot_partial",
    "Verif.FindTypes.C83_sound",
    "Verif.FindTypes.C83_views",
    "Verif.FindTypes.C83_limit",
    "Verif.FindTypes.C83_returns",
    "Verif.FindTypes.C83_types",
    "Verif.FindTypes.C83_qualified_types",
    "Verif.FindTypes.C83_extendable",
    "Verif.FindTypes.C83_no_package_violated",
    "Verif.FindTypes.C83_leading_dot_violated"
   ],
   "note": "Model/FindTypes.lean models cache.go:329-451 as a transition system (the loop that starts goroutines through an errgroup with a limit, the goroutines that write into their slots, cancellation, `Wait`), the filters and the choice of the search in completion.go:1015-1054. The external `FindDescriptorsByPrefix` is a parameter with the assumptions `LibOk`: it returns; without cancellation it returns the matching declarations of the file and no error; with cancellation a part of them. Invariant over all steps; termination by a measure. Partial: with a leading dot only files are searched whose package begins with the whole prefix (`C83_leading_dot_violated`: `.p.Ba` does not find `p.Bar`, cache.go:432-435), and files without package are not searched (`C83_no_package_violated`, cache.go:380-383). Not modelled: the type assertion `res.(linker.Result)`."
  },
  {
   "property": "C84",
   "status": "partial",
   "theorems": [
    "Verif.QuickFix.C84_remove_import_partial",
    "Verif.QuickFix.C84_remove_import_violated",
    "Verif.QuickFix.C84_unused_import",
    "Verif.QuickFix.C84_metadata",
    "Verif.QuickFix.C84_new_message",
    "Verif.QuickFix.C84_no_new_message",
    "Verif.QuickFix.C84_add_import",
    "Verif.QuickFix.C84_imports",
    "Verif.QuickFix.C84_imports_qualified",
    "Verif.QuickFix.C84_fixes_partial",
    "Verif.QuickFix.C84_nested_violated",
    "Verif.QuickFix.C84_leading_dot_violated"
   ],
   "note": "Model/QuickFix.lean models diagnostics.go:256-387, refactor.go:132-189 and completion.go:588-595 on top of the search of C83. Texts, edits and positions are those of the specification of document changes (C05): `posAfter` counts line breaks and characters, `Denotes` is the lookup of names of Spec/Names.lean. The errors, their positions and the insertion point for imports come from the compiler, which is not modelled. Partial: an import that shares its line with something else takes that along (`C84_remove_import_violated`); an import is also offered for nested declarations and for fields (`C84_nested_violated`: `protoreflect.ExtensionDescriptor` in the type switch is an alias of `FieldDescriptor`); nothing is offered for names with a leading dot (`C84_leading_dot_violated`)."
  },
  {
   "property": "C85",
   "status": "partial",
   "theorems": [
    "Verif.Generate.C85_confined",
    "Verif.Generate.C85_targets",
    "Verif.Generate.C85_failed",
    "Verif.Generate.C85_recoverable_partial",
    "Verif.Generate.C85_next_to_source_partial",
    "Verif.Generate.C85_refused",
    "Verif.Generate.C85_succeeds",
    "Verif.Generate.C85_shared_package_violated",
    "Verif.Generate.C85_dot_violated",
    "Verif.Generate.C85_stat_violated"
   ],
   "note": "Model/Generate.lean models `doGenerate` on a disk that maps paths to files and directories, with every system call failing or not; `OverwriteFile` is the model of C31, `path.Dir`, `path.Base`, `path.Join` and `path.Clean` are modelled on strings (Model/GoPath.lean). The specification says where an absolute path leads by walking it part by part (`place`, Spec/GoPath.lean). The plugin and the generators are a parameter. Invariant over the loops (table of directories, confinement). Partial: two documents in different directories that have the same go_package (`C85_shared_package_violated`: the code of the first is written next to the second), and a go_package that is not clean, such as `./;foo` (`C85_dot_violated`: refused). `C85_recoverable_partial`: no content is lost whatever call fails (whole old or new content, or a backup), except that an existing file for which `os.Stat` fails is overwritten without a backup (`C85_stat_violated`). Not modelled: symbolic links, permissions."
  },
  {
   "property": "C86",
   "status": "partial",
   "theorems": [
    "Verif.GenerateCode.C86_selected_partial",
    "Verif.GenerateCode.C86_all",
    "Verif.GenerateCode.C86_place_partial",
    "Verif.GenerateCode.C86_elsewhere",
    "Verif.GenerateCode.C86_contents",
    "Verif.GenerateCode.C86_arguments_partial",
    "Verif.GenerateCode.C86_fix_partial",
    "Verif.GenerateCode.C86_sibling_violated",
    "Verif.GenerateCode.C86_slash_violated",
    "Verif.GenerateCode.C86_go_package_violated",
    "Verif.GenerateCode.C86_arguments_violated",
    "Verif.GenerateCode.C86_fix_violated"
   ],
   "note": "Model/GenerateCode.lean models `GenerateCode` up to the plugin; the driver and the generators are parameters. `C86_selected_partial` characterises the selection exactly by places on the disk: below a search directory, or below a sibling whose name begins with the name of the search directory (`C86_sibling_violated`, generator.go:123 compares strings). Other violations with witnesses: an absolute search directory with a slash at the end selects nothing directly in it (`C86_slash_violated`); files of a go_package that is not the import directory get a path relative to the working directory (`C86_go_package_violated`); the slice of the caller is modified (`C86_arguments_violated`, with an exact condition); the repaired go_package may be as invalid as before (`C86_fix_violated`)."
  },
  {
   "property": "C87",
   "status": "partial",
   "theorems": [
    "Verif.ExtPlugin.C87_answer",
    "Verif.ExtPlugin.C87_terminates",
    "Verif.ExtPlugin.C87_deadlock",
    "Verif.ExtPlugin.C87_result_partial",
    "Verif.ExtPlugin.C87_files_partial",
    "Verif.ExtPlugin.C87_deadlock_violated",
    "Verif.ExtPlugin.C87_exit_violated",
    "Verif.ExtPlugin.C87_chunks_violated",
    "Verif.ExtPlugin.C87_insertion_violated"
   ],
   "note": "Model/ExtPlugin.lean models the server and a plugin (any program that reads, writes and exits) as two processes with two bounded pipes, one step per byte. The specification (`Runs`) is the result of the plugin alone on its input. Invariant in continuation style (`Inv`), a measure for termination, and an invariant for plugins that read their whole input before they write more than a pipe holds (`Patient`). Violated, with witnesses for every capacity: the request is written completely before anything is read (`C87_deadlock_violated`), a plugin that exits without reading the request may be reported as failed (`C87_exit_violated`), continued files and insertion points of the plugin protocol are not honoured. Not modelled: standard error, marshalling, plugins that close their output before they exit."
  },
  {
   "property": "C88",
   "status": "partial",
   "theorems": [
    "Verif.Driver.C88_error",
    "Verif.Driver.C88_messages_partial",
    "Verif.Driver.C88_descriptors_partial",
    "Verif.Driver.C88_local_partial",
    "Verif.Driver.C88_multiline_violated",
    "Verif.Driver.C88_last_line_violated",
    "Verif.Driver.C88_eof_violated",
    "Verif.Driver.C88_beyond_violated",
    "Verif.Driver.C88_editions_violated",
    "Verif.Driver.C88_cwd_violated"
   ],
   "note": "Model/Driver.lean models `Compile` with the diagnostics of the files and the linked files as inputs; the sort is the model of C50. The specification splits a text into lines and describes the message of a diagnostic (`Reports`). `C88_error` is complete. Partial, with witnesses: a diagnostic over several lines has no message (`C88_multiline_violated`); in a last line without line feed the last character is lost (`C88_last_line_violated`); a diagnostic at the end of a text that ends with a line feed makes the program panic (`C88_eof_violated`); one behind the end hides all others (`C88_beyond_violated`); files with editions are left out and imports of them panic (`C88_editions_violated`); `os.Stat` is called with a path relative to the workspace (`C88_cwd_violated`). Columns count bytes; layout and colours of messages are not modelled."
  },
  {
   "property": "C89",
   "status": "partial",
   "theorems": [
    "Verif.FormatDoc.C89_current_partial",
    "Verif.FormatDoc.C89_formats_partial",
    "Verif.FormatDoc.C89_language_violated",
    "Verif.FormatDoc.C89_closed_violated"
   ],
   "note": "Model/FormatDoc.lean models one document (overlay, file, last parse result, diagnostics), the notifications and the request; parser, formatter and difference of texts are parameters (a parser that gives no tree reports a syntax error; the difference changes one text into the other). An invariant says that the parse result of an open document is that of its text. The positions of the edits are computed as gopls does and converted back with the model of C05. Partial, with witnesses: a document opened with another language than `protobuf` is not compiled, and formatting replaces the text of the editor by that of the file (`C89_language_violated`); a document that is closed is not compiled again, and formatting brings back the discarded text (`C89_closed_violated`)."
  },
  {
   "property": "C90",
   "status": "partial",
   "theorems": [
    "Verif.Inspect.C90_tokens_partial",
    "Verif.Inspect.C90_once_partial",
    "Verif.Inspect.C90_comments_partial",
    "Verif.Inspect.C90_comments_once_partial",
    "Verif.Inspect.C90_any_violated",
    "Verif.Inspect.C90_inf_violated",
    "Verif.Inspect.C90_bool_array_violated",
    "Verif.Inspect.C90_dot_violated",
    "Verif.Inspect.C90_extension_violated",
    "Verif.Inspect.C90_eof_violated"
   ],
   "note": "Model/Inspect.lean models the walk over a tree whose nodes are those that the visitor distinguishes; the result is the list of calls of `mktokens` and `mkcomments` (their positions are C82). The specification lists, in the order of the text, which leaf gets which type (`expected`) and which leaves only have comments (`quiet`). Both lists are proved to be permutations of what the walk makes; no leaf occurs twice. Partial, with witnesses: the slash of `[url/name]` has two tokens (`C90_any_violated`); so has `inf` in a field of floating point (`C90_inf_violated`); a truth value in an array has two or none (`C90_bool_array_violated`); comments before a type with a leading dot or before `[name]` in a message literal are highlighted twice (`C90_dot_violated`, `C90_extension_violated`); comments at the end of a file not at all (`C90_eof_violated`). Whether the parser marks a word as a keyword is an input; incomplete nodes are those without named children."
  },
  {
   "property": "C91",
   "status": "partial",
   "theorems": [
    "Verif.CelTokens.C91_tokens_partial",
    "Verif.CelTokens.C91_other",
    "Verif.CelTokens.C91_no_panic_partial",
    "Verif.CelTokens.C91_value_violated",
    "Verif.CelTokens.C91_newline_violated",
    "Verif.CelTokens.C91_unnamed_violated",
    "Verif.CelTokens.C91_escape_violated",
    "Verif.CelTokens.C91_trim_violated",
    "Verif.CelTokens.C91_number_violated"
   ],
   "note": "Model/CelTokens.lean models `inspectCelExpr` with the CEL parser as a parameter (list of expressions with positions, or an error). The specification says which text of the file a token covers (`Covers`) and where a word stands in the expression (`At`). `C91_tokens_partial` holds for literals in one line without escape sequences other than the backslash itself. `C91_other` is complete. Violated, with witnesses: `expression` is not a string and the server panics (`C91_value_violated`; the CEL parser rejects the empty text), a line feed in the string makes it panic (`C91_newline_violated`), a field without a name makes it panic (`C91_unnamed_violated`), tokens are shifted by escape sequences (`C91_escape_violated`) and by white space at the start of a part (`C91_trim_violated`), numbers that are printed differently have tokens of the wrong length (`C91_number_violated`)."
  },
  {
   "property": "C92",
   "status": "partial",
   "theorems": [
    "Verif.ImportComplete.C92_import_partial",
    "Verif.ImportComplete.C92_new_partial",
    "Verif.ImportComplete.C92_label",
    "Verif.ImportComplete.C92_syntax_partial",
    "Verif.ImportComplete.C92_again_violated",
    "Verif.ImportComplete.C92_self_violated",
    "Verif.ImportComplete.C92_single_violated",
    "Verif.ImportComplete.C92_line_violated",
    "Verif.ImportComplete.C92_quotes_violated"
   ],
   "note": "Model/ImportComplete.lean models the two cases of `GetCompletions` from the text of the line to the edits, `completeImports` and `completeSyntaxVersions`; the sort is any sort by label. The specification describes a line as parts around the cursor and says what the text is after an item has been accepted. `C92_label` is complete. Partial, with witnesses: files already imported are offered while the statement at the cursor is not resolved (`C92_again_violated`); the file itself is offered (`C92_self_violated`); in single quotes only `public` is offered (`C92_single_violated`); a second string in the line gets nothing (`C92_line_violated`); quotation marks are inserted twice if the tree is older than the text (`C92_quotes_violated`). Which files a workspace contains is C40; trees and compiled imports are inputs."
  },
  {
   "property": "C93",
   "status": "partial",
   "theorems": [
    "Verif.OptionComplete.C93_new",
    "Verif.OptionComplete.C93_ext_partial",
    "Verif.OptionComplete.C93_field_partial",
    "Verif.OptionComplete.C93_sub_partial",
    "Verif.OptionComplete.C93_sub_ext_partial",
    "Verif.OptionComplete.C93_nothing",
    "Verif.OptionComplete.C93_literal_partial",
    "Verif.OptionComplete.C93_scope_partial",
    "Verif.OptionComplete.C93_bare_violated",
    "Verif.OptionComplete.C93_set_violated",
    "Verif.OptionComplete.C93_compact_violated",
    "Verif.OptionComplete.C93_unclosed_violated",
    "Verif.OptionComplete.C93_brackets_violated",
    "Verif.OptionComplete.C93_spaces_violated",
    "Verif.OptionComplete.C93_scope_violated"
   ],
   "note": "Model/OptionComplete.lean models the four callers, the computation of the replaced range and `findCompletionScope`. The specification describes a text as parts around the cursor and compares, for the whole list of items, label, text after acceptance, preselection and added imports. `C93_new` and `C93_nothing` are complete. Partial, with witnesses: an extension completed at a word without parentheses is inserted without them (`C93_bare_violated`); an unclosed parenthesis stays unclosed (`C93_unclosed_violated`); white space inside of the parentheses doubles them (`C93_spaces_violated`); brackets in message literals become parentheses (`C93_brackets_violated`); options that are set are offered while a name is written (`C93_set_violated`); in compact options, the fields of the type of the field are offered in place of its options (`C93_compact_violated`); in methods, oneofs and enum values, the options of another declaration are offered (`C93_scope_violated`). The name of an extension relative to the package is C18; which declaration `deepPathSearch` finds, the list of extensions and the edit of the import are inputs; columns and bytes coincide."
  },
  {
   "property": "C94",
   "status": "partial",
   "theorems": [
    "Verif.GrpcGen.C94_call",
    "Verif.GrpcGen.C94_implements",
    "Verif.GrpcGen.C94_embed",
    "Verif.GrpcGen.C94_opt_out",
    "Verif.GrpcGen.C94_signature",
    "Verif.GrpcGen.C94_modes",
    "Verif.GrpcGen.C94_names_partial",
    "Verif.GrpcGen.C94_files",
    "Verif.GrpcGen.C94_declared",
    "Verif.GrpcGen.C94_embed_names",
    "Verif.GrpcGen.C94_underscore_violated",
    "Verif.GrpcGen.C94_prefix_violated",
    "Verif.GrpcGen.C94_methods_violated",
    "Verif.GrpcGen.C94_stream_violated"
   ],
   "note": "Model/GrpcGen.lean keeps of the generated text the declared names, signatures and what bodies refer to. Spec/GrpcGen.lean is a semantics of such a package: a client method looks up the constant of the path and the element of the stream table, the server splits the path at the last slash and looks up the description and the handler. `C94_call` shows that exactly one outcome is possible, for all packages without duplicate declarations. `C94_names_partial` shows that there are none, by injectivity of all name schemes, for Go names without underscores and without the prefixes that the generator uses, with generic streams (the default). Violations: `C94_underscore_violated` (service `A` with method `B_C` and service `A_B` with method `C`), `C94_prefix_violated` (services `X` and `UnsafeX`), `C94_methods_violated` (methods `get` and `Get`), `C94_stream_violated` (without generics, service `A` with streaming method `B`, and service `AB`). The rules of `google.golang.org/grpc` and names in Go (from `protogen`) are trusted; comments and formatting are left out."
  },
  {
   "property": "C95",
   "status": "partial",
   "theorems": [
    "Verif.Hover.C95_print",
    "Verif.Hover.C95_declaration_partial",
    "Verif.Hover.C95_around",
    "Verif.Hover.C95_kinds_violated",
    "Verif.Hover.C95_package",
    "Verif.Hover.C95_package_none",
    "Verif.Hover.C95_block_partial",
    "Verif.Hover.C95_package_text",
    "Verif.Hover.C95_failures",
    "Verif.Hover.C95_map_violated",
    "Verif.Hover.C95_rpc_violated",
    "Verif.Hover.C95_import_violated",
    "Verif.Hover.C95_stale_violated",
    "Verif.Hover.C95_block_violated"
   ],
   "note": "Model/Hover.lean is `ComputeHover` over the search for the innermost declaration (C75), the last step of `PrintNode`, and the search for parts of package names. `C95_declaration_partial` shows that the declaration is shown for the kinds that the search knows, if the tree is the one that the definition was found in; `C95_around` says what is shown otherwise. Violations: map fields (`C95_map_violated`) and RPCs with a body (`C95_rpc_violated`) show the enclosing declaration, and no tree makes hover show one of them (`C95_kinds_violated`); an import shows the syntax statement of the imported file (`C95_import_violated`); while a file does not compile, another declaration may be shown (`C95_stale_violated`); a line of three backticks in a block comment ends the code block (`C95_block_violated`, otherwise `C95_block_partial`). `C95_print` shows that `PrintNode` panics only for a text that is a single line break. The formatter and the search for definitions are parameters."
  },
  {
   "property": "C96",
   "status": "partial",
   "theorems": [
    "Verif.Publish.C96_order",
    "Verif.Publish.C96_current_partial",
    "Verif.Publish.C96_version",
    "Verif.Publish.C96_progress",
    "Verif.Publish.C96_end_partial",
    "Verif.Publish.C96_stuck_iff",
    "Verif.Publish.C96_start",
    "Verif.Publish.C96_start_violated",
    "Verif.Publish.C96_end_violated",
    "Verif.Publish.C96_failed_violated",
    "Verif.Publish.C96_removed_violated"
   ],
   "note": "Model/Publish.lean is a transition system with one step for each access to shared state; it uses the lists of C07/C08. Spec/Publish.lean states what the client sees in terms of the events of an execution. `C96_order`, `C96_version` and `C96_progress` hold for all executions (progress: until the workspace is removed, every way to go on is finite and ends with nothing under way). `C96_current_partial` needs that flushes find a listener and that sending does not fail. Violations: `C96_start_violated` (what the files have when the workspace is opened is never shown, in all continuations, until it changes: they are compiled and flushed before the listener is installed, and `Stream` does not replay), `C96_end_violated` (removing the workspace during a flush of two documents can block the flush, which holds `resultsMu`, for ever; `C96_stuck_iff` says exactly when), `C96_failed_violated`, `C96_removed_violated`. Trusted: mutexes and channels as in Go; URIs of paths do not change; the conversion of diagnostics is left out."
  },
  {
   "property": "C97",
   "status": "partial",
   "theorems": [
    "Verif.ValueComplete.C97_fields_partial",
    "Verif.ValueComplete.C97_colon",
    "Verif.ValueComplete.C97_docs",
    "Verif.ValueComplete.C97_detail_partial",
    "Verif.ValueComplete.C97_detail_extension",
    "Verif.ValueComplete.C97_values",
    "Verif.ValueComplete.C97_message",
    "Verif.ValueComplete.C97_no_value",
    "Verif.ValueComplete.C97_values_marks",
    "Verif.ValueComplete.C97_top_marks",
    "Verif.ValueComplete.C97_top_partial",
    "Verif.ValueComplete.C97_empty",
    "Verif.ValueComplete.C97_body_partial",
    "Verif.ValueComplete.C97_decl",
    "Verif.ValueComplete.C97_rpc_partial",
    "Verif.ValueComplete.C97_group_violated",
    "Verif.ValueComplete.C97_oneof_violated",
    "Verif.ValueComplete.C97_extension_violated",
    "Verif.ValueComplete.C97_extension_literal_violated",
    "Verif.ValueComplete.C97_detail_violated",
    "Verif.ValueComplete.C97_list_violated",
    "Verif.ValueComplete.C97_edition_violated",
    "Verif.ValueComplete.C97_body_violated",
    "Verif.ValueComplete.C97_unlinked_violated",
    "Verif.ValueComplete.C97_stream_violated"
   ],
   "note": "`Model/ValueComplete.lean` has the items of fields, values and keywords and the cases of `GetCompletions` that make them; the literal under the cursor is found with the model of `deepPathSearch` (C72). The specification applies the edit of an item to the text and splits it at the cursor (`${0}` in snippets). Violations: groups get no braces, fields of a oneof that is set are offered, an extension hides a field with the same name, no field is offered in the literal of an extension, the details of maps and enums, no values in lists, editions, `oneof` and other keywords are missing, a message that is not linked makes the request panic, `stream` replaces the type. The functions in completion.go:1195-1306 other than `newExtensionFieldCompletionItem` are not called by any code."
  },
  {
   "property": "C98",
   "status": "partial",
   "theorems": [
    "Verif.Definition.C98_declaration",
    "Verif.Definition.C98_cursor_partial",
    "Verif.Definition.C98_import",
    "Verif.Definition.C98_package",
    "Verif.Definition.C98_nothing",
    "Verif.Definition.C98_sound",
    "Verif.Definition.C98_no_panic",
    "Verif.Definition.C98_race_violated",
    "Verif.Definition.C98_unlinked_violated"
   ],
   "note": "`Model/Definition.lean` has `findDefinition`, `FindDefinitionForTypeDescriptor`, the lookups of results and `Definition`; it is composed with the models of `deepPathSearch` (C72), of package names (C95) and package references (C61). The specification has source files with lists of declarations; `Built` says how a result of the linker belongs to a source file. Violations: the lock is released between the two lookups, so a compilation in between makes the request panic; a file that is parsed but not linked has a placeholder as result, for which the type assertion panics. The panic for an unknown proto is that of the type assertion in the methods of the parser's result (trusted; not in /repo)."
  },
  {
   "property": "C99",
   "status": "partial",
   "theorems": [
    "Verif.InlayHints.C99_import",
    "Verif.InlayHints.C99_shown",
    "Verif.InlayHints.C99_accepted_partial",
    "Verif.InlayHints.C99_extension_partial",
    "Verif.InlayHints.C99_settings",
    "Verif.InlayHints.C99_error",
    "Verif.InlayHints.C99_links",
    "Verif.InlayHints.C99_unknown",
    "Verif.InlayHints.C99_blank_violated",
    "Verif.InlayHints.C99_outside_violated",
    "Verif.InlayHints.C99_quote_violated",
    "Verif.InlayHints.C99_parts_violated",
    "Verif.InlayHints.C99_line_violated",
    "Verif.InlayHints.C99_range_violated",
    "Verif.InlayHints.C99_descriptor_violated"
   ],
   "note": "Model/InlayHints.lean has the two kinds of hints, the settings and the links; the list of dependencies is that of Model/Links.lean (C57), positions are those of the compiler. A document is a text around each literal (Spec/InlayHints.lean: Site), so that the accepted text and the place of a hint are stated on the text. C99_import and C99_links are inductions over the statements; C99_extension_partial relates token numbers to the text between two offsets. Violations: a range that ends on white space has no extension hints (C99_blank_violated; TokenAtOffset is assumed to return TokenError there, as other callers do), quotation marks in a path (C99_quote_violated), strings in parts with different marks (C99_parts_violated) or on several lines (C99_line_violated), import hints outside of the requested range (C99_range_violated), and a panic for an import that stands for descriptor.proto under another name (C99_descriptor_violated). Not modelled: where the resolved paths in the dependency list come from (the compiler), and the check for a well-formed document, whose answer is a parameter."
  },
  {
   "property": "C100",
   "status": "partial",
   "theorems": [
    "Verif.OptionValues.C100_options_partial",
    "Verif.OptionValues.C100_file_partial",
    "Verif.OptionValues.C100_float",
    "Verif.OptionValues.C100_nearest",
    "Verif.OptionValues.C100_enum_violated",
    "Verif.OptionValues.C100_float_violated",
    "Verif.OptionValues.C100_unknown_violated"
   ],
   "note": "Model/OptionValues.lean: messages as trees, `extractOptions`, `valueToOptions`, `valueForOption`, `sortKeys`, the literal of a message and of map entries, Go's `%f`, with the order of `Range` as a parameter. Spec/OptionValues.lean: an interpreter of option settings for a schema (repeated settings, map entries with defaults, message literals, Any) and well-formed messages. C100_options_partial: whatever settings the printed options mean (the relation of C77), the interpreter gives the message, for every visiting order and every order of the groups; C100_file_partial combines it with C77 to the printed text of a file. C100_float: a finite number survives exactly if it is a multiple of 10^-6. Violations: unknown enum numbers are silently dropped, `%f` loses small digits, options in unknown fields are re-parsed in a copy that is thrown away. Not modelled: uninterpreted options; the lookup of names is a parameter (C19)."
  },
  {
   "property": "C101",
   "status": "partial",
   "theorems": [
    "Verif.Formatter.C101_comments_partial",
    "Verif.Formatter.C101_option_violated",
    "Verif.Formatter.C101_rpc_violated",
    "Verif.Formatter.C101_semicolon_violated",
    "Verif.Formatter.C101_empty_violated",
    "Verif.Formatter.C101_twice_violated",
    "Verif.Formatter.C101_dot_violated",
    "Verif.Formatter.C101_brackets_violated"
   ],
   "note": "Model/Formatter.lean as for C70. Spec/FormatComments.lean: the comments of a text with the lexer of C70, what a comment says (its words), the comments of a tree in the order of the tokens, and `File.Plain`, the list of the places without comments. C101_comments_partial: for every well-formed file with comments only at the other places, the comments of the text are those of the tree, by a second layer of rules over the whole formatter (Lemmas/FormatKeeps*.lean: each writer adds exactly the comments of its tokens, also in cells of columns that are written later). Missing: the places of `File.Plain`. At these the code loses comments or doubles them: at the value of an option in columns, after the semicolon of a method without a body, after a semicolon that follows a closing brace, at empty declarations, at dots of option names, in empty lists of options, and after the name of an option in a list on several lines (written twice); one `_violated` theorem for each."
  },
  {
   "property": "C102",
   "status": "partial",
   "theorems": [
    "Verif.FmtCmd.C102_files_partial",
    "Verif.FmtCmd.C102_safe_partial",
    "Verif.FmtCmd.C102_progress",
    "Verif.FmtCmd.C102_ends",
    "Verif.FmtCmd.C102_program_partial",
    "Verif.FmtCmd.C102_twice_violated",
    "Verif.FmtCmd.C102_stdout_violated",
    "Verif.FmtCmd.C102_panic_violated"
   ],
   "note": "Model/FmtCmd.lean: goroutines as a state machine with one system call (one byte of a write) per step, the semaphore `fdSem`, the error of the group, panics; the formatter is a parameter. C102_files_partial, C102_safe_partial: invariants of all reachable states if no two arguments denote the same file. C102_progress: no deadlock. C102_ends: no infinite execution. C102_program_partial: with the formatter of C70 and C101 and any parser, the tokens and comments of each file are kept. Violations: a file that is given twice may get a mixture of old and new content; the flag -w is never read; a panic for one file leaves others half written. Not modelled here: failing system calls (C31)."
  },
  {
   "property": "C103",
   "status": "partial",
   "theorems": [
    "Verif.Races.C103_guarded_partial",
    "Verif.Races.C103_commands",
    "Verif.Races.C103_unlocks",
    "Verif.Races.C103_symbol_violated",
    "Verif.Races.C103_shutdown_violated",
    "Verif.Races.C103_generate_violated",
    "Verif.Races.C103_completion_violated"
   ],
   "note": "Model/Races.lean: every request is a program of lock operations and accesses (an access has a beginning and an end), run by the asynchronous handler of C26; any part of a program that is neutral with respect to the locks may be left out (branches, errors). C103_guarded_partial: an invariant of all executions relates the holders of each mutex to the operations that are behind each request; a race needs a request that accesses the data without the mutex. C103_commands: without commands there is no race at all. C103_unlocks: the programs release only what they hold. Violations with concrete executions: workspace/symbol and shutdown go through the map of the caches without the mutex, completion reads the results without the mutex, the commands that generate code read the path maps with the wrong mutex. Not modelled: the goroutines within one request, the goroutines that publish diagnostics, the maps of the diagnostics and pragmas (own mutexes)."
  },
  {
   "property": "C104",
   "status": "proved",
   "theorems": [
    "Verif.SymbolQuery.C104_only",
    "Verif.SymbolQuery.C104_found",
    "Verif.SymbolQuery.C104_order",
    "Verif.SymbolQuery.C104_nil",
    "Verif.SymbolQuery.C104_no_panic",
    "Verif.SymbolQuery.C104_limit",
    "Verif.SymbolQuery.C104_progress",
    "Verif.SymbolQuery.C104_ends",
    "Verif.SymbolQuery.C104_caches"
   ],
   "note": "Model/SymbolQuery.lean: a transition system of the request, one goroutine per file (limited to NumCPU), the channel of NumCPU+1 places, the consumer and the cancellation. An invariant says that what is stored, in the channel and still to be sent is a permutation of the declarations that can be found; with C14_best (store) and C15_words_and (query) this gives C104_only, C104_found and C104_order. C104_nil, C104_no_panic from the invariant; C104_progress: in every reachable state that is not final a step other than cancellation is possible; C104_ends: a weight decreases with every step, which bounds the length of every run. C104_caches: the concatenation over the caches. Scores are natural numbers (ScoredBy relates them to the query). Parameters: the declarations of a file (RangeDescriptors), PathToURI, the syntax nodes. Not covered: files that have only a placeholder result (their declarations are not searched); the recursive read lock of FindResultByURI is in C28, the unlocked map of the caches in C103."
  },
  {
   "property": "C105",
   "status": "partial",
   "theorems": [
    "Verif.DecodeCmd.C105_typed",
    "Verif.DecodeCmd.C105_choice",
    "Verif.DecodeCmd.C105_full_name",
    "Verif.DecodeCmd.C105_wire",
    "Verif.DecodeCmd.C105_missing_violated",
    "Verif.DecodeCmd.C105_nested_violated",
    "Verif.DecodeCmd.C105_format_violated"
   ],
   "note": "Model/DecodeCmd.lean: the whole command over the choice of the type (C54) and the reading of the input (C53). Spec/DecodeCmd.lean defines Best (a message at the top level fits in a way in which no other fits better). best_iff and best_of_right relate it to C54_select; from this C105_typed (what is printed), C105_full_name, C105_choice (each of the messages that fit best can be chosen), C105_wire (without a type). Violations: C105_missing_violated (for every type that fits no message the command fails, although its help promises the wire format), C105_nested_violated (nested messages are not found, and their names select other messages without a question), C105_format_violated (an unknown format prints nothing and succeeds). Parameters: the decoders and formatters of the protobuf library, the prompt."
  },
  {
   "property": "C106",
   "status": "partial",
   "theorems": [
    "Verif.TypeComplete.C106_offered",
    "Verif.TypeComplete.C106_text",
    "Verif.TypeComplete.C106_visible",
    "Verif.TypeComplete.C106_import_once",
    "Verif.TypeComplete.C106_detail",
    "Verif.TypeComplete.C106_refers_partial",
    "Verif.TypeComplete.C106_hidden_violated",
    "Verif.TypeComplete.C106_package_violated",
    "Verif.TypeComplete.C106_acyclic_partial",
    "Verif.TypeComplete.C106_cycle_violated"
   ],
   "note": "Model/TypeComplete.lean: completeTypeNamesFromList with maybeResolveImport, over the order of C17 and the import edit of C84. Spec/TypeComplete.lean: import graph (Via: imports, then public imports), Visible, Acyclic, what a label is to be (Shows), what a text refers to (Refers, over Denotes of C18), the text after all edits. C106_offered, C106_text, C106_visible, C106_import_once, C106_detail hold without restriction under the contract that FindDescriptorByName finds a name iff it is Visible (external linker). C106_refers_partial: unless a name of an inner scope hides the first word; witnesses C106_hidden_violated (nested message of the same name: another type is referred to), C106_package_violated (type b.T in package a.b: refers to nothing). C106_acyclic_partial: if the file of the type does not import the document; C106_cycle_violated: otherwise accepting the item makes two files import each other. Not modelled: ImportInsertionPoint (a parameter, C84)."
  },
  {
   "property": "C107",
   "status": "partial",
   "theorems": [
    "Verif.AllDiags.C107_all_partial",
    "Verif.AllDiags.C107_published_partial",
    "Verif.AllDiags.C107_no_panic",
    "Verif.AllDiags.C107_pure",
    "Verif.AllDiags.C107_fails_iff",
    "Verif.AllDiags.C107_removed_violated",
    "Verif.AllDiags.C107_alias_violated"
   ],
   "note": "Model/AllDiags.lean: a heap of diagnostics with addresses, the map of lists, HandleError, HandleWarning, ClearDiagnosticsForPath with DeleteRelated, toProtocolDiagnostics writing to the heap, FullDiagnosticSnapshot copying, XGetAllDiagnostics. Spec/AllDiags.lean: the reports of a file since its last invalidation as a fold over the history (entries), without heap, and what an item is to show (Shows). Lemmas: no address occurs in two lists, and the views of the lists are related to the entries by induction over the history. C107_all_partial and C107_published_partial: histories without invalidation, or in which no report has an other declaration (otherwise DeleteRelated removes reports, C71 says which). C107_pure, C107_no_panic and C107_fails_iff: all histories. C107_removed_violated: after a file with reports was removed, XGetAllDiagnostics fails for ever, although nothing is held for it. C107_alias_violated: of two paths with one URI one list is lost, depending on the order of a map. Not modelled: result ids (C07, C08), tags and code actions (part of the identity, C84), locks."
  },
  {
   "property": "C108",
   "status": "partial",
   "theorems": [
    "Verif.Vet.C108_status_partial",
    "Verif.Vet.C108_exit_zero",
    "Verif.Vet.C108_exit_partial",
    "Verif.Vet.C108_fails",
    "Verif.Vet.C108_messages_partial",
    "Verif.Vet.C108_multiline_violated",
    "Verif.Vet.C108_eof_violated"
   ],
   "note": "Model/Vet.lean composes Model/AllDiags (reports to the map of diagnostics) and Model/Driver (map to messages). Spec/Vet.lean: Stands (a report stands, by the fold of C107 over the history), Tells (what a message says). C108_status_partial and C108_exit_zero (if the files with reports have different documents, C10; histories as for C107), C108_messages_partial (if texts are known and no report is in the last line of its file). C108_multiline_violated: an error over more than one line makes the command fail without a message. C108_eof_violated: an error at the end of a text, such as a missing brace, makes the command panic. Not modelled: the search for files (C40), the compiler, colours."
  },
  {
   "property": "C109",
   "status": "proved",
   "theorems": [
    "Verif.OptionLocations.C109_found",
    "Verif.OptionLocations.C109_every_option",
    "Verif.OptionLocations.C109_own",
    "Verif.OptionLocations.C109_others"
   ],
   "note": "Model/OptionLocations.lean: the table of edges, the loop over a path, the stored paths, PopulateSourceInfoMap and extendOptionLocations over the map of C36. Spec/OptionLocations.lean: elements and their options by the field numbers of descriptor.proto, what a path asks for, which location can stand for it. C109_found (the exact answer), C109_every_option, C109_own, C109_others. By induction over the path for the loop in one direction and over the element in the other; the map by the refinement of C36."
  },
  {
   "property": "C110",
   "status": "partial",
   "theorems": [
    "Verif.PrintPath.C110_path",
    "Verif.PrintPath.C110_at_unique",
    "Verif.PrintPath.C110_distinct",
    "Verif.PrintPath.C110_own_partial",
    "Verif.PrintPath.C110_oneof_nowhere_violated",
    "Verif.PrintPath.C110_elements_partial",
    "Verif.PrintPath.C110_any_order_partial",
    "Verif.PrintPath.C110_oneof_violated",
    "Verif.PrintPath.C110_alias_violated"
   ],
   "note": "Model/PrintPath.lean: findElement over descriptors (parent and index), the path that each printing function looks under, and printOneOf with slices as array, length and capacity. Spec/PrintPath.lean: files as trees, the element at a path by the field numbers of descriptor.proto, own places. C110_path, C110_distinct, C110_own_partial (with the map of C109), C110_elements_partial (options before fields, as the order of the package format gives, any capacity) and C110_any_order_partial. Violated: C110_oneof_violated and C110_oneof_nowhere_violated (a oneof that is printed on its own is looked for under a path that leads nowhere, in every file), C110_alias_violated (in a message nested twice, an option after a field of a oneof is looked for under an overwritten path). Not modelled: what is printed (C77, C80)."
  },
  {
   "property": "C111",
   "status": "proved",
   "theorems": [
    "Verif.Registry.C111_by_name",
    "Verif.Registry.C111_by_number",
    "Verif.Registry.C111_extensions_only"
   ],
   "note": "Model/Registry.lean: both recursions, and protoregistry.Types (external) as two maps that refuse conflicts. Spec/Registry.lean: Inside, Declares, Reexports, Sees, Usable and Linked, by the visibility rules of the language. C111_by_name, C111_by_number, C111_extensions_only. The recursions are unfolded to a list of calls, whose members are characterised by mutual induction over messages and files; an invariant of the registry over the list. Weak imports and placeholders are files without declarations."
  },
  {
   "property": "C112",
   "status": "partial",
   "theorems": [
    "Verif.ResolveEdit.C112_answer",
    "Verif.ResolveEdit.C112_applied_partial",
    "Verif.ResolveEdit.C112_current",
    "Verif.ResolveEdit.C112_refused_partial",
    "Verif.ResolveEdit.C112_changes_violated",
    "Verif.ResolveEdit.C112_reopen_violated"
   ],
   "note": "Model/ResolveEdit.lean: a transition system of client documents with versions, texts told to the server, pending actions (with the text for which they were made), answers in flight, and a client that compares versions as the protocol says. C112_answer (the answer itself), C112_applied_partial by an invariant over executions (each version has one text while documents are not reopened), C112_refused_partial (refused only if the document was changed), C112_current. Violated: C112_changes_violated (a client that did not announce that it resolves edits gets edits without version), C112_reopen_violated (versions begin anew when a document is opened again). The edits themselves are the subject of C78 and the other refactorings; the queue that of C24."
  },
  {
   "property": "C113",
   "status": "partial",
   "theorems": [
    "Verif.DumpAst.C113_lines_partial",
    "Verif.DumpAst.C113_shape_partial",
    "Verif.DumpAst.C113_types",
    "Verif.DumpAst.C113_package_violated",
    "Verif.DumpAst.C113_string_violated"
   ],
   "note": "Model/DumpAst.lean: the traversal with the functions before and after a node and the visitor, all cases. Spec/DumpAst.lean: the line of a node from a list of properties, the nodes with their depths, the shape. C113_lines_partial by induction over the tree (for nodes that are `Fine`), C113_shape_partial (lines are injective in depth, source line and kind; pre-order with depths determines the tree). Violated: C113_package_violated (no line break after a package without name), C113_string_violated (strings are written without quotes). Quoting, the texts of floats and types and `ast.Inspect` are external."
  },
  {
   "property": "C114",
   "status": "partial",
   "theorems": [
    "Verif.GenerateWorkspace.C114_written",
    "Verif.GenerateWorkspace.C114_failed",
    "Verif.GenerateWorkspace.C114_error",
    "Verif.GenerateWorkspace.C114_selected_partial",
    "Verif.GenerateWorkspace.C114_beside_partial",
    "Verif.GenerateWorkspace.C114_collision_violated",
    "Verif.GenerateWorkspace.C114_atomic_violated"
   ],
   "note": "Model/GenerateWorkspace.lean: the loop of writes over a disk (places to contents) with an arbitrary failing write, on top of the model of `GenerateCode` (C86). C114_written, C114_failed, C114_error by induction over the files; C114_selected_partial and C114_beside_partial compose them with C86. Violated: C114_collision_violated (two Go packages with `google/` in their names get the same place and one file is lost without an error), C114_atomic_violated (an error leaves some of the files)."
  },
  {
   "property": "C115",
   "status": "partial",
   "theorems": [
    "Verif.RangeTokens.C115_within",
    "Verif.RangeTokens.C115_complete_partial",
    "Verif.RangeTokens.C115_tokens_partial",
    "Verif.RangeTokens.C115_whole",
    "Verif.RangeTokens.C115_answered",
    "Verif.RangeTokens.C115_blank_violated",
    "Verif.RangeTokens.C115_outside_violated",
    "Verif.RangeTokens.C115_excess_violated"
   ],
   "note": "Model/RangeTokens.lean: the walk of Model/Inspect (C90) with the option `ast.WithRange` (external: skips nodes that end before the first token or begin behind the last), with offsets and tokens as in Model/InlayHints (C99). C115_within, C115_complete_partial and C115_whole by induction over the tree; C115_tokens_partial composes them with C90; C115_answered says when there is an error. Violated: C115_blank_violated (a range that ends on white space or at the end of the text gets no tokens at all), C115_outside_violated (a range that is not in the text is taken for the beginning of the text, the error is ignored), C115_excess_violated (tokens of names outside of the range are answered, too)."
  },
  {
   "property": "C116",
   "status": "partial",
   "theorems": [
    "Verif.PrintFiles.C116_success",
    "Verif.PrintFiles.C116_all",
    "Verif.PrintFiles.C116_error",
    "Verif.PrintFiles.C116_closed",
    "Verif.PrintFiles.C116_disk_partial",
    "Verif.PrintFiles.C116_place",
    "Verif.PrintFiles.C116_distinct_partial",
    "Verif.PrintFiles.C116_path_violated",
    "Verif.PrintFiles.C116_package_violated",
    "Verif.PrintFiles.C116_close_violated"
   ],
   "note": "Model/PrintFiles.lean: the loop as a log of events of writers in arbitrary surroundings, and what the events do to a disk (as in C114). C116_success, C116_all, C116_error, C116_closed and C116_disk_partial by induction over the files. Violated: C116_path_violated (`open` is given `fd.Name()`, the last component of the package, and not the path: no file with an extension is ever opened), C116_package_violated (of two files of a package only the later one remains, without an error), C116_close_violated (errors of `Close` are dropped). External: `Name()` of file descriptors, `filepath.Join`, the file system. C116_place, C116_distinct_partial: with the model of paths of Model/GoPath.lean, below an absolute root directory each file is found under the last component of its package; if these are different, all files are there."
  },
  {
   "property": "C117",
   "status": "proved",
   "theorems": [
    "Verif.Formatter.C117_blank",
    "Verif.Formatter.C117_close",
    "Verif.Formatter.C117_comments",
    "Verif.Formatter.C117_level",
    "Verif.Formatter.C117_inline",
    "Verif.Formatter.C117_remembered",
    "Verif.Formatter.C117_strings"
   ],
   "note": "On Model/Formatter.lean (C70) and Model/FormatWriter.lean (C46). C117_blank: by cases over the writers of tokens that end a line, each leaves the writer at the start of a line with nothing pending; then the text of the next token is computed for every state. C117_close the same for closing brackets. C117_comments: by induction over the comments before the token (comments of one line; comments of several lines are in C49). C117_level: the level after opening and closing brackets. C117_inline: the text of one token of a line, for every state. C117_strings: by induction over the parts of a string literal. C117_remembered: what the state says about the token before."
  }
 ]
}