{"id": "C01", "title": "A wait for a document version is only satisfied by that version", "statement": "A request that waits for version v of a document is let through only if the server has already processed, for that same document, a modification whose version is at least v or which is the 'on-disk' marker -1; it is never let through by modifications of other documents or by older versions.", "quantifier": "every interleaving of waits, cancellations and modification batches, over any set of documents and any versions", "why_tests_cant": "The guarantee is about every history of concurrent waits and updates; a test exercises a handful of schedules.", "anchors": ["pkg/lsp/versions.go: documentVersionQueue.Wait, Update"]}
{"id": "C02", "title": "No lost wake-up for version waiters", "statement": "Once a modification with version >= v (or -1) of a document has been processed, no request waiting for version v of that document stays blocked, no matter how many requests wait for the same version or in which order they arrived.", "quantifier": "every history of waits, cancellations and modification batches", "why_tests_cant": "Lost wake-ups depend on rare orderings of registration and update; unit tests cannot enumerate them.", "anchors": ["pkg/lsp/versions.go: documentVersionQueue.Wait, Update"]}
{"id": "C03", "title": "A wake-up signal is raised at most once", "statement": "Processing modifications never signals the same waiter channel twice (which would crash the server), and waiters for distinct (document, version) pairs never share a signal.", "quantifier": "every history of waits and modification batches", "why_tests_cant": "A double close only shows in particular histories, e.g. re-registration after a wake-up.", "anchors": ["pkg/lsp/versions.go: documentVersionQueue.Update"]}
{"id": "C04", "title": "Semantic tokens survive the wire encoding", "statement": "Decoding the delta-encoded semantic-token array sent to the editor with the LSP decoding rule gives back exactly the computed tokens (line, start, length, type, modifiers) in document order, and no relative offset underflows, for whatever order the tokens were produced in.", "quantifier": "every list of semantic tokens (any positions, types, modifier sets)", "why_tests_cant": "The encoding is stateful across the list; only a statement over all lists excludes drift or underflow.", "anchors": ["pkg/lsp/semantic.go: semanticItems.Data, encodeModifiers"]}
{"id": "C05", "title": "Incremental edits are applied as the protocol prescribes", "statement": "After a textDocument/didChange with several incremental changes the server's text equals the result of applying the changes one after the other, each range interpreted in the text produced by the previous ones; a change set with no changes is rejected.", "quantifier": "every document text and every sequence of content changes", "why_tests_cant": "The number of change sequences and overlaps is unbounded.", "anchors": ["pkg/lsp/documents.go: Cache.ChangedText"]}
{"id": "C06", "title": "Unresolvable documents are dropped from a batch, all others are processed", "statement": "When a batch of file modifications contains documents that do not map to any known proto path, exactly those are dropped and every other modification of the batch is processed, in order.", "quantifier": "every batch and every subset of unresolvable documents", "why_tests_cant": "Correctness depends on positions and number of dropped elements; tests use batches with at most one.", "anchors": ["pkg/lsp/documents.go: Cache.DidModifyFiles"]}
{"id": "C07", "title": "'Unchanged' diagnostics answers are sound", "statement": "If the server answers a pull-diagnostics request with 'unchanged' for a previous result id, the set of diagnostics of that document is the one that was delivered with that id; every add/clear/delete since then makes the next answer a full report.", "quantifier": "every history of diagnostic additions, clears, deletions and pulls", "why_tests_cant": "Staleness needs a particular history of mutations between pulls.", "anchors": ["pkg/lsp/diagnostics.go: DiagnosticList.Add, Get, Clear, resetResultId"]}
{"id": "C08", "title": "Published diagnostics reach the subscriber exactly once and in full", "statement": "After a flush, the most recent report delivered to the subscriber of a document equals the current diagnostics; an unchanged list triggers no publication; a change made while nobody is subscribed is still delivered to a later subscriber.", "quantifier": "every history of additions, clears, flushes and subscriptions", "why_tests_cant": "It is a statement on histories with subscribers coming late.", "anchors": ["pkg/lsp/diagnostics.go: DiagnosticList.Flush, StreamDiagnostics, DiagnosticHandler"]}
{"id": "C09", "title": "Warnings are promoted to errors unless suppressed", "statement": "A reported warning belonging to an error-on-warning category is shown as an error, except when the file carries a debug pragma naming that category (or all); severities of all other diagnostics are left as reported, and no suppression applies to another category.", "quantifier": "every diagnostic, category and pragma text", "why_tests_cant": "Pragma texts are arbitrary strings; the decision table over all of them is not enumerable.", "anchors": ["pkg/lsp/diagnostics.go: toProtocolDiagnostics", "pkg/lsp/pragmas.go"]}
{"id": "C10", "title": "Document URIs and proto paths stay in one-to-one correspondence", "statement": "After any sequence of file creations, openings, deletions and re-mappings, looking up the path of a document and then the document of that path gives back the same document.", "quantifier": "every sequence of file events over any set of documents and canonical paths", "why_tests_cant": "The maps are updated incrementally; inconsistencies need multi-step histories.", "anchors": ["pkg/lsp/resolver.go: Resolver.UpdateURIPathMappings, PathToURI, URIToPath"]}
{"id": "C11", "title": "Suffix matching of imports is a function of its inputs", "statement": "Resolving an import against a source path by the longest common directory suffix returns a candidate built from the original source directory, namely one of best overlap, and never depends on earlier attempts of the same search.", "quantifier": "every pair of source and target paths", "why_tests_cant": "The search re-uses memory between attempts, so only particular path shapes expose interference.", "anchors": ["pkg/lsp/resolver.go: FindSuffixMatchedPath"]}
{"id": "C12", "title": "go_package is read exactly", "statement": "Scanning a proto file for its Go package returns the string between the quotes of the go_package option line (without any ';name' part), or nothing.", "quantifier": "every file content", "why_tests_cant": "Line contents are arbitrary (comments, quotes after the option).", "anchors": ["pkg/lsp/resolver.go: FastLookupGoModule"]}
{"id": "C13", "title": "Position lookup finds the token under the cursor", "statement": "Looking up the semantic token under a cursor position returns a token exactly when some eligible token on that line covers the position, and then returns the first such token in document order.", "quantifier": "every sorted token list and every position", "why_tests_cant": "The lookup stops early; completeness over every list is a universal statement.", "anchors": ["pkg/lsp/search.go: findNarrowestSemanticToken"]}
{"id": "C14", "title": "Workspace symbol search keeps the best matches", "statement": "The symbol list returned for a query is ordered best first, has at most 100 entries, and contains the 100 highest scores among all matching symbols, whatever the order in which files were scanned.", "quantifier": "every sequence of candidate symbols and scores", "why_tests_cant": "The store evicts incrementally; correctness for every insertion order is not testable.", "anchors": ["pkg/x/symbols/symbols.go: symbolStore.Store, TooLow, Results"]}
{"id": "C15", "title": "Query words are combined with AND", "statement": "A symbol matches a multi-word query exactly if it matches every word; words with one of the special characters ^, $ and ' are matched case-sensitively if they have upper-case letters, and ignoring case otherwise.", "quantifier": "every query string and every symbol name", "why_tests_cant": "Unbounded strings.", "anchors": ["pkg/x/symbols/symbols.go: ParseQuery, ComboMatcher, SmartCase, MatchExact"]}
{"id": "C16", "title": "Completion lists keep their order and preselect exactly one item", "statement": "A non-empty completion list has exactly one preselected item, and sorting the items by their sort text (as editors do) reproduces the order computed by the server.", "quantifier": "every completion list", "why_tests_cant": "Sort-text comparison is lexicographic over unboundedly many items.", "anchors": ["pkg/lsp/completion.go: Cache.GetCompletions"]}
{"id": "C17", "title": "Type suggestions are ordered by a consistent order", "statement": "The comparison used to order type-name suggestions by package distance is a strict weak order, so sorting is well defined, deterministic and loses or duplicates no candidate; distance 0 means same package.", "quantifier": "all candidate names and all current packages", "why_tests_cant": "Transitivity is a property of all triples.", "anchors": ["pkg/lsp/completion.go: distanceSort, affineEntrySort, nameDistance"]}
{"id": "C18", "title": "Inserted relative type names denote the chosen type", "statement": "The shortened name inserted for a type, looked up by protobuf scoping rules from the current package, denotes the fully-qualified type the user selected.", "quantifier": "every target name and every current package", "why_tests_cant": "Names are arbitrary dotted strings; package-prefix coincidences are easily missed.", "anchors": ["pkg/lsp/completion.go: relativeFullName"]}
{"id": "C19", "title": "Printed type references denote the referenced type", "statement": "Whenever the descriptor printer shortens a fully-qualified name relative to a scope, prefixing the result with some enclosing scope gives the fully-qualified name back, never shortening beyond the file's package when so required.", "quantifier": "all packages, scopes and names", "why_tests_cant": "Unbounded strings and scope depth.", "anchors": ["pkg/format/protoprint/print.go: Printer.qualifyElementName"]}
{"id": "C20", "title": "Generated names are unused", "statement": "Names invented by refactorings for new messages or fields do not clash with an existing sibling.", "quantifier": "every set of existing names", "why_tests_cant": "The search is bounded inside the code but the set of existing names is not.", "anchors": ["pkg/lsp/refactor.go: findNewUnusedMessageName, findNewUnusedFieldName"]}
{"id": "C21", "title": "Renumbering yields distinct consecutive field numbers", "statement": "After 'renumber fields' all fields of the message have distinct numbers and the fields appear numbered 1,2,3,... in declaration order.", "quantifier": "every message declaration (fields, map fields, oneofs, groups)", "why_tests_cant": "Messages are arbitrary declaration lists.", "anchors": ["pkg/lsp/refactor.go: renumberFields"]}
{"id": "C22", "title": "Inlining a message keeps names and numbers distinct", "statement": "After 'inline message fields' the containing message has pairwise distinct field names and numbers and keeps all its other fields unchanged.", "quantifier": "every containing message and every inlined message", "why_tests_cant": "Clashes need particular combinations of names and numbers.", "anchors": ["pkg/lsp/refactor.go: inlineMessageFields"]}
{"id": "C23", "title": "Extracting fields preserves the remaining message", "statement": "After 'extract fields' the new message has exactly the extracted fields numbered 1..n, the old message keeps every other declaration in order and has one new field that reuses the number of the first extracted field; field numbers that were distinct stay distinct.", "quantifier": "every message and every non-empty set of selected fields", "why_tests_cant": "Arbitrary declaration lists and selections.", "anchors": ["pkg/lsp/refactor.go: extractFields"]}
{"id": "C24", "title": "A deferred code action is resolved at most once", "statement": "Every deferred code action can be resolved at most once, only with the identifier it was handed out under, and not after it expired; distinct actions never share an identifier.", "quantifier": "every interleaving of enqueues, resolves and expiries", "why_tests_cant": "Races between expiry and resolve.", "anchors": ["pkg/lsp/refactor.go: pendingCodeActionManager.enqueue, resolve"]}
{"id": "C25", "title": "Reference search reports each reference once", "statement": "The stream of references contains each distinct reference of the workspace exactly once, and ends only after all files were searched, for any scheduling of the per-file searches.", "quantifier": "every schedule of the concurrent searches and every assignment of references to files", "why_tests_cant": "Schedules cannot be enumerated by tests.", "anchors": ["pkg/lsp/search.go: findNodeReferences"]}
{"id": "C26", "title": "Requests are handled in the order they arrive", "statement": "A request is not started before all previously received ordinary requests were answered; long-lived requests do not hold up later ones, and no request is started twice or skipped.", "quantifier": "every sequence of ordinary and long-lived requests and every schedule", "why_tests_cant": "Ordering violations depend on the schedule.", "anchors": ["pkg/lsprpc/handler.go: AsyncHandler"]}
{"id": "C27", "title": "Every command releases the workspace lock", "statement": "After any workspace command returned, with or without an error, the next request can proceed.", "quantifier": "every sequence of commands and every outcome", "why_tests_cant": "Only the rarely taken error path is affected; the effect is visible on the following request.", "anchors": ["pkg/lsp/commands.go: Server.ExecuteCommand (protols/refreshModules, protols/reindexWorkspaces)"]}
{"id": "C28", "title": "Read requests never block each other for ever", "statement": "Concurrent read requests and document updates always make progress.", "quantifier": "every schedule of readers and writers", "why_tests_cant": "Deadlock needs a writer to arrive between two nested read acquisitions.", "anchors": ["pkg/lsp/semantic.go: ComputeSemanticTokens", "pkg/lsp/inlayhints.go: computeImportHints", "pkg/lsp/cache.go"]}
{"id": "C29", "title": "Organize-imports merging loses nothing", "statement": "Merging several organize-import actions into one keeps every other action unchanged and in order and contains each requested text edit exactly once.", "quantifier": "every list of code actions", "why_tests_cant": "Arbitrary lists and duplicate patterns.", "anchors": ["pkg/lsp/codeactions.go: aggregateOrganizeImportsActions"]}
{"id": "C30", "title": "Code-action kind filters are honoured", "statement": "For a filter of requested kinds the server offers exactly the supported kinds that equal or are sub-kinds of a requested kind; an empty filter means all; a filter with no supported kind is reported as an error.", "quantifier": "every filter list", "why_tests_cant": "Arbitrary kinds and prefixes.", "anchors": ["pkg/lsp/codeactions.go: requestedActionKinds"]}
{"id": "C31", "title": "In-place overwriting never loses the original", "statement": "At every point at which the process may die while a file is rewritten in place, the original content is still available (in the file or in the backup next to it) or the file already holds the complete new content; when the rewrite reports success the file holds exactly the new content and no backup is left; when it reports failure and removed the backup, the file holds exactly the original.", "quantifier": "every original and new content, every partial write, every failing system call and every crash point", "why_tests_cant": "Crash points and short writes cannot be provoked exhaustively.", "anchors": ["pkg/util/gofmt_helpers.go: OverwriteFile, backupFile"]}
{"id": "C32", "title": "Printed string and bytes literals denote the original value", "statement": "The quoted literal the descriptor printer emits for a string or bytes value, read back with protobuf literal rules, denotes the same bytes.", "quantifier": "every byte string", "why_tests_cant": "All byte strings.", "anchors": ["pkg/format/protoprint/print.go: quotedBytes, quotedString"]}
{"id": "C33", "title": "The printer's writer only drops redundant trailing blanks", "statement": "Whatever the sequence of writes, the printed text equals the concatenation of the writes except for single blanks that directly precede ';' or ',' (or the end).", "quantifier": "every sequence of writes", "why_tests_cant": "State is carried between writes.", "anchors": ["pkg/format/protoprint/print.go: writer.Write"]}
{"id": "C34", "title": "Printed comments are well-formed", "statement": "Printing a comment never crashes, and the printed block comment ends exactly where it should: the terminator does not occur inside.", "quantifier": "every comment text and every style/indentation", "why_tests_cant": "All comment texts.", "anchors": ["pkg/format/protoprint/print.go: Printer.printComment"]}
{"id": "C35", "title": "Reserved and extension ranges print faithfully", "statement": "Re-parsing a printed reserved or extension range statement gives the same numbers, for messages and enums, including 'max'.", "quantifier": "every range", "why_tests_cant": "All 32-bit ranges; inclusive/exclusive conventions differ between messages and enums.", "anchors": ["pkg/format/protoprint/print.go: printReservedRanges, printExtensionRanges, elementAddrs.at"]}
{"id": "C36", "title": "Source-info lookup never confuses two descriptor paths", "statement": "Source info stored for one descriptor path is never returned for a different path; the first entry added wins and put-if-absent never overwrites.", "quantifier": "all descriptor paths and all sequences of insertions", "why_tests_cant": "Key collisions over all 32-bit paths.", "anchors": ["pkg/format/protoprint/internal/source_info.go: asMapKey, SourceInfoMap"]}
{"id": "C37", "title": "Scope prefixes are complete and ordered", "statement": "The list of enclosing package scopes consists of all dot-delimited prefixes of the package, longest first, ending with the root.", "quantifier": "every package name", "why_tests_cant": "Unbounded names.", "anchors": ["pkg/format/protoprint/internal/util.go: CreatePrefixList"]}
{"id": "C38", "title": "Default JSON names contain no underscore and keep all other letters", "statement": "The default JSON name of a field is obtained by deleting underscores and upper-casing exactly the letters following one; so json_name is printed exactly for fields whose JSON name differs from it.", "quantifier": "every field name", "why_tests_cant": "Unbounded names.", "anchors": ["pkg/format/protoprint/internal/util.go: JsonName"]}
{"id": "C39", "title": "Go identifiers derived from proto names are valid and stable", "statement": "The Go name derived from a proto name has no '.', does not start with a lower-case letter or underscore, keeps all letters and digits up to capitalisation, and deriving it again changes nothing.", "quantifier": "every proto name", "why_tests_cant": "Unbounded strings; index arithmetic with look-ahead.", "anchors": ["pkg/x/protogen/strs/strs.go: GoCamelCase, GoSanitized"]}
{"id": "C40", "title": "Workspace scanning finds exactly the eligible proto files", "statement": "Scanning directories returns exactly the .proto files that do not lie in a directory named node_modules or vendor, a bazel output directory, or a directory marked DO_NOT_BUILD_HERE, each once.", "quantifier": "every directory tree", "why_tests_cant": "All directory trees, and dependence on listing order.", "anchors": ["pkg/sources/search.go: SearchDirs"]}
{"id": "C41", "title": "Formatting keeps every import", "statement": "Formatting a file keeps, for every imported path, an import of that path with its public/weak modifier; only exact repetitions may be removed.", "quantifier": "every list of imports with any modifiers and comments", "why_tests_cant": "Arbitrary multisets of imports.", "anchors": ["pkg/format/formatter.go: formatter.writeFileHeader, importSortOrder"]}
{"id": "C42", "title": "Formatting keeps and orders file options", "statement": "Formatting writes every file option exactly once, built-in options before custom ones, alphabetically; options of equal name keep their relative order.", "quantifier": "every list of options", "why_tests_cant": "Arbitrary lists.", "anchors": ["pkg/format/formatter.go: formatter.writeFileHeader"]}
{"id": "C43", "title": "Re-quoting string literals keeps their value", "statement": "When the formatter normalises the quotes of a string literal the literal still denotes the same value.", "quantifier": "every string literal", "why_tests_cant": "All literals, including embedded quotes and escapes.", "anchors": ["pkg/format/formatter.go: formatter.writeStringLiteral"]}
{"id": "C44", "title": "Comments converted to block style stay comments", "statement": "A line comment that is moved in-line and turned into a block comment swallows no code and lets none of its text become code.", "quantifier": "every comment text", "why_tests_cant": "All comment texts.", "anchors": ["pkg/format/formatter.go: formatter.writeInlineComments"]}
{"id": "C45", "title": "Formatting keeps every compact option", "statement": "Formatting a one-line '[a = 1, b = 2]' option list writes all its options; options with simple values are written in exactly that layout.", "quantifier": "every option list", "why_tests_cant": "Arbitrary combinations of value kinds.", "anchors": ["pkg/format/formatter.go: formatter.writeCompactOptions"]}
{"id": "C46", "title": "The formatter's writer adds only white space", "statement": "Whatever is written through the formatter's low-level operations, removing blanks from the output gives the written tokens in order, pending blanks never end up before a line break, ';' or ',', each line starts with two blanks per level (one level less before a closing bracket), and indentation returns to its starting value for balanced brackets.", "quantifier": "every sequence of writer operations", "why_tests_cant": "State machine over unbounded operation sequences.", "anchors": ["pkg/format/formatter.go: WriteString, Space, P, Indent, writeRune"]}
{"id": "C47", "title": "Column alignment keeps content and aligns columns", "statement": "Column-aligning a block of fields changes only blanks; within a block all names start in the same column and so do all '=' signs.", "quantifier": "every block of fields", "why_tests_cant": "Arbitrary column widths.", "anchors": ["pkg/format/column_format.go: columnFormatElements", "pkg/format/alg.go: splitSegmentedFields"]}
{"id": "C48", "title": "Grouping for alignment loses no field", "statement": "Splitting declarations into alignment groups and blocks keeps every declaration exactly once and in order.", "quantifier": "every declaration list", "why_tests_cant": "Arbitrary lists.", "anchors": ["pkg/format/alg.go: splitSegmentedFields", "pkg/format/column_format.go: columnFormatElements"]}
{"id": "C49", "title": "Block comments keep their text when re-indented", "statement": "Re-indenting a multi-line block comment changes only white space at line ends, and repeating it changes nothing.", "quantifier": "every comment text", "why_tests_cant": "All comment texts with tabs/blanks.", "anchors": ["pkg/format/formatter.go: writeComment, unindent, computeIndent"]}
{"id": "C50", "title": "Compiled files are delivered in dependency order", "statement": "The list of compiled files handed to generators contains every requested file and all its transitive imports exactly once, each after all files it imports.", "quantifier": "every acyclic import graph", "why_tests_cant": "All graphs.", "anchors": ["sdk/util/transform.go: TopologicalSort"]}
{"id": "C51", "title": "Restoring original file names is complete and idempotent", "statement": "After restoring original names of synthesized files, every file name and every dependency that refers to a synthesized file carries the original name, and restoring again changes nothing.", "quantifier": "every set of files, dependencies and name mappings", "why_tests_cant": "Arbitrary mappings and sharing.", "anchors": ["sdk/util/transform.go: RestoreDescriptorNames", "sdk/driver/driver.go: Driver.Compile"]}
{"id": "C52", "title": "Inferred Go packages do not depend on file order", "statement": "Which files get an inferred go_package, and its value, does not depend on the order in which files are listed; files of different proto packages never share an inferred Go package.", "quantifier": "every set of files and every order", "why_tests_cant": "All permutations.", "anchors": ["sdk/plugin/protogen.go: New"]}
{"id": "C53", "title": "Binary input is decoded as given", "statement": "The decode command interprets binary input byte for byte, and base64 input as its decoding.", "quantifier": "every input byte string", "why_tests_cant": "All byte strings.", "anchors": ["pkg/protols/commands/decode.go: readMaybeBase64AndTrim, looksLikeBase64"]}
{"id": "C54", "title": "Message type selection prefers the most exact match", "statement": "The decode command uses the message with exactly the given full name if there is one, else the unique message with that short name, else the unique message whose full name contains it; otherwise it asks or fails. The choice does not depend on the listing order.", "quantifier": "every set of known messages and every query", "why_tests_cant": "Arbitrary message sets and orders.", "anchors": ["pkg/protols/commands/decode.go: decodeWithType"]}
{"id": "C55", "title": "A document is routed to the workspace that contains it", "statement": "A document is always handled by the workspace folder containing it (the innermost one if nested), independent of the order in which folders were added.", "quantifier": "every set of workspace folders, every document and every map iteration order", "why_tests_cant": "Iteration order is random; path-prefix coincidences.", "anchors": ["pkg/lsp/server.go: Server.CacheForURI"]}
{"id": "C56", "title": "Workspace folders own exactly one live background task", "statement": "After any sequence of workspace folder additions and removals exactly the present folders have a running background task, and each task is cancelled at most once.", "quantifier": "every sequence of folder changes", "why_tests_cant": "Histories with repeated additions.", "anchors": ["pkg/lsp/server.go: cacheInitLocked, cacheDestroyLocked, DidChangeWorkspaceFolders"]}
{"id": "C57", "title": "Computing import hints does not modify compiled files", "statement": "Requesting document links or inlay hints leaves the compiled file's dependency list unchanged, so repeating the request gives the same answer.", "quantifier": "every dependency list and every number of requests", "why_tests_cant": "Damage shows only on repeated requests with certain list shapes.", "anchors": ["pkg/lsp/links.go: ComputeDocumentLinks", "pkg/lsp/inlayhints.go: computeImportHints"]}
{"id": "C58", "title": "Generated-code lookup only considers files generated from the source", "statement": "Looking up generated Go files for a proto file returns only files generated from it, and the generator versions recorded in their header are reported.", "quantifier": "every set of files in the package and every header", "why_tests_cant": "Arbitrary headers.", "anchors": ["pkg/lsp/golang.go: FindGeneratedFiles, ParseGeneratedPreamble"]}
{"id": "C59", "title": "Only workspace files count as workspace-local", "statement": "A file is treated as workspace-local only if it lies inside the workspace folder.", "quantifier": "every workspace root and file path", "why_tests_cant": "All path pairs.", "anchors": ["pkg/lsp/resolver.go: IsRealWorkspaceLocalFile"]}
{"id": "C60", "title": "Completion replaces exactly the identifier under the cursor", "statement": "The text before and after the cursor that a completion item replaces is exactly the identifier under the cursor.", "quantifier": "every identifier and cursor position", "why_tests_cant": "All cursor positions, including outside the identifier.", "anchors": ["pkg/lsp/completion.go: findPartialNames"]}
{"id": "C61", "title": "References without declaration leave out only the declaration", "statement": "A references request with includeDeclaration=false returns all references except the declaration.", "quantifier": "every set of reference locations", "why_tests_cant": "Arbitrary location sets.", "anchors": ["pkg/lsp/references.go"]}
{"id": "C62", "title": "Type names with a leading dot are formatted unchanged", "statement": "Formatting a field whose type is written with a leading dot keeps the type name.", "quantifier": "every dotted type name", "why_tests_cant": "All names.", "anchors": ["pkg/format/formatter.go: writeCompountIdentForFieldName", "pkg/format/column_format.go"]}
{"id": "C63", "title": "Compile bookkeeping keeps one result per file", "statement": "After any sequence of compilations (successful, partial, failed) and deletions, each file has at most one linked result and is recorded as partially linked or unlinked only if its last compilation did not fully link.", "quantifier": "every sequence of compilations and deletions", "why_tests_cant": "Histories of unbounded length.", "anchors": ["pkg/lsp/compiler.go: compileLocked, preInvalidateHook, postInvalidateHook"]}
{"id": "C64", "title": "Indented insertion keeps the text", "statement": "Indenting a multi-line replacement by n blanks adds exactly n blanks after each line break and can be undone.", "quantifier": "every text and indentation", "why_tests_cant": "All texts.", "anchors": ["pkg/lsp/refactor.go: indentTextHanging"]}
{"id": "C65", "title": "String literal tokens tile the literal", "statement": "The semantic tokens emitted for a string literal with escape sequences cover the literal, from the opening to the closing quote, without gaps or overlaps.", "quantifier": "every literal text and every list of escape matches", "why_tests_cant": "All literals with escapes in all positions.", "anchors": ["pkg/lsp/semantic.go: inspect (StringLiteralNode case)"]}
{"id": "C66", "title": "Inlining keeps each field's type and cardinality", "statement": "Inlining a message into its parent gives every moved field the type and the cardinality it had.", "quantifier": "every message and every using field", "why_tests_cant": "Arbitrary field lists and labels.", "anchors": ["pkg/lsp/refactor.go: inlineMessageFields"]}
{"id": "C67", "title": "Notifications about several files are processed", "statement": "For every notification of opened, changed, created, deleted and renamed files, the server keeps running; a deleted document has no path afterwards, a created one has one, documents not mentioned keep theirs; exactly the former paths of the deleted documents and the new paths of the others are recompiled; and every modification of a document with a path is applied to the overlays while deletions are left out.", "quantifier": "every state of the path maps, every list of modifications", "why_tests_cant": "Notifications of any length, in every state of the maps.", "anchors": ["pkg/lsp/documents.go: DidModifyFiles", "pkg/lsp/server.go: DidDeleteFiles, DidCreateFiles, DidRenameFiles"]}
{"id": "C68", "title": "A code action request returns exactly the applicable actions", "statement": "For every request, the actions returned (other than the merged organize-imports action) are exactly the stored actions of its diagnostics with a wanted kind and a known document, the imports offered for undeclared names under the first wanted kind (unambiguous ones only for organize-imports), and the wanted refactorings of a linked document; the merged action contains exactly the edits of the organize-imports ones, one per text; the request fails exactly if a diagnostic cannot be read or a refactoring is wanted and the text mapper is missing; it never crashes.", "quantifier": "every filter, every list of diagnostics, every result of the import search and of the analyzers", "why_tests_cant": "Completeness over all combinations of filters and diagnostics.", "anchors": ["pkg/lsp/codeactions.go: GetCodeActions, toProtocolCodeActions", "pkg/lsp/refactor.go: FindRefactorActions"]}
{"id": "C69", "title": "A printed comment shows its lines in order at the right place", "statement": "Nothing is printed exactly for an empty comment (or a single line break). Otherwise the printer writes the lines of the comment in order, each with one blank before the text and without trailing blanks, after // or between /* and */, on the current line if there is text before it and the comment has one line, otherwise on new lines with the current indentation (continuation lines of an inlined comment with the given deeper indentation), and a block comment is followed by a line break exactly if it is on its own lines.", "quantifier": "every comment text, indentation, style preference and state of the writer", "why_tests_cant": "All comment texts and writer states.", "anchors": ["pkg/format/protoprint/print.go: Printer.printComment, Printer.maybeIndent, inline"]}
{"id": "C70", "title": "Formatting keeps the tokens of a file", "statement": "Reading the text that the formatter writes for a syntax tree with a lexer of the language gives the tokens of the source in the same order: nothing is split, joined with its neighbour, moved into a comment, lost or repeated. Only separators, colons and closing parentheses that are missing, empty option lists, empty declarations and empty bodies of methods may change, and string literals may change their quotes. The formatter does not panic.", "quantifier": "every syntax tree: any nesting of declarations, options and literals, any comments before and after any token, any white space", "why_tests_cant": "The layout depends on comments, white space, nesting and the state of the writer at every token; the property needs an induction over the syntax tree with an invariant between the writer and the lexer.", "anchors": ["pkg/format/formatter.go: formatter.writeFile, writeNode, writeStart, writeInline, writeBody, writeCompactOptions", "pkg/format/column_format.go: columnFormatElements"]}
{"id": "C71", "title": "Clearing the diagnostics of a file keeps those of other files", "statement": "After the diagnostics of a file are cleared it has none, and the diagnostics that other files got on their own account (that is, not as a consequence of a diagnostic of the cleared file) stay, in the same order and with the same result id.", "quantifier": "every history of diagnostics operations on every set of files", "why_tests_cant": "Depends on all combinations of related places in all histories.", "anchors": ["pkg/lsp/diagnostics.go: DiagnosticHandler.ClearDiagnosticsForPath, DiagnosticList.DeleteRelated"]}
{"id": "C72", "title": "The lookup of a descriptor finds what the identifier stands for", "statement": "For a path of nodes from the file to an identifier, the lookup behind go-to-definition, hover, rename and find-references (`deepPathSearch`) returns the descriptor that the identifier stands for by the structure of the file: the declaration of that name in the declaration around it, at any depth; the message or enum that is the type of a field, of the values of a map, of an extended message or of the input or output of a method; the field that the linker has found for a part of an option name; and, in the value of an option, the field set, the type named and the enum value given, in message literals nested to any depth. The range returned is that of the identifier, or of the whole compound identifier for one of its components. At a scalar type nothing is found. It does not hold for maps in files without package, for enums as map values or as compound identifiers, for elements of lists, for declarations in groups, for relative names of messages extended in a message, and for extensions in literals if the linker returns a wrapper.", "quantifier": "All schemas (descriptors are opaque), all files, all paths of nodes, all depths of nesting of declarations and of literals.", "why_tests_cant": "Tests look up a few identifiers in small files. Declarations and literals nest without bound, and the function walks a stack with results that depend on three neighbouring entries, so each combination of parent, node and descriptor is a separate case.", "anchors": ["pkg/lsp/search.go: deepPathSearch", "pkg/lsp/search.go: stackEntry.nextResolved, stack.push", "pkg/lsp/cache.go: FindTypeDescriptorAtLocation"]}
{"id": "C73", "title": "Extracting fields keeps field names distinct", "statement": "If the names of the fields of a message are distinct, they are distinct after 'extract fields', including the name of the new field. It does not hold if the message already has fields with all 100 candidate names.", "quantifier": "every message and every non-empty set of selected fields", "why_tests_cant": "Arbitrary declaration lists; the failure needs 100 fields with particular names.", "anchors": ["pkg/lsp/refactor.go: extractFields, findNewUnusedFieldName"]}
{"id": "C74", "title": "Rename changes exactly the short name at the definition and every reference, or nothing", "statement": "A rename request either is refused as a whole or returns, for every document, exactly one edit per reference in it (and for the definition) that replaces the last component of the name written there by the new name, and no other edits. It succeeds exactly if something that may be renamed (not a file; declared in a workspace file without syntax errors) is at the position, the new full name is valid and unused, and every reference is in a file of the workspace. The new name is an identifier. Preparing a rename succeeds whenever the rename does and offers the short name. It does not hold for references of qualified types of methods (the whole name is replaced) and for new names with a dot (accepted).", "quantifier": "All descriptors, sets of references, documents and new names.", "why_tests_cant": "References are arbitrary in number and form and are spread over files; refusal has to be all-or-nothing for each combination of failing condition.", "anchors": ["pkg/lsp/rename.go: PrepareRename, canRename, Rename"]}
{"id": "C75", "title": "Node under the cursor and nodes in a selection", "statement": "findPathIntersectingToken returns, for a cursor, the path to a node of one of the addressable kinds that contains the cursor: no such path is longer, and among the longest the one that is first in the document is returned; it fails exactly if no addressable node contains the cursor. A node contains the cursor if the cursor is not before its first character and is before the end of its closing token. findPathsEnclosingRange returns exactly the longest of the paths its visitor records, in document order, and fails exactly if none is recorded.", "quantifier": "all syntax trees, closing tokens (missing and virtual ones included), cursors, walker restrictions and visitors", "why_tests_cant": "The answer depends on where nested extents touch; a test checks some cursors in some files, not every tree with every combination of missing and virtual closing tokens.", "anchors": ["pkg/lsp/search.go:648-851", "pkg/lsp/refactor.go:432-443"]}
{"id": "C76", "title": "Order of printed descriptor elements", "statement": "PrintDescriptor emits the elements of a file, message, enum, service or oneof as a permutation of them in the order documented for SortElements: the package, imports by name, builtin options, custom options, then everything else list by list, fields, extensions and enum values by number; elements the order does not tell apart keep their declaration order. The canonical order of the printer (SortElements set) is the one documented at that field.", "quantifier": "all lists of elements of a scope, for descriptors whose elements all have source locations; for at most 20 elements also if none has; the canonical order for all lists", "why_tests_cant": "The comparison functions combine kind, number, name and source location, and a sort with an inconsistent comparison misbehaves only for particular arrangements of the input.", "anchors": ["pkg/format/sort.go:14-46", "pkg/format/protoprint/print.go:751-771", "pkg/format/protoprint/print.go:2165-2251", "pkg/format/protoprint/print.go:2358-2509", "pkg/format/protoprint/sort.go:14-439"]}
{"id": "C77", "title": "A printed descriptor declares what the descriptor contains", "statement": "The text that the descriptor printer writes for a file descriptor consists, for a lexer of the protobuf language, of the declarations of that descriptor: every element (syntax, package, imports, options, messages, fields, groups, map fields, oneofs, enums, values, reserved and extension ranges, reserved names, extensions, services, methods) is declared exactly once in its scope, with its name, number, type, label, options, default value and JSON name; references name the same elements; and nothing else is declared. Comments, indentation, and layout never change or hide a declaration.", "quantifier": "All descriptors of valid proto2 and proto3 files, of any size and depth, all printer settings, all comments, and every order of the elements of a scope.", "why_tests_cant": "A test prints a few files. The property ranges over all nestings, option values, comment placements, and settings, where one missing blank, unterminated comment, or skipped element silently changes the file.", "anchors": ["pkg/format/protoprint/print.go", "pkg/format/protoprint/message_literal.go"]}
{"id": "C78", "title": "\"Simplify repeated options\" keeps the meaning of the options", "statement": "The code action that collects the values of a repeated option field yields declarations in which every field of every option contains the same values in the same order as before, all other declarations are unchanged, and the field is set once, by one array in which values are separated by single commas. It never crashes.", "quantifier": "All lists of declarations of a message, enum or service, all options and message literals in them, in every order, and all positions of the cursor on the name of a repeated field.", "why_tests_cant": "A test fixes a handful of layouts. The property ranges over all combinations of an existing literal, arrays, single values, further fields and options before or after it, other declarations and nesting; values that are lost or reordered give a file that still compiles.", "anchors": ["pkg/lsp/refactor.go"]}
{"id": "C79", "title": "Imports are found, and the files found are those that the server shows", "statement": "Finding the file for an import path yields a path that belongs to a document of the server, with exactly the text that the editor shows for that document (or the descriptor of a synthetic document). Finding that path again yields the same. Files linked into the program take precedence for `google/...`, then documents of the workspace, then proto files of Go packages, then code generated from them, then files relative to the importing file.", "quantifier": "All histories of lookups, compilations and created, moved and deleted files, all contents of file system, editor, Go modules and generated code, all import paths, and all importing files.", "why_tests_cant": "A test has a fixed workspace and a module cache. The property ranges over all histories that lead to the caches from paths to documents and back, and all combinations of places where a path might be found; a wrong choice shows only as a definition that jumps to the wrong file.", "anchors": ["pkg/lsp/resolver.go", "pkg/lsp/golang.go", "pkg/lsp/generated.go", "pkg/lsp/wellknown.go"]}
{"id": "C80", "title": "Printing a descriptor keeps the comments of its elements", "statement": "If a file descriptor has source information with comments for a message, field, group, oneof, enum, enum value, service, method or extension, the text that is printed for the descriptor has the detached and leading comments of the element, all lines in order, directly before its declaration, and the trailing comment directly after the `;` or `{` of the declaration, with nothing but comment marks and white space between. The same holds for the syntax, the package and the imports unless comments of tokens are omitted. Comments of a kind that the printer is told to omit are not required.", "quantifier": "All descriptors (all nestings of messages, groups, oneofs and extensions), all comments, all settings of the printer, and all orders of the elements.", "why_tests_cant": "Tests print a few files with a few comments. Where a comment ends up depends on the path of the element through all nested scopes, on groups and oneofs that are printed at the place of another element, on the order of the elements and on the settings; a lost comment leaves a file that compiles.", "anchors": ["pkg/format/protoprint/print.go"]}
{"id": "C81", "title": "The outline of a document lists its declarations", "statement": "The document symbols of a file are its messages, enums and their values, services and their methods, fields, extensions and groups: each once, in the order of the file, below the symbol it is declared in, with its name, kind and range. The selected range is the name and lies inside the range of the symbol, which lies inside the range of the symbol above.", "quantifier": "All syntax trees, with any nesting.", "why_tests_cant": "Tests compare the outline of a few files; declarations of one kind inside another (extensions in messages, fields in oneofs, groups) multiply, and a missing entry is not noticed.", "anchors": ["pkg/lsp/symbols.go", "pkg/lsp/range.go"]}
{"id": "C82", "title": "Semantic tokens of names and comments cover exactly their text", "statement": "The tokens made for a node of the syntax tree cover the characters of its name and of the comments attached to it: every character of a comment in one or more lines but the line feeds, in order and none twice, with type comment; `//protols:key` of a pragma with type macro; the name with the type asked for. A type name that is broken up by spaces or line feeds has a token for each part. Types of google.protobuf carry the library modifier.", "quantifier": "All nodes, names, comments (of one or more lines) and positions that fit into uint32.", "why_tests_cant": "Lengths are computed from inclusive and exclusive ends, 1-based columns and line splitting; tests that compare token lists contain few comments in several lines and few pragmas.", "anchors": ["pkg/lsp/semantic.go"]}
{"id": "C83", "title": "The search for declarations by prefix finds what begins with the prefix", "statement": "`FindAllDescriptorsByPrefix` and `FindAllDescriptorsByQualifiedPrefix` search all files of the workspace in parallel. Whatever the order in which the searches end, the result is the list of the declarations that pass the filter and whose names begin with the prefix, file by file in the order of the files; a partially linked result stands in for a placeholder. Every search returns, never more searches than processors run at the same time, and if one is cancelled nothing wrong is returned. `Len`, `All` and `Range` of the result agree. Completion of type names is offered exactly the types whose names begin with the text before the cursor.", "quantifier": "All workspaces, prefixes, filters, limits and interleavings of the goroutines, with errors and cancellation at any point.", "why_tests_cant": "The outcome depends on the interleaving of goroutines that write into a shared slice, on cancellation, and on packages and prefixes of all shapes; tests run one interleaving on one workspace.", "anchors": ["pkg/lsp/cache.go", "pkg/lsp/completion.go"]}
{"id": "C84", "title": "Quick fixes for unused imports and undeclared names", "statement": "`Remove unused import` deletes the lines of the import and nothing else. `Add definition` for an undeclared name without dot inserts an empty message of that name behind the last token, and the ranges of its command are the new message and the place between its braces in the new text. An import is offered for an undeclared name exactly for the declarations of that name in other files, and its edit inserts one line. A type that is declared in the package of the file is offered, and with the import the name denotes it. An unused import, and no other error, is a warning tagged as unnecessary.", "quantifier": "All texts, positions that fit into uint32, names, workspaces and interleavings of the search.", "why_tests_cant": "The edits are computed by line arithmetic without looking at the text; whether an import repairs the name depends on the packages and nested names of all files.", "anchors": ["pkg/lsp/diagnostics.go", "pkg/lsp/refactor.go", "pkg/lsp/completion.go"]}
{"id": "C85", "title": "Generated code is written next to its sources and nowhere else", "statement": "For every request to generate code, whatever the generators answer (including names with `..`) and whichever system call fails: every file that is created, changed or left as a backup lies directly in the directory of one of the requested documents that has a package and no `nogen` pragma; code is generated for exactly these documents; if a document is unknown or a generator fails nothing is written; a file whose directory is the import path or the go_package of a document is written into the directory of that document with the generated content; a file of any other directory is refused with an error.", "quantifier": "all document sets, go_package options, generator answers (names and contents), disk contents and system call failures", "why_tests_cant": "The dangerous inputs are file names chosen by plugins and combinations of go_package options and import paths of several documents; tests run a few generators on well-behaved sources.", "anchors": ["pkg/lsprpc/handler.go:122-191", "pkg/util/gofmt_helpers.go:31-141"]}
{"id": "C86", "title": "The code generation API selects the files below the search directories and returns their places", "statement": "`GenerateCode` generates code for exactly the workspace files below one of the given search directories (or all files but those of google.protobuf), returns every generated file with a path in the directory of its source, leaves the list of search directories of the caller as it was, and with the corresponding option replaces incomplete go_package options by valid ones.", "quantifier": "all working directories, search directories, descriptors, generator answers", "why_tests_cant": "Wrong selections need directory names that are prefixes of each other, trailing slashes, or several files with equal import directories.", "anchors": ["sdk/codegen/generator.go:84-190"]}
{"id": "C87", "title": "Calling an external generator returns what the plugin answers", "statement": "For every plugin process and every request, in every interleaving of the two processes: an answer that is returned is the complete output of the plugin on the complete request, and the plugin exited successfully; the call comes to an end (an answer, or an error if the plugin fails) if the plugin does; and the files of the response become the generated files.", "quantifier": "all plugin programs, requests, pipe capacities and interleavings of the two processes", "why_tests_cant": "Deadlocks of pipes need requests larger than the pipe buffers (64 KiB) and a plugin that answers while it reads; broken pipes depend on scheduling.", "anchors": ["sdk/codegen/generators/external/generator.go:51-111"]}
{"id": "C88", "title": "Compiling from the command line reports every diagnostic and delivers every file", "statement": "`Compile` of the driver reports an error exactly if some diagnostic is an error; it has one message for every diagnostic, with file, line, text and the source line with the range marked; it does not panic; without errors it delivers all compiled files, each after its imports, and those of the workspace separately.", "quantifier": "all texts, diagnostics (lines and columns), sets of linked files, directories", "why_tests_cant": "Panics and lost messages need diagnostics at the end of a text, over several lines, files with editions, or a process that runs in another directory; tests compile correct files.", "anchors": ["sdk/driver/driver.go:95-211", "sdk/driver/driver.go:217-238", "pkg/lsp/externalapi.go:29-43"]}
{"id": "C89", "title": "Formatting a document changes the current text into its formatted form", "statement": "A formatting request returns no edits for a document with syntax errors or the pragma `nofmt`; otherwise the edits, applied by the client to the text that it shows, give the formatted form of exactly that text. Nothing that the user has typed is erased.", "quantifier": "all texts, parsers, formatters, sequences of open, change, save, close and disk notifications", "why_tests_cant": "Text is erased only if the parse result is older than the text; this needs a certain order of notifications, or an editor that uses another language identifier.", "anchors": ["pkg/lsp/format.go:11-44", "pkg/lsp/documents.go:52-132", "pkg/lsp/documents.go:140-157", "pkg/lsp/compiler.go:62-125"]}
{"id": "C90", "title": "Every name, keyword, literal and comment is highlighted exactly once", "statement": "For a document without syntax errors, the walk that collects semantic tokens makes exactly one token for each name, keyword, number, string and operator, with the type and modifier that fit its role, and none for punctuation; no two tokens overlap; each comment is highlighted exactly once.", "quantifier": "all syntax trees, linked or not", "why_tests_cant": "Duplicates only show up when a client rejects overlapping tokens; tests look at a few declarations without comments and without message literals of unusual form.", "anchors": ["pkg/lsp/semantic.go:454-684", "pkg/lsp/semantic.go:686-702", "pkg/lsp/semantic.go:790-881", "pkg/lsp/semantic.go:288-314"]}
{"id": "C91", "title": "The tokens of CEL expressions cover the words of the expression", "statement": "In a message literal that is a CEL rule (fields `id` and `expression`), each operator, identifier and literal of the expression gets one token that covers exactly its text in the file; other message literals are not touched; the request does not panic.", "quantifier": "all message literals, texts, results of the CEL parser", "why_tests_cant": "Shifted tokens need escape sequences or indentation inside the string; the panics need a rule whose expression is not a string or contains a line feed.", "anchors": ["pkg/lsp/semantic.go:316-329", "pkg/lsp/semantic.go:600-623", "pkg/lsp/semantic.go:883-968"]}
{"id": "C92", "title": "Completing an import inserts the path of a known file", "statement": "With the cursor in the string of an import statement, the server offers exactly the files it knows whose path begins as typed and that are not imported by another statement; accepting an item makes the string that path and changes nothing else. Behind the keyword of an import without a string, accepting an item inserts the path in quotation marks. In the string of the syntax statement, exactly the versions that begin as typed are offered.", "quantifier": "all texts, cursor positions, known files, imports of the file", "why_tests_cant": "Tests place the cursor at the end of a complete import on a line of its own; half-written statements, single quotes and several statements in a line are where it goes wrong.", "anchors": ["pkg/lsp/completion.go:60-81", "pkg/lsp/completion.go:424-459", "pkg/lsp/completion.go:486-497", "pkg/lsp/completion.go:1102-1168", "pkg/lsp/resolver.go:624-634"]}
{"id": "C93", "title": "Completing the name of an option inserts that name", "statement": "At a place where the name of an option may stand, the server offers exactly the fields of the options message of the declaration around it that begin as typed and may still be set, in their order, and the extensions of that message; accepting an item replaces the word at the cursor by the name of the field, or by the name of the extension in parentheses, and changes nothing else. Behind a dot, it offers the fields of the message that the part before refers to, and nothing if that is not a message. In a message literal, it offers the fields of the message that are not in the literal yet.", "quantifier": "all texts, cursor positions, options messages, sets of extensions, nestings of declarations", "why_tests_cant": "The replaced range depends on which side of each parenthesis the cursor stands; tests complete at one position of complete names.", "anchors": ["pkg/lsp/completion.go:243-294", "pkg/lsp/completion.go:524-586", "pkg/lsp/completion.go:836-865", "pkg/lsp/completion.go:875-989", "pkg/lsp/completion.go:1216-1234"]}
{"id": "C94", "title": "Generated gRPC clients call the right method of the server", "statement": "The code generated for the services of a Go package declares no name twice. If it compiles, calling a method of a generated client reaches exactly the method of the same name of the server of the same service, at a server that runs the generated descriptions; both sides use the streaming mode of the method, and the client sends the request at once if and only if the handler receives it at once. The generated types have the methods of the generated interfaces, the stream types with and without generics have the same operations, and embedding the type for unimplemented servers is mandatory if and only if the option says so. A file is generated for exactly the requested files with services.", "quantifier": "all lists of services, methods, names, streaming modes and options", "why_tests_cant": "The index into the table of streams counts only streaming methods of the service; tests use a service or two with unary methods, in which it is always zero.", "anchors": ["sdk/codegen/generators/golang/grpc/upstream_gen.go:48-129", "sdk/codegen/generators/golang/grpc/upstream_gen.go:201-388", "sdk/codegen/generators/golang/grpc/upstream_gen.go:390-418", "sdk/codegen/generators/golang/grpc/upstream_gen.go:448-589", "sdk/codegen/generators/golang/grpc/generator.go:33-60"]}
{"id": "C95", "title": "Hover shows the declaration of what the cursor is on", "statement": "Hovering over a declared name, or over a reference to it, shows the printed declaration, with its comments, in a code block of which every line is a line of the printed text, with the range of what the cursor is on. Printing takes away nothing but one line break at either end. Hovering over a part of a package name shows the package up to and including that part, the same package whose references are searched from there; between parts and outside of package statements nothing is shown. If there is no definition, or its file cannot be parsed, hovering fails or shows nothing, but never something else.", "quantifier": "all syntax trees, positions, package names, texts, and results of the search for definitions", "why_tests_cant": "The declaration is found a second time, by position, in another tree than the definition; whether both agree depends on the kind of declaration, on the layout of the file and on edits since the last successful link.", "anchors": ["pkg/lsp/hover.go:12-61", "pkg/lsp/packages.go:14-66", "pkg/lsp/packages.go:139-225", "pkg/format/format.go:75-108", "pkg/lsp/search.go:648-787"]}
{"id": "C96", "title": "Diagnostics reach the client", "statement": "Every report that a flush makes is sent to the client, once and in the order in which the reports were made, with the version last given for the document. When nothing is going on after a flush, the client shows the current diagnostics of every document, also those from the time before anybody listened. Flushing, sending and publishing never wait for each other for ever, also when the workspace is removed; then both goroutines end, and the client no longer shows the diagnostics of the workspace.", "quantifier": "all interleavings of the goroutines that compile, listen and publish, all orders of the map of diagnostics, all workspaces, and removal at any time", "why_tests_cant": "Three goroutines share a channel with room for one report and two locks; the order in which they take turns is decided by the scheduler, and the files of a workspace are flushed before the listener is there.", "anchors": ["pkg/lsp/server.go:81-117", "pkg/lsp/diagnostics.go:112-128", "pkg/lsp/diagnostics.go:571-608", "pkg/lsp/cache.go:102-114", "pkg/lsp/documents.go:94-103", "pkg/lsp/versions.go:54-58"]}
{"id": "C97", "title": "Completing fields, values and keywords offers what may stand at the cursor", "statement": "At an empty place of a message literal, the server offers exactly the fields of its message that may still be added, in their order; accepting one inserts the name with a colon, brackets or braces at the cursor and changes nothing else. Where a value of an enum or bool field or option stands or is to stand, it offers exactly the values that begin as typed; for a message, a pair of braces. At the top level, in messages, field declarations and rpc types, it offers exactly the keywords that can stand there and begin as typed, and types for the same word; accepting an item replaces the word at the cursor and nothing else. Details show the type of the field as declared.", "quantifier": "all syntax trees around literals, messages, fields, values, texts and cursor positions, files with any header", "why_tests_cant": "Tests try a few complete files; oneofs, groups, extensions in literals, lists of enum values, editions and messages that are not linked yet need unusual files.", "anchors": ["pkg/lsp/completion.go:103-117", "pkg/lsp/completion.go:136-242", "pkg/lsp/completion.go:247-255", "pkg/lsp/completion.go:352-423", "pkg/lsp/completion.go:502-516", "pkg/lsp/completion.go:661-713", "pkg/lsp/completion.go:744-828", "pkg/lsp/completion.go:991-1013", "pkg/lsp/completion.go:1170-1193", "pkg/lsp/completion.go:1308-1366"]}
{"id": "C98", "title": "Go to definition leads to the declaration", "statement": "With the cursor on an identifier that stands for a declaration, the request returns exactly one location: the name of that declaration in the file that contains it, whatever file that is. On an import it returns the imported file; on a part of the name in a package statement, the package statements of all files with this package or below it. Nothing is returned where nothing is declared, and never a place that is not the name of the declaration.", "quantifier": "all syntax trees, descriptors and positions for which the lookup of C72 is proved, all states of the cache", "why_tests_cant": "Needs descriptors of several files, results that are only partly linked, built-in options, extensions from other files, and compilations that end in the middle of a request.", "anchors": ["pkg/lsp/search.go:853-904", "pkg/lsp/cache.go:199-215", "pkg/lsp/cache.go:298-322", "pkg/lsp/server.go:291-311", "pkg/lsp/packages.go:12-66"]}
{"id": "C99", "title": "Inlay hints and document links show what imports and extensions stand for", "statement": "Import hints are given for exactly the complete import statements that stand for a file with another path than the one written. If the written path is the end of that path, the hint shows the missing beginning directly behind the opening quotation mark; otherwise it shows the path behind the statement. Accepting a hint makes the string of the statement that path and changes nothing else. Extension hints are given for exactly the references in parentheses to message-typed extension fields that touch the requested range: the name of the message, before the closing parenthesis, with the place of its definition. Each kind of hint is given unless the settings switch it off. Document links are given for exactly the complete imports whose file is found; each covers the literal and leads to the URI of the file.", "quantifier": "all documents, import statements, dependency lists, references, ranges, settings and results of the file lookup", "why_tests_cant": "A test has one document with imports in one notation and a range that covers the file; whether the columns are right for each place of a statement, whether a dependency list with an added descriptor.proto stays aligned, and what happens for ranges that end between tokens takes an argument about all texts.", "anchors": ["pkg/lsp/inlayhints.go:12-186", "pkg/lsp/links.go:12-84", "pkg/lsp/settings.go:8-25", "pkg/lsp/range.go:44-56"]}
{"id": "C100", "title": "Printed options give the options message back", "statement": "When a descriptor is printed as source, the options of an element are printed so that reading them as option settings of the language gives the options message again: every field that is set is printed, a list as one setting for each element in order, a map as one setting for each entry, messages as literals with all their fields (lists, maps, extensions, Any), enum values by name, numbers with their value, strings and bytes as literals; in whatever order reflection visits the fields and entries.", "quantifier": "for all schemas, options messages of any depth, visiting orders of Range, printed orders of the options, packages and scopes", "why_tests_cant": "Options messages are unbounded trees, and reflection visits maps and fields in random order, so a test sees one order of one message; values such as unknown enum numbers, small floats and unknown fields are rarely in test data.", "anchors": ["pkg/format/protoprint/print.go:1905-1944", "pkg/format/protoprint/print.go:1946-2008", "pkg/format/protoprint/print.go:1736-1763", "pkg/format/protoprint/message_literal.go:37-88", "pkg/format/protoprint/message_literal.go:154-173", "pkg/format/protoprint/message_literal.go:227-282", "pkg/format/protoprint/print.go:516-550"]}
{"id": "C101", "title": "Formatting keeps the comments", "statement": "Formatting a file keeps its comments: the formatted text has exactly the comments of the source, each one once, in the order of the tokens they belong to, and each says the same words (white space in it may change, and a line comment may become a block comment). No comment is lost, doubled, joined with another one or turned into tokens.", "quantifier": "for all syntax trees (any depth, any comments before and after any token, incomplete declarations included), all layouts, comment prefixes and line lengths", "why_tests_cant": "Comments can be attached to every token of every construct, so the combinations of construct, position and kind of comment are unbounded; golden tests have comments in the usual places only, and the comments that are lost are at places that nobody wrote a test for.", "anchors": ["pkg/format/formatter.go:2265-2288", "pkg/format/formatter.go:2305-2318", "pkg/format/formatter.go:1590-1605", "pkg/format/column_format.go:365-417", "pkg/format/formatter.go:471-500", "pkg/format/formatter.go:260-380"]}
{"id": "C102", "title": "The fmt command formats the files it is given", "statement": "`protols fmt files...` replaces every given file that parses by its formatted text and leaves all other files as they are: files with errors and files that were not given are unchanged, no backup files remain, the command succeeds exactly if all files could be formatted and else reports an error of one of them. At each moment each file has its old or its new content or there is a backup with the old content. The command ends. With -w the files are written, without it the result goes to the standard output.", "quantifier": "for all numbers of files, contents, formatters, and all interleavings of the goroutines that format the files", "why_tests_cant": "The files are formatted by concurrent goroutines that share a semaphore with 200 places, so the number of interleavings is unbounded; a race between two goroutines on one file is seen only with a particular timing.", "anchors": ["pkg/protols/commands/fmt.go:10-28", "pkg/format/format.go:16-53", "pkg/util/gofmt_helpers.go:29-141"]}
{"id": "C103", "title": "The shared maps of the server are not accessed concurrently", "statement": "No two requests access one of the shared maps and slices of the server (the workspace caches, the compiled results and partial results of a cache, the path maps of its resolver) at the same time if one of them changes it. In Go such an access ends the whole process ('concurrent map iteration and map write') or gives an arbitrary result. No request releases a mutex that it does not hold.", "quantifier": "for all sequences of requests and commands, all numbers of caches, files and results, all interleavings of the handlers that the asynchronous handler admits", "why_tests_cant": "A data race shows only if the two accesses overlap, within microseconds; the tests send one request at a time, and the race detector sees only the executions that happen.", "anchors": ["pkg/lsp/server.go:81-131", "pkg/lsp/server.go:216-259", "pkg/lsp/server.go:759-796", "pkg/lsp/server.go:855-884", "pkg/lsp/commands.go:80-220", "pkg/lsp/compiler.go:62-162", "pkg/lsp/documents.go:50-99", "pkg/lsp/externalapi.go:63-83", "pkg/lsp/resolver.go:74-112", "pkg/lsprpc/handler.go:61-131"]}
{"id": "C104", "title": "A workspace symbol request finds every matching declaration", "statement": "workspace/symbol answers with at most 100 symbols, best match first. Every symbol of the answer is a message (not that of a map entry), enum, service, method, field or enum value of a compiled file of the workspace, shown with its own full name, kind, container and place, and its name matches all words of the query. Every such declaration that matches is in the answer, unless 100 other declarations match at least as well. An answer without symbols for lack of a result is given only if the request was cancelled. The request neither deadlocks nor runs forever nor sends on a closed channel, and the answer for several workspaces has the symbols of each of them.", "quantifier": "for all files and declarations, all queries, all numbers of CPUs, all interleavings of the goroutines of the files, of the goroutine that stores and of the cancellation", "why_tests_cant": "The search runs one goroutine per file that share a small channel; lost symbols, a send on the closed channel or a deadlock depend on the interleaving and on the moment of cancellation, and the ranking matters only with more than 100 matches.", "anchors": ["pkg/lsp/symbols.go:50-153", "pkg/lsp/cache.go:455-473", "pkg/lsp/server.go:855-861", "pkg/x/symbols/symbols.go:17-71"]}
{"id": "C105", "title": "The decode command prints the input as the named message", "statement": "protols decode --type prints the value of the standard input (base64 or binary), in the format that was asked for, decoded as the message of the workspace that fits the given type best: by its full name, else by its name, else by containing the type disregarding case. If several messages fit equally well, the user is asked and gets the message that was chosen, and each of them can be chosen. If no message fits or no type is given, a text of the wire format is printed, without tabs. Messages at every depth can be named; a format that does not exist is an error.", "quantifier": "for all files and messages, all types, inputs and formats, all answers of the user and all decoders", "why_tests_cant": "Which message is used depends on all other messages of the workspace; decoding with a wrong message often succeeds (unknown fields), so the mistake shows only as wrong output.", "anchors": ["pkg/protols/commands/decode.go:26-179", "pkg/lsp/externalapi.go:85-97"]}
{"id": "C106", "title": "Accepting a type makes its name stand in the document and known there", "statement": "The completion of a type name offers one item for each message and enum that was found, in the order of distance. The label is the full name (with a leading dot if one was typed), or the name without the package of the document if the text at the cursor has no dot. Accepting an item replaces the word at the cursor by the label; if the document does not see a declaration of that name, exactly one import, of the file of the type, is inserted at the insertion point. Afterwards the document sees the type, the inserted name refers to it by the scoping rules, no file is imported twice, the document does not import itself and no files import each other in a circle. The detail shows the full name and, unless the type is known and of the same package, its file.", "quantifier": "for all candidates, documents, packages, scopes, import graphs with public imports, texts and cursor positions", "why_tests_cant": "Whether an import is needed depends on public imports through any number of files, and what a short name refers to depends on all names of the scopes around it; tests accept no items and compile no results.", "anchors": ["pkg/lsp/completion.go:1057-1100", "pkg/lsp/completion.go:1537-1552", "pkg/lsp/completion.go:588-595"]}
{"id": "C107", "title": "The report of all diagnostics shows what the compiler reported", "statement": "XGetAllDiagnostics has an entry for each file that the compiler has ever reported something for, and no other. The entry has one diagnostic for each report since the file was last invalidated, in the order of the reports, with its range, message and category; its severity is error if it was reported as an error or has a category that the debug pragma of the file does not tolerate (now or when it was published before), and warning otherwise; its related information is the other declaration, if the file of that is known. The publication of the diagnostics of a file shows the same. XGetAllDiagnostics changes nothing that is published or reported later, and nothing panics.", "quantifier": "for all histories of errors, warnings, invalidations, publications and earlier calls, all pragmas, all maps from paths to URIs and all iteration orders of the maps", "why_tests_cant": "The conversion writes the severity into the stored diagnostic through a pointer, and the snapshot shares or copies it; whether that is seen later depends on the whole history. Tests call XGetAllDiagnostics once on a fresh cache.", "anchors": ["pkg/lsp/externalapi.go:12-26", "pkg/lsp/diagnostics.go:49-108", "pkg/lsp/diagnostics.go:112-128", "pkg/lsp/diagnostics.go:419-497", "pkg/lsp/diagnostics.go:512-569"]}
{"id": "C108", "title": "The command vet fails exactly if the compiler found an error", "statement": "If `protols vet` returns, it returns the error `one or more errors occurred` exactly if, among the reports of the compiler that stand after loading (made for a file that was not invalidated since), one is an error or has a category that the debug pragma of its file does not tolerate. The exit status is 0 only if there is none and every file with a report has a document. For each report in one line that stands it prints a message with file, line, text and severity, and no other messages.", "quantifier": "for all histories of reports of the compiler, all texts, places, pragmas, documents and iteration orders of both maps", "why_tests_cant": "The status depends on what passes through a snapshot of pointers, a map from URIs and a loop that drops messages; tests do not run the command. A false pass in continuous integration shows only when the rare path is taken.", "anchors": ["pkg/protols/commands/vet.go:13-37", "sdk/driver/driver.go:95-211", "pkg/lsp/externalapi.go:12-26", "pkg/protols/root.go:30-34"]}
{"id": "C109", "title": "Every option has a source location, and its own", "statement": "The location found for a path is the first one of the source info with exactly that path. If there is none and the path asks for an option of an element (the option as a whole, or an element of its value), it is the first location at or below the option, which for an element other than the first is at or below that element. So an option of which any part has a location has a location as a whole and for its first element, a location found for an option never belongs to another option, and paths that do not ask for an option get no new location.", "quantifier": "for all source infos with paths of 32-bit numbers, all nestings of elements, and all paths", "why_tests_cant": "The extension follows a table of field numbers of every descriptor to any depth and writes under paths padded with zeros; a wrong number, index or order attaches the comments of one option to another, which tests with a few options do not show.", "anchors": ["pkg/format/protoprint/print.go:1795-1903", "pkg/format/protoprint/internal/source_info.go:66-80", "pkg/format/protoprint/internal/util.go:35-182"]}
{"id": "C110", "title": "A descriptor that is printed on its own has its own comments", "statement": "`PrintProto` of a message, field, extension, oneof, enum, enum value, service or method writes the comments of the first location of the source info for the place of that element in its file, and none if there is no such location; different descriptors have different places. Within a oneof, the oneof, its name, each option and each field get the comments of their own places, in whatever order they are printed.", "quantifier": "for all files with any nesting, all descriptors of the file, all source infos, all orders of the elements of a oneof, and all capacities of the path slices", "why_tests_cant": "The paths are built by appends to shared slices, so whether a path is overwritten depends on the depth of the nesting and on the growth of arrays in the Go runtime; a wrong path shows only as a missing comment.", "anchors": ["pkg/format/protoprint/print.go:349-444", "pkg/format/protoprint/print.go:1182-1242", "pkg/format/format.go:55-66"]}
{"id": "C111", "title": "The printer knows exactly the types that a file may use", "statement": "After `RegisterTypesForFile`, a look-up by name finds exactly the messages, enums and extensions that are declared at any depth in the file, in a file that it imports, or in one that these import publicly, directly or through further public imports; and a look-up by message and number finds exactly the extensions among them. `RegisterExtensionsForFile` does the same for extensions only.", "quantifier": "for all linked files, all nestings of messages, all graphs of imports without cycles, all names and numbers", "why_tests_cant": "The types are collected by two nested recursions, and a file may be reached by several chains, so that types are registered repeatedly and conflicts are ignored; a missed chain shows only for options that come by it.", "anchors": ["pkg/format/protoprint/internal/registry.go:9-42", "pkg/format/protoprint/print.go:353-354"]}
{"id": "C112", "title": "Edits of a code action reach only the text for which they were made", "statement": "Resolving a pending code action answers with exactly the edits that its refactoring computed, for its document and the version of the syntax tree from which it was computed, or with an error if the refactoring fails. Whatever changes of documents, offers, expirations and resolutions happen in between, a client applies the edits only to the text for which they were made; and it applies them if the document still has that version.", "quantifier": "for all executions of any length, any number of documents, actions and answers in flight, and all orders of events", "why_tests_cant": "The text may change between the offer of an action, its resolution up to 30 seconds later, and the arrival of the answer; the interleavings cannot be enumerated, and a stale edit destroys text without any error.", "anchors": ["pkg/lsp/server.go:864-876", "pkg/lsp/server.go:822-825", "pkg/lsp/refactor.go:40-104", "pkg/lsp/refactor.go:243-253"]}
{"id": "C113", "title": "The dump of a syntax tree shows the whole tree", "statement": "The answer of the command `protols/ast` consists of exactly one line for each node of the syntax tree, each before its children, indented by its depth, with the line of the source where the node begins, its type, the type of its descriptor, the numbers of its comments and its properties. Two trees with the same dump have the same shape: the same kinds of nodes from the same lines, nested in the same way.", "quantifier": "for all syntax trees of any size and depth, any texts, and any width of the line numbers", "why_tests_cant": "The number of kinds of nodes times their optional parts is large and the trees are unbounded; that a dump can be read back unambiguously is a statement about all pairs of trees.", "anchors": ["pkg/format/ast.go:14-49", "pkg/format/ast.go:55-68", "pkg/format/ast.go:69-254", "pkg/lsp/commands.go:91-108"]}
{"id": "C114", "title": "What generating a workspace leaves on the disk", "statement": "`GenerateWorkspace` succeeds exactly if compiling, generating and all writes succeed. After a success each generated file is on the disk with its content, beside the document for which it was generated, and nothing else is changed; code is generated exactly for the documents of the workspace below the working directory. After an error nothing is changed, or the files before the one that could not be written are on the disk and those after it are as they were.", "quantifier": "for all working directories, workspaces, generators, numbers of files, initial contents of the disk and all patterns of failing writes", "why_tests_cant": "The places of the files depend on import paths, Go packages and the working directory, and a write may fail at any point; that nothing else on the disk changes is a statement about all other paths.", "anchors": ["sdk/codegen/generator.go:202-217", "sdk/codegen/generator.go:84-190", "sdk/codegen/generator.go:44-46"]}
{"id": "C115", "title": "Semantic tokens of a range", "statement": "The answer to a request for the semantic tokens of a range (`ComputeSemanticTokensRange`) has the tokens and comments of the answer for the whole document that lie in the range, in the same order, and none that the answer for the whole document has not; in the range each leaf of a name, each keyword, number, string and operator has exactly one token of the right type. A range over the whole document gets the answer for the whole document.", "quantifier": "for all documents, syntax trees of any depth, lists of tokens and ranges, also ranges that are not in the text", "why_tests_cant": "The walk prunes subtrees by comparing token numbers, and tokens of names are made at the parent and not at the leaf; whether a token is lost depends on the shape of the tree above it and on where in the white space between the tokens the range ends.", "anchors": ["pkg/lsp/semantic.go:169-197", "pkg/lsp/semantic.go:135-149"]}
{"id": "C116", "title": "Printing many files", "statement": "`PrintProtoFiles` returns no error exactly if all files can be opened and printed, prints them in order, and closes each writer that it opened before it opens the next, also after an error; after an error the files before the one that failed are printed and those behind it are not opened. `PrintProtosToFileSystem` leaves each file below the root directory at its path with the printed text, and changes nothing else.", "quantifier": "for all lists of file descriptors, all outcomes of opening, printing and closing, and all contents of the disk", "why_tests_cant": "Opening, writing and closing may each fail at any file; that no writer stays open and nothing else on the disk changes is a statement about all of these combinations and all other paths.", "anchors": ["pkg/format/protoprint/print.go:247-279", "pkg/format/protoprint/print.go:310-312"]}
{"id": "C117", "title": "Blank lines", "statement": "After a token that ends a line (the end of a statement, an opening or a closing bracket) the formatter writes the first token of the next element on a line of its own. Before it there is exactly one blank line if the source had one or more blank lines there and the line before does not open a block, and none otherwise; before a closing bracket there is never one. Comments before the element stand on lines of their own at its level, with the same rule for blank lines. An opening bracket makes what follows one level deeper, a closing one less deep. Within a line, a blank that is asked for is written once, but not behind a blank or an opening bracket and not before a separator or a closing bracket. The parts of a string literal stand on lines of their own one level deeper.", "quantifier": "for all states of the formatter, all tokens (with all comments of the token before) and all white space in the source", "why_tests_cant": "Whether a blank line appears depends on the state that the token before left behind (the previous node, pending blanks, pending indentation) and on the white space of the source; tests show it for some pairs of tokens.", "anchors": ["pkg/format/formatter.go:1955-2014", "pkg/format/formatter.go:2069-2105", "pkg/format/formatter.go:2184-2207", "pkg/format/formatter.go:1590-1637", "pkg/format/formatter.go:2566-2588"]}
