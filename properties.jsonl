{"id": "C01", "title": "Semantic token delta reproduces the new token stream", "statement": "Given the token stream the client holds and the token stream the server has just computed, the edit list of a semanticTokens/full/delta response, applied by the client as LSP prescribes (offsets and lengths in integers, five per token), turns the former into exactly the latter, and no edit reaches outside the old stream.", "quantifier": "every pair of token sequences, of any lengths and with any overlap of common prefix and suffix", "why_tests_cant": "The interesting pairs are those where prefix and suffix overlap or one stream is a repetition of the other; there are infinitely many and no test suite enumerates them.", "anchors": ["crates/tinymist-query/src/semantic_tokens_delta.rs: token_delta", "crates/tinymist-query/src/semantic_tokens_delta.rs: SemanticTokensDeltaRequest"]}
{"id": "C02", "title": "Delta responses are relative to what the client was really sent", "statement": "For one document, in any history of semantic token requests (full, delta with any previous result id, cache clears), a delta answer is only given when the quoted previous result id is still known, and then applying it to the tokens that were sent under that id produces the current tokens; otherwise a full answer is given.", "quantifier": "every sequence of token requests, overlapping request lifetimes, releases and cache clears", "why_tests_cant": "It depends on the whole request history and on when old results are garbage collected, not on a single request.", "anchors": ["crates/tinymist-query/src/adt/revision.rs: RevisionManager, RevisionManagerLike", "crates/tinymist-query/src/analysis/semantic_tokens.rs: SemanticTokenCache, SemanticTokenContext"]}
{"id": "C03", "title": "Reads see the newest layer: editor buffer over notified content over disk", "statement": "Reading a file returns the content of the most recently opened/edited editor buffer for it if one exists, otherwise the most recent content delivered by the file watcher, otherwise what is on disk; removing the buffer uncovers the layer below.", "quantifier": "every history of buffer insertions/removals, watcher deliveries and reads, over every set of paths", "why_tests_cant": "A test fixes one order of a few operations; the claim is about all interleavings of operations on all layers.", "anchors": ["crates/tinymist-vfs/src/lib.rs: Vfs::content, RevisingVfs", "crates/tinymist-vfs/src/overlay.rs: OverlayAccessModel", "crates/tinymist-vfs/src/notify.rs: NotifyAccessModel", "crates/tinymist-vfs/src/resolve.rs: ResolveAccessModel"]}
{"id": "C04", "title": "Snapshots are isolated from later revisions", "statement": "A snapshot of the file system handed to a running compilation or query returns the same content for a file on every read, whatever edits, watcher events or buffer changes are applied to the live file system afterwards; and reads on a new revision do not return content that was superseded before that revision.", "quantifier": "every interleaving of reads on old snapshots with edits and reads on newer revisions", "why_tests_cant": "The failing schedules need a read on an old snapshot to race with a later edit; a test runs only a few schedules.", "anchors": ["crates/tinymist-vfs/src/lib.rs: Vfs::snapshot, Vfs::revise, RevisingVfs::commit, SourceCache, SourceIdShard"]}
{"id": "C05", "title": "Skipping a recompilation is only done when nothing read has changed", "statement": "When the server decides that a change is harmless and keeps the previous compilation result, none of the files that compilation depended on has a different content now.", "quantifier": "every history of edits, watcher events, cache evictions and resets between the compilation and the decision", "why_tests_cant": "A false 'clean' verdict needs a particular combination of change and cache maintenance; the set of such histories is infinite.", "anchors": ["crates/tinymist-vfs/src/lib.rs: Vfs::is_clean_compile, Vfs::evict, Vfs::reset_all", "crates/tinymist/src/project.rs: CompileHandlerImpl::on_any_compile_reason"]}
{"id": "C06", "title": "The file watcher's last report agrees with the disk", "statement": "After the last file system event concerning a watched file has been processed and pending rechecks have run, the content most recently reported for the file equals the file's content on disk, including removal and truncation; and a file whose content did not change is not reported.", "quantifier": "every sequence of file system events, file contents observed at each event, dependency updates and recheck timings", "why_tests_cant": "Editors truncate then rewrite files; the outcome depends on how reads, events and delayed rechecks interleave.", "anchors": ["crates/tinymist-project/src/watch.rs: NotifyActor::notify_entry_update, recheck_notify_event, update_watches"]}
{"id": "C07", "title": "Only changed, watched files are reported and each watched file has a reported content", "statement": "After a set of dependencies has been synchronised to the watcher, every one of them has been reported with the content read from disk, files no longer depended upon are not watched any more, and a later report for a file always differs from the previous report of that file.", "quantifier": "every sequence of dependency sets and file system events", "why_tests_cant": "The watch table accumulates over a whole session; a unit test covers one or two updates.", "anchors": ["crates/tinymist-project/src/watch.rs: NotifyActor::update_watches, notify_event"]}
{"id": "C08", "title": "Editor edits are never overtaken by older ones", "statement": "After all pending messages have been processed, the content of every opened buffer seen by the compiler is the content of the client's last edit of that buffer.", "quantifier": "every interleaving of memory events with watcher acknowledgements, including several delayed memory events in flight", "why_tests_cant": "The order in which delayed edits and acknowledgements arrive is decided by another thread.", "anchors": ["crates/tinymist-project/src/compiler.rs: ProjectCompiler::process_inner, apply_delayed_memory_changes, apply_memory_changes", "crates/tinymist-project/src/watch.rs: NotifyActor::run"]}
{"id": "C09", "title": "No change is forgotten: every change leads to a compilation that includes it", "statement": "Whenever an edit, a file system change or an entry change reaches a project, the project has a pending compile reason until a compilation that started after the change is issued or the change is found not to concern the files it last read; results are committed in increasing revision order only.", "quantifier": "every sequence of events and every completion order of compilations", "why_tests_cant": "Lost wake-ups and stale commits show only under particular orders of events and completions.", "anchors": ["crates/tinymist-project/src/compiler.rs: ProjectCompiler::process_inner, ProjectInsState::may_compile, process_compile, CompileReasons"]}
{"id": "C10", "title": "Dedicated project instances are independent", "statement": "Restarting or removing a dedicated project leaves the primary and all other dedicated projects as they were; ids of live projects stay distinct; removing a project clears the diagnostics it published and its file dependencies.", "quantifier": "every sequence of restart/remove/settle operations over all group names", "why_tests_cant": "The bookkeeping is shared between instances; mistakes appear only for particular sequences.", "anchors": ["crates/tinymist-project/src/compiler.rs: restart_dedicate, remove_dedicates, process_inner"]}
{"id": "C11", "title": "Lock file updates keep one entry per id, with the last value, in canonical order", "statement": "After any sequence of document, task and route updates committed to a lock file in which no id occurs twice, looking up an id returns the value of the last update for it (or the previous value), no id occurs twice in documents or tasks, documents and tasks are in canonical order, the documents and tasks do not depend on the order in which updates to different ids were made, and the routes are the untouched old ones followed by the updated ones ordered by their last update. Starting from an absent lock file, the file on disk reads back with these values after any number of commits.", "quantifier": "every initial lock file and every sequence of updates", "why_tests_cant": "It is a statement about all histories of updates.", "anchors": ["crates/tinymist-project/src/lock.rs: replace_document, replace_task, replace_route, sort, LockFileUpdate::commit"]}
{"id": "C12", "title": "A lock file from the future is never overwritten", "statement": "A lock file update leaves the file untouched when the stored version is newer than the supported one, or is not a version at all, or the update fails, or nothing changed.", "quantifier": "every stored version string and every update function", "why_tests_cant": "All version strings, including pre-releases and malformed ones, must be classified correctly.", "anchors": ["crates/tinymist-project/src/lock.rs: LockFile::update, Version", "crates/tinymist-task/src/model.rs: LockFileCompat"]}
{"id": "C13", "title": "Crash safety of the lock file", "statement": "If the process is killed at any point while a lock file is updated, the lock file afterwards is either the old or the new one.", "quantifier": "every crash point between and inside the file system operations of an update", "why_tests_cant": "Crash points cannot be enumerated by running the code.", "anchors": ["crates/tinymist-project/src/lock.rs: LockFile::update"]}
{"id": "C14", "title": "Exports and materials are written atomically", "statement": "If the process is killed at any point while an exported document (or cached material) is written, the target path holds either its previous content (or absence) or the complete new content, and concurrent readers never see anything else.", "quantifier": "every crash point, every previous content and every new content", "why_tests_cant": "Crash points cannot be enumerated by running the code.", "anchors": ["crates/tinymist-std/src/fs/paths.rs: write_atomic", "crates/tinymist/src/task/export.rs: ExportTask::do_export"]}
{"id": "C15", "title": "Every request is answered exactly once", "statement": "For every history of incoming requests with distinct ids, cancellations, and completions of handlers in any order, each request gets at most one response, carrying its id; a request whose handler completes gets exactly one; a cancelled request gets exactly one response, the cancellation error if it was cancelled before completing.", "quantifier": "every interleaving of requests, cancellations and handler completions", "why_tests_cant": "Responses come from many threads in any order.", "anchors": ["crates/sync-lsp/src/req_queue.rs: Incoming", "crates/sync-lsp/src/server.rs: LspClient::respond, schedule_query", "crates/sync-lsp/src/server/lsp_srv.rs: on_notification"]}
{"id": "C16", "title": "LSP initialisation and shutdown protocol", "statement": "Before initialization completes every request other than the first initialize is refused with ServerNotInitialized, a second initialize in an open session is refused, after shutdown every request is refused with InvalidRequest, between the two a registered method reaches its handler, notifications outside the open session are dropped except exit, and exit ends the loop in every phase.", "quantifier": "every sequence of requests and notifications", "why_tests_cant": "The protocol state is a function of the whole message history.", "anchors": ["crates/sync-lsp/src/server/lsp_srv.rs: start_, on_lsp_request, on_notification"]}
{"id": "C17", "title": "Message framing is lossless", "statement": "Any sequence of messages written to a stream with the Content-Length framing is read back as the same sequence followed by end of stream, regardless of the bytes in the bodies; additional headers are ignored; a stream cut inside a message never yields a message for it.", "quantifier": "every sequence of byte strings", "why_tests_cant": "Bodies may contain anything, including text that looks like headers.", "anchors": ["crates/sync-lsp/src/msg.rs: read_msg_text, write_msg_text"]}
{"id": "C18", "title": "DAP request protocol", "statement": "In the debug adapter server every request gets one response carrying its sequence number; before initialization everything except initialize is refused; disconnect moves to the shutting down state in which further requests are refused.", "quantifier": "every sequence of debug adapter requests", "why_tests_cant": "The protocol state is a function of the whole message history.", "anchors": ["crates/sync-lsp/src/server/dap_srv.rs: on_request"]}
{"id": "C19", "title": "Positions survive conversion in both directions", "statement": "For every document and every character boundary in it, converting the byte offset to an LSP position and back yields the same offset, for UTF-8 and UTF-16 encodings; distinct offsets get distinct positions; positions past the end of the document are clamped to its end; conversion is monotone.", "quantifier": "every text (all newline kinds, astral characters, empty text) and every offset", "why_tests_cant": "Texts mixing newline kinds and surrogate pairs cannot be enumerated.", "anchors": ["crates/tinymist-analysis/src/location.rs: to_typst_position, to_lsp_position, to_typst_range, to_lsp_range"]}
{"id": "C20", "title": "Incremental text synchronisation keeps server and client text equal", "statement": "After any sequence of didChange notifications whose ranges are valid positions of the client's document, the server's copy of the document equals the client's.", "quantifier": "every initial text and every sequence of edits with in-range positions", "why_tests_cant": "Divergence accumulates over long edit sequences on texts with multi-byte characters.", "anchors": ["crates/tinymist/src/input.rs: ServerState::edit_source", "crates/tinymist-analysis/src/location.rs: to_typst_range"]}
{"id": "C21", "title": "Output path patterns expand to the documented path", "statement": "Expanding an output path pattern replaces exactly the $root, $dir and $name placeholders of the pattern by the workspace root, the entry's directory and the entry's file name; an empty pattern means the entry file itself; package entries produce no output path.", "quantifier": "every pattern, root and entry path, including ones that contain dollar signs", "why_tests_cant": "Roots and directory names can contain any text, including placeholder names.", "anchors": ["crates/tinymist-task/src/primitives.rs: PathPattern::substitute_impl"]}
{"id": "C22", "title": "Page selections survive being written and read", "statement": "Writing any page range a user can enter and reading it back yields the same range; invalid ranges (zero pages, start after end, several hyphens) are rejected.", "quantifier": "every pair of optional page numbers and every input string", "why_tests_cant": "The numbers are unbounded.", "anchors": ["crates/tinymist-task/src/primitives.rs: Pages (FromStr, Display), parse_page_number"]}
{"id": "C23", "title": "Resource paths written to the lock file can be read back", "statement": "Every resource path that the server writes to a lock file parses back to the same resource path.", "quantifier": "every path a user can have, including paths with colons and package paths", "why_tests_cant": "Path text is unbounded and user-controlled.", "anchors": ["crates/tinymist-task/src/primitives.rs: ResourcePath (Display, FromStr), from_user_sys"]}
{"id": "C24", "title": "Workspace file ids denote one path and stay inside their root", "statement": "Resolving the file id created for (root, path) yields root joined with path; ids for different roots never denote the same workspace, asking again for the same root gives the same id; and no virtual path, however many '..' it contains, resolves to a file outside its root.", "quantifier": "every sequence of workspace id requests and every virtual path", "why_tests_cant": "The id table grows over a session; virtual paths are arbitrary strings.", "anchors": ["crates/tinymist-vfs/src/path_mapper.rs: WorkspaceResolver", "crates/tinymist-world/src/entry.rs"]}
{"id": "C25", "title": "Relative paths computed between files lead to the target", "statement": "The relative path computed from one path to another, joined onto the first and normalised, is the normalised second; and the printed form uses forward slashes only and never '.' components.", "quantifier": "every pair of paths of any depth", "why_tests_cant": "Paths are unbounded sequences of components.", "anchors": ["crates/tinymist-std/src/path.rs: diff, unix_slash"]}
{"id": "C26", "title": "Fingerprint ids are injective and decodable", "statement": "Encoding any 128-bit fingerprint as an SVG id and decoding it yields the same fingerprint; hence two different fingerprints never get the same id.", "quantifier": "all 2^128 fingerprints", "why_tests_cant": "2^128 values.", "anchors": ["crates/tinymist-std/src/hash.rs: Fingerprint::as_svg_id, try_from_str"]}
{"id": "C27", "title": "Type-checking rollback restores the exact earlier state", "statement": "Rolling a map back to a snapshot restores exactly the bindings it had when the snapshot was taken, and committing keeps exactly the current bindings, for arbitrarily nested snapshots.", "quantifier": "every sequence of inserts, removes, nested snapshots, rollbacks and commits", "why_tests_cant": "Nested transactional histories are unbounded.", "anchors": ["crates/tinymist-analysis/src/adt/snapshot_map.rs: SnapshotMap"]}
{"id": "C28", "title": "A compilation sees one content per file and its dependency list is complete", "statement": "Within one compilation, reading a file repeatedly always gives the first content read, and the dependency list reported afterwards contains exactly the files that were read by the compilation.", "quantifier": "every sequence of reads and of changes of the underlying storage", "why_tests_cant": "Depends on the order of reads and concurrent changes.", "anchors": ["crates/tinymist-world/src/source.rs: SourceDb, SourceState"]}
{"id": "C29", "title": "Compile tasks run at most once per snapshot", "statement": "In one compute graph every computation (document, diagnostics, configuration) completes at most once, all consumers see the same result, even when the computation fails; the threads never deadlock, and every thread that compiles the snapshot returns the document and diagnostics of the one run.", "quantifier": "every sequence and nesting of requests for results", "why_tests_cant": "The dependency graph is requested in arbitrary orders.", "anchors": ["crates/tinymist-world/src/compute.rs: WorldComputeGraph::compute, must_get, provide"]}
{"id": "C30", "title": "Task policy decides when exports and lints run", "statement": "A task configured as never never runs; otherwise it runs on every entry change, an onType task runs on each edit, an onSave task on each save, an onDocumentHasTitle task on each save of a titled document, and in no other case; the language server's export path and the generic decision agree.", "quantifier": "every combination of policy, trigger and document", "why_tests_cant": "The two implementations must agree on all combinations, and merging of signals must not lose a trigger.", "anchors": ["crates/tinymist-world/src/snapshot.rs: ExportSignal::should_run_task", "crates/tinymist/src/task/export.rs: ExportTask::signal_export"]}
{"id": "C31", "title": "A save re-triggers onSave work even when nothing needs recompiling", "statement": "When a file is saved and the content did not change since the last compilation, tasks configured for onSave still run for the saved document.", "quantifier": "every history of edits, saves and compilations", "why_tests_cant": "Depends on the relation between compile, notification and save revisions in a history.", "anchors": ["crates/tinymist/src/project.rs: ProjectInsStateExt::emit_pending_reasons, CompileHandlerImpl::on_any_compile_reason, CompileHandlerImpl::notify_compile"]}
{"id": "C32", "title": "Export jobs are never run concurrently and the newest wins", "statement": "Of all export jobs submitted, at most one runs at a time, a submitted job is dropped only when a job with an equal or newer revision has been submitted, and after the queue drains the newest submitted revision has been run.", "quantifier": "every interleaving of submissions and job completions", "why_tests_cant": "The claim is about schedules.", "anchors": ["crates/tinymist/src/task/mod.rs: FutureFolder"]}
{"id": "C33", "title": "Published diagnostics are exactly the union of what each project last reported", "statement": "At any time the diagnostics last published for a file are exactly the diagnostics that the projects reported for it in their last report; when a project is closed or stops reporting a file its diagnostics disappear.", "quantifier": "every sequence of diagnostics reports and removals by any number of projects", "why_tests_cant": "The published state is incremental; stale diagnostics appear only after particular sequences.", "anchors": ["crates/tinymist/src/actor/editor.rs: EditorActor::publish, publish_file"]}
{"id": "C34", "title": "Focus and pin rules for the main file", "statement": "While a main file is pinned by the user, focusing another file never changes the main file; unpinning restores the followed file; explicit focus requests take precedence over implicit ones from then on.", "quantifier": "every sequence of pin, unpin, focus, open and query requests", "why_tests_cant": "The rule depends on the whole history of requests.", "anchors": ["crates/tinymist/src/input.rs: pin_main_file, focus_main_file, implicit_focus_entry, change_main_file"]}
{"id": "C35", "title": "Lock-file routing chooses the nearest lock file and the last matching route", "statement": "For a file, the route is taken from the nearest ancestor directory whose lock file routes it, and among the routes of one lock file the one added last.", "quantifier": "every directory tree, lock file contents and cache state", "why_tests_cant": "Trees and route lists are unbounded.", "anchors": ["crates/tinymist/src/route.rs: ProjectRouteState::resolve, resolve_at, calculate_routes"]}
{"id": "C36", "title": "A formatting edit turns the document into the formatter's output", "statement": "Applying the text edit returned by a formatting request to the document yields exactly the formatter's output.", "quantifier": "every pair of original and formatted texts", "why_tests_cant": "The edit is trimmed to common prefix and suffix at the byte level; the failing cases need specific multi-byte characters.", "anchors": ["crates/tinymist/src/task/format.rs: calc_diff"]}
{"id": "C37", "title": "Word count", "statement": "The reported number of words is the number of CJK characters plus the number of maximal runs of other non-space characters of the document's text, the reported characters are all its characters, the reported spaces are the runs of white space after the start, and the counts do not depend on how the text is split into pages, groups and text runs.", "quantifier": "every document text", "why_tests_cant": "All texts.", "anchors": ["crates/tinymist/src/tool/word_count.rs: word_count", "crates/tinymist-task/src/compute/text.rs: FullTextDigest"]}
{"id": "C38", "title": "Preview source ids resolve to the source location they were issued for", "statement": "An id handed to the preview for a source location resolves, as long as it has not expired, to exactly that location; after expiry it is reported as expired.", "quantifier": "every sequence of id allocations and document refreshes", "why_tests_cant": "The failure needs a garbage collection between allocation and use.", "anchors": ["crates/typst-preview/src/debug_loc.rs: SpanInternerImpl"]}
{"id": "C39", "title": "Preview ids survive being printed", "statement": "Printing any preview source id as hexadecimal and parsing it yields the same id.", "quantifier": "all ids", "why_tests_cant": "2^128 values.", "anchors": ["crates/typst-preview/src/debug_loc.rs: InternId"]}
{"id": "C40", "title": "Resolved preview selections lie inside the source", "statement": "Resolving a selection in the preview to a source range yields an ordered range that lies inside the syntax element it was resolved to.", "quantifier": "every pair of endpoints and element range", "why_tests_cant": "Offsets are arbitrary numbers sent by the client.", "anchors": ["crates/typst-preview/src/actor/render.rs: resolve_span_range"]}
{"id": "C41", "title": "The preview control connection survives user interaction", "statement": "The preview's editor connection keeps processing requests until it is told to shut down or its channels close; no jump, scroll, or outline request ends it.", "quantifier": "every sequence of requests from editor and webview", "why_tests_cant": "A request kind that ends the loop is only noticed when a later request is expected to be served.", "anchors": ["crates/typst-preview/src/actor/editor.rs: EditorActor::run"]}
{"id": "C42", "title": "The preview ends up showing the latest document", "statement": "After the renderer has processed all queued requests, the last document sent to the webview is the latest compiled document.", "quantifier": "every batching of incremental and full render requests with compilations", "why_tests_cant": "Requests are coalesced in batches determined by scheduling.", "anchors": ["crates/typst-preview/src/actor/render.rs: RenderActor::run"]}
{"id": "C43", "title": "The preview outline lists every bookmarked heading once, in order and correctly nested", "statement": "Reading the outline tree in preorder gives exactly the bookmarked headings in document order, and each is nested under the innermost bookmarked heading whose section it is in (or at the top if there is none), where the section of a heading ends at the next heading of its level or a smaller one, bookmarked or not.", "quantifier": "every sequence of headings with any levels and bookmark flags", "why_tests_cant": "Level sequences with jumps and hidden headings are unbounded.", "anchors": ["crates/typst-preview/src/outline.rs: get_outline, HeadingNode"]}
{"id": "C44", "title": "Line folding ranges do not clash", "statement": "When the client folds whole lines only, every returned range covers at least two lines, and no two ranges start on the same line.", "quantifier": "every document structure", "why_tests_cant": "All nestings of foldable elements.", "anchors": ["crates/tinymist-query/src/folding_range.rs: FoldingRangeRequest::request, calc_folding_range"]}
{"id": "C45", "title": "Semantic tokens are well-formed", "statement": "Decoding the relative token encoding yields the absolute positions of the syntax leaves in order, none left out (a leaf may be described twice in a row); tokens are sorted and, when the client does not support multiline tokens, no token extends past the end of its line; the tokenizer does not panic.", "quantifier": "every document and every syntax tree over it", "why_tests_cant": "All texts and trees, with multi-byte characters and all newline kinds.", "anchors": ["crates/tinymist-query/src/analysis/semantic_tokens.rs: Tokenizer"]}
{"id": "C46", "title": "Pressing enter continues comments and math blocks with the right indentation", "statement": "The edit returned for Enter keeps all existing text, inserts exactly one newline followed by the current line's indentation and the comment marker, and places the cursor after it.", "quantifier": "every document and cursor position", "why_tests_cant": "All texts and positions.", "anchors": ["crates/tinymist-query/src/on_enter.rs"]}
{"id": "C47", "title": "Undo of speculative shadow files", "statement": "Running a query with a temporary file content leaves the file system view exactly as it was before, whether the query succeeds or fails.", "quantifier": "every prior file system state and query outcome", "why_tests_cant": "Depends on the prior state, e.g. the file already having an editor buffer.", "anchors": ["crates/tinymist-world/src/lib.rs: ShadowApiExt::with_shadow_file"]}
{"id": "C48", "title": "Outgoing request ids are unique and responses reach the right handler", "statement": "Every request the server sends has a fresh id, a response from the client runs the handler of exactly the request it answers, at most once, and a response with an unknown id has no effect.", "quantifier": "every sequence of outgoing requests and incoming responses", "why_tests_cant": "Depends on the whole history.", "anchors": ["crates/sync-lsp/src/req_queue.rs: Outgoing", "crates/sync-lsp/src/server.rs: LspClient::send_request_, complete_lsp_request"]}
{"id": "C49", "title": "Diagnostics keep order and are grouped under the right file", "statement": "Converting compiler diagnostics to LSP assigns each diagnostic to the file of its location, keeps the compiler's order within each file and neither drops nor duplicates a convertible diagnostic.", "quantifier": "every list of diagnostics", "why_tests_cant": "Lists are unbounded.", "anchors": ["crates/tinymist-query/src/diagnostics.rs: DiagWorker"]}
{"id": "C50", "title": "Compilation status and results are never reported out of order", "statement": "For each project, the revisions of compile results notified to the editor are strictly increasing and statuses non-decreasing.", "quantifier": "every completion order of concurrent compilations", "why_tests_cant": "The order of completion is decided by the scheduler.", "anchors": ["crates/tinymist/src/project.rs: CompileHandlerImpl::notify_compile, status"]}
{"id": "C51", "title": "No request brings the server down", "statement": "Whatever request a client sends, in whatever state, the server driver answers it or starts its handler; it never panics.", "quantifier": "every request in every reachable state", "why_tests_cant": "Parameters are arbitrary JSON.", "anchors": ["crates/sync-lsp/src/server.rs: get_resources", "crates/sync-lsp/src/server/lsp_srv.rs: on_lsp_request, on_execute_command"]}
{"id": "C52", "title": "An exit without shutdown is reported", "statement": "If the client sends exit without having sent shutdown, the server reports an abnormal end (a failing result), and a successful one otherwise.", "quantifier": "every message history", "why_tests_cant": "Depends on the whole history.", "anchors": ["crates/sync-lsp/src/server/lsp_srv.rs: start_"]}
{"id": "C53", "title": "A lock file reads back as it was written", "statement": "Every lock file the server writes is read back, by a later run, with the same documents, tasks and routes.", "quantifier": "every set of documents, tasks (with any transforms) and routes", "why_tests_cant": "Contents are unbounded and include arbitrary user paths and task options.", "anchors": ["crates/tinymist-project/src/lock.rs: LockFile::serialize_resolve, LockFile::update, LockFile::read", "crates/tinymist-project/src/lock.rs: emit_output", "crates/tinymist-task/src/primitives.rs: ResourcePath"]}
{"id": "C54", "title": "Exports contain the pages selected", "statement": "Exporting a document with a page selection produces exactly the pages in one of the selected ranges; exporting without one produces every page, in order.", "quantifier": "every document length and every list of page ranges", "why_tests_cant": "Page counts and ranges are unbounded; tests pick a few.", "anchors": ["crates/tinymist-task/src/compute.rs: ExportPngTask/ExportSvgTask::run, get_page_selection", "crates/tinymist/src/cmd.rs: select_page", "crates/tinymist-task/src/compute/pdf.rs"]}
{"id": "C55", "title": "A task declared on the command line does what its arguments say", "statement": "Declaring an export task records the format asked for (explicitly or by the extension of the output file), the name, the page ranges and the output path given, and is refused exactly when no format can be told.", "quantifier": "every combination of arguments", "why_tests_cant": "The arguments combine freely and contain arbitrary text.", "anchors": ["crates/tinymist-project/src/args.rs: TaskCompileArgs::to_task"]}
{"id": "C56", "title": "A path recorded in a lock file is the file the user meant", "statement": "A file named on the command line and recorded in a lock file is, when the lock file is read back, the same file as the one named, whatever the current directory; and the path printed into a build script, used in the directory of the lock file, is that file.", "quantifier": "every current directory, lock directory and path given by the user", "why_tests_cant": "Paths are unbounded texts and the three directories vary independently.", "anchors": ["crates/tinymist-task/src/primitives.rs: ResourcePath", "crates/tinymist/src/tool/project.rs: compile_main"]}
{"id": "C57", "title": "The entry resolved for a file is that file", "statement": "Whatever roots are configured, whatever was opened before and wherever typst.toml files lie, the entry resolved for an opened file has exactly that file as its main file, and its root is a directory above it.", "quantifier": "every configuration, history of resolutions, file system and absolute path", "why_tests_cant": "The resolver has a cache, so that the answer depends on the history.", "anchors": ["crates/tinymist-project/src/entry.rs: EntryResolver", "crates/tinymist-world/src/entry.rs: EntryState"]}
{"id": "C58", "title": "A document cannot crash the server or name foreign workspaces by an import", "statement": "Whatever package a document imports, resolving the file does not panic and does not denote a file of another workspace open in the server.", "quantifier": "every package specification and every table of workspaces", "why_tests_cant": "Package specifications are arbitrary texts of the document; the table depends on the session.", "anchors": ["crates/tinymist-vfs/src/path_mapper.rs: RootResolver::path_for_id, WorkspaceResolver::resolve"]}
{"id": "C59", "title": "Exporting one project does not cancel the export of another", "statement": "When the queue of exports is empty, the newest revision submitted for each project has been exported, also when several projects export at the same time.", "quantifier": "every interleaving of submissions of any number of projects and job completions", "why_tests_cant": "The claim is about schedules of several projects.", "anchors": ["crates/tinymist/src/task/mod.rs: FutureFolder", "crates/tinymist/src/task/export.rs: ExportTask", "crates/tinymist/src/project.rs: ProjectState (ExportTask shared by all projects)"]}
{"id": "C60", "title": "Diagnostics shown are those of the latest compilation", "statement": "Once nothing is running for a project, the diagnostics last sent for it are those of its newest compilation, and none if it was closed.", "quantifier": "every history of compilations and closings of any number of projects and every schedule of the lint tasks", "why_tests_cant": "Lints run in a thread pool and can end in any order.", "anchors": ["crates/tinymist/src/project.rs: CompileHandlerImpl::notify_diagnostics, notify_compile, notify_removed", "crates/tinymist/src/actor/editor.rs: EditorActor::run"]}
{"id": "C61", "title": "A preview that is gone has let go of its project", "statement": "A project is connected to a preview exactly while that preview exists: stopping a preview frees its project for a new one, a preview that could not be started leaves nothing behind, and no running preview is disconnected from the project it shows.", "quantifier": "every sequence of starting, stopping and reloading, every interleaving with the task that manages the tabs", "why_tests_cant": "Registration, start-up and removal happen in three concurrent tasks; leaks only show in a later request.", "anchors": ["crates/tinymist/src/tool/preview.rs: start_preview, PreviewState::start, stop_all", "crates/tinymist/src/actor/preview.rs: PreviewActor", "crates/tinymist/src/project.rs: ProjectPreviewState"]}
{"id": "C62", "title": "Foreign web pages cannot talk to the preview", "statement": "The preview server answers a request made by a web page only if the page comes from the address it listens on, from a site of the local machine over http, from a panel of the editor, or from the proxy of the configured Gitpod workspace; all other pages get neither the document nor a websocket.", "quantifier": "every origin a browser can send, every request, every listening address and port", "why_tests_cant": "The claim is about all sites of the web, including those whose names resemble the allowed ones.", "anchors": ["crates/tinymist/src/tool/preview/http.rs: make_http_server, is_valid_origin_impl"]}
{"id": "C63", "title": "The preview's own page can connect to it", "statement": "A page that a browser loaded from the preview server may open its websocket there, under every address and port the server is reached at.", "quantifier": "every listening address and port", "why_tests_cant": "All ports and addresses, including those for which the browser abbreviates the origin.", "anchors": ["crates/tinymist/src/tool/preview/http.rs: is_valid_origin_impl"]}
{"id": "C64", "title": "Renaming a file keeps the imports of it", "statement": "After a file is renamed through the editor and the returned edits are applied, every import and include that referred to the file refers to it under its new name and defines the same variable as before, and every other path refers to what it did before.", "quantifier": "For every project, every file renamed in it, every old and new place of the file, and every path in every file of the project.", "why_tests_cant": "Paths can be written in unboundedly many ways (detours, absolute, any depth) and the new text is computed from the old text and a difference of two paths; tests cover a few spellings and directory depths.", "anchors": ["crates/tinymist-query/src/rename.rs: RenameRequest::request, RenameFileWorker", "crates/tinymist-query/src/will_rename_files.rs: WillRenameFilesRequest", "crates/tinymist-query/src/syntax/module.rs: construct_module_dependencies", "crates/tinymist-query/src/syntax/expr.rs: check_module_include", "crates/tinymist-query/src/analysis/link_expr.rs: get_link_exprs", "crates/tinymist-std/src/path.rs: diff"]}
{"id": "C65", "title": "The sharded map is one map and never leaves its memory", "statement": "For a map made with any shard count, after any insertions and removals, looking up any fingerprint reads one of the map's own shards although the access is not bounds checked; it finds exactly the value last inserted for the fingerprint, and taking the map apart yields each present fingerprint once.", "quantifier": "For every requested shard count, every history of insertions and removals, and every fingerprint.", "why_tests_cant": "The access is unsafe: one fingerprint and shard count out of bounds would be undefined behaviour, and a test only tries a few of 2^128 fingerprints and one shard count.", "anchors": ["crates/tinymist-std/src/adt/fmap.rs: FingerprintMap::new, shard, into_items, contains_key", "crates/tinymist-std/src/hash.rs: Fingerprint::lower32"]}
{"id": "C66", "title": "The outline and the folds of a document follow its sections", "statement": "For every document, the outline lists every heading and every definition exactly once, in the order of the text, each under the heading of the section it is in: the section of a heading extends to the next heading of the same or a higher rank. Folding a heading folds exactly its section.", "quantifier": "all documents: any number and nesting of headings of any levels, definitions, lists and comments; all clients", "why_tests_cant": "The nesting comes from one stack that headings, blocks and comments push and pop by different rules; tests cover a few arrangements out of infinitely many.", "anchors": ["crates/tinymist-query/src/syntax/lexical_hierarchy.rs: get_lexical_hierarchy, check_nodes, check_node, finish_hierarchy", "crates/tinymist-query/src/document_symbol.rs: symbols_in_hierarchy", "crates/tinymist-query/src/folding_range.rs: calc_folding_range"]}
{"id": "C67", "title": "The root of an opened file follows from the configuration and the files on disk", "statement": "An opened file gets as its root the configured root if it lies in it (else its own directory); without a configured root, the first workspace folder it lies in; outside of the workspace, the nearest directory upwards with a package manifest; and else its own directory. Which files were opened before makes no difference.", "quantifier": "every configuration, every absolute path, every history of opened files and of manifests that appear and disappear", "why_tests_cant": "The answer is cached per file, so it depends on the whole history of lookups and of the file system.", "anchors": ["crates/tinymist-project/src/entry.rs: EntryResolver::root, EntryResolver::resolve_with_root", "crates/tinymist-world/src/entry.rs: EntryState"]}
{"id": "C68", "title": "Parameter hints name the parameter an argument is passed to", "statement": "The parameter name the editor shows in front of a positional argument of a call is the name of the parameter Typst passes that argument to, at the start of the argument; an argument that is passed to no parameter gets no hint, and exactly the documented kinds of arguments get one.", "quantifier": "every closure parameter list, every stack of .with applications, every argument list", "why_tests_cant": "The matching must agree with the evaluator for all combinations of positional, named and sink parameters, bound arguments, content blocks and spreads.", "anchors": ["crates/tinymist-query/src/analysis/call.rs: analyze_call_no_cache", "crates/tinymist-analysis/src/sig.rs: func_signature", "crates/tinymist-query/src/analysis/signature.rs: wind_stack", "crates/tinymist-query/src/inlay_hint.rs: InlayHintWorker::analyze_node"]}
{"id": "C69", "title": "Signature help highlights the parameter being filled", "statement": "While the cursor is in an argument of a call, signature help lists the parameters of the function and highlights the one the argument is passed to: for a named argument the parameter of that name, for a positional one the parameter Typst passes it to; the highlighted index is always one of the list.", "quantifier": "every parameter list, every stack of .with applications, every argument position", "why_tests_cant": "It must hold for all combinations of positional, named, settable and sink parameters and bound arguments.", "anchors": ["crates/tinymist-query/src/signature_help.rs: SignatureHelpRequest::request", "crates/tinymist-analysis/src/sig.rs: Signature::param_shift, PrimarySignature::params"]}
{"id": "C70", "title": "Go to definition follows the scoping rules", "statement": "For every place of a project where a name is written, go to definition leads to what the name means there by Typst's scoping rules: the innermost, latest binding before the place, through imports, aliases and wildcard imports of other files, else the library; and where no name is written there is no answer.", "quantifier": "every project of files, every nesting of blocks, functions, loops and imports, every place", "why_tests_cant": "Resolution depends on the whole history of bindings before a place and in all files imported, over unboundedly nested scopes; snapshot tests look at a few documents.", "anchors": ["crates/tinymist-query/src/syntax/expr.rs: ExprWorker, expr_of", "crates/tinymist-query/src/analysis/definition.rs: definition"]}
{"id": "C71", "title": "Find references reports exactly the uses of a definition", "statement": "Find references on a definition reports every place of the project from which go to definition leads to it, and no other place, each once; the search ends.", "quantifier": "every project of files, every import graph, every definition, every place", "why_tests_cant": "Completeness ranges over all files and all paths of imports and re-exports between them.", "anchors": ["crates/tinymist-query/src/references.rs: ReferencesWorker", "crates/tinymist-query/src/analysis/global.rs: SearchCtx", "crates/tinymist-analysis/src/syntax/def.rs: get_refs, is_exported", "crates/tinymist-query/src/syntax/index.rs: get_index_info"]}
{"id": "C72", "title": "Renaming a definition keeps the meaning of every name", "statement": "After the edits of a rename are applied, every place of the project that meant the definition means it under its new name, and every other name means what it meant before.", "quantifier": "every project of files, every definition of a variable or function, every new name that is not in use", "why_tests_cant": "It relates the whole project before and after, for all scopes, shadowings and imports.", "anchors": ["crates/tinymist-query/src/rename.rs: RenameRequest", "crates/tinymist-query/src/references.rs: find_references"]}
{"id": "C73", "title": "Selection ranges grow from the token at the cursor to the whole document", "statement": "For each position of a selection range request the answer at the same index is a chain of ranges: the first contains the position and the character behind it, each lies in the next, the last is the whole document, and together they are exactly the syntax nodes around that character. Every position of the document has such an answer.", "quantifier": "every syntax tree, every list of positions, both position encodings", "why_tests_cant": "Trees and positions are unbounded; snapshot tests fix a few cursor places in small files and none at the end of a file.", "anchors": ["crates/tinymist-query/src/selection_range.rs: SelectionRangeRequest::request, range_for_node", "crates/tinymist-analysis/src/location.rs: to_lsp_range"]}
{"id": "C74", "title": "A coverage run runs the program, and counts every body", "statement": "Whatever the program, the text the coverage tool runs instead of it contains all its tokens in order; every code block, every body of a loop or function and every branch of a conditional runs between two counter calls of its own, every show rule has one, the calls are numbered in the order of the report's places, and the report has no other places.", "quantifier": "all parsed programs", "why_tests_cant": "The rewriting is recursive over every shape of program; snapshot tests fix the output for a few files.", "anchors": ["crates/tinymist-debug/src/cov.rs instrument_coverage, InstrumentWorker"]}
{"id": "C75", "title": "The coverage report says what ran", "statement": "During a coverage run, in whatever order and on however many threads files are read and counter calls run, no counter call panics; afterwards the report lists the places of every file that was read, in order, each marked as run exactly if its call ran, and the summary counts each file's places once and covers exactly those that ran.", "quantifier": "all histories of source reads and counter calls in which a call belongs to a file already read", "why_tests_cant": "Depends on the interleaving of file reads and calls across files and threads, and on counters that saturate.", "anchors": ["crates/tinymist-debug/src/cov.rs __cov_pc, CovInstr, CoverageResult", "crates/tinymist-debug/src/instrument.rs InstrumentWorld::source", "crates/tinymist-debug/src/lib.rs with_cov"]}
{"id": "C76", "title": "The exit code of the test command is right", "statement": "`tinymist test` exits with 0 exactly if every case passes: a test that runs, a panic test that panics, an example that compiles and whose output matches its recorded reference (or has none, or references are being updated), with no two examples of one name. This holds in whatever order the cases, which run in parallel, make their steps.", "quantifier": "all lists of cases with their outcomes, all contents of the reference directory, all interleavings of the cases", "why_tests_cant": "Cases run in parallel and share the reference directory and the failure flag; the number of interleavings has no bound.", "anchors": ["crates/tinymist/src/tool/testing.rs TestRunner::run, run_example, update_example, test_once, test_main"]}
{"id": "C77", "title": "References change only when they should, even if the run is cut short", "statement": "Without `--update`, `tinymist test` never changes a recorded reference, whatever fails and whenever the run is killed. An example without a reference gets one, a mismatch is put beside the reference; with `--update` the mismatch becomes the reference. A run that passed passes again and changes nothing. Wherever the run is cut, a hash that was written is that of the image beside it. In watch mode a run updates references exactly if `u` was entered since the last run (or for the first run, `--update` given).", "quantifier": "all cases, contents of the reference directory, interleavings, failing system calls, crash points; all histories of keys and compilations", "why_tests_cant": "Quantifies over crash points, failing system calls and interleavings.", "anchors": ["crates/tinymist/src/tool/testing.rs update_example, check_result, run_example, test_main watch loop"]}
{"id": "C78", "title": "A package that is found is the whole published package", "statement": "A package in the data directory is taken from there and never requested. Otherwise it is taken from the cache, and if it is not there and belongs to the preview namespace it is downloaded; no other namespace is ever requested from the network. The directory returned exists and holds exactly the files of the published archive, also if the server is killed during a download or several files want the package at once. A package in the cache stays as it is.", "quantifier": "all histories of calls, interleaved step by step, server answers, failing disk operations, crashes and changes of the data directory", "why_tests_cant": "Calls run at the same time in several projects, the download may fail at any file and the server be killed at any moment.", "anchors": ["crates/tinymist-package/src/registry/http.rs HttpRegistry, PackageStorage::prepare_package, download_package"]}
{"id": "C79", "title": "The right versions are listed, offered and chosen", "statement": "The latest version of a preview package is the newest in the index, of another the newest installed, in numeric order of the components; a version that is chosen can be prepared. The index is requested once. Every installed package is listed exactly once, hidden directories aside. Completion offers packages in order, each once, and without a colon only the newest version of each.", "quantifier": "all indexes, all contents of the package directories, all sequences of answers", "why_tests_cant": "Quantifies over all directory contents, lists of packages and names.", "anchors": ["crates/tinymist-package/src/registry/http.rs PackageStorage::determine_latest_version, download_index", "crates/tinymist-query/src/package.rs list_package, list_package_by_namespace", "crates/tinymist-query/src/analysis/completion/typst_specific.rs package_completions"]}
{"id": "C80", "title": "Starting a project from a template never loses anything", "statement": "`tinymist init` changes or removes nothing that was on the disk, whether it succeeds or fails half way; it adds only the way to the files of the template. If it succeeds the project has every file of the template. A project directory that is a file or not empty is refused and nothing is written.", "quantifier": "all contents of the disk, project paths and templates", "why_tests_cant": "Quantifies over all disk contents and templates, and over failures in the middle.", "anchors": ["crates/tinymist/src/tool/package/init.rs scaffold_project, copy_project"]}
{"id": "C81", "title": "A code action does what its title says and nothing else", "statement": "Wrapping puts the selection, and nothing else, into a content block. More or less depth changes the innermost heading around the start of the selection by exactly one level; less is never offered at the first level. Converting an equation turns the innermost closed equation there into an inline, block or multi-line one and keeps all the document except white space beside its dollar signs. Each action is offered exactly when it applies.", "quantifier": "all documents and their syntax trees, all selections, both position encodings", "why_tests_cant": "Quantifies over all trees, nestings of headings and equations, and all texts around them.", "anchors": ["crates/tinymist-query/src/analysis/code_action.rs CodeActionWorker::work, wrap_actions, heading_actions, equation_actions", "crates/tinymist-query/src/code_action.rs CodeActionRequest::request"]}
{"id": "C82", "title": "Highlighting marks a loop and exactly the jumps that belong to it", "statement": "With the cursor on the keyword of a loop, or on a break or continue that leaves or continues this loop, the keyword and all the breaks and continues of this loop are marked, each once and nothing else; so the answer is the same from each of the marked places. Jumps of inner loops and of functions inside the loop are not marked, and a jump that belongs to no loop gets no answer.", "quantifier": "all documents and their syntax trees, all cursor positions, both position encodings", "why_tests_cant": "Quantifies over all nestings of loops, functions and blocks.", "anchors": ["crates/tinymist-query/src/analysis/doc_highlight.rs DocumentHighlightWorker::work, work_loop, check_loop, annotate", "crates/tinymist-query/src/document_highlight.rs DocumentHighlightRequest::request"]}
{"id": "C83", "title": "The settings in force are what the last accepted settings say", "statement": "After any number of changes of the settings, pushed by the client or asked for, every setting has the value the last accepted settings give it, or its default if they do not give one that can be read, whatever was set before. Settings with a relative root are refused and change nothing at all. Settings under the tinymist namespace take precedence over those outside, at the start and later alike. A value of the wrong type is warned about. A client that is asked for its settings ends up with the settings it has.", "quantifier": "all histories of settings, all settings objects and answers, all decoders of settings, all command line parsers", "why_tests_cant": "Quantifies over all histories and all combinations of over twenty settings; a test fixes a few objects.", "anchors": ["crates/tinymist/src/config.rs Config::update, update_by_map, get_items, values_to_map, validate, CONFIG_ITEMS", "crates/tinymist/src/lsp.rs ServerState::on_changed_configuration, did_change_configuration, workspace_configuration_callback", "crates/tinymist-project/src/entry.rs EntryResolver::validate"]}
{"id": "C84", "title": "A running server follows its settings", "statement": "At every moment after the start, the automatic exports, the status reports, the formatter and the fonts are those of the settings in force, and the client has been told to register semantic tokens and formatting exactly if the settings ask for them, never twice and never removing what is not registered. A change of the fonts makes the projects anew with all the new settings.", "quantifier": "all histories of settings changes and answers, all clients (dynamic registration or not), all workspace folders", "why_tests_cant": "Quantifies over all histories; what is kept up to date depends on which settings changed together.", "anchors": ["crates/tinymist/src/lsp.rs ServerState::on_changed_configuration, initialized, enable_sema_token_caps, enable_formatter_caps", "crates/tinymist/src/config.rs Config::export, formatter, font_opts, fonts, inputs, primary_opts", "crates/tinymist/src/project.rs ServerState::project, reload_projects", "crates/tinymist/src/server.rs ServerState::new, main"]}
{"id": "C85", "title": "A message shown has its placeholders replaced and nothing else changed", "statement": "A message of the server with placeholders {name} is shown with each placeholder that has an argument replaced by the argument's text, and every other character as it is in the message.", "quantifier": "all messages, all lists of named arguments, all argument texts", "why_tests_cant": "Quantifies over all messages and arguments, including translations added later.", "anchors": ["crates/tinymist-l10n/src/lib.rs t_with_args, t_without_args", "crates/tinymist-project/src/entry.rs EntryResolver::validate", "crates/tinymist/src/config.rs Config::update_by_map"]}
{"id": "C86", "title": "Messages are in the language of the locale", "statement": "After a client has named its locale, messages are shown in the language of the locale if there are translations to it, otherwise in a language of which the locale is a region, otherwise in the language as before; a message without a translation is shown as the program has it.", "quantifier": "all locales, all sets of translations with languages named in ASCII, all iteration orders, all keys and messages", "why_tests_cant": "Quantifies over all locales and translation sets.", "anchors": ["crates/tinymist-l10n/src/lib.rs set_locale, find_message", "crates/tinymist/src/config.rs Config::extract_lsp_params"]}
{"id": "C87", "title": "Updating the translations loses none that are used", "statement": "The tool that updates the file of translations collects exactly the messages of the source; the file it writes says, of each key that is used, the English message of the program and the same translations to other languages as before, and nothing of other keys; the server reads from the file what the tool wrote.", "quantifier": "all sources, all files that can be read, all sets of messages with one message for each key", "why_tests_cant": "Quantifies over all files and sets of messages.", "anchors": ["crates/tinymist-l10n/src/lib.rs update_disk_translations, update_translations, serialize_translations, deserialize, load_translations", "crates/tinymist-l10n/src/main.rs check_calls, parse_str, parse_char"]}
{"id": "C88", "title": "Jumps outside of loops and returns outside of functions are reported, and only those", "statement": "The linter reports a break or continue exactly if there is no loop around it inside of its innermost function, and a return exactly if there is no function around it. If the innermost function of a reported jump is itself in a loop, the report points to this loop and to the function. The linter does not panic.", "quantifier": "all syntax trees of files, all nestings of loops, functions and other expressions", "why_tests_cant": "Quantifies over all syntax trees of any depth.", "anchors": ["crates/tinymist-lint/src/lib.rs lint_file, Linter, bad_branch_stmt, with_loop_info, with_func_info, func_return"]}
{"id": "C89", "title": "What is said to be discarded by a return can be discarded by one", "statement": "If the linter says that a value or a rule in a function is discarded by a return, then a return can follow its evaluation, one with a value or, for a rule, any. A value right before a return with a value, and a rule right before a return, are said to be discarded. What is said to be discarded is always discarded.", "quantifier": "all files, all functions, all runs of their bodies with either outcome of each condition and any number of rounds of loops", "why_tests_cant": "Quantifies over all function bodies and all their runs.", "anchors": ["crates/tinymist-lint/src/lib.rs LateFuncLinter, ReturnBlockInfo, join, value"]}
{"id": "C90", "title": "Rules are said to have no effect exactly if their block has nothing else", "statement": "Everywhere but in callees and arguments of calls and in values of returns, the linter says that a set or show rule has no effect exactly if it is in a block that is the body of a condition or a loop, or the transformation of a show rule, and the block has nothing but rules and spaces, up to its end or to a jump. The first such rule of a block and no other has a hint.", "quantifier": "all files that are linted, all blocks, all positions of rules", "why_tests_cant": "Quantifies over all syntax trees and all contents of blocks.", "anchors": ["crates/tinymist-lint/src/lib.rs buggy_block, buggy_block_expr, only_show"]}
{"id": "C91", "title": "Inlay hints of a range are those of the document in the range", "statement": "A request for the inlay hints of a range is answered with the hints of the document whose position is in the range: none is missing, and none outside of the range is given. Asking for the parts of a range gives the same hints as asking for the range.", "quantifier": "all documents, all ranges, all ways to divide a range", "why_tests_cant": "Quantifies over all syntax trees and all pairs of ranges; the tests ask for whole documents only.", "anchors": ["crates/tinymist-query/src/inlay_hint.rs InlayHintRequest::request, InlayHintWorker::work"]}
{"id": "C92", "title": "Which arguments have inlay hints and what they say", "statement": "A call has inlay hints only if it has at least two positional arguments that are not content blocks, or one and a variadic one. Then each positional argument that is not a content block has the name of its parameter, unless the function has shape parameters, and the first variadic argument has the name after two dots. Named arguments have none, no argument has two, and hints are in the order of the arguments.", "quantifier": "all calls with any number and kinds of arguments", "why_tests_cant": "Quantifies over all lists of arguments.", "anchors": ["crates/tinymist-query/src/inlay_hint.rs InlayHintWorker::analyze_node, InlayHintConfig::smart"]}
{"id": "C93", "title": "A search of workspace symbols finds what the files define", "statement": "Searching the workspace for a text is always answered. It finds every heading and definition of the files of the compilation whose name contains the text and nothing else, each under the address of its file. The list of labels has all labels of the files.", "quantifier": "all texts searched for, all sets of files, all documents", "why_tests_cant": "Quantifies over all nestings of sections and definitions and all texts.", "anchors": ["crates/tinymist-query/src/symbol.rs SymbolRequest::request, filter_document_symbols", "crates/tinymist-query/src/workspace_label.rs WorkspaceLabelRequest::request, filter_document_labels", "crates/tinymist/src/lsp/query.rs symbol"]}
{"id": "C94", "title": "Entries of YAML bibliographies are where their keys are", "statement": "Go to definition of a citation leads to the key of the entry in the YAML bibliography: its name range covers exactly the key and its range extends to the end of the entry, with any characters in the text and anything nested in the fields. All positions lie between characters, whatever the parser reports.", "quantifier": "all texts, all sequences of parser events, all bibliographies", "why_tests_cant": "Quantifies over all texts with characters of several bytes and all nestings of values.", "anchors": ["crates/tinymist-query/src/analysis/bib.rs YamlBibLoader::on_event, YamlBib::from_content"]}
{"id": "C95", "title": "A citation key leads to its last definition", "statement": "If several bibliography files or several entries define a key, the key leads to the last entry of the last file that has it, and the details shown are those of this file. A key no file defines leads nowhere, and no key is listed twice. Files that are no bibliographies or cannot be read do not matter.", "quantifier": "all lists of files, all entries", "why_tests_cant": "Quantifies over all lists of files and keys.", "anchors": ["crates/tinymist-query/src/analysis/bib.rs bib_info, BibWorker::analyze_path"]}
{"id": "C96", "title": "Comments document what they stand above", "statement": "The documentation of a definition is the text of the comments that stand directly above it: line by line, without the slashes or stars and without the white space all lines begin with. Comments of anything before, at the end of its line or set off by an empty line, are not taken. The documentation of a module is made of the comments with three slashes that are before anything else in the file.", "quantifier": "all documents and all texts of comments", "why_tests_cant": "Quantifies over all sequences of comments, white space and definitions and all texts.", "anchors": ["crates/tinymist-analysis/src/syntax/comment.rs DocCommentMatcher, CommentGroupMatcher, find_module_level_docs", "crates/tinymist-query/src/syntax/expr.rs check_in_mode"]}
{"id": "C97", "title": "Documentation of parameters is read as written", "statement": "From documentation with a description, a list of parameters `name (types): text` and a line `-> type`, the editor shows the description, the parameters in order with their names, types and texts, and the type of the result: each exactly as written, and none of it in the place of another.", "quantifier": "all descriptions, all lists of parameters, all types", "why_tests_cant": "Quantifies over all texts and all lists of parameters.", "anchors": ["crates/tinymist-analysis/src/docs/tidy.rs identify_pat_docs, match_brace"]}
{"id": "C98", "title": "Documentation that cannot be converted is shown as it is", "statement": "If documentation cannot be converted, the editor shows the reason and, as code, the whole documentation. Neither can end the block of code it is shown in, whatever backticks it has.", "quantifier": "all reasons and all documentation", "why_tests_cant": "Quantifies over all texts.", "anchors": ["crates/tinymist-query/src/syntax/docs.rs fallback_docs"]}
{"id": "C99", "title": "Snippets are shown as they are meant", "statement": "Accepting a completion that is a snippet inserts its fixed text as it is and its placeholders with their default texts, and Tab visits the placeholders from the first to the last. This holds for the built-in snippets and for the documentation skeleton of a function, which has a line for each parameter.", "quantifier": "all snippets, all lists of parameters", "why_tests_cant": "Quantifies over all snippets and all function signatures.", "anchors": ["crates/tinymist-query/src/analysis/completion.rs to_lsp_snippet", "crates/tinymist-query/src/analysis/completion/mode.rs complete_comments", "crates/tinymist-query/src/completion/snippet.rs DEFAULT_PREFIX_SNIPPET, DEFAULT_POSTFIX_SNIPPET"]}
{"id": "C100", "title": "Accepting a name replaces the name at the cursor", "statement": "Accepting a completion on an identifier replaces this identifier and changes nothing else. If the cursor is inside of an argument the part before the cursor is replaced and the rest becomes the next argument, separated by one comma. The replaced range always contains the cursor.", "quantifier": "all documents, all positions of the cursor in an identifier, all inserted texts", "why_tests_cant": "Quantifies over all documents, positions and texts.", "anchors": ["crates/tinymist-query/src/analysis/completion.rs lsp_item_of, selected_node"]}
{"id": "C101", "title": "Completed labels, references and strings are well formed", "statement": "Accepting a label inside of `<...>`, closed or not, gives `<label>` with one bracket on each side; behind `@` it gives `@label`; accepting a string in an empty pair of quotes gives this string in quotes; accepting a field whose name is no identifier gives a call of `at` with a string that is read as this name. The edit contains the cursor.", "quantifier": "all documents, all cursors, all labels and strings", "why_tests_cant": "Quantifies over all documents, positions and labels.", "anchors": ["crates/tinymist-query/src/analysis/completion.rs lsp_item_of", "crates/tinymist-query/src/analysis/completion/typst_specific.rs label_completions_, value_completion_"]}
{"id": "C102", "title": "The list of completions is complete and in order", "statement": "The editor shows the completions that fit the expected type first and the others behind them, each part ordered by sort text and label. It shows exactly those whose label contains the characters typed so far in this order, each once, with the text it was offered with and what the place needs in addition.", "quantifier": "all lists of candidates, all typed texts", "why_tests_cant": "Quantifies over all lists of candidates and typed texts.", "anchors": ["crates/tinymist-query/src/analysis/completion.rs complete_cursor, work, enrich"]}
{"id": "C103", "title": "Looking at the text around the cursor never fails", "statement": "For any document and any byte range, also one that is reversed, ends behind the document or begins or ends inside of a character, completion takes the characters that lie in the range as a whole, and does not panic.", "quantifier": "all texts, all pairs of offsets", "why_tests_cant": "Quantifies over all texts and offsets.", "anchors": ["crates/tinymist-query/src/analysis/completion.rs slice_at, before_window"]}
{"id": "C104", "title": "Postfix snippets wrap the expression before the dot", "statement": "Accepting a postfix snippet behind `expr.` replaces the expression, the dot and what is typed behind it by the snippet with the text of the expression in the placeholder meant for it; another placeholder becomes a tab stop. Snippets with more than two placeholders are not offered.", "quantifier": "all snippets, documents, positions and expressions", "why_tests_cant": "Quantifies over all snippets (users configure their own) and all expressions.", "anchors": ["crates/tinymist-query/src/analysis/completion/snippet.rs", "crates/tinymist-query/src/completion/snippet.rs PostfixSnippet, ParsedSnippet"]}
{"id": "C105", "title": "A function completed behind a dot is called with what is before the dot", "statement": "Behind `content.` those functions are offered whose next argument can be content. Accepting one writes the call of the function with the content as argument: alone, with a tab stop before it, or with a tab stop after it. Nothing else is offered for a function. What a function takes is the least its signatures take, in any order.", "quantifier": "all functions, documents, positions and contents", "why_tests_cant": "Quantifies over all functions and all documents.", "anchors": ["crates/tinymist-query/src/analysis/completion/snippet.rs, func.rs", "crates/tinymist-query/src/analysis/completion/kind.rs CompletionKindChecker", "crates/tinymist-query/src/analysis/completion/func.rs"]}
{"id": "C106", "title": "Snippets are offered in their contexts", "statement": "A snippet is offered at a place exactly if one of its contexts accepts both the mode and the syntax of the place, where a selector can be positive, negative or open.", "quantifier": "all snippets' contexts, all modes and syntaxes", "why_tests_cant": "Contexts can be configured; quantifies over all of them.", "anchors": ["crates/tinymist-query/src/completion/snippet.rs CompletionContext, CompletionContextSelector", "crates/tinymist-query/src/analysis/completion/snippet.rs", "crates/tinymist-query/src/analysis/completion.rs scope_completions"]}
{"id": "C107", "title": "Completed paths lead to the files", "statement": "Completing a path lists every file of the project with a fitting name except the edited one, each once, as a path that leads from the edited file to that file: from the root if what is typed begins with a slash, relative otherwise. Relative paths that go up less come first. The editor shows the list in this order. The path replaces the string, or is written in quotes where there is none, and the string reads as the path.", "quantifier": "all sets of files, edited files and typed texts", "why_tests_cant": "Quantifies over all projects.", "anchors": ["crates/tinymist-query/src/analysis/completion/path.rs complete_path, path_priority_cmp"]}
{"id": "C108", "title": "What an import offers", "statement": "In the list of an import every name of the module is offered that is not yet imported, in the order of the module, and `*` before them if nothing is imported yet. Behind a path of names in the list, the names of the module it leads to.", "quantifier": "all modules, lists of imported items and paths", "why_tests_cant": "Quantifies over all modules and imports.", "anchors": ["crates/tinymist-query/src/analysis/completion/import.rs import_item_completions"]}
{"id": "C109", "title": "Packages are offered in their newest version", "statement": "Completing a package offers every package of the registry and of the local folders once, in its newest version, ordered by namespace and name; for a version every version is offered, newest first.", "quantifier": "all sets of packages", "why_tests_cant": "Quantifies over all registries.", "anchors": ["crates/tinymist-query/src/analysis/completion/typst_specific.rs package_completions"]}
{"id": "C110", "title": "The labels that fit are offered once", "statement": "Behind `@` and in a call of `ref` the labels of elements and of works are offered, in a citation those of works, otherwise those of elements; each label once, and the title of a work once if its label's first use is the work.", "quantifier": "all documents' labels and bibliographies", "why_tests_cant": "Quantifies over all documents.", "anchors": ["crates/tinymist-query/src/analysis/completion/typst_specific.rs label_completions_"]}
{"id": "C111", "title": "Code stays code in Markdown", "statement": "Raw text of a document is shown in Markdown as code with exactly its text: a call of `raw` and a raw block as a block of code with the same lines, raw text in a line as code in the line. If HTML is to be left out, equations and code with `context` are shown as code. An error of rendering is shown as one block of code whatever its message is.", "quantifier": "all raw texts, languages, equations and error messages", "why_tests_cant": "Quantifies over all texts, with any number of backticks and lines in them.", "anchors": ["crates/typlite/src/lib.rs raw, to_raw_block, render_error, str", "crates/typlite/src/library.rs raw"]}
{"id": "C112", "title": "Tables keep their cells", "statement": "A table or grid is converted to a table with all of its cells in their order, in rows of as many cells as it has columns, and with the cells of its header in a row above.", "quantifier": "all tables: numbers of columns, cells, headers", "why_tests_cant": "Quantifies over all numbers of columns and cells.", "anchors": ["crates/typlite/src/library.rs table"]}
{"id": "C113", "title": "Known functions are converted to what they mean", "statement": "A link shows its body and leads to its destination; keys, struck text and padding show their body; an image shows its file with its description, in a figure with its caption; a box is a quotation of its lines; of alternatives the one for Markdown is shown. A missing argument or an unknown function ends the conversion with an error.", "quantifier": "all arguments, positional or named", "why_tests_cant": "Quantifies over all arguments and bodies.", "anchors": ["crates/typlite/src/library.rs", "crates/typlite/src/scopes.rs", "crates/typlite/src/value.rs"]}
{"id": "C114", "title": "Marks around list items are nested", "statement": "If elements are to be annotated, every item of a list is between a begin and an end mark with its depth, the marks are properly nested and the depths are those of the nesting. If not, there are no marks.", "quantifier": "all documents of markup", "why_tests_cant": "Quantifies over all nestings of lists.", "anchors": ["crates/typlite/src/lib.rs list_item"]}
{"id": "C115", "title": "Rendered pieces are shown with their definitions", "statement": "A piece that is rendered is shown as a picture in a file that holds the picture, for a dark and for a light background or for the chosen theme. Files of earlier pictures are not changed by later ones. A piece with `context` is rendered with all definitions before it.", "quantifier": "all documents, settings and pictures", "why_tests_cant": "Quantifies over all documents and orders of pieces.", "anchors": ["crates/typlite/src/lib.rs render, render_code, render_inner, contextual, hash"]}
{"id": "C116", "title": "Included files are converted in their place, once", "statement": "An included file is converted and put in its place; its definitions and depth do not reach the including file. The conversion of every document ends.", "quantifier": "all projects of files and their includes", "why_tests_cant": "Quantifies over all graphs of includes, of any depth.", "anchors": ["crates/typlite/src/lib.rs include, convert, eval"]}
{"id": "C117", "title": "Headings, items and numbers read the same in Markdown", "statement": "A heading is a heading of the same level; an item of a list is one item with all of its lines, also those of lists in it; numbered items have the same numbers as in Typst; strong and emphasized text is marked. The document is its parts in their order.", "quantifier": "all headings, lists and numbers", "why_tests_cant": "Quantifies over all levels, nestings and numberings.", "anchors": ["crates/typlite/src/lib.rs heading, list_item, enum_item, strong, emph, reduce"]}
{"id": "C118", "title": "The type of a call", "statement": "The type shown for a call of a closure is the type of the closure's body with every parameter replaced by the type of what the call passes for it: the positional argument at its place, the last argument of its name (also of an earlier `with`), or the default. Elements of a tuple at a known index have the type of that element.", "quantifier": "all closures, all lists of arguments, any number of `with` before the call", "why_tests_cant": "Quantifies over all lists of parameters and arguments, and all types of bodies.", "anchors": ["crates/tinymist-analysis/src/ty/sig.rs", "crates/tinymist-analysis/src/ty/apply.rs", "crates/tinymist-analysis/src/ty/subst.rs", "crates/tinymist-analysis/src/ty/mutate.rs", "crates/tinymist-analysis/src/ty/def.rs SigTy, ArgsTy", "crates/tinymist-query/src/analysis/tyck/syntax.rs check_closure, check_call", "crates/tinymist-query/src/analysis/tyck/apply.rs"]}
{"id": "C119", "title": "Simplified types keep their alternatives", "statement": "Simplifying a type ends, whatever bounds its variables have, and also if they refer to each other. The result has no variables, makes up no alternatives and loses none.", "quantifier": "all types and all bounds of variables", "why_tests_cant": "Quantifies over all types and all graphs of bounds, also cyclic ones.", "anchors": ["crates/tinymist-analysis/src/ty/simplify.rs"]}
{"id": "C120", "title": "The text of a type names every alternative once", "statement": "The text shown for a type is the words of its alternatives, each of them once, in alphabetical order and joined by ` | `, with functions as their parameters and result.", "quantifier": "all types", "why_tests_cant": "Quantifies over all nestings of unions and functions.", "anchors": ["crates/tinymist-analysis/src/ty/describe.rs"]}
{"id": "C121", "title": "A revision number stands for one state of a project", "statement": "The revision number of a project never goes back, and any two moments with the same number have the same main file, inputs, features, fonts, packages and files. A change that is made increases it, a revision without changes does not.", "quantifier": "every history of changes of a project", "why_tests_cant": "Quantifies over all histories of changes of all kinds, in any grouping.", "anchors": ["crates/tinymist-world/src/world.rs CompilerUniverse, RevisingUniverse, increment_revision, mutate_entry, with_entry_file"]}
{"id": "C122", "title": "A compilation for a special purpose disturbs no other", "statement": "A task made of a project's snapshot has the main file and inputs asked for and otherwise everything of the snapshot, with the same date, however long it takes. When documentation is converted, a piece rendered or the style at a position asked for, the texts tried for this are seen by this task only: all other compilations read the same contents and have the same dependencies as before.", "quantifier": "every history of snapshots, tasks, reads and passing time", "why_tests_cant": "Quantifies over all interleavings of what is done with the task and all other worlds.", "anchors": ["crates/tinymist-world/src/world.rs CompilerWorld task, today, html_task, paged_task, take_db", "crates/tinymist-world/src/source.rs", "crates/tinymist-query/src/docs/convert.rs", "crates/tinymist-query/src/code_context.rs", "crates/typlite/src/lib.rs render_code", "crates/tinymist/src/resource/symbols.rs"]}
{"id": "C123", "title": "A font is the one its entry in the font book describes", "statement": "The search for fonts does not fail, the fonts found are those of the user's paths, of the system and the embedded ones, in this order of preference, and the font loaded for an entry is the one the entry was read from. A font that was loaded stays the same.", "quantifier": "all options, contents of font files, and rows of requests for fonts", "why_tests_cant": "Quantifies over all sets of font files, also unreadable ones and collections, and all orders of requests.", "anchors": ["crates/tinymist-world/src/font/system.rs", "crates/tinymist-world/src/font/memory.rs", "crates/tinymist-world/src/font/resolver.rs", "crates/tinymist-world/src/font/slot.rs", "crates/tinymist-world/src/font/loader.rs"]}
{"id": "C124", "title": "The list of fonts is complete", "statement": "The list of fonts shown by the editor has every font once, in the family of its name, with the place it was found in and its index there.", "quantifier": "all sets of fonts", "why_tests_cant": "Quantifies over all sets of fonts with any names and places.", "anchors": ["crates/tinymist/src/resource/fonts.rs"]}
{"id": "C125", "title": "Copying a package gives exactly its files, in the place it is copied to", "statement": "Copying a package into a map or into a directory, through a filter or not, makes exactly the files of the package that pass the filter present there under their paths, with the contents the package has last for the path; what was there under other paths stays, and nothing outside the directory changes.", "quantifier": "every package, filter, directory and state of the disk, including packages that name a path twice, paths that are absolute or go up, and copies that fail midway", "why_tests_cant": "A test copies one well-formed package; which files are written where depends on every path a downloaded archive may contain.", "anchors": ["crates/tinymist-package/src/pack.rs: CloneIntoPack, PackExt::filter", "crates/tinymist-package/src/pack/fs.rs: DirPack::clone_into_pack", "crates/tinymist-package/src/pack/memory.rs: MapPack::clone_into_pack", "crates/tinymist-package/src/pack/ops.rs: FilterPack::read_all"]}
{"id": "C126", "title": "Reading a package hands out every file of it under its own name", "statement": "Reading a directory as a package hands out exactly the files below it, but those that are hidden, that pass the filter, under their path from there; reading an archive hands out exactly its plain files, under their whole names.", "quantifier": "every directory, state of the disk, filter and archive, including directories whose own name starts with a dot and names too long for a header of an archive", "why_tests_cant": "A test reads one directory with an ordinary name and one archive with short names.", "anchors": ["crates/tinymist-package/src/pack/fs.rs: FilterDirPack::read_all", "crates/tinymist-package/src/pack/tarball.rs: TarballPack::read_all"]}
{"id": "C127", "title": "The metrics of a document name every font it uses, once, with its use", "statement": "The answer for a document with pages has exactly one entry for every font that some text of it is set in. The entry says how many glyphs are set in the font, the place of the first text in it, in the order of the document, that comes from a file, and the number of its source in the list of sources, which has every source once.", "quantifier": "every document with any nesting of groups, any fonts and any origin of the glyphs", "why_tests_cant": "A test compiles one document; counts, first places and numbers must be right for every arrangement of texts, groups and pages.", "anchors": ["crates/tinymist-query/src/document_metrics.rs: DocumentMetricsRequest::request, work_text, source_code_file_line, internal_source, compute"]}
{"id": "C128", "title": "Every call that makes a color is shown as one, and picking a color keeps it one", "statement": "The colors of a file are shown exactly once for each call of a color function whose value is known, at the range of the call and in the order of the text; and each text that is offered for a color, put in place of the call, is shown as the same color.", "quantifier": "every syntax tree, with calls nested to any depth, and every color", "why_tests_cant": "A test has a few calls; nesting, arguments and names vary without bound.", "anchors": ["crates/tinymist-query/src/analysis/color_expr.rs: ColorExprWorker::work, on_call, on_rgb, on_const_call", "crates/tinymist-query/src/color_presentation.rs: ColorPresentationRequest::request", "crates/tinymist-query/src/document_color.rs: DocumentColorRequest::request"]}
{"id": "C129", "title": "A click in the preview leads to the source of what is clicked", "statement": "A click on a page leads to the source of the topmost glyph, rectangle or image at that point, behind the letters of a glyph of a text when its right half is clicked; it leads nowhere when there is none, or when a link is clicked.", "quantifier": "every frame with any nesting of groups and every point", "why_tests_cant": "There are no tests of clicks, and which item is on top depends on the whole nesting of the page.", "anchors": ["crates/tinymist-query/src/jump.rs: jump_from_click, is_in_rect", "crates/tinymist/src/tool/preview/compile.rs: resolve_frame_loc, resolve_span"]}
{"id": "C130", "title": "A cursor in a text leads to where the text is on the pages", "statement": "For a cursor behind a text, the positions are, for every page with a glyph of that text, the first such glyph; when there is none on any page, the one position is that of the first of the glyphs closest to it in the file; a cursor behind anything else has no position.", "quantifier": "every document, with groups nested to any depth, and every cursor", "why_tests_cant": "Snapshots cover a few documents, with exact matches or without groups.", "anchors": ["crates/tinymist-query/src/jump.rs: jump_from_cursor, jump_from_cursor_, find_in_frame"]}
{"id": "C131", "title": "The mode at a place is the one in which the parser reads it", "statement": "The mode that an editor is told for a position (markup, code, math, string, raw text or comment) is the one in which the parser reads the leaf before it: that of the closest construct around it that sets one, or code when a hash leads in the expression.", "quantifier": "every syntax tree and every position in it", "why_tests_cant": "The tests ask for a few positions; the answer depends on every combination of nested constructs, and on what is in front of a node.", "anchors": ["crates/tinymist-analysis/src/syntax/matcher.rs: interpret_mode_at, interpret_mode_at_kind", "crates/tinymist-query/src/code_context.rs: mode_at"]}
{"id": "C132", "title": "The names offered are those in scope", "statement": "Where names are completed, a name is offered exactly if it is bound at the cursor when the program runs, and with the type of the declaration it stands for there: the last one before the cursor, with the parameters of the functions and loops whose bodies the cursor is in, and the library behind all of them.", "quantifier": "every nesting of blocks, functions, loops, lets and imports around the cursor and before it, and every name", "why_tests_cant": "The tests list the offers at some cursors; scoping depends on every nesting and order of declarations.", "anchors": ["crates/tinymist-analysis/src/syntax/matcher.rs: previous_items, previous_decls", "crates/tinymist-query/src/analysis/completion/scope.rs: Defines, scope_defs"]}
{"id": "C133", "title": "The values shown for an expression are those it had", "statement": "When hovering over an expression, the values it had when the document was compiled are shown in order, equal neighbours once with how often they came, and dots exactly if there are more values than are shown; nothing is shown exactly if there are no values, or if they are all one function.", "quantifier": "every list of recorded values, every equality and way of writing of values, and every limit", "why_tests_cant": "The tests hover over expressions with a few values; how runs, the limit and the dots meet depends on every list of values.", "anchors": ["crates/tinymist-analysis/src/upstream/tooltip.rs: expr_tooltip"]}
{"id": "C134", "title": "The summary of a font family", "statement": "The summary of a font family tells how many variants it has, its least and its greatest weight, and whether it has italics.", "quantifier": "every list of variants, in every order", "why_tests_cant": "The tests show the summary of the bundled fonts; which weight is last depends on the whole family.", "anchors": ["crates/tinymist-analysis/src/upstream/mod.rs: summarize_font_family"]}
{"id": "C135", "title": "Documentation of the library is shown as it is written", "statement": "The documentation of a function of the library is shown as it is written: words and brackets as they are, code without the marks of its kind, and links with their labels and with the targets they resolve to. An address is kept, the name of a page of the manual leads to that page or below it, and the name of a definition to where that is described.", "quantifier": "every sequence of words, code, links, references and brackets, every target, and every table of definitions", "why_tests_cant": "The tests show some docs of the library; the scanner must get every text right that the library has now or gets with a new version.", "anchors": ["crates/tinymist-analysis/src/upstream/mod.rs: plain_docs_sentence, resolve, split_link, resolve_known"]}
{"id": "C136", "title": "Hovering previews the closest place and offers the links under the pointer", "statement": "Hovering previews the place of the closest cursor, at most 99 bytes away, that was laid out, the one behind if two are equally close, and nothing exactly if there is none. For a path under the pointer its link is offered, and for no other one. A command that is offered is written so that its link ends where it should and that the editor reads the argument it was given.", "quantifier": "every cursor, text and layout; every list of links and every offset; every title, command and argument", "why_tests_cant": "The tests hover at some places; the search and the encoding must be right for every layout and every path.", "anchors": ["crates/tinymist-query/src/hover.rs: HoverRequest::request, HoverWorker::preview, HoverWorker::link, CommandLink, CommandOrLink"]}
{"id": "C137", "title": "Interned objects are equal exactly when their values are, under any concurrency", "statement": "Whatever threads intern, copy and drop, in whatever order their steps interleave, a handle in use reads the value it was made from, two handles in use compare equal (by pointer) exactly if they were made from equal values, the server never aborts in the interner, and the statistics count the interned objects. When the last handle of a value is dropped, the value is forgotten and its memory freed.", "quantifier": "every value type, every number of threads and handles, every interleaving of interning, cloning and the three parts of a drop, and every choice of addresses by the allocator", "why_tests_cant": "The races are between two loads of a counter and a lock; a test sees one schedule.", "anchors": ["crates/tinymist-analysis/src/adt/interner.rs: Interned::new, Interned::new_str, Interned::drop, Interned::drop_slow, Interned::clone, PartialEq for Interned"]}
{"id": "C138", "title": "A debugged program is the program, with breakpoints at its blocks", "statement": "A file that is debugged is rewritten so that it has all of its text in order, and asks for a breakpoint where each block of code, body of a loop, closure or conditional begins and where it ends; the breakpoints are numbered in order and each leads back to its place. A program stops at a breakpoint it passes exactly if the breakpoint is switched on. The rewritten program typesets what the program does.", "quantifier": "every syntax tree, every block in it, every set of switched on breakpoints, every history of sessions", "why_tests_cant": "The tests compare the rewriting of a few files; whether a block is missed or torn from its line depends on where it stands.", "anchors": ["crates/tinymist-debug/src/debugger/instr.rs: instrument_breakpoints, InstrumentWorker::visit_node, instrument_block, instrument_block_child, instrument_functor", "crates/tinymist-debug/src/debugger.rs: set_debug_session, check_soft_breakpoint, soft_breakpoint_handle"]}
{"id": "C139", "title": "Viewers of a preview are understood, served and counted", "statement": "Every message of the preview's protocol that a viewer sends is understood as what it asks for; a message outside it ends that viewer's connection and no other. Told of several positions, the page goes to the last of those nearest to the page it shows. A viewer is served until it ends the connection itself. A server that is to shut down when idle does so only when it has no viewer, and does so once the last viewer is gone.", "quantifier": "every message, every list of positions, every history of connections, upgrades, frames, ends and timeouts", "why_tests_cant": "There are no tests of the data plane; whether the counter comes back to zero depends on the order and outcome of all connections.", "anchors": ["crates/typst-preview/src/lib.rs: Previewer::start_data_plane", "crates/typst-preview/src/actor/webview.rs: WebviewActor::run, position_req, positions_req", "crates/tinymist/src/tool/preview.rs: bind_streams", "tools/typst-preview-frontend/src/ws.ts: createSvgDocument message handling"]}
{"id": "C140", "title": "A debug console answers for the program that was launched", "statement": "An expression evaluated in the debug console is evaluated in the program of the last launch that succeeded, with the files as they were at that launch, until the session is ended; without a session it is refused. A launch announces the process, its thread and that it stopped. No request brings the adapter down. A debugged compilation stops before it, at each place of it, and after it, in order, and every request is answered exactly once where the program stands when its turn comes.", "quantifier": "every history of requests and edits, every list of stops, every sequence of evaluations and continuations", "why_tests_cant": "The debug adapter has no tests; what an answer refers to depends on the whole history of launches, ends and edits.", "anchors": ["crates/tinymist/src/dap/request.rs: launch_debug_, disconnect, terminate_debug, terminate_debug_thread, evaluate_repl, complete_repl, debug_threads", "crates/tinymist/src/dap.rs: DebugState", "crates/tinymist-dap/src/lib.rs: start_session, step, step_global, DebugContext::on_breakpoint"]}
{"id": "C141", "title": "Lock file updates of several processes are not lost", "statement": "When several processes update and read the same lock file at the same time, the file ends up with the updates made one after the other in the order in which they finished, none lost; a reader gets the contents between two updates, never a file that is being written; and the processes never block each other for good.", "quantifier": "any number of processes, any updates, every interleaving of their steps including partial reads and writes and processes that are killed", "why_tests_cant": "No test runs two processes; losing an update needs a particular interleaving of their steps.", "anchors": ["crates/tinymist-project/src/lock.rs: LockFile::update, LockFile::read", "crates/tinymist-std/src/fs/flock.rs: Filesystem::open_rw_exclusive_create, Filesystem::open_ro_shared, Filesystem::open, acquire, try_acquire, FileLock::drop"]}
{"id": "C142", "title": "The links of a document are the files named in it, and lead to them", "statement": "The document links are exactly the strings that name a file, in an include, as path of a function that reads a file, or by a named argument that is a file; each is listed once, from behind its first quote to its last, and leads to the file that is read when the document is compiled.", "quantifier": "every document (syntax tree), every path and directory of a project, every root", "why_tests_cant": "The fixtures are a few documents in one directory; which strings are links and where they lead must be right for every nesting of calls and every form of path.", "anchors": ["crates/tinymist-query/src/analysis/link_expr.rs: get_link_exprs_in, LinkStrWorker::collect_links, analyze_call, analyze_reader, analyze_path_expr, analyze_path_str, LinkTarget::resolve", "crates/tinymist-query/src/document_link.rs: DocumentLinkRequest::request", "crates/tinymist-vfs/src/path_mapper.rs: PathResolution::join"]}
{"id": "C143", "title": "The documentation of a package tells every definition once, in the section of its file", "statement": "The documentation of a package can always be written: the entry point, and every file of the package that something exported is defined in and that exports anything, has exactly one section, which lists what the file exports in order with kinds; its name is a path that leads to the file and belongs to no other section; a definition exported again is linked to the section of the file that defines it, at a heading that exists if that file exports it under the same name.", "quantifier": "every set of files, what each exports and from where, also in circles; every entry point", "why_tests_cant": "The tests run it on a few published packages; that the collection ends, forgets no file, never panics for a file without paths and links to headings that exist depends on how files export from one another in every possible way.", "anchors": ["crates/tinymist-query/src/docs/module.rs: module_docs, ScanDefCtx::defs, ScanDefCtx::expr, ScanDefCtx::def", "crates/tinymist-query/src/docs/package.rs: package_docs"]}
{"id": "C144", "title": "The type of an expression describes its value", "statement": "The type that is found for an expression, and shown on hover or used to complete, is one that the value of the expression has, for literals, arrays, dictionaries, blocks, markup and conditionals.", "quantifier": "every expression of these forms, however nested; all values of its variables, and all that its loops give", "why_tests_cant": "The snapshots of types are of a few documents and nobody evaluates them; that the type of a block holds for every value of its parts is a statement about all expressions and all values.", "anchors": ["crates/tinymist-query/src/analysis/tyck/syntax.rs: check_syntax, check_block, check_array, check_dict, check_let, check_conditional, check_while_loop, check_for_loop", "crates/tinymist-query/src/analysis/tyck.rs: Joiner::join, Joiner::finalize", "crates/tinymist-query/src/syntax/expr.rs: do_check, check_in_mode, check_array, check_dict, check_conditional"]}
{"id": "C145", "title": "A document is the same for the editor and the server", "statement": "The URI that the server sends for a path is one that it takes for this path, so that answers, diagnostics and edits reach the document they are about: for every file on disk, whatever is in its name, and for documents that have no file yet. Two documents never have one URI. However the editor encodes the URI of a file, the URI it gets back is of the same file.", "quantifier": "every path, of names of any bytes; every URI of the schemes file and untitled, and of others", "why_tests_cant": "The tests convert a few names; names with blanks, percent signs, hashes or bytes that are not ASCII, nested directories and all ways to encode one name are infinitely many.", "anchors": ["crates/tinymist-query/src/lsp_typst_boundary.rs: path_to_url, url_to_path, untitled_url", "crates/tinymist/src/server.rs: as_path", "crates/tinymist-query/src/analysis/global.rs: uri_for_id"]}
{"id": "C146", "title": "A build script does the tasks of the lock file", "statement": "The script that `tinymist generate-script` writes runs, in the order of the lock file, one command for each task that is not a preview, and the shell reads the paths, inputs and names of the lock file as single arguments, whatever quotes, blanks, dollar signs or line breaks are in them; nothing else in the lock file is run. Each command is taken by the program and declares the document and the task of the lock file again.", "quantifier": "all lock files, all texts in paths, inputs, outputs and identifiers, all kinds of tasks, all page ranges", "why_tests_cant": "The tests run no generated script; quoting must be right for all texts, and the words have to agree with the options of another command for all combinations.", "anchors": ["crates/tinymist/src/tool/project.rs: shell_build_script, generate_script_main, CompileArgs", "crates/tinymist-project/src/args.rs: DocNewArgs::to_input, TaskCompileArgs::to_task", "crates/tinymist-world/src/args.rs: CompileFontArgs, CompilePackageArgs, OutputFormat, PdfStandard", "crates/tinymist-task/src/primitives.rs: ResourcePath::to_rel_path, ResourcePath::from_user_sys"]}
{"id": "C147", "title": "A request at a position is about what is there", "statement": "A request for the definition, the references or the new name of what is at a position, and hovering over it, is about the name the position is on: the field, if the name is the field of an access, and else the variable; from every position on the name and from right behind it. On a path of an import or an include it is about the path, on a label or a reference about that. On text of the document, and on comments, it is about nothing.", "quantifier": "all syntax trees, all names in code and math at any depth, all positions on and right behind them", "why_tests_cant": "The tests look at chosen positions of chosen files; the claim is about all positions of all trees, with all neighbours a name may have.", "anchors": ["crates/tinymist-analysis/src/syntax/matcher.rs: classify_syntax, first_ancestor_expr, adjust_expr, is_mark, SyntaxClass", "crates/tinymist-query/src/analysis/global.rs: LocalContextGuard::classify_for_decl, classify_pos", "crates/tinymist-query/src/goto_definition.rs: GotoDefinitionRequest", "crates/tinymist-query/src/references.rs: ReferencesRequest", "crates/tinymist-query/src/prepare_rename.rs: PrepareRenameRequest", "crates/tinymist-query/src/rename.rs: RenameRequest", "crates/tinymist-query/src/hover.rs: HoverRequest"]}
{"id": "C148", "title": "A recorded session can be replayed", "statement": "A server that is started with `--mirror FILE` reads the same messages as without it, however its input is cut into pieces, and a server that is started with `--replay FILE` on the recording gets the same messages in the same order and ends its input in the same way: with an exit, with the end of the input or with an error. If the recording server is killed at any moment, the replay has all messages that were passed on, and no message that was not in the input. With `--replay`, no mirror is written.", "quantifier": "all inputs, well-formed or not, all ways in which they arrive in pieces, all sizes of buffers, all moments at which a session breaks off", "why_tests_cant": "Where bytes are recorded depends on how reads and buffers fall together, which tests do not control; no test kills a recording server.", "anchors": ["crates/sync-lsp/src/transport.rs: MirrorArgs, MirrorWriter, with_stdio_transport, io_transport", "crates/sync-lsp/src/msg.rs: read_msg_text, Message::read_lsp, Message::read_dap", "crates/sync-lsp/src/lsp.rs: Message::read"]}
{"id": "C149", "title": "A document sees one date, the right one", "statement": "All questions of a document for the date, in one compilation and in everything derived from it, are answered for one instant: the moment at which the date was first needed. Without an offset the answer is the local date, with an offset the date in UTC moved by so many hours, and none if the year has more than four digits; no question makes the compiler panic. A new compilation sees the clock anew. The creation date of a PDF is the timestamp that is set by the command or else by the settings, or else the time of the export, to the second; one that cannot be written is an error.", "quantifier": "all histories of snapshots, derived worlds and questions, all readings of the clock (also those that go backwards), all time zones, offsets and timestamps", "why_tests_cant": "Tests run within one second of one day; they reach neither midnight, nor leap days, nor large offsets, nor clocks that change during a compilation.", "anchors": ["crates/tinymist-world/src/world.rs: CompilerWorld::today, CompilerWorld::task, CompilerUniverse::snapshot_with, NowStorage", "crates/tinymist-std/src/time.rs: to_typst_time, ToUtcDateTime, utc_now", "crates/tinymist-task/src/compute/pdf.rs: PdfExport::run", "crates/tinymist/src/cmd.rs: export_pdf", "crates/tinymist-world/src/args.rs: parse_source_date_epoch"]}
{"id": "C150", "title": "What is offered for renaming can be renamed", "statement": "When the editor asks whether what is at a position can be renamed and is told yes, with a range and the text in it, then renaming it there works for every new name and changes exactly the places that mean it; when it is told no, renaming does nothing. Only variables and functions of the user's own files and the paths of their files are offered: nothing of a package, no function of typst, no label and no key of a bibliography. The text shown is the text in the range.", "quantifier": "every position, whatever stands there and whatever it means, every result of the search for references, and every new name", "why_tests_cant": "It relates two requests for all kinds of definitions, all values (functions with arguments given in advance any number of times) and all pairs of paths, which may be written in unboundedly many ways.", "anchors": ["crates/tinymist-query/src/prepare_rename.rs: PrepareRenameRequest, prepare_renaming, validate_fn_renaming", "crates/tinymist-query/src/rename.rs: RenameRequest", "crates/tinymist-query/src/references.rs: find_references", "crates/tinymist-query/src/analysis/definition.rs: definition", "crates/tinymist-std/src/path.rs: diff"]}
{"id": "C151", "title": "Going to a definition leads to its name", "statement": "Going to the definition of what is at a position is answered exactly if the definition is known and its file can be read, and leads to that file. There it selects the name of the variable, function, parameter or label, the key of an entry of a bibliography within the entry, or the start of an imported file. The selected range is within the range of the link. What is offered for renaming can be gone to.", "quantifier": "every position, whatever stands there and whatever it means", "why_tests_cant": "It has to hold for every kind of definition, wherever it is, and for every history of the document the labels are taken from.", "anchors": ["crates/tinymist-query/src/goto_definition.rs: GotoDefinitionRequest", "crates/tinymist-query/src/analysis/definition.rs: definition, find_ident_definition, bib_definition, ref_definition, name_range"]}
{"id": "C152", "title": "Profiling a document answers with what another process measured", "statement": "The request that profiles a document runs another process for the same root, main file, inputs and font paths, is refused before anything is run exactly when an input is not a string, and is answered with all messages of that process up to and including its response, in order; the diagnostics come before the response. Not so: a key with an equals sign and white space around values are changed, a font path with the path separator is split, the standard error is always reported empty, and a process that ends without a response (arguments refused, main file outside the root, unknown kind of answer) leaves the request unanswered for ever.", "quantifier": "every root, main file, list of inputs and font paths; every sequence of messages, every output after them, and every number of steps of the reading thread", "why_tests_cant": "The round trip ranges over all texts in inputs and paths, and a request that is never answered cannot be observed by a test that ends.", "anchors": ["crates/tinymist/src/task/user_action.rs: run_trace_program, trace_main", "crates/tinymist/src/main.rs: trace_lsp_main", "crates/tinymist-world/src/args.rs: parse_input_pair, CompileFontArgs", "crates/sync-lsp/src/msg.rs: Message::read"]}
{"id": "C153", "title": "The web server of a profile serves the editor only and stops when unused", "statement": "The server answers a request exactly when its origin begins with vscode-webview://, allows only that origin to read the answer, gives the timings unchanged at / (nothing for HEAD) and redirects every other path there. It stops exactly 15 seconds after its last use. Not so: requests that are refused count as use, so any page can keep the process running.", "quantifier": "every request; every sequence of requests in time order, of any length", "why_tests_cant": "A test tries a few origins and a few schedules; the guard must hold for every origin, and the idle timer for every schedule of requests.", "anchors": ["crates/tinymist/src/task/user_action.rs: make_http_server"]}
{"id": "C154", "title": "The semantic tokens of the compiler library are those of the document", "statement": "For every document and either encoding the compiler library gives semantic tokens without a panic; decoded relative to one another and read with the legend, they are, in order, those of all nodes that have a type and of all leaves: each at the position where its node begins, as long as its text in UTF-16, with the name for its kind (a hash is like what follows it, a name is a function if called) and exactly the styles of the nodes around it. No character is left out. Not so: nodes with a type and their parts have overlapping tokens, although the protocol asks for none, and lengths are in UTF-16 even if UTF-8 is asked for.", "quantifier": "every syntax tree of any depth and width, every text in it, both encodings", "why_tests_cant": "The tokens depend on the whole tree and on the position of every node; a test fixes a few documents.", "anchors": ["crates/tinymist-world/src/parser/semantic_tokens.rs: get_semantic_tokens_full, tokenize_tree, token_from_node, get_semantic_tokens_legend", "crates/tinymist-world/src/parser/typst_tokens.rs", "crates/tinymist-world/src/parser/modifier_set.rs"]}
{"id": "C155", "title": "The statistics of queries count every query once, whatever runs at the same time", "statement": "For every history of queries that begin, miss what is kept, wait and finish on any threads, the server's information has one row for each file and query that was begun and no other. A row tells how many of them are finished, what they took together, at least and at most, what they waited and how many missed; it is the same for every order of the events. The rows with the longest queries come first. Not so: a row without a finished query shows a least time of 2^64-1 seconds, names are not escaped for the page, and two files can have rows of one name.", "quantifier": "every history of queries of any number, files and names, every interleaving, every clock, also one that is set back", "why_tests_cant": "Queries run at once on several threads and any number of them; a test sees one schedule.", "anchors": ["crates/tinymist/src/stats.rs: QueryStatGuard, CompilerQueryStats::query_stat, report", "crates/tinymist-query/src/analysis/stats.rs: QueryStatGuard, AnalysisStats::report", "crates/tinymist-query/src/analysis/global.rs: query_stat"]}
{"id": "C156", "title": "The statistics of interned values tell of values that are alive", "statement": "For every history of values made and dropped on any threads, a row of the server's information tells the number made and dropped, how many are alive and what they take. If the report is made while other threads go on, it tells of no more values than were alive and misses no more of these than are dropped meanwhile. The rows with the most values come first, and a size is shown in the least of five units in which it is below 768. Not so: the rows that take the most are not first, and a size of 768 terabytes panics.", "quantifier": "every history of values made and dropped, every point at which the two counters are read, every size", "why_tests_cant": "The two counters are read at different times while other threads change them; tests do not force the schedules.", "anchors": ["crates/tinymist-analysis/src/stats.rs: AllocStats, report, human_size"]}
{"id": "C157", "title": "Completion by type offers everything the type stands for, once", "statement": "Where an expression of a known type is expected, completion offers the items of every type it stands for: the parts of unions and bounds, the types of positional parameters, and what built-in types imply (colors, lengths and `auto` for a stroke, and so on). It ends for every type. Names of arguments, values, constructors, elements and labels are offered at most once, arguments that are already given are not offered again, nor is the value that is there. In the text of a string only paths, fonts, font features and strings are offered. With the cursor in a name, the items remain whose labels have the characters before the cursor in that order.", "quantifier": "all types, however nested, all places, all sets of arguments that are given, all labels of a document and all prefixes", "why_tests_cant": "The types, the places and the functions a name may stand for are without bound; examples show only a few of them.", "anchors": ["crates/tinymist-query/src/analysis/completion/type.rs: TypeCompletionWorker::type_completion, builtin_type_completion", "crates/tinymist-query/src/analysis/completion.rs: CompletionWorker::work, complete_cursor"]}
{"id": "C158", "title": "Functions are offered in the form that fits the place", "statement": "A name that may stand for several functions is offered: with `.with` where a show rule transforms and every one of them has parameters to give; with `.where` in a selector if one is an element; not at all in a selector or set rule if none is an element; alone where it is not called; with empty parentheses if there is nothing to give, with the cursor in the parentheses otherwise, and besides with brackets if the next argument is content, outside of equations and set rules. Labels are different, and the order of the functions does not matter.", "quantifier": "all places, all functions with all signatures, given arguments and names", "why_tests_cant": "The types, the places and the functions a name may stand for are without bound; examples show only a few of them.", "anchors": ["crates/tinymist-query/src/analysis/completion/func.rs: func_completion", "crates/tinymist-query/src/analysis/completion/kind.rs: FnCompletionFeat"]}
{"id": "C159", "title": "Names behind a dot and in parameters are those that can be there", "statement": "Behind a dot completion offers what is in the scope of the value and its type, its fields, the entries of a dictionary, the fields of content, the settable parameters of an element and the modifiers of a symbol; in an equation no functions, and only where a dot accesses a field: behind a name or fields of one. Snippets around the value are offered unless it is text with punctuation, and functions to call on it only for symbols and content. Only if nothing of this applies are the types asked. In the parameters of a function the names are offered that its body takes from outside, but not its own name nor what a parameter binds.", "quantifier": "all values with all scopes, all texts before the dot, in equations or not, and all parameters and captured names", "why_tests_cant": "The types, the places and the functions a name may stand for are without bound; examples show only a few of them.", "anchors": ["crates/tinymist-query/src/analysis/completion/field_access.rs: value_dot_access_completions, is_valid_math_field_access, is_valid_math_postfix", "crates/tinymist-query/src/analysis/completion/param.rs: complete_params"]}
{"id": "C160", "title": "The files of a workspace are all known, and only those", "statement": "The sources that renaming, references and workspace labels look at, and the files that completion of paths offers, are just the files below the workspace's folder that have an extension of the kind that is asked for, of which neither the file nor a folder on the way is hidden or has the name of a folder for generated files. Links are not followed. No file is found twice, and no more than 65535 are found.", "quantifier": "all trees of folders, names, orders of entries and kinds of files", "why_tests_cant": "Folders, names and nested alternatives are without bound; a test has one folder.", "anchors": ["crates/tinymist-query/src/syntax/module.rs: scan_workspace_files, is_hidden", "crates/tinymist-query/src/analysis/global.rs: completion_files, source_files"]}
{"id": "C161", "title": "A file's kind is told by its extension", "statement": "A file is accepted as a source, image, data, bibliography, style, theme or syntax file just if its extension is one of that kind, in whatever case of letters. Only YAML files are of two kinds (data and bibliography) and XML files (data and theme). The hover names one kind for each file that has an extension: one that accepts it.", "quantifier": "all names of files", "why_tests_cant": "There are infinitely many names; the unit tests have two.", "anchors": ["crates/tinymist-analysis/src/ty/builtin.rs: PathPreference::ext_matcher, is_match, from_ext", "crates/tinymist-query/src/hover.rs"]}
{"id": "C162", "title": "Parameters and values have the types that are written for them", "statement": "The type of a parameter has just the alternatives of its declaration as parts, however they are nested or grouped. Arguments given in advance by `with` change nothing about it. The parameters that name a file take files of the kind the function reads. A value is taken for `none` or `auto` only if it is one.", "quantifier": "all declarations, all functions with arguments given any number of times, all values", "why_tests_cant": "Declarations nest without bound, and `with` can be applied any number of times.", "anchors": ["crates/tinymist-analysis/src/ty/builtin.rs: Ty::from_cast_info, from_param_site, UnionIter, param_mapping, BuiltinTy::from_value, from_builtin"]}
{"id": "C163", "title": "Styles of a font share a family name", "statement": "In a browser, where only names of a font are known, all styles of a family come under one family name: words for styles behind the name are taken off, in whatever case, several at once, with or without a modifier, and with a blank, hyphen or underscore in between; a name that is not a style's is kept; what is left is a beginning of the name and does not itself end with a style; fonts of New Computer Modern get readable names; and a font without a name is refused.", "quantifier": "all names, separators, modifiers and lists of style words", "why_tests_cant": "names of fonts are arbitrary texts and the words are taken off in a loop, so each combination is one of infinitely many", "anchors": ["crates/tinymist-world/src/font/info.rs: typst_typographic_family", "crates/tinymist-world/src/font/web/mod.rs: font_family_web_to_typst, infer_info_from_web_font"]}
{"id": "C164", "title": "Variants of browser fonts are what their names say", "statement": "The weight, stretch, style and flags guessed for a font of a browser are named by one of its names; without any such word it is a regular font; what the style says of the weight goes before what the names say; and a font named as one of the weights or stretches is taken for it.", "quantifier": "all families, full names, PostScript names and styles", "why_tests_cant": "the words are looked for anywhere in the names and some are in others, so which is found depends on all the rest of the text", "anchors": ["crates/tinymist-world/src/font/info.rs: typst_typographic_family", "crates/tinymist-world/src/font/web/mod.rs: font_family_web_to_typst, infer_info_from_web_font"]}
{"id": "C165", "title": "Uses of a variable tell its type and nothing else", "statement": "When something of one type is used as something of another, all that follows for the variables in both is learned: a variable used as a type is at most that type, one that is given a value is at least the value's type, through unions, dictionaries with common fields, dictionaries written for a stroke, margin and so on, operators and the parameters of functions at the same place or with the same name. Nothing else is learned, nothing is forgotten, it always ends without a failure, and the order of uses does not matter for variables that were not weakened. A call that was gone through before is not gone through again, and yet nothing is missed.", "quantifier": "all types of any depth, all states of knowledge, all calls gone through before, all libraries of built-in dictionaries", "why_tests_cant": "types nest without a bound, the cache of calls makes results depend on the whole history, and order only matters for some histories", "anchors": ["crates/tinymist-query/src/analysis/tyck.rs: constrain, constrain_sig_inputs, weaken, weaken_constraint, check_containing, possible_ever_be"]}
{"id": "C166", "title": "Signature help and completion know which argument the cursor is in", "statement": "With the cursor in the arguments of a call or a set rule, signature help and completion are for this call and for the argument the cursor is in: behind the parenthesis or a comma the one that follows, at a value the one it is the value of, at the value behind a name the one of this name, at the closing parenthesis or at blanks the one before it; the place counted is the number of positional arguments before, whatever named or spread ones are among them.", "quantifier": "All syntax trees, all calls and set rules in them at any depth, all arguments and all places among them", "why_tests_cant": "The answer depends on the kinds of nodes around the cursor at any depth and on what is before it; tests have some cursors in some calls.", "anchors": ["crates/tinymist-analysis/src/syntax/matcher.rs: classify_context, callee_context, arg_context, bad_completion_cursor", "crates/tinymist-query/src/signature_help.rs: request"]}
{"id": "C167", "title": "Completion knows whether it is in a rule, an import or parameters", "statement": "What is completed depends on what is around the cursor, and that is what the nearest enclosing block, rule, import, parameter list or named argument says: in a set rule an element, unless in its arguments or its condition; in a show rule a selector before the colon and a transformation behind it; in an import the items behind the colon; in parameters a new name; inside of a block nothing of what is around the block.", "quantifier": "All syntax trees and all places in them", "why_tests_cant": "Rules, blocks and arguments nest without limit, and what an outer one says must not leak into an inner one.", "anchors": ["crates/tinymist-analysis/src/syntax/matcher.rs: surrounding_syntax, check_surrounding_syntax, check_previous_syntax"]}
{"id": "C168", "title": "What is offered for an argument is what the signature expects there", "statement": "Of a positional argument what is expected is the parameter at its place, counted behind those given in advance, or that for the rest, and the named parameters, in a set rule only those that can be set, each once; of the value of a named argument it is the type of the parameter of this name.", "quantifier": "All signatures, all places of arguments and numbers of arguments given in advance", "why_tests_cant": "It ranges over all signatures and all places, also behind the last parameter.", "anchors": ["crates/tinymist-query/src/analysis/post_tyck.rs: check_cursor, SignatureReceiver"]}
{"id": "C169", "title": "A function is shown with its own parameters under every name it is given", "statement": "The signature shown for a function known by its type has the parameters that are written, in order, each with what is documented of it and the type found for it. A name given to it by `with` has the same parameters, and those filled by arguments given in advance are counted as filled, by however many calls of `with` they are given.", "quantifier": "all documentation and types of functions, all chains of names and of calls of with, all bounds of variables", "why_tests_cant": "names of names nest without limit; the repository's test with two names has a call without arguments, whose result is empty in any case", "anchors": ["crates/tinymist-query/src/analysis/signature.rs: sig_of_type, wind_stack, find_alias_stack, AliasStackChecker", "crates/tinymist-analysis/src/ty/bound.rs: sources, bounds", "crates/tinymist-analysis/src/ty/sig.rs: sig_repr"]}
{"id": "C170", "title": "Questions are answered from the newest document of the current main file", "statement": "Definitions of labels, references, renames, hovers, jumps and metrics are answered from the state of files at the moment and from the last document that could be made of the current main file, however edits, changes of the main file, compilations and their ends follow each other. The document never goes back to an older state, and the files watched are those the newest compilation has read.", "quantifier": "all histories of edits, changes of the main file, starts and ends of compilations in any order, and questions", "why_tests_cant": "it depends on the order in which compilations end relative to edits and to questions; tests compile once and ask", "anchors": ["crates/tinymist-project/src/compiler.rs: snapshot, make_snapshot, may_compile, process_compile, process_inner", "crates/tinymist-world/src/world.rs: increment_revision", "crates/tinymist-query/src/analysis.rs: run_stateful"]}
{"id": "C171", "title": "An export writes one file, and only when it succeeds", "statement": "A successful export writes exactly one file: the one it reports, which is the path of the pattern with the extension of the format, holding all of the exported document. An export that fails leaves no trace: no file, no directory, no entry in the lock file. A file is opened after the export exactly if that was asked for and the export succeeded. An export is refused if the file to write is a directory, and only then.", "quantifier": "all tasks, patterns, main files, documents (or none), states of the file system and failures of its calls", "why_tests_cant": "the order of checks and effects matters only for combinations of failures, paths and existing directories that tests do not set up", "anchors": ["crates/tinymist/src/task/export.rs: ExportTask::do_export", "crates/tinymist-task/src/model.rs: ProjectTask::extension, as_export", "crates/tinymist/src/server.rs: on_export"]}
{"id": "C172", "title": "Exported files hold the document in the format asked for", "statement": "The exported file is what the renderer of the format makes of the document, compiled to pages or to HTML as the format needs, with the options of the task: standards and time stamp for PDF, the first page or all pages with the gap asked for last for SVG and PNG, and the resolution and the fill colour for PNG. Options that cannot be understood are errors.", "quantifier": "all tasks and their transforms, all documents, and all renderers", "why_tests_cant": "formats, page selections, gaps and colours combine freely", "anchors": ["crates/tinymist/src/task/export.rs: do_export, parse_color, extra_compile_for_export", "crates/tinymist-task/src/compute.rs: get_page_selection"]}
{"id": "C173", "title": "Exported queries hold the elements found, as asked for", "statement": "A query writes the values of the elements found, in the order of the document: the fields asked for or the elements; for a query for one element it is the value of the only one, and an error if there are none or several or it lacks the field. It is written in the format asked for, pretty if that is asked for, and an unknown format is an error.", "quantifier": "all selectors, fields, formats and documents", "why_tests_cant": "elements with and without fields, formats and counts combine freely", "anchors": ["crates/tinymist/src/task/export.rs: do_export (Query), serialize", "crates/tinymist/src/cmd.rs: export_query", "crates/tinymist-task/src/compute.rs: DocumentQuery"]}
{"id": "C174", "title": "Types in doc comments mean what they say", "statement": "The types named in a doc comment for a parameter are the types that those names mean: built-in types, or what the comment's own definitions say (strings and literals, unions, arrays, tags, other names). Names that mean nothing are left out; no names at all means any type. What was looked up before, and in which order, makes no difference. If a parameter is described twice, the last description counts, and every described parameter gets a type.", "quantifier": "all doc comments, definitions and lists of names, all earlier lookups", "why_tests_cant": "lookups share a cache and definitions refer to each other; tests look at single comments", "anchors": ["crates/tinymist-query/src/syntax/docs.rs: DocsChecker::check_type_strings, check_type_ident, check_type_expr, check_pure_func"]}
{"id": "C175", "title": "Reading the types of a doc comment ends, and functions keep their names to themselves", "statement": "Reading the types of a doc comment ends. Parameters of a function type stand for new variables, different from all others, inside that function and nowhere else; what a name means does not depend on which was read first.", "quantifier": "all doc comments, with definitions that refer to each other in any way, and function types nested in any way", "why_tests_cant": "recursion through definitions and the order of lookups are unbounded", "anchors": ["crates/tinymist-query/src/syntax/docs.rs: DocsChecker::check_type_ident, check_type_expr, generate_var"]}
{"id": "C176", "title": "Answers about a file are about its current text and imports", "statement": "What the server says about the definitions of a file is what its text and the exports of the files it imports say at the revision asked about, whatever was asked before, at which revisions, and whatever was discarded; every question is answered; within one revision a file is analysed at most once.", "quantifier": "all histories of edits, questions at the current revision, releases of revisions and discards of caches, all texts and imports", "why_tests_cant": "the caches of earlier revisions are reused and validated; which entries are reused depends on the whole history", "anchors": ["crates/tinymist-query/src/adt/revision.rs: RevisionManager", "crates/tinymist-query/src/analysis/global.rs: IncrCacheMap::compute, AnalysisRevCache::find_revision, AnalysisRevCache::gc, Analysis::enter, lock_revision, clear_cache, type_check_", "crates/tinymist-query/src/syntax/expr.rs: expr_of"]}
{"id": "C177", "title": "Questions put at the same time do not wait for each other for ever", "statement": "If several threads analyse files of one revision at the same time, each waits only for analyses that another is making; in whatever order they run they end, and then every file asked for is analysed.", "quantifier": "all import graphs, all numbers of threads, all questions, all interleavings", "why_tests_cant": "deadlocks depend on the interleaving of threads", "anchors": ["crates/tinymist-query/src/analysis/global.rs: IncrCacheMap::compute, expr_stage_, exports_of", "crates/tinymist-query/src/syntax/expr.rs: expr_of"]}
{"id": "C178", "title": "Completing in a list of imported names", "statement": "In a list of imported names the server completes, at the colon, behind a comma, behind the list on the same line, on a name and behind a dot of a path, the names of what the path before the cursor leads to in the module imported from, each but those that another item imports, and `*` if there are no items; what is replaced begins at the name or at the cursor; behind `*` nothing is completed.", "quantifier": "all syntax trees around the cursor, all texts, all modules imported from", "why_tests_cant": "the position in the tree, the blanks in between, the paths of the other items and the module are unbounded", "anchors": ["crates/tinymist-query/src/analysis/completion/import.rs: complete_imports, import_item_completions"]}
{"id": "C179", "title": "Signatures are those of the files as they are", "statement": "The signature of a function that the server uses to answer a question is the one that the files of the question give it, whatever was asked before; what is kept of earlier questions is used only while it is right, and is dropped after a bounded number of questions.", "quantifier": "all histories of questions, at the same time or one after the other, their ends and discards of caches; all worlds and keys", "why_tests_cant": "what is kept depends on the whole history and on which questions overlap", "anchors": ["crates/tinymist-query/src/analysis/global.rs: SharedContext::compute_signature, CacheMap::entry, CacheMap::retain, LocalContextGuard::gc, Analysis::enter_, Analysis::clear_cache, type_of_value", "crates/tinymist-query/src/analysis/signature.rs: analyze_signature"]}
{"id": "C180", "title": "What is offered fits the place", "statement": "When completions are asked for, the server offers what may stand at the place: names and code in code, names and symbols in equations, snippets of markup in markup (and only if asked for), the languages behind the backticks of a raw text and nothing else in it, and nothing in strings and comments; and the offers replace exactly the name, word or language that the cursor is behind, or are put at the cursor.", "quantifier": "all syntax trees with errors, places, texts, cursors, and ways of asking (explicitly, by typing, by punctuation)", "why_tests_cant": "the kinds of nodes, what is around and before them and the ways of asking can be combined in unboundedly many ways", "anchors": ["crates/tinymist-query/src/analysis/completion/mode.rs: complete_markup, complete_math, complete_code, code_completions", "crates/tinymist-query/src/analysis/completion.rs: complete_cursor, is_hash_expr, is_triggered_by_punc"]}
{"id": "C181", "title": "What is offered behind a dot is what may stand there", "statement": "Behind a dot whose left side is known by its type, the server offers exactly the fields, methods and members that the types it may have do have, each once, bound to the left side where they take it as their first argument; of a module, type or function from which all is imported it offers exactly what is imported; and every offer says the type and documentation of what its name stands for.", "quantifier": "all types made up of unions, bounds and variables, interfaces, scopes and fields, places and texts", "why_tests_cant": "types nest without bound, and each combines with every place and way of asking", "anchors": ["crates/tinymist-query/src/analysis/completion/scope.rs: Defines, CompletionScopeChecker, def_completions", "crates/tinymist-analysis/src/ty/iface.rs: Ty::iface_surface, IfaceCheckDriver", "crates/tinymist-analysis/src/ty/bound.rs: Ty::bounds", "crates/tinymist-query/src/analysis/completion/kind.rs: type_to_completion_kind, fold_ty_kind", "crates/tinymist-query/src/analysis/completion/field_access.rs: type_field_access_completions"]}
{"id": "C182", "title": "No names are offered for a name that is made up", "statement": "While the user types a name that is being made up - of a variable, a function, a part of a value that is taken apart, the variable of a loop or a module that is imported under a new name - or a number with an unknown unit, the server offers no completions; and for a name that is used, such as the value of a binding or the body of a function, it offers everything that the place is good for. A parenthesis, a comma or a colon asks for completions only if so set.", "quantifier": "all syntax trees with errors, places in them, texts, cursors, settings and characters typed", "why_tests_cant": "bindings, functions, loops and patterns nest without bound, may be unfinished in every way, and are followed by anything", "anchors": ["crates/tinymist-query/src/analysis/completion.rs: CompletionWorker::work", "crates/tinymist-query/src/completion.rs: CompletionRequest::request", "crates/tinymist-analysis/src/syntax/matcher.rs: classify_syntax, VarClass::node"]}
{"id": "C183", "title": "Tokens are colored as what they are", "statement": "Every token that the server sends has a kind and modifiers that the legend, announced at start, lists at the numbers they are sent with. A token is strong, emphasised or math exactly if it is in strong text, emphasised text or an equation. A name that stands for a function, a type or a module is shown as such, and modules read-only and static, wherever it is used; a name that stands for nothing known is shown as a function exactly if arguments, parameters or content begin right behind it. A hash is colored as the first token of the expression behind it. Keywords, punctuation, operators, numbers, strings, comments, markers and the like are shown as such, and stars and underscores by what they stand for where they are.", "quantifier": "all syntax trees, places in them and outcomes of resolving names", "why_tests_cant": "tokens inherit modifiers through trees of any depth, and whether a name is called depends on the leaf behind it, however far away in the tree", "anchors": ["crates/tinymist-query/src/analysis/semantic_tokens.rs: TokenType, Modifier, Tokenizer::tokenize_tree, token_from_node, token_from_ident, token_from_hashtag, get_semantic_tokens_legend", "crates/tinymist/src/config.rs: semantic tokens options"]}
{"id": "C184", "title": "A request is answered in the project of its file", "statement": "While a main file is pinned, every request for what a file means is answered in the project of the main file. With nothing pinned, it is answered in the project that the lock files name for the file, with its main file, root, inputs and document, and if they name none, in one whose main file is the file itself. Requests about no file are answered in the root of the workspace. Requests about syntax are answered from the text of the open file, and refused if it is not open. No request crashes the server, and answering changes no state but what is remembered about roots.", "quantifier": "all requests, states of the server, lock files, paths and files on disk", "why_tests_cant": "kinds of requests, pins, lock files, roots and caches combine without bound", "anchors": ["crates/tinymist/src/lsp/query.rs: ServerState::query, ServerState::query_on", "crates/tinymist/src/input.rs: ServerState::resolve_task, ServerState::query_source", "crates/tinymist/src/server.rs: ServerState::is_pinning", "crates/tinymist-query/src/lib.rs: CompilerQueryRequest::associated_path, CompilerQueryRequest::fold_feature", "crates/tinymist-world/src/snapshot.rs: CompileSnapshot::task"]}
{"id": "C185", "title": "Hovering an argument explains the parameter of the function", "statement": "Hovering the name of a named argument of a call or a set rule shows the documentation of the parameter of this name of the function that is called. Hovering a string given for it shows the documentation of this string, the first one among what the parameter takes, however deep the alternatives are nested. Such documentation is shown nowhere else. Hovering a font shows the first family of this name, in whatever case it is written. Hovering the arrow of a closure shows all that it captures, in order. Nothing is shown on blanks and comments.", "quantifier": "all syntax trees, places in them, libraries, alternatives of parameters and fonts", "why_tests_cant": "trees and alternatives nest without bound", "anchors": ["crates/tinymist-analysis/src/upstream/tooltip.rs: tooltip_, named_param_tooltip, find_string_doc, font_tooltip, closure_tooltip"]}
{"id": "C186", "title": "Elements are expected to be what the type of the container says", "statement": "Inside an array or a dictionary whose type is known, what is expected at the cursor is exactly what one of the types says that the container may be, through unions, bounds and parameters of any depth: the element type of an array, the type at this position of a tuple, the fields of a dictionary where no name is given, and the type of the field where one is. Fields are expected only where a dictionary may be written, elements only where an array may be. Nothing is expected twice.", "quantifier": "all types, positions, names and containers", "why_tests_cant": "unions and bounds nest without bound", "anchors": ["crates/tinymist-query/src/analysis/post_tyck.rs: check_signature, SignatureReceiver::insert, PostTypeChecker::check_cursor, sig_context_of", "crates/tinymist-analysis/src/ty/sig.rs: Ty::sig_surface, SigCheckDriver::ty", "crates/tinymist-analysis/src/ty/def.rs: SigTy::array_cons, SigTy::tuple_cons, SigTy::dict_cons, SigTy::pos_or_rest, SigTy::named"]}
{"id": "C187", "title": "The symbols of a file are the names it binds", "statement": "In the symbols of a file every variable is a name written in what a `let` or `for` binds (or among parameters), every function is listed under the name it has or as anonymous, and every label is one that is not written as a value behind a bracket, comma, colon or keyword. Conversely, every name bound by a `let` or `for` that is a statement somewhere in blocks, calls, values, function bodies or loops is listed, and so is every function there and every label in text. (Violated in two places: a name bound under a key when a dictionary is taken apart is left out, and a label something is compared with is listed.)", "quantifier": "all syntax trees of files, all nesting of blocks, functions, loops and patterns in them, all names", "why_tests_cant": "The outline is checked by snapshots of some files; whether a binding is found depends on every node on the way to it.", "anchors": ["crates/tinymist-query/src/syntax/lexical_hierarchy.rs: LexicalHierarchyWorker::check_node, check_nodes, check_first_sub_expr, get_ident, enter_node"]}
{"id": "C188", "title": "Hovering shows what is known, in order", "statement": "Hovering shows, with bars between them and in this order: what is said about the definition at the place (its kind, name, parameters and type; the value of a reference; the citation of an entry) or, without one, the names the star there imports or the kinds of the files linked there; the value; the preview; the documentation unless it is blank; and the actions in one line. Nothing is shown exactly if there is nothing to say. The type is left out if it is just the name again. What is said about a star lists all names in order, once each, and determines them.", "quantifier": "all definitions with or without documentation, all modules with any number of names, all links and what they resolve to, all tooltips and previews", "why_tests_cant": "Snapshots show some combinations of the parts; there are many more, and lists of names of any length.", "anchors": ["crates/tinymist-query/src/hover.rs: HoverRequest::request, HoverWorker::work, static_analysis, definition, star, link, dynamic_analysis, push_result_ty"]}
{"id": "C189", "title": "The outline in the editor follows the document", "statement": "While pages of the preview are connected, the outline sent to the editor is, as soon as all that is announced is dealt with, the outline of the latest document, and the places kept for clicks are those of this outline, however many pages there are, however compilations and requests interleave with making outlines and however many messages are lost; it never goes back to an earlier document, and the places kept are those of the outline shown, except while the next one is about to be sent. (Violated in that window, and with two pages, where an earlier document can follow for a moment; a page that asks for nothing gets no outline.)", "quantifier": "all interleavings of compilations, announcements, requests, connecting pages and steps of their loops, all capacities of the channel, all histories of documents", "why_tests_cant": "Which document is read depends on the schedule of concurrent tasks and on lost messages.", "anchors": ["crates/typst-preview/src/actor/render.rs: OutlineRenderActor::run, outline", "crates/typst-preview/src/lib.rs: CompileWatcher::notify_compile"]}
{"id": "C190", "title": "The lock file names the document that was compiled", "statement": "When a document is compiled with a lock file, what the lock file then says, read in its own directory, is the file that was compiled, with this directory as the root, whatever directory the process works in; the id of the record tells the documents of a root apart; later requests that the lock files lead to this record are answered with this file as the main file; recording never crashes. (Violated whenever the process works in a directory above that of the lock file: the record is of another file.)", "quantifier": "all absolute working directories, directories of lock files and paths of documents, all states of the server, all kinds of requests about files", "why_tests_cant": "The recorded path depends on the working directory of the process; tests run in the directory of the lock file.", "anchors": ["crates/tinymist-project/src/lock.rs: LockFileUpdate::compiled", "crates/tinymist-task/src/primitives.rs: Id::from_world, ResourcePath::from_user_sys", "crates/tinymist/src/input.rs: resolve_task"]}
