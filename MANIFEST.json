{"claims": [
  {"property": "C01", "status": "proved", "theorems": ["Tinymist.TokenDelta.token_delta_roundtrip", "Tinymist.TokenDelta.token_delta_in_bounds", "Tinymist.TokenDelta.token_delta_empty_iff"], "note": ""},
  {"property": "C02", "status": "partial", "theorems": ["Tinymist.TokenCache.client_streams_correct_partial", "Tinymist.TokenCache.clear_reuses_result_ids", "Tinymist.TokenCache.clear_makes_delta_wrong", "Tinymist.TokenCache.clear_panics", "Tinymist.TokenCache.known_gets_delta", "Tinymist.TokenCache.idle_keeps_one"], "note": "False of the code when caches are cleared while a client still quotes an id (negations proved); proved for all histories without a clear."},
  {"property": "C03", "status": "proved", "theorems": ["Tinymist.Vfs.read_newest_layer", "Tinymist.Vfs.read_not_older_than_report"], "note": "Single live file system, all histories of edits, reads, evictions, disk changes. Multi-handle version is part of C04."},
  {"property": "C04", "status": "partial", "theorems": ["Tinymist.Vfs.repeatable_read", "Tinymist.Vfs.snapshot_isolated_partial", "Tinymist.Vfs.not_isolated_when_read_overlaps_edit", "Tinymist.Vfs.snapshot_sees_later_edit", "Tinymist.Vfs.not_isolated_after_report_of_unread_file", "Tinymist.Vfs.not_isolated_after_buffer_by_id", "Tinymist.Vfs.eviction_breaks_repeatable_read"], "note": "Repeatable reads hold for every schedule without evictions; reads according to own edits proved for calm schedules. The full claim is false of the code: three schedules given as theorems, and evictions break repeatable reads."},
  {"property": "C05", "status": "partial", "theorems": ["Tinymist.Vfs.clean_check_sound_partial", "Tinymist.Vfs.clean_check_wrong_when_edit_overtakes_read", "Tinymist.Vfs.clean_check_wrong_after_reset", "Tinymist.Vfs.clean_check_wrong_after_eviction", "Tinymist.Vfs.reset_is_dirty"], "note": "Sound when the compilation read its dependencies before the next edit and nothing is evicted or reset; otherwise false of the code, three counterexamples as theorems."},
  {"property": "C06", "status": "partial", "theorems": ["Tinymist.Watch.last_report_is_disk_partial", "Tinymist.Watch.last_report_is_disk_unwatched", "Tinymist.Watch.removal_not_reported", "Tinymist.Watch.truncation_not_reported", "Tinymist.Watch.steady_reported_partial", "Tinymist.Watch.second_look_reported", "Tinymist.Watch.stale_look_loses_error"], "note": "A removed or truncated file is never reported (removal_not_reported, truncation_not_reported): the recheck compares the pending state with itself. Proved for every history: the last non-empty content found at a dependency is the last content reported, and without an OS watcher whatever was found is reported."},
  {"property": "C07", "status": "partial", "theorems": ["Tinymist.Watch.dependency_reported", "Tinymist.Watch.only_dependencies_watched", "Tinymist.Watch.dependencies_watched", "Tinymist.Watch.reports_differ_partial", "Tinymist.Watch.same_report_twice", "Tinymist.Watch.forgotten_after_30", "Tinymist.Watch.watched_stays", "Tinymist.Watch.directory_not_watched", "Tinymist.Watch.removal_unwatches"], "note": "Every dependency has a reported content; exactly dependencies are watched; consecutive reports differ unless the file is caught empty or missing in between (same_report_twice)."},
  {"property": "C08", "status": "partial", "theorems": ["Tinymist.Project.buffers_up_to_date_partial", "Tinymist.Project.buffers_up_to_date_lockstep", "Tinymist.Project.buffers_up_to_date_no_close", "Tinymist.Project.projects_see_the_same", "Tinymist.Project.older_edit_wins", "Tinymist.Project.open_buffer_lost", "Tinymist.Project.knows_open", "Tinymist.Project.closing_waits", "Tinymist.Project.kept_open_at_once"], "note": "Refuted as stated: a later edit applied at once is overwritten by an earlier one still waiting for the watcher (older_edit_wins, open_buffer_lost). Proved for every history in which no message about a buffer is applied while an earlier one about it waits; in particular with acknowledgements in lockstep, or without closes."},
  {"property": "C09", "status": "proved", "theorems": ["Tinymist.Project.no_change_forgotten", "Tinymist.Project.compiling_or_covered", "Tinymist.Project.committed_increases", "Tinymist.Project.instances_distinct", "Tinymist.Project.compiling_iff_in_flight", "Tinymist.Project.up_to_date_when_idle_partial", "Tinymist.Project.restarted_project_stuck", "Tinymist.Project.typing_compiles", "Tinymist.Project.delayed_change_compiles", "Tinymist.Project.no_change_no_compile", "Tinymist.Project.clean_not_compiled", "Tinymist.Project.delivered_committed"], "note": "For every history (no_change_forgotten, committed_increases). The stronger end-to-end claim that an idle server is up to date holds for orderly histories only (up_to_date_when_idle_partial) and fails when a project is restarted while its former instance compiles (restarted_project_stuck)."},
  {"property": "C10", "status": "partial", "theorems": ["Tinymist.Project.restart_leaves_others", "Tinymist.Project.settle_leaves_others", "Tinymist.Project.ids_distinct_partial", "Tinymist.Project.ids_not_distinct", "Tinymist.Project.deps_of_projects", "Tinymist.Project.nothing_left_partial", "Tinymist.Project.removed_while_compiling", "Tinymist.Project.orderly_no_panic"], "note": "Refuted as stated: a dedicated project may take the id of the primary (ids_not_distinct), and a project removed while it compiles publishes results afterwards and brings the server down (removed_while_compiling). Proved: the others are left as they were; ids distinct unless a group is named primary; nothing left of removed projects in orderly histories; no panic in orderly histories."},
  {"property": "C11", "status": "partial", "theorems": ["Tinymist.Lock.commit_contents", "Tinymist.Lock.commit_order_irrelevant", "Tinymist.Lock.commits_on_disk_partial"], "note": "State level proved in full (commit_contents, commit_order_irrelevant); on disk for colon-free paths and tasks without transforms, because other lock files do not read back (C53)."},
  {"property": "C12", "status": "proved", "theorems": ["Tinymist.Lock.only_supported_overwritten", "Tinymist.Lock.other_version_kept", "Tinymist.Lock.newer_version_refused", "Tinymist.Lock.failed_or_noop_update_kept"], "note": "Holds for every semver comparison and text layer; only blank files or the exact supported schema version are ever overwritten."},
  {"property": "C13", "status": "partial", "theorems": ["Tinymist.Lock.crash_leaves_old_or_prefix_partial", "Tinymist.Lock.crash_loses_lock_file"], "note": "Refuted as stated: crash_loses_lock_file. Proved: after a crash the file holds the old text or a prefix of the new one."},
  {"property": "C14", "status": "proved", "theorems": ["Tinymist.AtomicWrite.old_or_new", "Tinymist.AtomicWrite.finished"], "note": "On a file system of regular files where rename replaces in one step; the temporary name is fresh. The one-shot CLI export (export2.rs) does not use write_atomic and is outside the claim."},
  {"property": "C15", "status": "proved", "theorems": ["Tinymist.Server.answered_at_most_once", "Tinymist.Server.answered_once_settled", "Tinymist.Server.answer_is_first_outcome"], "note": "Distinct ids, arbitrary handlers, any interleaving. The cancellation entry point exists but the server does not wire $/cancelRequest to it; it is included as an event."},
  {"property": "C16", "status": "proved", "theorems": ["Tinymist.Server.refused_before_initialized", "Tinymist.Server.refused_after_shutdown", "Tinymist.Server.served_while_open", "Tinymist.Server.notifications_only_while_open", "Tinymist.Server.exit_ends_session", "Tinymist.Server.unknown_refused", "Tinymist.Server.commands_served"], "note": ""},
  {"property": "C17", "status": "proved", "theorems": ["Tinymist.Framing.stream_roundtrip", "Tinymist.Framing.extra_headers_ignored", "Tinymist.Framing.truncated_is_error", "Tinymist.Framing.truncated_stream", "Tinymist.Framing.oversized_is_error", "Tinymist.Framing.read_was_sent"], "note": ""},
  {"property": "C18", "status": "partial", "theorems": ["Tinymist.Server.dap_answered_once_partial", "Tinymist.Server.dap_refusals", "Tinymist.Server.dap_large_seq_misanswered"], "note": "Holds for sequence numbers that fit an i32; refuted beyond: the code truncates req.seq to i32 and answers the truncated number (dap_large_seq_misanswered)."},
  {"property": "C19", "status": "proved", "theorems": ["Tinymist.Position.position_round_trip", "Tinymist.Position.position_monotone", "Tinymist.Position.position_injective", "Tinymist.Position.past_end_clamped", "Tinymist.Position.lands_on_boundary", "Tinymist.Position.utf8_total", "Tinymist.Position.column_past_line_spills", "Tinymist.Position.column_past_document_fails", "Tinymist.Position.reported_position_is_meant", "Tinymist.Position.utf8_reports_characters", "Tinymist.Position.utf16_units", "Tinymist.Position.line_ends", "Tinymist.Position.past_end_reported"], "note": "All texts, both encodings. Columns past the end of a line other than the last are outside the statement; for them column_past_line_spills and column_past_document_fails show what happens."},
  {"property": "C20", "status": "partial", "theorems": ["Tinymist.Position.texts_stay_equal_partial", "Tinymist.Position.every_edit_has_positions", "Tinymist.Position.utf8_texts_diverge", "Tinymist.Position.separators_diverge", "Tinymist.Position.reversed_range_panics", "Tinymist.Position.column_past_document_panics", "Tinymist.Position.utf8_ordered_no_panic"], "note": "Proved for texts whose only line separators are \\n, \\r\\n and \\r and, with the UTF-8 encoding, ASCII texts. False otherwise: utf8_texts_diverge, separators_diverge."},
  {"property": "C21", "status": "partial", "theorems": ["Tinymist.PathPattern.substitute_partial", "Tinymist.PathPattern.empty_pattern", "Tinymist.PathPattern.documented_patterns", "Tinymist.PathPattern.no_output", "Tinymist.PathPattern.root_substituted", "Tinymist.PathPattern.directory_substituted", "Tinymist.PathPattern.text_substituted", "Tinymist.PathPattern.untitled_output"], "note": "Proved when the root, the directories and the literal text of the pattern contain no dollar sign (the file name may). Refuted otherwise: placeholders in the root's or a directory's name are substituted too."},
  {"property": "C22", "status": "proved", "theorems": ["Tinymist.Pages.pages_accepted_iff", "Tinymist.Pages.pages_round_trip", "Tinymist.Pages.pages_rejects", "Tinymist.Pages.accepted_bounds"], "note": "The accepted inputs are characterised by a grammar; every accepted selection prints and reads back as itself."},
  {"property": "C23", "status": "partial", "theorems": ["Tinymist.Lock.resource_path_roundtrip_partial", "Tinymist.Lock.resource_path_with_colon_unreadable", "Tinymist.Lock.resource_path_reads_exactly"], "note": "Proved for scheme and path without colons; refuted for every other resource path."},
  {"property": "C24", "status": "partial", "theorems": ["Tinymist.Workspace.file_id_denotes", "Tinymist.Workspace.file_inside_root", "Tinymist.Workspace.ids_distinguish_roots", "Tinymist.Workspace.same_root_same_id_partial", "Tinymist.Workspace.root_changes_id", "Tinymist.Workspace.untidy_root_exhausts", "Tinymist.Workspace.vpathResolve_spec"], "note": "File ids denote root joined with path, stay inside the root, and distinguish roots (proved for all histories). The same root gives the same id for normalised roots only: an untidy root gets a new id on every request (root_changes_id), until the table is full and the server panics (untidy_root_exhausts)."},
  {"property": "C25", "status": "partial", "theorems": ["Tinymist.Paths.diff_leads_to_target_partial", "Tinymist.Paths.diff_absolute", "Tinymist.Paths.diff_wrong_relative", "Tinymist.Paths.printed_same", "Tinymist.Paths.printed_form", "Tinymist.Paths.clean_denotes", "Tinymist.Paths.clean_eq_iff"], "note": "For two absolute paths the relative path leads to the target, in normal form. For relative paths that climb above the start differently it does not (diff_wrong_relative)."},
  {"property": "C26", "status": "proved", "theorems": ["Tinymist.Fingerprint.svg_id_roundtrip", "Tinymist.Fingerprint.svg_id_injective", "Tinymist.Fingerprint.u128_roundtrip"], "note": ""},
  {"property": "C27", "status": "proved", "theorems": ["Tinymist.SnapshotMap.behaves_like_copies", "Tinymist.SnapshotMap.commit_out_of_order", "Tinymist.SnapshotMap.log_released", "Tinymist.SnapshotMap.close_unopened"], "note": "For all sequences of changes, snapshots, commits and rollbacks, including rollbacks to outer snapshots; committing an outer snapshot before using an inner one is shown to panic."},
  {"property": "C28", "status": "proved", "theorems": ["Tinymist.SourceDb.reads_see_first_content", "Tinymist.SourceDb.first_answer_is_earlier", "Tinymist.SourceDb.dependencies_exact"], "note": "All sequences of reads on any clones of the database."},
  {"property": "C29", "status": "proved", "theorems": ["Tinymist.Compute.same_result", "Tinymist.Compute.runs_once", "Tinymist.Compute.no_deadlock", "Tinymist.Compute.compiler_acyclic", "Tinymist.Compute.compilation_result", "Tinymist.Compute.copy_shares", "Tinymist.Compute.copy_runs_again", "Tinymist.Compute.provider_told", "Tinymist.Compute.execute_shows"], "note": "All schedules of any number of threads. A computation that panics is started again by the next consumer (runs_once states the bound). A copy of a graph shares only what was asked for before (copy_shares, copy_runs_again)."},
  {"property": "C30", "status": "proved", "theorems": ["Tinymist.ExportPolicy.shouldRun_iff", "Tinymist.ExportPolicy.shouldRun_decides", "Tinymist.ExportPolicy.signalExport_iff", "Tinymist.ExportPolicy.exportBytes_iff", "Tinymist.ExportPolicy.exports_agree", "Tinymist.ExportPolicy.shouldLint_iff", "Tinymist.ExportPolicy.due_merge", "Tinymist.ExportPolicy.due_merges", "Tinymist.ExportPolicy.preconfig_covers", "Tinymist.ExportPolicy.preconfig_only"], "note": "Both implementations of the decision are proved equal to the documented policy; merging signals loses nothing; the compilation flags cover every export that is due."},
  {"property": "C31", "status": "partial", "theorems": ["Tinymist.Project.save_compiles_partial", "Tinymist.Project.never_notified_again", "Tinymist.Project.save_not_notified"], "note": "Refuted: in every orderly history the last compilation is never notified again (never_notified_again, save_not_notified). Proved: a save that is not found clean starts a compilation marked as caused by the file system."},
  {"property": "C32", "status": "proved", "theorems": ["Tinymist.Folder.one_at_a_time", "Tinymist.Folder.newest_wins", "Tinymist.Folder.starts_le_submissions", "Tinymist.Folder.drains", "Tinymist.Folder.drained_newest_ran", "Tinymist.Folder.panic_blocks_forever", "Tinymist.Folder.waiting_replaced_iff"], "note": "Proved for every schedule, also with panicking jobs; draining is proved when no job panics, and panic_blocks_forever shows that after a panic nothing runs any more."},
  {"property": "C33", "status": "proved", "theorems": ["Tinymist.EditorDiag.shown_is_union_of_last_reports", "Tinymist.EditorDiag.closed_project_contributes_nothing"], "note": ""},
  {"property": "C34", "status": "partial", "theorems": ["Tinymist.Focus.pinned_stays", "Tinymist.Focus.unpin_restores_partial", "Tinymist.Focus.main_follows", "Tinymist.Focus.answer_iff", "Tinymist.Focus.preview_shows", "Tinymist.Focus.configured_main", "Tinymist.Focus.history_holds", "Tinymist.Focus.explicit_wins", "Tinymist.Focus.focusing_followed", "Tinymist.Focus.refused_pin_pins", "Tinymist.Focus.refused_focus_followed", "Tinymist.Focus.reload_loses_pin", "Tinymist.Focus.preview_and_pin"], "note": "Pinning, following, previews, configured entries, precedence and answers proved over all histories. Unpinning restores the followed file only if its path is valid (refused_focus_followed); a refused pin pins (refused_pin_pins); reloading the configuration loses the pinned file (reload_loses_pin)."},
  {"property": "C35", "status": "partial", "theorems": ["Tinymist.Routes.resolve_fresh", "Tinymist.Routes.resolve_cached_partial", "Tinymist.Routes.resolve_any", "Tinymist.Routes.nearest_unique", "Tinymist.Routes.stale_lock", "Tinymist.Routes.priority_ignored", "Tinymist.Routes.lock_update_known", "Tinymist.Routes.material_update_known"], "note": "Proved for a fresh server and for any history over an unchanged disk; for changed lock files the loaded state is used (resolve_any), so the property fails: stale_lock. Documented priorities are ignored: priority_ignored."},
  {"property": "C36", "status": "partial", "theorems": ["Tinymist.Format.edit_turns_iff", "Tinymist.Format.ascii_edit_partial", "Tinymist.Format.ascii_change_partial", "Tinymist.Format.client_gets_output_partial", "Tinymist.Format.lost_change", "Tinymist.Format.underflow", "Tinymist.Format.crlf_position"], "note": "Proved: an exact characterisation over all pairs of texts of when the edit computed turns the document into the formatter's output (it does unless the differing parts end in two different characters whose UTF-8 encodings share the last byte), and for clients in plain documents without carriage returns. The code violates the full claim: lost_change (an edit with no effect), underflow (panic), crlf_position (an end position inside a line break)."},
  {"property": "C37", "status": "proved", "theorems": ["Tinymist.WordCount.word_count_is", "Tinymist.WordCount.counts_are", "Tinymist.WordCount.runs_exist", "Tinymist.WordCount.runs_unique", "Tinymist.WordCount.layout_irrelevant", "Tinymist.WordCount.count_append", "Tinymist.WordCount.html_paragraphs_merge"], "note": "Which characters are white space and which are CJK are parameters (tables of the standard library and unicode_script). A leading run of white space is not counted as a space. html_paragraphs_merge records that HTML documents have no break between elements."},
  {"property": "C38", "status": "partial", "theorems": ["Tinymist.Interner.issued_id_resolves_partial", "Tinymist.Interner.issued_id_expires", "Tinymist.Interner.collected_ids_resolve_wrongly"], "note": "False of the code once older ids have been collected (negation proved): IndexSet::retain renumbers. Proved while no id alive at issue time has expired; expiry proved for all histories."},
  {"property": "C39", "status": "proved", "theorems": ["Tinymist.Interner.hex_roundtrip"], "note": ""},
  {"property": "C40", "status": "proved", "theorems": ["Tinymist.Jump.selection_inside", "Tinymist.Jump.selection_exact", "Tinymist.Jump.shown_in_order", "Tinymist.Jump.selection_to_end"], "note": "For every pair of endpoints, over any world whose elements are pieces of their file's text. selection_exact says what is selected inside an element; selection_to_end records that an offset at the end of an element is taken for its start."},
  {"property": "C41", "status": "partial", "theorems": ["Tinymist.PreviewEditor.survives_partial", "Tinymist.PreviewEditor.goes_on_iff", "Tinymist.PreviewEditor.served", "Tinymist.PreviewEditor.webview_jump_ends_connection", "Tinymist.PreviewEditor.malformed_span_panics", "Tinymist.PreviewEditor.standalone_jump_exits"], "note": "Exactly which messages end the connection; all others are served in order. The full claim is false: a jump from the webview ends the loop and a malformed span id panics."},
  {"property": "C42", "status": "partial", "theorems": ["Tinymist.PreviewRender.latest_shown_partial", "Tinymist.PreviewRender.ordinary_turn_shows_latest", "Tinymist.PreviewRender.sends_known", "Tinymist.PreviewRender.stale_after_full", "Tinymist.PreviewRender.reaches_preview_iff", "Tinymist.PreviewRender.settles", "Tinymist.PreviewRender.no_request_lost", "Tinymist.PreviewRender.taken_stays", "Tinymist.PreviewRender.mixed_only_when_shown", "Tinymist.PreviewRender.status_told_iff"], "note": "Holds for every interleaving unless one batch contains a full-render request together with an announcement of a new document; then the old document is sent again (stale_after_full)."},
  {"property": "C43", "status": "proved", "theorems": ["Tinymist.Outline.lists_bookmarked", "Tinymist.Outline.nested_rightly", "Tinymist.Outline.belongs_unique", "Tinymist.Outline.outline_iff"], "note": "For every sequence of levels and bookmark flags. Headings are identified by their place in the document; titles, spans and positions are carried along unchanged."},
  {"property": "C44", "status": "partial", "theorems": ["Tinymist.Folding.two_lines", "Tinymist.Folding.of_an_element", "Tinymist.Folding.starts_differ_partial", "Tinymist.Folding.three_nested_clash"], "note": "Every line-only fold has at least two lines (two_lines) and lies within a fold of an element (of_an_element). Starts differ when at most two elements start on a line and none on the next line of a line with two (starts_differ_partial). In general the claim fails: three nested elements opening on one line clash (three_nested_clash)."},
  {"property": "C45", "status": "partial", "theorems": ["Tinymist.Tokens.tokens_describe_leaves_partial", "Tinymist.Tokens.tokens_sorted", "Tinymist.Tokens.tokens_within_lines", "Tinymist.Tokens.tokens_same_or_disjoint", "Tinymist.Tokens.every_leaf_has_token", "Tinymist.Tokens.wanted_tiles", "Tinymist.Tokens.heading_tokens_overlap", "Tinymist.Tokens.utf8_tokens_overlap"], "note": "Proved for every tree; with UTF-16 positions and lengths are exact, with UTF-8 columns are characters (utf8_tokens_overlap), so exact for ASCII only. Repeated tokens are real: heading_tokens_overlap."},
  {"property": "C46", "status": "partial", "theorems": ["Tinymist.OnEnter.continued_iff", "Tinymist.OnEnter.comment_insertion", "Tinymist.OnEnter.math_iff", "Tinymist.OnEnter.math_insertion", "Tinymist.OnEnter.edit_in_place", "Tinymist.OnEnter.comment_continues_partial", "Tinymist.OnEnter.math_opens", "Tinymist.OnEnter.math_content_kept", "Tinymist.OnEnter.tab_becomes_space", "Tinymist.OnEnter.in_front_of_all"], "note": "All text is kept and one newline with indentation and marker is inserted for lines indented by spaces; a tab or other character before the comment is replaced by one space each (tab_becomes_space), which the full claim forbids. Which comments are continued is characterised exactly."},
  {"property": "C47", "status": "partial", "theorems": ["Tinymist.Vfs.shadow_undone_partial", "Tinymist.Vfs.shadow_by_id_undone_partial", "Tinymist.Vfs.shadow_visible_to_query", "Tinymist.Vfs.shadow_not_undone_over_buffer"], "note": "Proved when the path (or id) had no buffer; false of the code otherwise (counterexample theorem)."},
  {"property": "C48", "status": "proved", "theorems": ["Tinymist.Server.outgoing_ids_distinct", "Tinymist.Server.continuations_run_once", "Tinymist.Server.response_runs_its_continuation"], "note": "Up to 2^32 outgoing requests (the id is an i32 that wraps)."},
  {"property": "C49", "status": "proved", "theorems": ["Tinymist.DiagConvert.spanId_place", "Tinymist.DiagConvert.convert_iff", "Tinymist.DiagConvert.get_convertAll", "Tinymist.DiagConvert.grouped_in_order", "Tinymist.DiagConvert.order_kept", "Tinymist.DiagConvert.each_counts_once", "Tinymist.DiagConvert.shown_as_is", "Tinymist.DiagConvert.shown_at_place", "Tinymist.DiagConvert.missing_main_unreported", "Tinymist.DiagConvert.hints_shown", "Tinymist.DiagConvert.trace_shown", "Tinymist.DiagConvert.lints_of_files"], "note": "A diagnostic that cannot be placed in a readable file is dropped, among them a missing main file itself (missing_main_unreported); the claim is about those that can be placed."},
  {"property": "C50", "status": "partial", "theorems": ["Tinymist.Project.results_in_order", "Tinymist.Project.statuses_in_order_partial", "Tinymist.Project.status_out_of_order", "Tinymist.Project.restarted_statuses_dropped"], "note": "Results: strictly increasing in every history. Statuses: refuted (status_out_of_order), proved for orderly histories without suspension at the moment a status is sent."},
  {"property": "C51", "status": "partial", "theorems": ["Tinymist.Server.getResources_without_args_panics", "Tinymist.Server.only_getResources_panics_partial"], "note": "Refuted: executeCommand tinymist.getResources with no arguments indexes args[0] and panics. The partial theorem shows it is the only such request in the driver."},
  {"property": "C52", "status": "partial", "theorems": ["Tinymist.Server.exit_without_shutdown_reported_as_success", "Tinymist.Server.exit_reported_partial"], "note": "Refuted: the loop returns Ok(()) on exit in every phase. Of the claim only the report of success behind a shutdown holds."},
  {"property": "C53", "status": "partial", "theorems": ["Tinymist.Lock.lock_roundtrip_partial", "Tinymist.Lock.transforms_lost", "Tinymist.Lock.colon_bricks_lock_file", "Tinymist.Lock.transforms_written", "Tinymist.Lock.written_tasks_differ"], "note": "Proved for lock files without colons in resource paths and without task transforms; refuted otherwise: transforms are lost, and one colon makes the whole file unreadable for good."},
  {"property": "C54", "status": "partial", "theorems": ["Tinymist.Pages.unselected_exports_all_partial", "Tinymist.Pages.editor_selection", "Tinymist.Pages.page_selection_ignored"], "note": "Holds without a selection and for the editor's first/merged selections; page_selection_ignored proves that ranges are otherwise ignored."},
  {"property": "C55", "status": "partial", "theorems": ["Tinymist.Pages.declared_task_partial", "Tinymist.Pages.declared_task_wrong"], "note": "Format (PDF, PNG, SVG), name and pages are right; declared_task_wrong proves that HTML becomes SVG and the output path is dropped."},
  {"property": "C56", "status": "partial", "theorems": ["Tinymist.Paths.recorded_path_partial", "Tinymist.Paths.recorded_path_elsewhere", "Tinymist.Paths.script_path"], "note": "Holds when the lock file is in the current directory (recorded_path_partial); refuted otherwise (recorded_path_elsewhere). Script paths hold in general."},
  {"property": "C57", "status": "proved", "theorems": ["Tinymist.Workspace.entry_is_the_file", "Tinymist.Workspace.entry_resolves", "Tinymist.Workspace.not_on_disk"], "note": "For absolute configured roots and an absolute path without '..' that has a file name, as editors send them; resolution always succeeds while the table of ids is not full."},
  {"property": "C58", "status": "partial", "theorems": ["Tinymist.Workspace.other_imports_safe_partial", "Tinymist.Workspace.ws_import_panics", "Tinymist.Workspace.ws_import_foreign"], "note": "Holds for every package outside the namespace ws; refuted inside it: such an import can panic (ws_import_panics) or read another workspace's file (ws_import_foreign)."},
  {"property": "C59", "status": "partial", "theorems": ["Tinymist.Folder.latest_of_project_ran_partial", "Tinymist.Folder.other_project_lost"], "note": "Holds when all jobs are for one project; false with two projects, since they share one folder and compare unrelated revisions: other_project_lost."},
  {"property": "C60", "status": "partial", "theorems": ["Tinymist.DiagFlow.latest_told_partial", "Tinymist.DiagFlow.latest_told_nolint_partial", "Tinymist.DiagFlow.closed_told_partial", "Tinymist.DiagFlow.stale_lint_shown", "Tinymist.DiagFlow.closed_project_shown"], "note": "Holds when no lint of an older compilation is running; false otherwise: stale_lint_shown, closed_project_shown."},
  {"property": "C61", "status": "partial", "theorems": ["Tinymist.PreviewTabs.watched_iff_there_partial", "Tinymist.PreviewTabs.killed_is_free_partial", "Tinymist.PreviewTabs.can_start_partial", "Tinymist.PreviewTabs.failed_start_leaks", "Tinymist.PreviewTabs.same_name_leaks", "Tinymist.PreviewTabs.reload_race", "Tinymist.PreviewTabs.reload_blinds_background", "Tinymist.PreviewTabs.answer_tells", "Tinymist.PreviewTabs.which_project", "Tinymist.PreviewTabs.kill_takes_effect_partial", "Tinymist.PreviewTabs.killAll_takes_effect_partial"], "note": "Holds for careful histories. The full claim is false: failed starts, reused names and reloads leak or cut watchers."},
  {"property": "C62", "status": "proved", "theorems": ["Tinymist.Origin.let_in_iff", "Tinymist.Origin.foreign_page_refused", "Tinymist.Origin.opaque_page_refused", "Tinymist.Origin.header_inj", "Tinymist.Origin.reads_exist", "Tinymist.Origin.path_refused"], "note": "Exact characterisation for every site; the URL parser is a parameter with a contract on the headers browsers send."},
  {"property": "C63", "status": "partial", "theorems": ["Tinymist.Origin.own_page_served_partial", "Tinymist.Origin.local_page_served", "Tinymist.Origin.port_80_refused", "Tinymist.Origin.all_addresses_refused", "Tinymist.Origin.page_opens", "Tinymist.Origin.no_origin_served"], "note": "Holds for the listening address at every port but 80; refused at port 80 and under other addresses of a server that listens on all."},
  {"property": "C64", "status": "partial", "theorems": ["Tinymist.Rename.renamed_file_followed_partial", "Tinymist.Rename.rename_request_followed_partial", "Tinymist.Rename.other_paths_untouched", "Tinymist.Rename.include_not_updated", "Tinymist.Rename.reading_not_updated", "Tinymist.Rename.own_paths_redirected", "Tinymist.Rename.moved_imports_break", "Tinymist.Rename.at_sign_breaks", "Tinymist.Rename.import_defines", "Tinymist.Rename.own_path_changed_iff"], "note": "Imports, and includes in files that also import the file, follow the renamed file. Proved not to hold for other includes, for paths read by functions, for the paths in the renamed file, and for new names starting with @."},
  {"property": "C65", "status": "proved", "theorems": ["Tinymist.ShardMap.access_in_bounds", "Tinymist.ShardMap.get_last", "Tinymist.ShardMap.items_exact", "Tinymist.ShardMap.new_iff"], "note": "Every size from 1 to 2^31 is accepted; greater ones end the program."},
  {"property": "C66", "status": "partial", "theorems": ["Tinymist.Sections.hierarchy_complete", "Tinymist.Sections.sections_nested_partial", "Tinymist.Sections.outline_complete_partial", "Tinymist.Sections.outline_nested_partial", "Tinymist.Sections.outline_sound", "Tinymist.Sections.headings_listed", "Tinymist.Sections.last_section_folds_partial", "Tinymist.Sections.section_folds_partial", "Tinymist.Sections.comment_hides", "Tinymist.Sections.list_hides", "Tinymist.Sections.inner_heading_captures", "Tinymist.Sections.last_subsection_unfolded", "Tinymist.Sections.fold_leaves_list"], "note": "The hierarchy has every item once and in order, and every top heading is listed whatever the document; nesting and folds are proved for documents without comments whose headings are at the top or in lists. Violated: a comment hides the definitions after it up to the next heading, lists hide theirs, a heading in a function body ends the section around it, the last subsection of a section that is not the last does not fold, a heading in a list folds beyond the list."},
  {"property": "C67", "status": "partial", "theorems": ["Tinymist.Workspace.root_of_file_partial", "Tinymist.Workspace.gone_package_noticed", "Tinymist.Workspace.new_package_unnoticed", "Tinymist.Workspace.nearer_package_unnoticed"], "note": "Proved while no typst.toml appears or disappears. Violated otherwise: a typst.toml that appears (above a file without one, or nearer than the cached one) is not noticed until a restart; one that disappears is."},
  {"property": "C68", "status": "partial", "theorems": ["Tinymist.CallArgs.matched_is_bound_partial", "Tinymist.CallArgs.named_matched", "Tinymist.CallArgs.hinted_iff", "Tinymist.CallArgs.hints_in_order", "Tinymist.CallArgs.sink_in_the_middle_wrong", "Tinymist.CallArgs.alias_forgets_with", "Tinymist.CallArgs.alias_wrong", "Tinymist.CallArgs.after_spread_wrong", "Tinymist.CallArgs.sized_iff", "Tinymist.CallArgs.alias_takes"], "note": "For closures whose sink stands last, reached as values, every argument in front of a spread is matched with the parameter the evaluator passes it to. Refuted: positional parameters behind the sink, aliases of .with applications, arguments behind a spread."},
  {"property": "C69", "status": "partial", "theorems": ["Tinymist.CallArgs.help_lists", "Tinymist.CallArgs.highlighted_is_bound_partial", "Tinymist.CallArgs.named_highlighted", "Tinymist.CallArgs.set_rule_highlights_nothing", "Tinymist.CallArgs.highlighted_listed", "Tinymist.CallArgs.sink_never_highlighted", "Tinymist.CallArgs.sink_highlights_other", "Tinymist.CallArgs.with_named_shifts", "Tinymist.CallArgs.sink_highlights_named"], "note": "Right for named arguments and for positional arguments that go to positional parameters when only positional arguments were bound. Refuted: arguments of the sink highlight another parameter, and named arguments of .with shift the highlight."},
  {"property": "C70", "status": "partial", "theorems": ["Tinymist.Scoping.definition_follows_rules_partial", "Tinymist.Scoping.no_definition_elsewhere_partial", "Tinymist.Scoping.for_iterable_wrong", "Tinymist.Scoping.default_wrong", "Tinymist.Scoping.assignment_wrong", "Tinymist.Scoping.heading_wrong", "Tinymist.Scoping.context_wrong", "Tinymist.Scoping.export_wrong", "Tinymist.Scoping.import_path_wrong", "Tinymist.Scoping.import_source_wrong", "Tinymist.Scoping.import_builtin_wrong"], "note": "Proved for projects without the constructs the code gets wrong (PlainProject). Refuted: iterables of for loops naming the loop variable, default values naming an earlier parameter, destructuring assignments, bindings in headings, list items and context, exports of a name bound twice around a wildcard import, nested import paths, imports from variables and from library modules."},
  {"property": "C71", "status": "partial", "theorems": ["Tinymist.Scoping.references_sound", "Tinymist.Scoping.search_ends", "Tinymist.Scoping.references_complete_partial", "Tinymist.Scoping.own_file_complete", "Tinymist.Scoping.importer_complete", "Tinymist.Scoping.references_follow_rules_partial", "Tinymist.Scoping.references_once_partial", "Tinymist.Scoping.facade_hides", "Tinymist.Scoping.alias_hides", "Tinymist.Scoping.cycle_repeats"], "note": "Sound without conditions. Complete for the files reached through files that write and export the name; refuted for files behind a facade that does not write the name or behind an alias. Each place once if the imports have no cycle; refuted with a cycle. Labels are not modelled."},
  {"property": "C72", "status": "partial", "theorems": ["Tinymist.Scoping.rename_preserves_meaning_partial", "Tinymist.Scoping.edits_preserve", "Tinymist.Scoping.rename_breaks_alias", "Tinymist.Scoping.rename_captures"], "note": "Proved for plain projects (C70), when every use is in a file the search gets to (C71) and the new name is not in use. Refuted: re-exports under an alias break the files importing the alias; a new name in use captures."},
  {"property": "C73", "status": "partial", "theorems": ["Tinymist.Selection.selection_ranges_partial", "Tinymist.Selection.selection_nested_partial", "Tinymist.Selection.end_has_no_answer"], "note": "Holds for every position in front of a character. At the end of the document there is no answer, and the other positions of the request lose theirs (end_has_no_answer). Texts are Plain as in C20. LinkedNode::leaf_at is modelled from typst's source."},
  {"property": "C74", "status": "partial", "theorems": ["Tinymist.Coverage.tokens_kept", "Tinymist.Coverage.calls_in_order", "Tinymist.Coverage.block_runs_counted", "Tinymist.Coverage.body_runs_counted_partial", "Tinymist.Coverage.show_runs_counted_partial", "Tinymist.Coverage.places_genuine", "Tinymist.Coverage.branch_not_counted", "Tinymist.Coverage.semicolon_torn_off"], "note": "Counting every body is false as stated: a conditional, loop or closure that is itself the body of a loop or closure loses its own bodies (branch_not_counted: `let f(x) = if x [a] else [b]` counts neither branch). The partial theorems ask that the owner is not itself a body. semicolon_torn_off: `#show: main;` puts the semicolon on a line of its own, where it is text."},
  {"property": "C75", "status": "proved", "theorems": ["Tinymist.Coverage.counters_right", "Tinymist.Coverage.report_right", "Tinymist.Coverage.summary_right", "Tinymist.Coverage.unread_hit_panics"], "note": "Regions are shared by reference (heap of counters); the one-entry cache of the last file is part of the model. A run starts with an empty map: with_cov takes the map when it ends; a panic inside the run would leave it behind and is not modelled, nor is Typst's memoization, which decides what runs."},
  {"property": "C76", "status": "partial", "theorems": ["Tinymist.Testing.verdict_right_partial", "Tinymist.Testing.duplicates_fail", "Tinymist.Testing.dotted_names_collide", "Tinymist.Testing.mismatch_reported_passed", "Tinymist.Testing.panic_by_name", "Tinymist.Testing.success_means_recorded_partial", "Tinymist.Testing.dotted_names_share"], "note": "Proved for all cases, references, schedules without failing system calls, for example names without dots and without duplicates; duplicates always fail whatever else happens. success_means_recorded_partial holds whichever system calls fail. Missing: names with dots, for which it is false (dotted_names_collide), panics are recognized by the word (panic_by_name), and a mismatch is also reported as passed (mismatch_reported_passed). Compiling and rendering are inputs."},
  {"property": "C77", "status": "partial", "theorems": ["Tinymist.Testing.references_kept", "Tinymist.Testing.references_after_partial", "Tinymist.Testing.accepted_again_partial", "Tinymist.Testing.cut_short_partial", "Tinymist.Testing.watch_update", "Tinymist.Testing.dotted_names_collide"], "note": "references_kept holds for all names but those ending in .tmp; the others need example names without dots and without duplicates (dotted_names_collide shows why). Writing a file is taken to be atomic (C14 covers write_atomic)."},
  {"property": "C78", "status": "partial", "theorems": ["Tinymist.Packages.found_whole_partial", "Tinymist.Packages.kept_for_ever", "Tinymist.Packages.preview_only_and_there", "Tinymist.Packages.local_first", "Tinymist.Packages.half_while_unpacking", "Tinymist.Packages.half_for_ever", "Tinymist.Packages.removed_by_other", "Tinymist.Packages.call_answers", "Tinymist.Packages.installed_found"], "note": "kept_for_ever, preview_only_and_there and local_first hold of all histories. That the package is whole is proved of the histories in which nobody looks for the package in the cache while another call downloads it, the server is not killed while it unpacks and a broken download can be removed; it is false otherwise (half_while_unpacking, half_for_ever, removed_by_other). call_answers is about calls that are let alone while the disk works."},
  {"property": "C79", "status": "partial", "theorems": ["Tinymist.Packages.latest_right", "Tinymist.Packages.latest_found_partial", "Tinymist.Packages.latest_not_found", "Tinymist.Packages.index_once", "Tinymist.Packages.listed", "Tinymist.Packages.listed_twice", "Tinymist.Packages.offered"], "note": "Choosing, listing and offering are proved for all inputs. That the chosen version is found is proved if the directories are named as versions are printed; it is false otherwise (latest_not_found). A package in both directories is listed twice (listed_twice). index_once also says that nothing is ever found after a failed first request."},
  {"property": "C80", "status": "proved", "theorems": ["Tinymist.Packages.nothing_lost", "Tinymist.Packages.template_copied", "Tinymist.Packages.template_copied_whole"], "note": "The template's files have distinct relative paths (they are a directory), and nobody else writes to the project meanwhile (`Sees`). Errors of the disk other than a file where a directory must be, or the reverse, are not modelled."},
  {"property": "C81", "status": "partial", "theorems": ["Tinymist.CodeAction.actions_meant", "Tinymist.CodeAction.offered_iff", "Tinymist.CodeAction.conversion_keeps_partial", "Tinymist.CodeAction.depth_restored", "Tinymist.CodeAction.bracket_taken", "Tinymist.CodeAction.comment_lost", "Tinymist.CodeAction.wrap_crosses"], "note": "actions_meant and offered_iff say exactly what each offered action makes of the document, for all trees as typst parses them and plain texts. That a conversion keeps all but white space is proved when only white space is beside the body and no punctuation sign follows that is taken along; it is false otherwise (bracket_taken, comment_lost). A wrapped selection may cross the end of a block (wrap_crosses)."},
  {"property": "C82", "status": "partial", "theorems": ["Tinymist.Highlight.highlights_partial", "Tinymist.Highlight.stray_unmarked", "Tinymist.Highlight.start_missed"], "note": "Proved for the cursor behind any character of a keyword, for all trees as typst parses them and plain texts. In front of the first character, which is in the marked range, there is no answer (start_missed)."},
  {"property": "C83", "status": "partial", "theorems": ["Tinymist.Config.settings_in_force_partial", "Tinymist.Config.settings_exist", "Tinymist.Config.refused_changes_nothing", "Tinymist.Config.unreadable_warned_partial", "Tinymist.Config.poll_as_start_partial", "Tinymist.Config.lint_unread", "Tinymist.Config.lint_ignored", "Tinymist.Config.top_level_lost", "Tinymist.Config.pushed_namespace_unread", "Tinymist.Config.poll_forgets", "Tinymist.Config.silently_ignored"], "note": "Proved for all settings but lint, for objects that do not mix both places, for pushes outside the namespace and for clients that only have what the server asks for. The setting lint is read from preview; settings outside the namespace are lost when there are some inside; pushed settings inside it are not read; what is not asked for is reset by an answer; a compileStatus or rootPath of the wrong type is ignored silently."},
  {"property": "C84", "status": "partial", "theorems": ["Tinymist.Config.server_follows", "Tinymist.Config.fonts_follow_partial", "Tinymist.Config.font_change_restarts", "Tinymist.Config.project_stale", "Tinymist.Config.fonts_stale", "Tinymist.Config.project_at_start"], "note": "Exports, status, formatter and registrations are proved for all histories. The fonts when the settings have no default entry or only absolute font paths; otherwise they may be stale (fonts_stale). The target, inputs, theme and the other settings a project is made with are not followed (project_stale)."},
  {"property": "C85", "status": "partial", "theorems": ["Tinymist.L10n.filled_partial", "Tinymist.L10n.filled_exists", "Tinymist.L10n.filled_unique", "Tinymist.L10n.swallows", "Tinymist.L10n.character_swallowed", "Tinymist.L10n.unknown_mangled", "Tinymist.L10n.setting_warning", "Tinymist.L10n.root_not_shown"], "note": "Holds for messages without placeholders and for those that end with their only placeholder. The character behind a placeholder is lost (character_swallowed, for every such message), and a placeholder without an argument loses its brace (unknown_mangled); both happen with messages of the program (setting_warning, root_not_shown)."},
  {"property": "C86", "status": "proved", "theorems": ["Tinymist.L10n.locale_language", "Tinymist.L10n.message_shown", "Tinymist.L10n.unspecific"], "note": "The locale is compared in lower case (a parameter) to the names as they are in the file. If several languages fit with a region, which one is taken depends on the hash map (unspecific)."},
  {"property": "C87", "status": "partial", "theorems": ["Tinymist.L10n.file_updated_partial", "Tinymist.L10n.written_once", "Tinymist.L10n.loaded", "Tinymist.L10n.collected", "Tinymist.L10n.line_break_breaks", "Tinymist.L10n.load_panics", "Tinymist.L10n.broken_file_kept"], "note": "Proved for keys and messages without line breaks; with one the file cannot be read any more (line_break_breaks). The messages are Rust literals but read as JSON: an escape JSON does not have makes the server panic at its start (load_panics)."},
  {"property": "C88", "status": "partial", "theorems": ["Tinymist.Lint.jumps_partial", "Tinymist.Lint.returns_partial", "Tinymist.Lint.no_false_alarm", "Tinymist.Lint.never_panics", "Tinymist.Lint.argument_unseen", "Tinymist.Lint.returned_unseen"], "note": "Exactly those that are looked at, and what is reported is wrong. Not looked at are the callees and arguments of calls and the values of returns: jumps there are never reported (argument_unseen, returned_unseen)."},
  {"property": "C89", "status": "partial", "theorems": ["Tinymist.Lint.discarded_partial", "Tinymist.Lint.before_return", "Tinymist.Lint.sometimes_kept", "Tinymist.Lint.rule_in_effect", "Tinymist.Lint.discarded_unseen", "Tinymist.Lint.reported_once", "Tinymist.Lint.before_branches", "Tinymist.Lint.before_jump"], "note": "A return may follow, proved for all bodies against a semantics of runs. That it must follow is false: join takes the branch that returns if the other has no information (sometimes_kept). A rule is said to be discarded by an empty return although content between them has its style and is kept (rule_in_effect). Not every discarded value is reported (discarded_unseen)."},
  {"property": "C90", "status": "proved", "theorems": ["Tinymist.Lint.no_effect"], "note": "For expressions that are looked at, see C88."},
  {"property": "C91", "status": "partial", "theorems": ["Tinymist.Inlay.hints_of_range", "Tinymist.Inlay.none_missing_partial", "Tinymist.Inlay.part_of_range", "Tinymist.Inlay.ranges_meet", "Tinymist.Inlay.hint_outside"], "note": "None is missing and parts agree with the whole. Hints outside of the range are given too: all those of a call of which a part is in the range (hint_outside), so two requests for adjacent ranges both give them."},
  {"property": "C92", "status": "proved", "theorems": ["Tinymist.Inlay.hinted", "Tinymist.Inlay.in_order"], "note": "Which parameter an argument is for is given by the analysis of the call."},
  {"property": "C93", "status": "partial", "theorems": ["Tinymist.Symbols.found_are_symbols", "Tinymist.Symbols.search_answers_partial", "Tinymist.Symbols.headings_found_partial", "Tinymist.Symbols.search_exact_partial", "Tinymist.Symbols.labels_listed_partial", "Tinymist.Symbols.empty_search_panics", "Tinymist.Symbols.deep_heading_missed", "Tinymist.Symbols.deep_label_missed"], "note": "What is found is right, searches for a text that is not empty are answered, headings of the first two levels are always found, and documents nested at most two deep are searched completely. Violated: the search for the empty text fails if there is a comment or list item (empty_search_panics); headings of the third level and labels below the second are missed."},
  {"property": "C94", "status": "partial", "theorems": ["Tinymist.Bib.positions_between_characters", "Tinymist.Bib.entries_found_partial", "Tinymist.Bib.quoted_key_misplaced", "Tinymist.Bib.alias_missed"], "note": "Proved for keys that stand in the text as they are and values that are mappings. Violated: the name range of a quoted key begins with the quote and lacks the last letter; entries whose value is an alias are not listed. The events of the YAML parser are given."},
  {"property": "C95", "status": "proved", "theorems": ["Tinymist.Bib.last_definition", "Tinymist.Bib.undefined_not_found", "Tinymist.Bib.keys_once"], "note": "What BibTeX and hayagriva read from a file is given; hayagriva is taken to give details only of entries that are in the file."},
  {"property": "C96", "status": "partial", "theorems": ["Tinymist.Docs.docs_of_definition_partial", "Tinymist.Docs.docs_of_module", "Tinymist.Docs.trailing_comment_taken", "Tinymist.Docs.blank_line_ignored", "Tinymist.Docs.empty_line_keeps_indent"], "note": "All comments since the last expression are taken and nothing before it. Violated: a comment at the end of the line of a definition documents the next one, a comment set off by empty lines in code documents what follows, and a line without text makes all lines keep their leading space."},
  {"property": "C97", "status": "partial", "theorems": ["Tinymist.Docs.parameters_read_partial", "Tinymist.Docs.no_description", "Tinymist.Docs.arrow_taken"], "note": "Proved for documentation with a description whose last line does not look like the end of a parameter or, without a result, like that of the result. Violated: without a description the parameters are listed in the description too; a description whose last line begins with an arrow loses it. The conversion to Markdown is given."},
  {"property": "C98", "status": "proved", "theorems": ["Tinymist.Docs.shown_as_code"], "note": "That a fence ends at the next run of at least as many backticks is CommonMark's rule."},
  {"property": "C99", "status": "partial", "theorems": ["Tinymist.Complete.snippet_shown_partial", "Tinymist.Complete.builtin_shown", "Tinymist.Complete.document_function", "Tinymist.Complete.subscript_doubled", "Tinymist.Complete.dollar_lost"], "note": "Against the snippet syntax of the language server protocol, for snippets whose fixed text means nothing in that syntax. Violated: text of the document is not escaped, so a copied `$x$` loses a dollar sign; the built-in `subscript` and `superscript` insert `x_2:2`."},
  {"property": "C100", "status": "proved", "theorems": ["Tinymist.Complete.identifier_replaced", "Tinymist.Complete.argument_inserted", "Tinymist.Complete.identifier_edit_at_cursor"], "note": "Whether the leaf is an identifier or in an argument is given by the syntax tree."},
  {"property": "C101", "status": "partial", "theorems": ["Tinymist.Complete.label_completed", "Tinymist.Complete.label_edit_at_cursor_partial", "Tinymist.Complete.reference_completed", "Tinymist.Complete.string_completed_partial", "Tinymist.Complete.label_edit_elsewhere", "Tinymist.Complete.typed_string_broken", "Tinymist.Complete.field_named_partial", "Tinymist.Complete.field_quote_broken"], "note": "Violated: with the cursor between the `>` of a label and another `>` the edit is not at the cursor; a string completed when a part of it is typed is inserted with its opening quote behind that part."},
  {"property": "C102", "status": "partial", "theorems": ["Tinymist.Complete.list_shown_partial", "Tinymist.Complete.list_can_be_shown", "Tinymist.Complete.thousand_misplaced"], "note": "Proved for up to a thousand completions. Violated beyond: the sort texts have three digits, so number 1000 is shown before number 101. That editors order by sort text is the protocol's rule."},
  {"property": "C103", "status": "proved", "theorems": ["Tinymist.Complete.slice_whole", "Tinymist.Complete.window_whole"], "note": ""},
  {"property": "C104", "status": "partial", "theorems": ["Tinymist.Complete.postfix_wraps", "Tinymist.Complete.postfix_moves_partial", "Tinymist.Complete.postfix_ignored", "Tinymist.Complete.postfix_panics"], "note": "If the second placeholder is for the expression, its text is put into a snippet without escaping, so the theorem asks that it means nothing there. Violated: a configured postfix snippet without a placeholder panics."},
  {"property": "C105", "status": "partial", "theorems": ["Tinymist.Complete.ufcs_called", "Tinymist.Complete.ufcs_left_partial", "Tinymist.Complete.ufcs_right", "Tinymist.Complete.ufcs_only", "Tinymist.Complete.takes_least", "Tinymist.Complete.last_bound_decides", "Tinymist.Complete.ufcs_dollar_lost", "Tinymist.Complete.kind_told_partial"], "note": "With a tab stop before the content, its text is put into a snippet without escaping (partial). Violated: `$x$.f` becomes `f(, x$)`; of a union of types only the last decides which functions are offered."},
  {"property": "C106", "status": "proved", "theorems": ["Tinymist.Complete.snippet_offered", "Tinymist.Complete.snippet_offered_mode"], "note": "Where the syntax is not known, which is what all callers say, only contexts that are open in the syntax count (`snippet_offered_mode`)."},
  {"property": "C107", "status": "partial", "theorems": ["Tinymist.Complete.paths_listed", "Tinymist.Complete.path_read_partial", "Tinymist.Complete.path_broken", "Tinymist.Complete.path_package"], "note": "That the string reads as the path is proved for paths without quotes and backslashes (`path_read_partial`) and is violated for others, as nothing is escaped; a relative path beginning with `@` reads as a package. Which file names fit is a parameter."},
  {"property": "C108", "status": "proved", "theorems": ["Tinymist.Complete.import_offered", "Tinymist.Complete.import_self"], "note": "The name at the cursor counts as imported, so it is not offered itself (`import_self`). The evaluation of the path to a module is a parameter."},
  {"property": "C109", "status": "partial", "theorems": ["Tinymist.Complete.newest_versions", "Tinymist.Complete.all_versions_partial", "Tinymist.Complete.listed_twice"], "note": "Violated: with all versions, a package that is both in the registry and in a local folder is listed twice."},
  {"property": "C110", "status": "proved", "theorems": ["Tinymist.Complete.labels_offered"], "note": "`analyze_labels` gives the labels and where those of works begin; it is a parameter. That the labels seen are told apart by hashes is idealised to equality."},
  {"property": "C111", "status": "partial", "theorems": ["Tinymist.Typlite.raw_function_partial", "Tinymist.Typlite.raw_function_ticks", "Tinymist.Typlite.raw_block_partial", "Tinymist.Typlite.raw_block_open", "Tinymist.Typlite.raw_inline_partial", "Tinymist.Typlite.raw_inline_glued", "Tinymist.Typlite.raw_inline_tick", "Tinymist.Typlite.shown_as_source_partial", "Tinymist.Typlite.render_error"], "note": "The reading of Markdown is a part of CommonMark, in Spec/Typlite. Violated: `raw` of a text that ends in backticks has too short a fence; a raw block whose end is behind text is not closed; lines of raw text in a line are glued; backticks in it end it."},
  {"property": "C112", "status": "partial", "theorems": ["Tinymist.Typlite.table_partial", "Tinymist.Typlite.footer_shifted", "Tinymist.Typlite.no_columns_panic"], "note": "Proved for tables with headers and cells and at least one column. Violated: a footer is preceded by an empty cell, which shifts its cells; no columns panic."},
  {"property": "C113", "status": "proved", "theorems": ["Tinymist.Typlite.link_call", "Tinymist.Typlite.simple_calls", "Tinymist.Typlite.alter_call", "Tinymist.Typlite.image_call", "Tinymist.Typlite.call_errors", "Tinymist.Typlite.box_call", "Tinymist.Typlite.image_text"], "note": "An empty last line of a box is dropped, as `lines` of Rust does."},
  {"property": "C114", "status": "partial", "theorems": ["Tinymist.Typlite.items_marked_partial", "Tinymist.Typlite.items_unmarked"], "note": "For markup without calls, includes and rendered pieces, whose text holds no `<`."},
  {"property": "C115", "status": "partial", "theorems": ["Tinymist.Typlite.picture_files_partial", "Tinymist.Typlite.chosen_theme_overwritten", "Tinymist.Typlite.pictures_kept_partial", "Tinymist.Typlite.include_overwrites", "Tinymist.Typlite.definitions_first_partial", "Tinymist.Typlite.stray_hash", "Tinymist.Typlite.picture_in_line", "Tinymist.Typlite.picture_apart", "Tinymist.Typlite.address_linked", "Tinymist.Typlite.functions_kept", "Tinymist.Typlite.source_linked"], "note": "Rendering itself is a parameter. Violated: with a chosen theme the file is overwritten by its own name; pieces after an included file overwrite the pictures of that file; a hash of an earlier call is put before the next definition."},
  {"property": "C116", "status": "partial", "theorems": ["Tinymist.Typlite.convert_more", "Tinymist.Typlite.conversion_ends_partial", "Tinymist.Typlite.self_include_runs_on", "Tinymist.Typlite.include_in_place"], "note": "Proved if no file includes itself over others. Violated: a file that includes itself is converted without end (a stack overflow)."},
  {"property": "C117", "status": "partial", "theorems": ["Tinymist.Typlite.heading_partial", "Tinymist.Typlite.heading_deep", "Tinymist.Typlite.item_partial", "Tinymist.Typlite.enum_item_partial", "Tinymist.Typlite.item_shallow", "Tinymist.Typlite.numbers_partial", "Tinymist.Typlite.number_lost", "Tinymist.Typlite.marked_text", "Tinymist.Typlite.document_text"], "note": "Violated: headings deeper than six are text; lists set in by one column leave their item; numbers given further on are lost."},
  {"property": "C118", "status": "partial", "theorems": ["Tinymist.Types.call_type_partial", "Tinymist.Types.tuple_at", "Tinymist.Types.behind_sink_wrong", "Tinymist.Types.sink_wrong", "Tinymist.Types.spread_wrong", "Tinymist.Types.annotated_wrong", "Tinymist.Types.sink_taken", "Tinymist.Types.no_sink", "Tinymist.Types.rests_match"], "note": "Proved for closures without a sink, a destructuring parameter or a documented result, and calls without spread arguments. Violated beyond this: four witnesses."},
  {"property": "C119", "status": "partial", "theorems": ["Tinymist.Types.simplify_ends", "Tinymist.Types.no_variables", "Tinymist.Types.nothing_made_up", "Tinymist.Types.nothing_lost_partial", "Tinymist.Types.loop_loses"], "note": "That no alternative is lost is proved for bounds without cycles. Violated with cycles: an unfinished result is remembered."},
  {"property": "C120", "status": "partial", "theorems": ["Tinymist.Types.describe_says_partial", "Tinymist.Types.describe_ends", "Tinymist.Types.second_function_lost"], "note": "Proved where every union has at most one function. Violated: of more functions only the first is named."},
  {"property": "C121", "status": "partial", "theorems": ["Tinymist.Universe.revision_identifies_partial", "Tinymist.Universe.change_counts", "Tinymist.Universe.nothing_counts", "Tinymist.Universe.mutate_entry_silent", "Tinymist.Universe.with_entry_file_silent", "Tinymist.Universe.entry_set", "Tinymist.Universe.inputs_set", "Tinymist.Universe.fonts_set", "Tinymist.Universe.packages_set", "Tinymist.Universe.same_providers_silent"], "note": "Proved for changes made in `increment_revision`; a provider of fonts or packages with a revision number has the same content for the same number (the server's have none). Violated: `mutate_entry` of the universe and `with_entry_file` change the main file without a new number."},
  {"property": "C122", "status": "partial", "theorems": ["Tinymist.Universe.task_world", "Tinymist.Universe.export_worlds", "Tinymist.Universe.same_day", "Tinymist.Universe.tried_texts_private_partial", "Tinymist.Universe.symbols_disturb"], "note": "Violated by the view of symbols, whose world shares the table of contents of the project's world. A world's file system is a function (isolation is C04)."},
  {"property": "C123", "status": "partial", "theorems": ["Tinymist.Fonts.font_of_entry_partial", "Tinymist.Fonts.fonts_stay", "Tinymist.Fonts.file_replaced", "Tinymist.Fonts.no_fonts_panic"], "note": "Proved while the files of fonts stay as they were found. Violated: a file replaced after the search is loaded for the old entry; a request by description panics without fonts."},
  {"property": "C124", "status": "partial", "theorems": ["Tinymist.Fonts.fonts_listed_partial", "Tinymist.Fonts.index_not_in_source"], "note": "Violated in the index, which is that of the font book and not that in the place it was found in, as documented."},
  {"property": "C125", "status": "partial", "theorems": ["Tinymist.Packs.map_copy", "Tinymist.Packs.dir_copy_partial", "Tinymist.Packs.copy_escapes", "Tinymist.Packs.copy_stops"], "note": "Maps: proved for every package. Directories: proved when every path of the package is made of names only. An absolute path, or one with `..`, is written outside the directory, and a copy that fails leaves what it has written."},
  {"property": "C126", "status": "partial", "theorems": ["Tinymist.Packs.read_dir_partial", "Tinymist.Packs.dotted_base_empty", "Tinymist.Packs.dir_to_map", "Tinymist.Packs.read_archive_partial", "Tinymist.Packs.long_names_cut"], "note": "Proved for directories without a dot in front of their own name and archives whose names fit into the headers. A directory such as `.pkg` reads as an empty package, and names of more than a hundred bytes are cut off so that files can replace each other."},
  {"property": "C127", "status": "proved", "theorems": ["Tinymist.Metrics.fonts_of_document", "Tinymist.Metrics.answered_iff"], "note": "The ranges of the spans of glyphs are assumed not to be empty, and a single text to have fewer than 2^32 glyphs. The order of the entries is arbitrary in the code."},
  {"property": "C128", "status": "partial", "theorems": ["Tinymist.Colors.colors_shown", "Tinymist.Colors.conversion_not_shown", "Tinymist.Colors.label_shows_partial", "Tinymist.Colors.first_label_no_color"], "note": "Which calls are shown is proved for every tree. Of the texts that are offered only those with hexadecimal digits are modelled; the first of them is a bare string, so picking it makes the color disappear. A conversion such as `rgb(luma(10%))` is not shown."},
  {"property": "C129", "status": "partial", "theorems": ["Tinymist.Click.click_on_top_partial", "Tinymist.Click.link_nowhere", "Tinymist.Click.link_in_group_falls_through", "Tinymist.Click.detached_glyph_shifts", "Tinymist.Click.end_of_text_to_start"], "note": "Proved for frames without links whose glyphs all come from files; lengths are integers. A link in a group is clicked through, a glyph without a source shifts those behind it, and the end of a text is shown as its start."},
  {"property": "C130", "status": "partial", "theorems": ["Tinymist.Click.exact_positions", "Tinymist.Click.no_text_no_position", "Tinymist.Click.closest_position_partial", "Tinymist.Click.moved_group_lost"], "note": "Exact matches are proved for every document. The closest match is proved when no group is moved; in a moved group it is given relative to the group."},
  {"property": "C131", "status": "partial", "theorems": ["Tinymist.Mode.mode_read_partial", "Tinymist.Mode.reads_unique", "Tinymist.Mode.mode_within", "Tinymist.Mode.matrix_row_code", "Tinymist.Mode.block_behind_hash", "Tinymist.Mode.end_of_file_markup"], "note": "Proved for places other than rows of matrices and opening marks of blocks behind a hash. Trees are as the parser makes them: kinds that occur in one mode only do occur in it. In a row of a matrix, at the opening mark of a block behind a hash, and at the end of a file another mode is given."},
  {"property": "C132", "status": "partial", "theorems": ["Tinymist.Offer.offered_partial", "Tinymist.Offer.heading_not_offered", "Tinymist.Offer.end_of_block_not_offered", "Tinymist.Offer.own_name_offered", "Tinymist.Offer.import_twice"], "note": "Proved for every path and name, except: names bound in headings, items or strong text before the cursor, names of a block when the cursor is on the blanks at its end, names of the let the cursor is in, and imports that bind a name twice. For each of these the negation is proved. Types found by the type checker, and modules found for imports, are parameters."},
  {"property": "C133", "status": "partial", "theorems": ["Tinymist.Sampled.values_shown", "Tinymist.Sampled.runs_unique", "Tinymist.Sampled.runs_expand", "Tinymist.Sampled.hidden_iff_partial", "Tinymist.Sampled.other_function_hidden", "Tinymist.Sampled.equal_values_merged"], "note": "The pieces shown are proved to be the runs of the recorded values for every list; that nothing is shown only for values that are all one function is proved for the values that are looked at only, and its negation for the others. Evaluation and the writing of values are parameters."},
  {"property": "C134", "status": "partial", "theorems": ["Tinymist.FontSummary.summary_partial", "Tinymist.FontSummary.summary_one_style", "Tinymist.FontSummary.bold_not_said"], "note": "Number, least weight and italics are proved for every family; the greatest weight is that of the last style only, it is proved to be the greatest one for families with one style, and its negation for others."},
  {"property": "C135", "status": "partial", "theorems": ["Tinymist.DocText.docs_shown_partial", "Tinymist.DocText.bare_unique", "Tinymist.DocText.address_kept", "Tinymist.DocText.page_link", "Tinymist.DocText.page_link_below", "Tinymist.DocText.definition_link", "Tinymist.DocText.foreign_link_lost", "Tinymist.DocText.open_backtick", "Tinymist.DocText.example_shown"], "note": "Proved for every sequence of segments whose marks are used for nothing else and that has no block of examples; other targets, such as paths of files, are proved to be lost, and an open backtick to be closed. The routes of definitions are a parameter here."},
  {"property": "C136", "status": "partial", "theorems": ["Tinymist.Hover.closest_previewed", "Tinymist.Hover.closest_unique", "Tinymist.Hover.link_offered_partial", "Tinymist.Hover.inner_link_offered", "Tinymist.Hover.last_character_no_link", "Tinymist.Hover.quote_has_link", "Tinymist.Hover.escape_unescapes", "Tinymist.Hover.escape_plain", "Tinymist.Hover.unescapes_unique", "Tinymist.Hover.argument_read", "Tinymist.Hover.in_quotes_unique", "Tinymist.Hover.command_read"], "note": "Preview and encoding are proved in full; links are proved to be offered one byte too early: not at the last character of a path, and at the quote before it. Layout, the resolution of targets and UTF-8 are parameters; JSON escapes of surrogates are not in the specification since they are never written."},
  {"property": "C137", "status": "partial", "theorems": ["Tinymist.Interned.reads_value", "Tinymist.Interned.equal_iff_same", "Tinymist.Interned.never_panics", "Tinymist.Interned.stats_exact", "Tinymist.Interned.intern_gives", "Tinymist.Interned.clone_gives", "Tinymist.Interned.others_stay", "Tinymist.Interned.last_drop_removes", "Tinymist.Interned.no_entry_left_partial", "Tinymist.Interned.entry_left"], "note": "Equality, safety and statistics are proved for all schedules; forgetting is proved when the last drop is not interleaved with another one, and refuted otherwise: two last handles dropped together leave the entry behind. Memory is sequentially consistent; the hash map and the shards' locks are one map with atomic operations."},
  {"property": "C138", "status": "partial", "theorems": ["Tinymist.Breakpoint.texts_kept", "Tinymist.Breakpoint.numbered", "Tinymist.Breakpoint.block_stops", "Tinymist.Breakpoint.body_stops_partial", "Tinymist.Breakpoint.branch_without_stop", "Tinymist.Breakpoint.line_broken", "Tinymist.Breakpoint.show_set_called", "Tinymist.Breakpoint.stops_where_enabled", "Tinymist.Breakpoint.no_session_ever", "Tinymist.Breakpoint.never_stops", "Tinymist.Breakpoint.point_text", "Tinymist.Breakpoint.session_removed"], "note": "Text, numbering and stops are proved; bodies of an `else if` or of a closure that is itself a body are missed unless they are blocks of code, blocks in the middle of a line end it, show rules that set something are rewritten to something that is no program, and no debug session can ever be started. Typst's evaluation is not modelled."},
  {"property": "C139", "status": "partial", "theorems": ["Tinymist.Viewers.understood", "Tinymist.Viewers.unknown_ends", "Tinymist.Viewers.no_argument_panics", "Tinymist.Viewers.path_cut", "Tinymist.Viewers.jump_nearest", "Tinymist.Viewers.viewport_goes", "Tinymist.Viewers.idle_only_alone", "Tinymist.Viewers.shut_down_asked", "Tinymist.Viewers.idle_when_alone_partial", "Tinymist.Viewers.failed_never_idle", "Tinymist.Viewers.viewer_stays", "Tinymist.Viewers.ping_ends", "Tinymist.Viewers.big_page_panics", "Tinymist.Viewers.up_until", "Tinymist.Viewers.comes_while_up"], "note": "A connection whose upgrade to a websocket fails is counted forever, so that the server never shuts down for being idle (idle_when_alone_partial is for histories without one, failed_never_idle for the others); a ping ends the connection of a viewer; messages without their argument panic; paths are cut at spaces. Rendering and the contents of JSON are not modelled."},
  {"property": "C140", "status": "partial", "theorems": ["Tinymist.Debugging.evaluates_launched", "Tinymist.Debugging.refused_without", "Tinymist.Debugging.launch_announces", "Tinymist.Debugging.launch_refused", "Tinymist.Debugging.only_bad_launch_panics", "Tinymist.Debugging.thread_order", "Tinymist.Debugging.answered_in_place_partial", "Tinymist.Debugging.evaluation_hangs", "Tinymist.Debugging.never_begins", "Tinymist.Debugging.last_evaluation_hangs", "Tinymist.Debugging.end_announced", "Tinymist.Debugging.threads_announced"], "note": "A launch with arguments that cannot be read panics; a program stops whether or not it was asked to; an evaluation that comes to a breakpoint hangs the thread (answered_in_place_partial excludes it); and as no session is ever accepted (C138) every debugged compilation terminates at once. Evaluation itself is Typst's."},
  {"property": "C141", "status": "partial", "theorems": ["Tinymist.LockFlow.updates_serialise_partial", "Tinymist.LockFlow.readers_see_whole_partial", "Tinymist.LockFlow.update_works_on_last_partial", "Tinymist.LockFlow.update_alone_partial", "Tinymist.LockFlow.never_stuck", "Tinymist.LockFlow.lost_without_locks", "Tinymist.LockFlow.reader_finds_empty", "Tinymist.LockFlow.killed_tears", "Tinymist.LockFlow.zeros_without_locks"], "note": "Proved where the file system has locks and no process is killed while it writes. Where there are no locks, as on network file systems, the lock is taken for granted and updates can be lost (lost_without_locks); a process killed while writing leaves a file no update made (killed_tears, see also C13); the first update makes the file before it locks it, so that a reader can find it empty (reader_finds_empty). That flock excludes others is a contract of the operating system."},
  {"property": "C142", "status": "partial", "theorems": ["Tinymist.Links.links_named_partial", "Tinymist.Links.no_link_twice", "Tinymist.Links.link_leads_partial", "Tinymist.Links.answer_lists", "Tinymist.Links.later_position_missed", "Tinymist.Links.toml_missed", "Tinymist.Links.rooted_link_wrong", "Tinymist.Links.rooted_link_example"], "note": "Violated: a positional path behind another argument is missed (later_position_missed), as are the files of toml and plugin (toml_missed); a path from the root of the project leads to that path on disk (rooted_link_wrong, rooted_link_example)."},
  {"property": "C143", "status": "partial", "theorems": ["Tinymist.PkgDocs.docs_made", "Tinymist.PkgDocs.sections_of", "Tinymist.PkgDocs.section_once", "Tinymist.PkgDocs.section_lists", "Tinymist.PkgDocs.section_path", "Tinymist.PkgDocs.section_names", "Tinymist.PkgDocs.external_linked", "Tinymist.PkgDocs.local_unlinked", "Tinymist.PkgDocs.link_resolves_partial", "Tinymist.PkgDocs.renamed_dangling", "Tinymist.PkgDocs.module_dangling", "Tinymist.PkgDocs.shorter_missed", "Tinymist.PkgDocs.shortest_shown"], "note": "Violated: the link of a definition exported under another name, and that of a module, lead to no heading (renamed_dangling, module_dangling); the alternative names of a module are only those found on its first way, so that shorter ones are missed (shorter_missed)."},
  {"property": "C144", "status": "partial", "theorems": ["Tinymist.ExprTy.type_describes_partial", "Tinymist.ExprTy.loop_type_lost", "Tinymist.ExprTy.loop_addition_lost", "Tinymist.ExprTy.value_beside_variable_lost", "Tinymist.ExprTy.markup_as_code", "Tinymist.ExprTy.spread_lost"], "note": "Violated: a block with a loop has the type of the rest, that of nothing if there is no rest (loop_type_lost, loop_addition_lost); a value beside a variable is not in the type (value_beside_variable_lost); markup is typed as code (markup_as_code); spread items are dropped (spread_lost). Calls, operators, functions and control flow are not modelled."},
  {"property": "C145", "status": "partial", "theorems": ["Tinymist.Uris.file_round", "Tinymist.Uris.file_urls_differ", "Tinymist.Uris.answered_same", "Tinymist.Uris.url_taken", "Tinymist.Uris.untitled_round_partial", "Tinymist.Uris.urls_differ_partial", "Tinymist.Uris.root_lost", "Tinymist.Uris.untitled_slash_lost", "Tinymist.Uris.hash_cut", "Tinymist.Uris.percent_read", "Tinymist.Uris.other_scheme_confused", "Tinymist.Uris.untitled_escapes", "Tinymist.Uris.escape_decoded", "Tinymist.Uris.others_kept", "Tinymist.Uris.untitled_url"], "note": "Proved for files on disk. Violated for documents without a file: names with a hash, question mark or percent sign are not encoded (hash_cut, percent_read); a slash behind the colon is lost (untitled_slash_lost); `..` leaves the place of such documents (untitled_escapes). The root is taken for a document without a name (root_lost), a URI of another scheme for a file (other_scheme_confused). Windows paths are not modelled; the url crate is modelled for what is used."},
  {"property": "C146", "status": "partial", "theorems": ["Tinymist.BuildScript.script_words_partial", "Tinymist.BuildScript.script_replays_partial", "Tinymist.BuildScript.when_lost", "Tinymist.BuildScript.document_renamed", "Tinymist.BuildScript.html_becomes_svg", "Tinymist.BuildScript.query_compiled", "Tinymist.BuildScript.output_refused", "Tinymist.BuildScript.inputs_refused", "Tinymist.BuildScript.timestamp_refused", "Tinymist.BuildScript.pretty_refused", "Tinymist.BuildScript.open_pages_refused", "Tinymist.BuildScript.format_refused", "Tinymist.BuildScript.injected", "Tinymist.BuildScript.when_declared", "Tinymist.BuildScript.output_declared", "Tinymist.BuildScript.name_declared", "Tinymist.BuildScript.lockfile_declared", "Tinymist.BuildScript.comment_of"], "note": "script_words_partial: with a POSIX reader of words as specification, the script's commands are exactly the tasks' argument lists for all texts, if identifiers are one line and paths are files. script_replays_partial: for tasks the command line can declare, reading the words gives the document and the task back, but for the name and the time. The rest is false: inputs, outputs, timestamps, pretty output, open page ranges and three formats are written with options the command refuses; HTML becomes SVG, queries become PDF; when and the document's name are lost; a line break in an identifier runs arbitrary commands."},
  {"property": "C147", "status": "partial", "theorems": ["Tinymist.Pointer.name_found", "Tinymist.Pointer.one_meaning", "Tinymist.Pointer.name_before_mark", "Tinymist.Pointer.name_before_blank_partial", "Tinymist.Pointer.comment_names_line_before", "Tinymist.Pointer.new_line_is_block", "Tinymist.Pointer.end_missed", "Tinymist.Pointer.text_is_nothing", "Tinymist.Pointer.path_found", "Tinymist.Pointer.label_found", "Tinymist.Pointer.ref_found"], "note": "Proved for all trees: every position on a name (name_found, one_meaning), right behind a name before a mark (name_before_mark) or before a blank in the same node (name_before_blank_partial), paths, labels, references and text. Two parts are false: a comment on its own line in a block of code is about the name on the line before it (comment_names_line_before), and right behind a name that ends an operation, before a blank, nothing is found (end_missed)."},
  {"property": "C148", "status": "proved", "theorems": ["Tinymist.Mirror.mirror_transparent", "Tinymist.Mirror.pieces_irrelevant", "Tinymist.Mirror.mirror_is_input", "Tinymist.Mirror.replay_same", "Tinymist.Mirror.replay_so_far", "Tinymist.Mirror.replay_after_crash", "Tinymist.Mirror.replay_without_mirror", "Tinymist.Mirror.mirror_written"], "note": "Proved on the level of fill_buf, consume and read for all pieces and capacities. Reading the input and writing the mirror do not fail; JSON is a parameter."},
  {"property": "C149", "status": "partial", "theorems": ["Tinymist.Clock.calendar_right", "Tinymist.Clock.one_calendar", "Tinymist.Clock.today_partial", "Tinymist.Clock.today_small", "Tinymist.Clock.same_answer", "Tinymist.Clock.moment_stays", "Tinymist.Clock.new_snapshot", "Tinymist.Clock.derived_same", "Tinymist.Clock.big_offset_panics", "Tinymist.Clock.day_later", "Tinymist.Clock.plain_back_ignored", "Tinymist.Clock.plain_forward", "Tinymist.Clock.plain_utc", "Tinymist.Clock.stamp_names", "Tinymist.Clock.stamp_inj", "Tinymist.Clock.pdf_set", "Tinymist.Clock.pdf_years", "Tinymist.Clock.pdf_unset", "Tinymist.Clock.epoch_round_trip", "Tinymist.Clock.pdf_option", "Tinymist.Clock.pdf_refused", "Tinymist.Clock.date_not_set"], "note": "today_partial: right or a panic for years beyond 262142 (big_offset_panics gives a range of offsets for which it panics). Without the features system and web negative offsets are ignored. A creation timestamp is not respected by the date of the document (date_not_set). chrono and time are modelled by the Gregorian calendar and their documented ranges."},
  {"property": "C150", "status": "partial", "theorems": ["Tinymist.Renaming.prepared_iff", "Tinymist.Renaming.offered_name_renamed", "Tinymist.Renaming.renamed_offered_partial", "Tinymist.Renaming.field_renamed_unoffered", "Tinymist.Renaming.own_files_only", "Tinymist.Renaming.native_stays", "Tinymist.Renaming.labels_stay", "Tinymist.Renaming.module_name_stays", "Tinymist.Renaming.offered_path_renamed_iff", "Tinymist.Renaming.offered_path_refused", "Tinymist.Renaming.untitled_refused", "Tinymist.Renaming.path_shown_without_quotes", "Tinymist.Renaming.alias_shown_by_other_name", "Tinymist.Renaming.references_found"], "note": "Proved for names: what is offered is renamed everywhere the search finds it, and only the user's own is offered. Exact for paths: renaming works if the file is on the disk and both paths are absolute, or both relative with the new one leading up at least as far. Refuted: fields of modules are not offered but renamed; paths leading up and paths of unsaved files are offered but not renamed; the text shown is not that in the range for paths (no quotes) and for aliases (the other name)."},
  {"property": "C151", "status": "partial", "theorems": ["Tinymist.Renaming.goto_file", "Tinymist.Renaming.goto_name_partial", "Tinymist.Renaming.goto_entry", "Tinymist.Renaming.goto_module", "Tinymist.Renaming.selection_inside", "Tinymist.Renaming.element_missed", "Tinymist.Renaming.offered_can_be_gone_to", "Tinymist.Renaming.no_document"], "note": "Refuted for references to elements whose label is not written in the document: the link goes to the start of the file (element_missed). The tables of names (C70), types of fields and entries of bibliographies are inputs here."},
  {"property": "C152", "status": "partial", "theorems": ["Tinymist.Trace.child_sees_partial", "Tinymist.Trace.refused_iff", "Tinymist.Trace.key_cut", "Tinymist.Trace.value_trimmed", "Tinymist.Trace.font_path_cut", "Tinymist.Trace.answered", "Tinymist.Trace.broken_ends", "Tinymist.Trace.never_answered", "Tinymist.Trace.stderr_lost", "Tinymist.Trace.diagnostics_first", "Tinymist.Trace.profiled_partial", "Tinymist.Trace.not_profiled", "Tinymist.Trace.panics_iff"], "note": "Round trip of the command line for texts without the refuted shapes; the reading of messages is that of C17. clap is a contract; how messages are written as JSON is a parameter."},
  {"property": "C153", "status": "partial", "theorems": ["Tinymist.Trace.served_iff", "Tinymist.Trace.allowed_is_asker", "Tinymist.Trace.timings_at_root", "Tinymist.Trace.stops_when_idle_partial", "Tinymist.Trace.kept_by_stranger"], "note": "Time is in milliseconds; interruption by the user and the at most 10 seconds of graceful shutdown are not modelled."},
  {"property": "C154", "status": "partial", "theorems": ["Tinymist.WebTokens.tokens_of_document_partial", "Tinymist.WebTokens.legend_distinct", "Tinymist.WebTokens.every_character", "Tinymist.WebTokens.overlap", "Tinymist.WebTokens.length_not_bytes"], "note": "The leaf after a node and the expression after a hash are given with the node (found by the syntax library). Offsets are below 2^64."},
  {"property": "C155", "status": "partial", "theorems": ["Tinymist.Stats.row_tells_partial", "Tinymist.Stats.durations_are", "Tinymist.Stats.any_order", "Tinymist.Stats.report_sorted", "Tinymist.Stats.name_verbatim", "Tinymist.Stats.unfinished_row", "Tinymist.Stats.names_confused"], "note": "Numbers are unbounded except for the least time; how durations are printed and the styles of the page are left out. For the order of events a query is taken to wait once, as it does."},
  {"property": "C156", "status": "partial", "theorems": ["Tinymist.Stats.alloc_row", "Tinymist.Stats.alloc_bounds", "Tinymist.Stats.alloc_sorted", "Tinymist.Stats.human_unit_partial", "Tinymist.Stats.largest_last", "Tinymist.Stats.human_panics"], "note": "Relaxed loads are read as loads at two points of one history. The rounding of the number shown is left out."},
  {"property": "C157", "status": "partial", "theorems": ["Tinymist.TypeOffer.offered", "Tinymist.TypeOffer.mem_offered", "Tinymist.TypeOffer.walk_ends", "Tinymist.TypeOffer.once_each_partial", "Tinymist.TypeOffer.argument_given", "Tinymist.TypeOffer.text_only", "Tinymist.TypeOffer.no_names", "Tinymist.TypeOffer.self_excluded_partial", "Tinymist.TypeOffer.self_offered", "Tinymist.TypeOffer.texts_twice", "Tinymist.TypeOffer.narrowed_iff", "Tinymist.TypeOffer.not_narrowed"], "note": "Violated: the value at the cursor is offered again if its type says where it was written (self_offered), and texts may be offered more than once (texts_twice). The rest is proved."},
  {"property": "C158", "status": "partial", "theorems": ["Tinymist.TypeOffer.items_iff_partial", "Tinymist.TypeOffer.labels_differ", "Tinymist.TypeOffer.any_order", "Tinymist.TypeOffer.elements_only", "Tinymist.TypeOffer.given_forgotten", "Tinymist.TypeOffer.method_bracket", "Tinymist.TypeOffer.one_needs_arguments"], "note": "Violated: arguments given by `with` are forgotten once the function is evaluated (given_forgotten), for a method of content `self` is taken as the next argument (method_bracket), and one function without parameters is enough for empty parentheses (one_needs_arguments). The rest is proved."},
  {"property": "C159", "status": "partial", "theorems": ["Tinymist.TypeOffer.names_iff_partial", "Tinymist.TypeOffer.wraps_iff", "Tinymist.TypeOffer.types_asked", "Tinymist.TypeOffer.modifiers_anyway", "Tinymist.TypeOffer.params_iff"], "note": "Violated: modifiers of a symbol are offered in an equation also where a dot accesses no field (modifiers_anyway). The rest is proved."},
  {"property": "C160", "status": "partial", "theorems": ["Tinymist.Scan.found_sound", "Tinymist.Scan.found_iff_partial", "Tinymist.Scan.found_once", "Tinymist.Scan.offered_iff_partial", "Tinymist.Scan.sources_iff_partial", "Tinymist.Scan.no_workspace", "Tinymist.Scan.hidden_workspace", "Tinymist.Scan.any_narrowed", "Tinymist.Scan.cbor_missing"], "note": "Violated: in a workspace whose own folder is hidden or is named like a generated one nothing is found (hidden_workspace), and where any file may be read only files of known kinds are offered (any_narrowed, cbor_missing). All files are found if less than 65535 are."},
  {"property": "C161", "status": "partial", "theorems": ["Tinymist.Scan.accepted_iff", "Tinymist.Scan.named_ascii", "Tinymist.Scan.any_iff_ext", "Tinymist.Scan.special_iff", "Tinymist.Scan.overlap", "Tinymist.Scan.kind_some", "Tinymist.Scan.kind_accepts", "Tinymist.Scan.kind_iff_partial", "Tinymist.Scan.never_bibliography", "Tinymist.Scan.unknown_named"], "note": "Violated: the hover never names a bibliography in YAML or a theme in XML as such (never_bibliography), and says of a file of unknown kind that it is a `None` file (unknown_named)."},
  {"property": "C162", "status": "partial", "theorems": ["Tinymist.Scan.union_parts", "Tinymist.Scan.grouping", "Tinymist.Scan.given_same", "Tinymist.Scan.closure_cast", "Tinymist.Scan.file_param", "Tinymist.Scan.value_type", "Tinymist.Scan.bool_type", "Tinymist.Scan.square_fill", "Tinymist.Scan.special_param_partial", "Tinymist.Scan.other_param", "Tinymist.Scan.own_types"], "note": "Violated: `square` is left out of the shapes whose `fill` is a colour (square_fill); the type of truth values by itself would be `none` (bool_type), which no value gets to. The order of types is a parameter; types made for one parameter alone are numbered."},
  {"property": "C163", "status": "partial", "theorems": ["Tinymist.WebFonts.variants_together", "Tinymist.WebFonts.modified_together", "Tinymist.WebFonts.joined_together", "Tinymist.WebFonts.unstyled_kept", "Tinymist.WebFonts.family_bare_partial", "Tinymist.WebFonts.modern_named", "Tinymist.WebFonts.family_source", "Tinymist.WebFonts.refused_iff", "Tinymist.WebFonts.no_family", "Tinymist.WebFonts.twice_differs"], "note": "Proved for names without blanks around them. Violated: `-Bold` gives an empty family (no_family) and `Foo  Bold` gives `Foo ` with a blank, so the function is not idempotent (twice_differs). The joined modifier `demi` is a style word itself and left out of joined_together."},
  {"property": "C164", "status": "partial", "theorems": ["Tinymist.WebFonts.weight_named_partial", "Tinymist.WebFonts.style_decides", "Tinymist.WebFonts.stretch_named_partial", "Tinymist.WebFonts.style_iff", "Tinymist.WebFonts.flags_iff", "Tinymist.WebFonts.extra_bold", "Tinymist.WebFonts.extra_light", "Tinymist.WebFonts.never_stretched", "Tinymist.WebFonts.sans_serif", "Tinymist.WebFonts.style_not_asked"], "note": "Violated: an extra bold style never gives extra bold (extra_bold), an extra light name never extra light (extra_light), semi-condensed, extra- and ultra-expanded are never found (never_stretched), sans-serif counts as serif (sans_serif), and an italic style is not looked at (style_not_asked)."},
  {"property": "C165", "status": "partial", "theorems": ["Tinymist.Constrain.told_partial", "Tinymist.Constrain.only_told", "Tinymist.Constrain.kept", "Tinymist.Constrain.strong_iff", "Tinymist.Constrain.any_order", "Tinymist.Constrain.never_fails", "Tinymist.Constrain.argument_learned", "Tinymist.Constrain.passed_learned", "Tinymist.Constrain.contained", "Tinymist.Constrain.compared", "Tinymist.Constrain.weaken_iff", "Tinymist.Constrain.consistent_start", "Tinymist.Constrain.variables_not_linked", "Tinymist.Constrain.elements_not_compared", "Tinymist.Constrain.all_alternatives"], "note": "Violated: that a variable is used as another is forgotten (variables_not_linked), nothing is learned of elements of arrays and tuples (elements_not_compared), and a dictionary used where one of several is wanted is taken for all of them (all_alternatives). Values and built-in types are numbers; whether the checker calls constrain at each use is not modelled."},
  {"property": "C166", "status": "partial", "theorems": ["Tinymist.Context.separator", "Tinymist.Context.value", "Tinymist.Context.closing", "Tinymist.Context.named_value", "Tinymist.Context.closing_named", "Tinymist.Context.behind_blank_partial", "Tinymist.Context.element", "Tinymist.Context.entry", "Tinymist.Context.help_at_partial", "Tinymist.Context.behind_call", "Tinymist.Context.end_missed", "Tinymist.Context.on_name", "Tinymist.Context.behind_nested", "Tinymist.Context.on_set", "Tinymist.Context.bad_needs", "Tinymist.Context.behind_block", "Tinymist.Context.at_value", "Tinymist.Context.at_separator", "Tinymist.Context.in_paren", "Tinymist.Context.entry_colon", "Tinymist.Context.in_path", "Tinymist.Context.elsewhere", "Tinymist.Context.behind_dot"], "note": "Proved for trees of any size and calls at any depth: at a separator, at a value that is one token, at a named value, at the closing parenthesis, at blanks; in arrays and dictionaries; that signature help is for the token behind the cursor. Four violations are proved: at the end of the file there is no signature help; on the name of a named argument a positional one is shown; at a blank behind a call that is an argument it is for the first argument of that call; on the word set it is for the first argument. Values of several tokens are not covered."},
  {"property": "C167", "status": "partial", "theorems": ["Tinymist.Context.says_iff", "Tinymist.Context.outside_hidden_partial", "Tinymist.Context.behind_word", "Tinymist.Context.nested_name"], "note": "says_iff characterises the walk for every tree; outside_hidden_partial says that nothing outside the nearest deciding node has influence. Violation: the name of an argument of a call in the default value of a parameter is taken for a parameter's name (nested_name), because named arguments look all the way up for parameters."},
  {"property": "C168", "status": "partial", "theorems": ["Tinymist.Context.expected_iff_partial", "Tinymist.Context.expected_named", "Tinymist.Context.set_positional"], "note": "Proved for one signature; several overlaid ones are received one after the other and not modelled. Violation: in a set rule a positional parameter is expected even if it cannot be set (set_positional)."},
  {"property": "C169", "status": "partial", "theorems": ["Tinymist.Alias.alias_first", "Tinymist.Alias.defined_described", "Tinymist.Alias.aliased_described_partial", "Tinymist.Alias.aliased_once", "Tinymist.Alias.before_forgotten", "Tinymist.Alias.twice_unknown", "Tinymist.Alias.plain_unknown", "Tinymist.Alias.known_aliased", "Tinymist.Alias.skipped_calls", "Tinymist.Alias.none_unknown", "Tinymist.Alias.simplified", "Tinymist.Alias.default_shown", "Tinymist.Alias.known_itself"], "note": "Violated: arguments given by a `with` before the last one are forgotten (before_forgotten), because the stack of names is popped on the way back although the function is found; nothing is found for two calls of `with` in one expression (twice_unknown) nor for a plain second name (plain_unknown); of a known function that had arguments given before, calls of `with` are counted in place of arguments (skipped_calls). The types of variables are modelled without cycles."},
  {"property": "C170", "status": "partial", "theorems": ["Tinymist.LatestDoc.answer_current_partial", "Tinymist.LatestDoc.kept_iff", "Tinymist.LatestDoc.newer", "Tinymist.LatestDoc.deps_newest", "Tinymist.LatestDoc.fresh_after_edit", "Tinymist.LatestDoc.answer_finished", "Tinymist.LatestDoc.stale_answer", "Tinymist.LatestDoc.other_file", "Tinymist.LatestDoc.begins", "Tinymist.LatestDoc.begins_only"], "note": "Violated: the snapshot taken for a compilation is kept for questions at the same revision, so when the compilation is finished questions are still answered from the document before it until something is changed (stale_answer); a compilation going on while the main file is changed leaves the document of the old main file (other_file). Projects are modelled one by one."},
  {"property": "C171", "status": "partial", "theorems": ["Tinymist.Exporting.exported_iff", "Tinymist.Exporting.written", "Tinymist.Exporting.unfinished_partial", "Tinymist.Exporting.side_effects", "Tinymist.Exporting.panic_iff", "Tinymist.Exporting.opened_iff", "Tinymist.Exporting.onExport_writes", "Tinymist.Exporting.deps_noted", "Tinymist.Exporting.failed_touches", "Tinymist.Exporting.directory_blocks", "Tinymist.Exporting.directory_missed", "Tinymist.Exporting.same_target"], "note": "Violated: a document that does not compile is not exported, but its directory is made and the task is noted in the lock file (failed_touches); whether there is a directory is asked of the path without the extension of the format, so a directory called `out` stops the export to `out.pdf` (directory_blocks) and a directory called `out.pdf` goes unnoticed (directory_missed); what is after the last dot of the pattern's path is lost, so patterns `out.v1` and `out.v2` write the same file (same_target). Writing a file atomically is C14; the pattern is C21."},
  {"property": "C172", "status": "partial", "theorems": ["Tinymist.Exporting.contents_iff_partial", "Tinymist.Exporting.editor_contents", "Tinymist.Exporting.same_for_html", "Tinymist.Exporting.fill_used", "Tinymist.Exporting.no_first_page", "Tinymist.Exporting.fill_ignored"], "note": "Violated: PNG exports of the first page do not use the fill colour (fill_ignored); merged ones do (fill_used). Renderers, and how lengths and hexadecimal colours are read, are parameters."},
  {"property": "C173", "status": "partial", "theorems": ["Tinymist.Exporting.query_one", "Tinymist.Exporting.query_many", "Tinymist.Exporting.query_all_partial", "Tinymist.Exporting.txt_many", "Tinymist.Exporting.unknown_format", "Tinymist.Exporting.pretty_ignored"], "note": "Violated: pretty output, which the editor's command asks for by default, is not produced: the transform is not looked at (pretty_ignored). Queries for all elements cannot be written as text (txt_many). Evaluating selectors and serializing values are parameters."},
  {"property": "C174", "status": "partial", "theorems": ["Tinymist.DocTypes.plain_right_partial", "Tinymist.DocTypes.names_right", "Tinymist.DocTypes.strings_right", "Tinymist.DocTypes.vars_right", "Tinymist.DocTypes.vars_all", "Tinymist.DocTypes.means_unique", "Tinymist.DocTypes.operator_ignored", "Tinymist.DocTypes.sound_init"], "note": "Proved for definitions without closures; closures are in C175. Violated: every binary operator is read as `or`, so `int and str` or `1 + 2` is a union (operator_ignored). The syntax tree of definitions is taken as given; pattern of `Ty::from_types` simplified to union of several."},
  {"property": "C175", "status": "partial", "theorems": ["Tinymist.DocTypes.ends_partial", "Tinymist.DocTypes.circular", "Tinymist.DocTypes.own_name", "Tinymist.DocTypes.tidy", "Tinymist.DocTypes.fresh", "Tinymist.DocTypes.closure_reads", "Tinymist.DocTypes.param_stands", "Tinymist.DocTypes.order_matters", "Tinymist.DocTypes.params_shape", "Tinymist.DocTypes.rest_reads"], "note": "Violated: definitions that refer to each other in a circle are followed for ever (circular, own_name), so a doc comment can overflow the stack; definitions looked up inside a function type see its parameters and are then remembered with them, so the types of two parameters depend on the order in which they are described (order_matters); a parameter called like a built-in type is not what the body refers to (param_stands). Without circles reading ends (ends)."},
  {"property": "C176", "status": "partial", "theorems": ["Tinymist.RevCache.answer_right_partial", "Tinymist.RevCache.answered", "Tinymist.RevCache.made_once", "Tinymist.RevCache.inv_run", "Tinymist.RevCache.race_at_start", "Tinymist.RevCache.two_projects", "Tinymist.RevCache.types_stale", "Tinymist.RevCache.put_newest", "Tinymist.RevCache.reused", "Tinymist.RevCache.unlock_keeps", "Tinymist.RevCache.last_unlock", "Tinymist.RevCache.oldest_unlock", "Tinymist.RevCache.reused_alone", "Tinymist.RevCache.answered_always", "Tinymist.RevCache.circle_order", "Tinymist.RevCache.sweep_keeps"], "note": "Proved for one project, files that do not import each other in a circle, and histories in which a question is not put while the first one is still waiting (Calm). Violated otherwise: of two questions put before anything is kept the older may be answered from the later text (race_at_start); two projects share what is kept under equal revision numbers (two_projects); what is said about files that import each other in a circle depends on the order of questions, though they are answered (answered_always, circle_order); types of a file are kept although the types of what it imports changed (types_stale). Hashes are taken to be the things themselves, import targets are static, a question is answered in one step (steps of several threads are in C177)."},
  {"property": "C177", "status": "partial", "theorems": ["Tinymist.Waiting.never_stuck_partial", "Tinymist.Waiting.ends", "Tinymist.Waiting.all_done", "Tinymist.Waiting.one_thread", "Tinymist.Waiting.deadlock"], "note": "Proved for files that do not import each other in a circle, and for one thread in general. Violated: if two files import each other, a thread asked for one and a thread asked for the other can wait for each other for ever (deadlock): the route protects only a thread against itself. A step is a look at one import; OnceLock::get_or_init is taken to block exactly while another thread computes."},
  {"property": "C178", "status": "partial", "theorems": ["Tinymist.ImportCursor.on_name", "Tinymist.ImportCursor.on_last_dot", "Tinymist.ImportCursor.on_dot_all", "Tinymist.ImportCursor.on_comma", "Tinymist.ImportCursor.on_colon", "Tinymist.ImportCursor.on_bare_colon", "Tinymist.ImportCursor.wildcard", "Tinymist.ImportCursor.behind", "Tinymist.ImportCursor.renamed_none", "Tinymist.ImportCursor.offers_partial", "Tinymist.ImportCursor.own_left_out"], "note": "Violated: behind a dot that is followed by a name, names are completed by what the whole path leads to (on_dot_all); on a name of an item that gets a new name nothing is completed (renamed_none); the item at the cursor counts as imported, so that a name that is written out is not offered (own_left_out). The names of the module and of what a path leads to are a parameter."},
  {"property": "C179", "status": "partial", "theorems": ["Tinymist.SigCache.answer_from", "Tinymist.SigCache.right_alone_partial", "Tinymist.SigCache.age", "Tinymist.SigCache.fresh", "Tinymist.SigCache.stale", "Tinymist.SigCache.settles", "Tinymist.SigCache.kept"], "note": "Violated: the key of a signature has the text of the file and the place, not the files it imports, so that for sixty questions a signature may be that of an earlier state of those files (stale). Proved: signatures are always those of the key in the world of some question (answer_from), right if they only depend on the key (right_alone_partial), and with one question after the other at most sixty questions old (age, fresh). Hashes are taken to be the things themselves; that the hash of a source has its own text only is typst's."},
  {"property": "C180", "status": "partial", "theorems": ["Tinymist.Groups.fits", "Tinymist.Groups.markup_fits", "Tinymist.Groups.nowhere", "Tinymist.Groups.code_hash", "Tinymist.Groups.code_name", "Tinymist.Groups.code_blank", "Tinymist.Groups.code_else", "Tinymist.Groups.rule", "Tinymist.Groups.math", "Tinymist.Groups.raw_language_partial", "Tinymist.Groups.raw_in_line", "Tinymist.Groups.raw_of_binding", "Tinymist.Groups.raw_behind_hash", "Tinymist.Groups.markup"], "note": "Violated in raw text: behind the backticks of a raw text that is bound, code is offered in place of languages (raw_of_binding), and behind a hash nothing (raw_behind_hash). Elsewhere the offers are exactly those of the mode (fits, markup_fits and the theorems by place). Whether the question is explicit is a parameter; the server never says so (completion.rs 78), so that the cases for false are those of the API. The offers are groups: which names are in scope is C109 and others; offers by type and by context of arguments and references are apart."},
  {"property": "C181", "status": "partial", "theorems": ["Tinymist.Members.once", "Tinymist.Members.only_partial", "Tinymist.Members.all_partial", "Tinymist.Members.imported", "Tinymist.Members.nearest", "Tinymist.Members.nearest_dot", "Tinymist.Members.no_methods", "Tinymist.Members.no_scope", "Tinymist.Members.fields_of_values", "Tinymist.Members.docs_mixed", "Tinymist.Members.shown", "Tinymist.Members.item_of", "Tinymist.Members.kind_of_all", "Tinymist.Members.kind_only"], "note": "Violated: methods of dictionaries are never offered (no_methods), nor is what is in the scope of a function (no_scope) or the methods of content of a known element; behind a type the fields of its values are offered (fields_of_values); for one of several elements the documentation is that of the last and the type that of the first (docs_mixed). Otherwise the offers are exactly right (only_partial, all_partial, imported). Variables have their bounds in place, so recursion through a variable is not modelled."},
  {"property": "C182", "status": "partial", "theorems": ["Tinymist.Naming.variable_quiet_partial", "Tinymist.Naming.function_quiet_partial", "Tinymist.Naming.function_without_body", "Tinymist.Naming.others_offered", "Tinymist.Naming.value_heard", "Tinymist.Naming.body_heard", "Tinymist.Naming.elsewhere_heard", "Tinymist.Naming.number_quiet", "Tinymist.Naming.asked", "Tinymist.Naming.marks_heard"], "note": "Holds for names of variables, with or without a value, for names of functions that have a body, and for numbers. Violated: names are offered for the name of a function whose body is still to come (function_without_body), for the variables of loops, the names in patterns and the new names of modules (others_offered). LetBinding::init and Closure::body are those of typst, which is not in the repository; they are written down in the model."},
  {"property": "C183", "status": "partial", "theorems": ["Tinymist.Coloring.legend_types", "Tinymist.Coloring.legend_modifiers", "Tinymist.Coloring.listed", "Tinymist.Coloring.styles", "Tinymist.Coloring.stands_shown_partial", "Tinymist.Coloring.called_function", "Tinymist.Coloring.unknown_shown", "Tinymist.Coloring.hash_alike", "Tinymist.Coloring.variable_of_function", "Tinymist.Coloring.plain_shown", "Tinymist.Coloring.in_node_shown", "Tinymist.Coloring.times_text", "Tinymist.Coloring.bit_names"], "note": "Violated for the sign of a product, which is shown as text while the other signs are operators (times_text). Violated for names bound to functions as variables: what they are known to be is not looked at (variable_of_function). unknown_shown gives a leaf in the same file that begins where the text of the name ends; called_function is for leaves next to each other with no blanks in between. The names on which tokens depend are resolved outside the model (parameter)."},
  {"property": "C184", "status": "partial", "theorems": ["Tinymist.Answer.answered", "Tinymist.Answer.syntactic", "Tinymist.Answer.pinned_project", "Tinymist.Answer.own_project_partial", "Tinymist.Answer.named_project_partial", "Tinymist.Answer.named_root", "Tinymist.Answer.global_project", "Tinymist.Answer.global_rootless", "Tinymist.Answer.unchanged", "Tinymist.Answer.foreign_document", "Tinymist.Answer.inputs_ignored", "Tinymist.Answer.remembered"], "note": "The main file and the root are those of the project. Violated: the document is always that of the main file compiled last, whatever file is asked about (foreign_document), and the inputs of a document in the lock file are not used (inputs_ignored). Paths are absolute, without `..`. What the lock files say is a parameter (the claims about `Routes` say how they are searched). A crash is possible only when 65536 roots are in use."},
  {"property": "C185", "status": "partial", "theorems": ["Tinymist.Tips.argument_name", "Tinymist.Tips.argument_string", "Tinymist.Tips.param_only", "Tinymist.Tips.option_only", "Tinymist.Tips.font_shown", "Tinymist.Tips.closure_shown", "Tinymist.Tips.nothing_on_trivia", "Tinymist.Tips.shadowed", "Tinymist.Tips.font_without_call"], "note": "Proved for functions of the library. Violated: a function of the file with the same name is explained by the parameters of the one of the library (shadowed); a string named `font` is explained as a font outside of any call (font_without_call). The docs are those before they are cut to a sentence (claims about `DocText`); what is sampled and captured is a parameter."},
  {"property": "C186", "status": "partial", "theorems": ["Tinymist.Elements.expected_iff", "Tinymist.Elements.expected_once", "Tinymist.Elements.nothing_expected", "Tinymist.Elements.spread_uncounted", "Tinymist.Elements.string_key"], "note": "Proved for types in which variables have their bounds in place and whose dictionaries have different names. Violated behind a spread: what it adds is not counted (spread_uncounted), and for keys written as strings: nothing is expected of their values (string_key)."},
  {"property": "C187", "status": "partial", "theorems": ["Tinymist.Listed.listed_sound", "Tinymist.Listed.let_listed", "Tinymist.Listed.for_listed", "Tinymist.Listed.function_listed", "Tinymist.Listed.anonymous_listed", "Tinymist.Listed.label_listed", "Tinymist.Listed.keyed_unlisted", "Tinymist.Listed.compared_listed"], "note": "Soundness holds for all trees and completeness for names, parenthesised, destructured and rest patterns. keyed_unlisted and compared_listed prove that a name bound under a key is left out and a compared label listed. Nesting of the outline is C66; the match with positions is not modelled."},
  {"property": "C188", "status": "proved", "theorems": ["Tinymist.Told.shown", "Tinymist.Told.parts_exist", "Tinymist.Told.star_tells", "Tinymist.Told.definition_hides", "Tinymist.Told.module_hides"], "note": "shown with parts_exist says for every place what is shown, against a specification by inductive relations; star_tells is the injectivity of the list of names. What is defined, documented, linked and previewed is given. definition_hides and module_hides say that a definition, even one about which nothing is said, keeps links at the same place from being offered."},
  {"property": "C189", "status": "partial", "theorems": ["Tinymist.OutlineFlow.latest_shown", "Tinymist.OutlineFlow.never_back", "Tinymist.OutlineFlow.places_kept", "Tinymist.OutlineFlow.settles", "Tinymist.OutlineFlow.places_lost", "Tinymist.OutlineFlow.nothing_by_itself", "Tinymist.OutlineMany.latest_shown_many", "Tinymist.OutlineMany.sent_stored", "Tinymist.OutlineMany.settles_many", "Tinymist.OutlineMany.goes_back", "Tinymist.OutlineMany.places_swapped", "Tinymist.OutlineFlow.no_more_than_asked", "Tinymist.OutlineMany.queue_bounded", "Tinymist.OutlineMany.no_more_than_asked_many"], "note": "For one page (OutlineFlow) and any number of pages (OutlineMany), all schedules and losses: at rest the outline of the latest document is shown and its places are kept, and rest can always be reached. Refuted: between making and sending an outline the places of the one shown are gone (places_lost); with two pages an older outline can follow a newer one (goes_back) until the next is sent, and the places can be of another outline than the one shown (places_swapped). Pages that leave are not modelled."},
  {"property": "C190", "status": "partial", "theorems": ["Tinymist.Recorded.recorded_iff", "Tinymist.Recorded.recorded_right_partial", "Tinymist.Recorded.answered_with_it_partial", "Tinymist.Recorded.other_file", "Tinymist.Recorded.id_tells", "Tinymist.Recorded.recorded_id"], "note": "Proved for a process that works in the directory of the lock file, up to the answers to requests. Refuted for every working directory above that of the lock file (other_file): the recorded path is relative to the working directory and read relative to the lock file. Recorded fonts are not modelled; paths are absolute and, for the last two theorems, without `..`."}
]}
