# Formal model of tinymist: design

The source under study is `/repo` (tinymist, Rust). Nothing there is run; it is read as text.
The model is Lean 4 (`/verif/lean`), one group of modules per area:

* `Verif/Model/<Area>.lean`  – the model: total computable functions, each citing the Rust lines it models.
* `Verif/Spec/<Area>.lean`   – a small independent specification: what the property means in terms of what a client,
  a user or a file system sees. It does not use the model's helpers beyond its types.
* `Verif/Lemmas/<Area>.lean` – helper lemmas (not part of any claim).
* `Verif/Props/<Area>.lean`  – the property theorems, and an `example` beside them showing that their hypotheses
  are met by a concrete non-trivial case.

`MANIFEST.json` maps the properties of `properties.jsonl` to theorem names.
`seeded/LOG.jsonl` records the deliberate bugs injected into a scratch copy of the model and which theorems caught them.
`tools/axioms.py` regenerates the appendix of this file.

## Trusted base

* Lean's kernel, and the axioms `propext`, `Classical.choice`, `Quot.sound` (no others; no `sorry`,
  no `native_decide`, no `bv_decide`, no own axioms). The appendix lists the axioms of every theorem claimed.
* The reading of the Rust text into the model (each definition cites the file and lines).
* The contracts of what is not code of this repository, listed next.

### Contracts of dependencies

Each is either a parameter of the model, over which the theorems quantify, or a definition in the model.

| dependency | where | how |
|---|---|---|
| Rust integers, `format!`, `from_str_radix` | `Model/RustNum` | defined from the documentation |
| UTF-8 and UTF-16 of `str`, `char` | `Model/Utf8`, `Model/Position` | defined; decoding rejects what `from_utf8` rejects |
| `char::is_whitespace` | `Model/Pages` | the table of the standard library |
| white space and CJK script tables for word counts | `Model/WordCount` | parameters |
| typst's `Source`/`Lines` (line table, byte/UTF-16 columns, `replace`) | `Model/Position` | defined from typst 0.13.1's documentation |
| typst's `LinkedNode` trees, spans, syntax kinds | `Model/{Tokens,OnEnter,Folding,Jump,DiagConvert}` | a tree or a function given as a parameter |
| typst's `VirtualPath`, `PackageSpec` | `Model/Workspace` | defined from the documentation |
| `std::path`, `path_clean`, `pathdiff` | `Model/Paths` | defined from the documentation, Unix only |
| `std::sync::OnceLock`, `Mutex` | `Model/{Vfs,Compute,SourceDb}` | steps of a schedule; critical sections are atomic |
| tokio channels, `select!`, `spawn`, thread pools | `Model/{Project,Folder,DiagFlow,Preview*,Server}` | schedules: a history is an arbitrary list of steps |
| tokio `broadcast` (bounded, lagging) | `Model/PreviewRender` | a list with a bound |
| `notify` (OS file watcher), metadata, reads | `Model/Watch` | inputs of each step |
| the file system (write, rename, remove) | `Model/{AtomicWrite,Lock,Testing}` | lists of steps with a crash after any prefix; in `Testing` every call may fail |
| tar and gzip, the registry's server, `OnceLock`, `read_dir` | `Model/Packages` | an archive is a list of files and whether it can be read to its end; files are written one by one; the answers and the entries of directories are inputs |
| rayon's `par_iter` | `Model/Testing` | any interleaving of the steps of the cases |
| TOML, serde | `Model/Lock` | printing a table and parsing it gives the table back |
| semver | `Model/Lock` | an arbitrary comparison |
| base64 `STANDARD_NO_PAD` | `Model/Fingerprint` | defined byte for byte |
| `ena::VecLog` | `Model/SnapshotMap` | defined from its source's documentation |
| `url::Url::parse` | `Model/Origin` | a parameter with a contract on the headers browsers send |
| the evaluator's `call_closure` | `Spec/CallArgs` | positional arguments fill the positional parameters in order, the sink takes as many as are left over; `.with` puts its arguments in front |
| the evaluator's scoping (`let`, closures and their defaults, `for`, `context`, headings, imports), `Value::scope`, the library's scopes | `Spec/Scoping` | `uses`: an environment read from the beginning to the end; the library is a parameter |
| the lexer | `Model/Scoping` | identifiers are not empty, a span is the place of one node |
| `rpds` and `hashbrown` maps | `Model/Scoping` | the latest entry of a key counts |
| `slice::binary_search` | `Model/CallArgs` | finds the index of an element of a sorted list of different elements |
| the incremental SVG server of `reflexo-typst2vec` | `Model/PreviewRender` | its output is the document it was given |
| typst compilation, layout, evaluation; the formatters; linters | all | opaque results |

### What is not modelled

Completion, hover, labels and the fields of values in definition and references, the type checker and the linter of
`tinymist-query`/`tinymist-analysis`; typlite; packing and publishing packages; fonts; how tests are collected and
examples compiled and rendered; the VS Code extension and the other editor plugins (TypeScript); the incremental vector format sent to browsers; Windows
paths. Within the areas modelled, each module comment says what was left out.

## Where the code does not do what the property says

Each is a theorem with a concrete witness (named in `MANIFEST.json`), beside a `_partial` theorem for what does hold.

* C02 clearing the token caches lets result ids be used again, so a delta is computed against the wrong tokens; a late fill panics.
* C04, C05, C47 snapshots share once-cells with the live file system: a read that overlaps an edit fills the cell for
  others, evictions change what was read, the clean check compares with state that has moved on, and
  `with_shadow_file` removes a buffer that was there before.
* C06, C07 the watcher's recheck compares the pending state with itself: a removed or truncated file is never reported;
  a delayed recheck of an earlier moment also discards the state a later one waits for, so an error can stay unreported.
* C08 an editor change that waits for the watcher's acknowledgement overwrites a later one applied at once.
* C09, C10, C31, C50 restarting or removing a project while it compiles confuses it with its successor; a save never
  notifies the last compilation again; status notices can go out of order.
* C11, C23, C53 a resource path with a colon cannot be read back, and takes the whole lock file with it; transforms are lost.
* C13 the lock file is truncated and written in place: a crash loses it.
* C18 DAP sequence numbers are cut to 32 bits.
* C20, C45 with the UTF-8 encoding columns are counted in characters; unusual line separators are not the client's.
* C21 placeholders in the names of directories are substituted again.
* C24, C25, C56, C58 untidy roots get a new id on every request; relative paths that climb differently give wrong
  results; recorded paths are relative to the wrong directory; a document can import `@ws` packages and name foreign
  workspaces or crash the server.
* C34, C35 a refused pin pins; a reload loses the pin; changed lock files and documented route priorities are ignored.
* C36 the formatting edit is wrong or panics when two different characters share their last UTF-8 byte.
* C38 collected ids are renumbered and resolve to other spans.
* C41 a jump from the webview ends the editor connection; a malformed span id panics.
* C42 a batch with a full-render request and a new document sends the old document.
* C44 three nested elements opening on one line give folds that start on the same line.
* C46 a tab before a comment becomes one space.
* C49 a missing main file is not reported.
* C51 `getResources` without arguments panics. C52 `exit` without `shutdown` is a success.
* C54, C55 page ranges are ignored by image and PDF exports; a declared HTML task becomes SVG.
* C32, C59, C60 a panicking export blocks the queue for good; two projects share one queue and compare unrelated
  revisions; a slow lint shows the diagnostics of an old compilation.
* C61, C63 failed starts leak watchers and reloads cut them; the preview's own page is refused at port 80.
* C64 a file that only includes the renamed file is not updated, nor are paths read by functions like `image`; links in
  the renamed file itself are redirected; a moved file's own imports break.
* C66 a comment hides all definitions after it, up to the next heading, from the outline; lists hide theirs; a heading in a
  function body ends the section around the function; the last subsection of a section that is not the last folds no line;
  a heading in a list item folds beyond the item.
* C67 a `typst.toml` that appears above an opened file (or nearer than the one found before) is not noticed until a
  restart: the answer is cached per file.
* C68 a parameter hint names the wrong parameter for `f(a, ..r, b)` (the sink is taken to be last), for an alias
  `#let g = f.with(1)` (bound arguments are recorded under names, and the call analysis skips unnamed ones only), and
  behind a spread argument (`sink_in_the_middle_wrong`, `alias_wrong`, `after_spread_wrong`);
* C69 signature help highlights the last positional parameter (or a named one) for an argument that goes to the sink, and
  `f.with(k: 1)` shifts the highlight by one (`sink_never_highlighted`, `sink_highlights_named`, `with_named_shifts`);
* C70 go to definition leads to the wrong place for `#for xs in xs {}`, for a default value naming an earlier parameter,
  for a destructuring assignment, behind `#context let ..` and a `#let` in a heading, through nested import paths, for a
  name exported twice around a wildcard import, and for names imported from a library module (`for_iterable_wrong`,
  `default_wrong`, `assignment_wrong`, `context_wrong`, `heading_wrong`, `import_path_wrong`, `export_wrong`,
  `import_source_wrong`, `import_builtin_wrong`);
* C71 find references misses the uses behind a file that re-exports all of another one without writing the name, and
  behind an alias; with an import cycle it reports the places of the defining file twice (`facade_hides`, `alias_hides`,
  `cycle_repeats`);
* C72 a rename breaks the files that import the definition under an alias given by another file, and does not refuse a
  name that is in use (`rename_breaks_alias`, `rename_captures`);
* C73 a position at the end of the document leaves the whole selection range request without an answer.
* C76 `with_extension` takes part of an example's name for its extension, so `a.b` and `a.c` share one reference although they are not duplicates: the result depends on the order, and the hash left may not be that of the image left (`dotted_names_collide`). An example that differs from its reference is reported as failed and then as passed (`mismatch_reported_passed`). A panic test passes on any error whose message has the word panic (`panic_by_name`).
* C78 a download is unpacked in place, without a temporary directory: another call that looks is given part of the package (`half_while_unpacking`), a server killed in between leaves part of it in the cache for ever (`half_for_ever`), and a second download that fails removes the package another call was given (`removed_by_other`).
* C79 a directory `01.0.0` counts as version 1.0.0, which is then not found (`latest_not_found`); an index request that fails is never repeated (`index_once`); a package that is in both directories is listed twice (`listed_twice`).
* C81 converting an equation to a block takes a following closing bracket into it, `#f[$x$]` becomes `#f[$ x] $` (`bracket_taken`), and removes comments beside the body (`comment_lost`); wrapping does not look at the end of the selection (`wrap_crosses`).
* C82 with the cursor in front of a keyword nothing is marked although the marked range begins there (`start_missed`).
* C83 the lint settings are read from `preview` (`lint_ignored`); settings outside of `tinymist` are lost when there are some inside (`top_level_lost`); pushed settings inside it are not read (`pushed_namespace_unread`); an answer resets what was not asked for (`poll_forgets`).
* C84 projects keep the export target, inputs, theme, completion and lint settings they were made with (`project_stale`); relative font paths may keep an old root (`fonts_stale`).
* C85 the character behind a placeholder is swallowed: the warning about a setting of a wrong type misses a quote, the one about extra arguments a comma (`character_swallowed`, `setting_warning`). The error about a relative root path reads `{root:?` and never shows the path (`root_not_shown`).
* C87 a message with a line break makes the file of translations unreadable (`line_break_breaks`); one with a Rust escape that is not JSON makes the server panic when it starts (`load_panics`).
* C88 the arguments of calls and the values of returns are not linted at all: a stray `break` in `#f({ break })` is not reported (`argument_unseen`, `returned_unseen`).
* C89 `join` of a branch that returns with one about which nothing is known gives the one that returns: in `() => { [a]; if c { return 1 } }` the content is said to be discarded although it is kept if `c` is false (`sometimes_kept`); a set rule before content and an empty return is said to be discarded (`rule_in_effect`).
* C91 the hints of all arguments of a call are answered if any part of the call is in the requested range (`hint_outside`).
* C93 `workspace/symbol` with an empty query panics if a document has a comment or a list item (`empty_search_panics`); headings of the third level and labels below a heading of the second are never found (`deep_heading_missed`, `deep_label_missed`).
* C94 the name range of a quoted YAML key is shifted (`quoted_key_misplaced`); entries given by an alias are missed (`alias_missed`).
* C96 a comment at the end of the line of a definition documents the next one (`trailing_comment_taken`); in code, empty lines do not separate a comment from a definition (`blank_line_ignored`); an empty `///` line makes all others keep the space after the slashes (`empty_line_keeps_indent`).
* C97 documentation that has parameters but no description shows the list of parameters as the description (`no_description`).
* C99 snippets with text of the document are not escaped (`dollar_lost`); "subscript" inserts `x_2:2` (`subscript_doubled`).
* C101 the name of a field that is no identifier is put into `at("…")` without escaping (`field_quote_broken`).
* C101 completing a string of which a part is typed inserts a second opening quote: `"ab"abc"` (`typed_string_broken`).
* C102 with more than a thousand completions the order is lost, since sort texts are padded to three digits (`thousand_misplaced`).
* C104 a configured postfix snippet without a placeholder makes every completion behind a dot panic (`postfix_panics`).
* C105 the content before the dot is not escaped (`ufcs_dollar_lost`); only the last of the types of a value decides what is offered behind it (`last_bound_decides`).
* C107 a file with a quote in its name is completed to a string that ends early (`path_broken`); one whose name begins with `@` to a package (`path_package`).
* C109 a package in the registry and in a local folder is offered twice when versions are listed (`listed_twice`).
* C111 the longest run of backticks of `raw` is not counted at the end of the text (`raw_function_ticks`); a raw block ending behind text is left open (`raw_block_open`); raw text in a line loses line breaks (`raw_inline_glued`) and breaks at backticks (`raw_inline_tick`).
* C112 the cells of a footer are shifted by an empty cell (`footer_shifted`); `columns: 0` panics (`no_columns_panic`).
* C115 with a chosen theme, the file of a picture is overwritten by its own name (`chosen_theme_overwritten`); pictures of an included file are overwritten by later ones (`include_overwrites`); the hash of a call is left before the next definition (`stray_hash`).
* C116 a file that includes itself is converted without end (`self_include_runs_on`).
* C117 a heading of level seven is no heading (`heading_deep`); a list set in by one column leaves its item (`item_shallow`); a later number is lost (`number_lost`).
* C118 a parameter behind a sink gets the type of the first argument (`behind_sink_wrong`); a sink has the type of the last extra argument (`sink_wrong`); spread arguments are dropped and later ones shift (`spread_wrong`); a function with a documented result keeps its own variables in the type of the call (`annotated_wrong`).
* C119 of two variables in each other's bounds, one loses an alternative (`loop_loses`).
* C120 of the functions of a union only the first is described (`second_function_lost`).
* C121 `EntryManager::mutate_entry` of a universe (`mutate_entry_silent`) and `with_entry_file` (`with_entry_file_silent`) change the main file but not the revision number.
* C122 the view of symbols compiles its text in a world that shares the table of contents of the project's snapshot, so its text becomes a dependency of the project (`symbols_disturb`).
* C123 a font file replaced after the search is loaded for the old entry (`file_replaced`); `get_by_info` panics if there are no fonts (`no_fonts_panic`).
* C124 the index of a listed font is its index in the font book, not in its source as documented (`index_not_in_source`).
* C125 (`DirPack::clone_into_pack`, pack/fs.rs:51): the path of an entry is joined to the directory unchecked, so an archive with `../x` or `/x` replaces files outside it (`copy_escapes`). A failed copy leaves the files written so far (`copy_stops`).
* C126 (`FilterDirPack::read_all`, pack/fs.rs:90): the test for hidden names is also applied to the directory itself, so a package in `.pkg` has no files (`dotted_base_empty`). `TarballPack::read_all` (pack/tarball.rs:37) takes the name from `header.path()` instead of `entry.path()`, so long names are cut (`long_names_cut`).
* C128 (`ColorPresentationRequest::request`, color_presentation.rs): the first text that is offered is the quoted digits alone; in place of `rgb("#..")` it is a string and no color (`first_label_no_color`). `on_rgb` does not show `rgb(x)` for an `x` that is not a string (`conversion_not_shown`).
* C129 (`jump_from_click`, jump.rs:23-53, `resolve_span`, tool/preview/compile.rs:184): the `None` for a link in a group lets the search go on behind the group (`link_in_group_falls_through`); `continue` for a glyph without file does not move on by its width (`detached_glyph_shifts`); an offset at the end of the span is dropped, so that a click on the right half of the last letter leads to the start of the text (`end_of_text_to_start`).
* C130 (`find_in_frame`, jump.rs:174-197): the position of the closest glyph in a group is stored relative to the group, and the position of the group is only added to exact matches (`moved_group_lost`).
* C131 (`interpret_mode_at`, matcher.rs:332-384, `mode_at`, code_context.rs:145-155): an array is code, but rows of matrices are arrays too, in math (`matrix_row_code`); the previous leaf of the bracket in `#[` is the hash, so that this place is code, not markup (`block_behind_hash`); the end of the file is markup whatever is there (`end_of_file_markup`).
* C132 (`previous_decls`, matcher.rs:191-287): names bound in headings, items or strong text stay in scope but are not looked for (`heading_not_offered`); the parser leaves the blanks at the end of a code block outside of its `Code` node, so that there the names of the block are not found (`end_of_block_not_offered`); a `let` the cursor is in is visited as a sibling, so that its own names are offered, and hide older ones, in its own initialiser (`own_name_offered`); the first of equal names in an import list wins (`import_twice`).
* C133 (`expr_tooltip`, tooltip.rs:46-128): that all values are one function is only checked for the first nine, so that nothing is shown when the tenth is another one (`other_function_hidden`); values that typst takes to be equal, such as `1` and `1.0`, are counted as one (`equal_values_merged`).
* C134 (`summarize_font_family`, mod.rs:373-401): `max_weight = min_weight.max(weight)` forgets the greatest weight before, so that of a family with a bold and a regular italic variant it is said that it only has the regular weight (`bold_not_said`).
* C135 (`plain_docs_sentence`, mod.rs:24-84), limits rather than faults, since only the documentation of the library is shown this way: links that are neither addresses nor names of the library, such as paths of files or `mailto:`, are replaced by `https://typst.app/docs/404.html` (`foreign_link_lost`); a backtick that nothing closes gets another one at the end (`open_backtick`).
* C136 (`HoverWorker::link`, hover.rs:35, 220-228): the cursor is the offset plus one, but is compared with the range of the path as if it were the offset, so that no link is offered at the last character of a path (`last_character_no_link`) and one is at the quote before it (`quote_has_link`).
* C137 (`Interned::drop`, interner.rs:182-192): two handles of a value that are the last two, dropped at the same time, both see a count of three and neither removes the entry; the value stays in the map and in memory (`entry_left`) until it is interned and dropped again.
* C138 (`set_debug_session`, debugger.rs:132-141): a session is refused exactly if one is given, instead of if there is one already, so that none is ever started: every file fails to load in the debugger and no breakpoint stops (`no_session_ever`, `never_stops`). The rewriting breaks lines after blocks (`line_broken`) and calls show rules that are no functions (`show_set_called`), both of which the rewriting for coverage has fixed.
* C139 (`start_data_plane`, lib.rs:97-99): the task of a viewer unwraps the outcome of the websocket upgrade before it makes the guard that reports its end, so one failed upgrade leaves the counter above zero for good and the server never shuts down for being idle (`failed_never_idle`). `bind_streams` (preview.rs:676-680) hands pings on as the text `unsupported message`, which ends the connection (`ping_ends`). Messages such as `srclocation` without an argument panic (`no_argument_panics`).
* C140 (`launch_debug_`, request.rs:95): launch arguments that do not parse are unwrapped, which panics (`only_bad_launch_panics`). `on_breakpoint` (tinymist-dap lib.rs:224) takes a lock its own thread holds while it evaluates, so evaluating an expression that comes to an enabled breakpoint hangs (`evaluation_hangs`).
* C141 (`try_acquire`, flock.rs:309-324): where locks do not work the lock is taken for granted and concurrent updates are lost (`lost_without_locks`); the file is made before it is locked, so that a reader can find it empty and fail (`reader_finds_empty`).
* C142 (`PathResolution::join`, link_expr.rs:61-65): the link of a path that begins with a slash leads to that path on disk instead of one in the project (`rooted_link_wrong`); paths that are not the first argument and files read by `toml` and `plugin` have no links (`later_position_missed`, `toml_missed`).
* C143 (package.rs:136-156): links are made from the name under which a definition is exported again and the section of its file, so a renamed definition (`renamed_dangling`) or a module (`module_dangling`) is linked to a heading that does not exist; `module_uses` has only the paths through the first name of a parent (`shorter_missed`).
* C144 (tyck.rs:573): `Joiner::join` ignores parts of unknown type, so `{ for x in y { x } }` has the type of nothing (`loop_type_lost`) and `{ "a"; for x in y { x } }` the type `"a"` (`loop_addition_lost`); tyck.rs:551 drops what stands beside one variable (`value_beside_variable_lost`); `[]` and `[#1]` are not content (`markup_as_code`); `(1, ..x)` has the type `(1,)` (`spread_lost`).
* C145 (lsp_typst_boundary.rs:19): `untitled_url` puts the name into the URI as it is, so `#`, `?` and `%` in it change it (`hash_cut`, `percent_read`); `untitled:/a/b` is answered as `untitled:a/b` (`untitled_slash_lost`); `url_to_path` does not look at the scheme, so `git:/a` is `/a` (`other_scheme_confused`), and panics for a URI with a host, as of a network share (`url_taken`).
* C146 `generate-script` writes `--input`, `--output`, `--creation-timestamp`, `--pretty`, `--pages -3` and formats `md`, `txt`, `svg_html` that `tinymist compile` refuses (`inputs_refused`, `output_refused`, `timestamp_refused`, `pretty_refused`, `open_pages_refused`, `format_refused`); HTML tasks become SVG tasks and queries PDF tasks; the document's name and the task's time are lost; a line break in a task's identifier leaves the comment and is run by the shell (`injected`).
* C147 In a block of code, a request on a comment that has its own line is about the name that ends the line before (`comment_names_line_before`): the check for line breaks looks only at the comment's own text. Right behind the last name of `a + b `, nothing is found (`end_missed`): the node before the blank is the operation, not the name.
* C149 `today` (world.rs:722) adds a duration with `+`, which panics: `datetime.today(offset: 3000000000)` in a document panics the compiling thread (`big_offset_panics`). Without a system clock, offsets into the past are ignored because of `as u64` (`plain_back_ignored`).
* C150 `prepareRename` refuses field accesses, `rename` does not (field_renamed_unoffered); `../lib.typ` is offered but cannot become `new` (offered_path_refused), nor can paths of unsaved files (untitled_refused); the text shown in the range lacks the quotes of a path and is the wrong name at an alias.
* C151 a reference to an element whose label is not known to be written anywhere goes to the start of the file instead of the element (element_missed): its declaration is not among those with a name range.
* C152 — the thread that collects the answer of the profiling process treats the end of its output as "no message yet": it spins for ever and the request is never answered when the process ends early (`never_answered`, `not_profiled`). Keys with `=` (`key_cut`), blanks around values (`value_trimmed`) and font paths with `:` (`font_path_cut`) reach the process changed, and the standard error is always reported empty (`stderr_lost`).
* C153 — the server of a profile counts refused requests as activity, so a foreign page keeps the process alive (`kept_by_stranger`).
* C154 — the tokens of the compiler library overlap (`overlap`): contrary to the comment on `token_from_node`, a node with a type does not stop the recursion. Lengths are in UTF-16 for both encodings (`length_not_bytes`).
* C155 — a query that was begun but is not finished has a row with a least time of `u64::MAX` seconds (`unfinished_row`); the page does not escape names (`name_verbatim`), and after backslashes are replaced two files can share a name (`names_confused`).
* C156 — the comment says that rows are sorted by their total, but it is the number of values alive that decides (`largest_last`); `human_size` indexes past its units from 768 TB on (`human_panics`), which no real memory reaches.
* C157 `self_offered`: the value at the cursor is only left out if its type does not say where it was written. `texts_twice`: `()` is offered twice for an array or a dictionary.
* C158 `given_forgotten`: a function to which all arguments were given by `with` is offered with the cursor in the parentheses. `method_bracket`: a method of content is offered with brackets, whatever it takes. `one_needs_arguments`: of two functions the one without parameters decides.
* C159 `modifiers_anyway`: behind a symbol in an equation that is not a name, its modifiers are offered although the dot is text there.
* C160 `hidden_workspace`: a workspace in a folder like `.notes`, `out` or `build` has no files: the folder itself is the first entry of the walk and is skipped. `any_narrowed`, `cbor_missing`: `read("…")` and `cbor("…")` are offered only files of the kinds that other functions read; a CBOR file is never offered.
* C161 `unknown_named`: the hover on a link to `notes.txt` says "A `None` file."
* C162 `square_fill`: no colours are offered for the `fill` of a `square`. `bool_type`: `from_builtin` takes the type `bool` for `none`; it is not reached for values.
* C166 — signature help at the end of the file is never given (`leaf_at_compat(cursor + 1)`); on the name of a named argument it shows a positional parameter; at a blank behind a nested call it is about the nested call's first argument; on the word `set` about the first argument (`end_missed`, `on_name`, `behind_nested`, `on_set`).
* C167 — in `#let f(a: g(b: 1)) = ..` the name `b` is taken for the name of a parameter of `f` (`nested_name`).
* C168 — in a set rule a positional parameter that cannot be set is still expected (`set_positional`).
* C178 `#import "m": a.|b` (cursor behind the dot) completes the names of `a.b` rather than of `a`: the names of the path are taken while they are not the leaf at the cursor, which is the dot (`on_dot_all`). In `a| as c` nothing is completed (`renamed_none`). The item at the cursor counts as imported already, so that the completely written name is not among the completions (`own_left_out`).
* C179 A signature found by place (`SignatureTarget::Syntax`, `SyntaxFast`, `Def`) is kept under a key that has the text of the file only. If a file it imports changes, the signature of the call stays that of the old file for up to sixty questions (`stale`); entries are not checked against the imports as analyses are.
* C180 In raw text: (a) with `#let x = ` and three backticks the leaf before the delimiter is the sign of the binding, so code is offered and no languages (`raw_of_binding`); (b) with a hash before the backticks the place is taken for code and nothing is offered (`raw_behind_hash`). The branch of `complete_code` for identifiers that are not fields is never reached. Since no request counts as explicit (`completion.rs` 78), the snippets of markup, and names and symbols in equations elsewhere than on a word, are never offered by the server (`markup`, `math`).
* C181 In `CompletionScopeChecker::check` the arm for dictionaries (`Iface::Dict(d) if !self.is_only_importable()`) comes before the one that gives their methods, which is never reached, so `.keys()` and the like are not offered on things known to be dictionaries by type (`no_methods`). The arm for functions gives the methods of all functions only, and never what is in the scope of the function itself, such as `table.cell` (`no_scope`). `type_methods(None, …)` offers fields of values behind the type itself (`fields_of_values`). `docs.insert` keeps the last documentation while `insert` keeps the first type (`docs_mixed`).
* C182 Only names that are children of a `let` or a closure are looked at before completion begins. So names that exist are offered while one types `x` in `for x in …`, in `let (x, y) = …` or in `import … as x` (`others_offered`), and `f` in `let f(x)` with no body yet, since the body is then `f` itself (`function_without_body`).
* C183 A name whose definition is a variable is colored as a name in text unless it is called right there, though it is known to be a function: what the reference was evaluated to is looked at only if nothing is known about where it is declared (`variable_of_function`). The `*` of a product has no kind of its own, so it is colored as text, unlike `+`, `-` and `/` (`times_text`).
* C184 With nothing pinned, requests about a file are answered with this file as the main file but with the document that was compiled last for another main file, so labels, metrics and jumps may be those of another document (`foreign_document`, the code says `todo: whether it is safe to inherit success_doc with changed entry`). The inputs (`sys.inputs`) that a lock file gives for a document are ignored (`inputs_ignored`).
* C185 `named_param_tooltip` looks the name of the called function up in the library only, so with `let rect(fill) = …` in the file, hovering `fill` in `rect(fill: 2)` shows the docs of the library's `rect` (`shadowed`). `font_tooltip` says that it ensures to be in the arguments of the text function but does not (`font_without_call`).
* C186 What is spread into an array is not counted for the position of the elements behind it, so of `x` in `(..(1, 2), x)` what the first element should be is expected (`spread_uncounted`; the code says `todo: spreads`); the values of keys written as strings have no expected type (`string_key`).
* C190 (`LockFileUpdate::compiled`, lock.rs:241-284): the path of the main file is recorded relative to the working directory of the process, but read relative to the directory of the lock file. A server that works in a directory above the root records a file that is not there, and requests are then answered with it as the main file.
* C189: the interner is reset when an outline is made, before it is sent: a click on the outline that is still shown is then resolved with the places of the next one. With two pages, whose loops share the interner and the editor, the outline of an older document can be sent after that of a newer one, and the places kept can be of another outline than the one shown, until the slower loop deals with its next message.
* C187: `let (key: name) = value` binds `name`, but the outline leaves it out (a `Named` node outside parameters is only searched as a reference); a label that is compared (`it.label == <a>`) is listed as a symbol.
* C177: two threads analysing files that import each other deadlock (`deadlock`).
* C176: two questions before anything is kept share one map (`race_at_start`); projects share slots (`two_projects`); types are not rechecked when imported types change (`types_stale`).
* C175: circular definitions in a doc comment recurse without end (`circular`, `own_name`); names of function parameters leak into cached definitions, so types depend on the order of parameters (`order_matters`).
* C174: any binary operator between types is read as `or` (`operator_ignored`).
* C173: `pretty` of `tinymist.exportQuery` has no effect (`pretty_ignored`).
* C172: the fill colour of a PNG export is dropped when the first page is exported (`fill_ignored`).
* C171: an export that fails because the document does not compile has already made the directory and noted the task in the lock file (`failed_touches`); the check for a directory is made before the extension is put on (`directory_blocks`, `directory_missed`); two output patterns that differ after the last dot write the same file (`same_target`).
* C170: after a compilation, questions at the same revision use the snapshot taken before it, without the new document (`stale_answer`); a compilation that ends after the main file was changed installs the document of the old main file (`other_file`).
* C169: in `let g = f.with(1)`, `let h = g.with(2)` the argument given to `g` is forgotten in the signature of `h` (`before_forgotten`); `f.with(1).with(2)` has no signature by its type (`twice_unknown`), nor has a plain alias (`plain_unknown`); `wind_stack` skips as many parameters as there were calls of `with` (`skipped_calls`).
* C165: variables are not linked (`variables_not_linked`); elements of arrays and tuples are not compared (`elements_not_compared`); each alternative of a union is forced as an upper bound (`all_alternatives`).
* C164: a style that is extra bold is taken for bold (`extra_bold`), a name that is extra light for light (`extra_light`); semi-condensed, extra- and ultra-expanded fonts are never recognised (`never_stretched`); sans-serif is flagged as serif (`sans_serif`); an italic style without `italic` in the full name is ignored (`style_not_asked`).
* C163: `-Bold` and `_Bold` have the empty family name (`no_family`); with two blanks before a style one stays in the family name (`twice_differs`).
* C74: a conditional, loop or closure that is directly the body of another is wrapped by `visit_node_fallback`, so its own branches or body are not counted (`branch_not_counted`); `#show: f;` leaves `;` at the start of a line, where Typst typesets it (`semicolon_torn_off`).

## Plan per property

| id | what is modelled | how it is proved |
|----|------------------|------------------|
| C01 | `token_delta` over arbitrary lists, the LSP client's edit application | round-trip law by induction on common prefix/suffix |
| C02 | `RevisionManager` + `SemanticTokenCache` as a state machine over request begin/fill/end/clear | invariant over histories: each live slot stores what was sent under its id |
| C03 | the four access-model layers as a state machine | refinement to "newest layer" spec |
| C04 | once-cells shared between revisions; explicit scheduler choosing who initialises | invariant for isolation; the staleness race as a negation witness plus partial theorem |
| C05 | `is_clean_compile`, evict, reset | invariant over histories; negation after reset if it holds |
| C06 | `NotifyActor` per-entry automaton | the removal bug as a negation witness; partial theorem for stable contents |
| C07 | `update_watches`, `notify_event` | invariant over histories |
| C08 | memory events, upstream acks, watcher queue as message histories | negation witness with two delayed events; partial theorem for one in flight |
| C09 | compile reasons, may_compile, committed revision | invariant over histories |
| C10 | dedicate list operations | invariant and frame theorem |
| C11 | lock file list operations | refinement to a map with last-write-wins |
| C12 | version gate of `update` | decision logic, version comparison modelled on semver |
| C13 | `update`'s writes as a list of file system steps with a crash after each prefix | negation witness + partial: every crash state is old or a prefix of new |
| C14 | `write_atomic` as a list of file system steps | all crash states are old or new |
| C15 | `Incoming` queue and scheduling of handlers | invariant over histories |
| C16 | LSP state machine | decision logic + invariant over histories |
| C17 | `read_msg_text`/`write_msg_text` over bytes | round-trip by induction over message list |
| C18 | DAP state machine | decision logic + invariant |
| C19 | typst's line table over a list of characters; UTF-8/16 widths; conversions | round-trip laws |
| C20 | `edit_source` against an LSP client spec | refinement by induction over edits |
| C21 | `substitute_impl` over strings | negation witness for re-substitution; partial for roots without `$` |
| C22 | Pages parse/print | round-trip law; decision of rejects |
| C23 | ResourcePath parse/print | round-trip for colon-free; negation for colon |
| C24 | workspace id table, virtual path resolution | invariant over histories, path containment |
| C25 | path components, `clean`, `diff`, `unix_slash` | round-trip law by induction on components |
| C26 | base64 of 64-bit halves, trimming | round-trip law |
| C27 | undo log | invariant over nested histories |
| C28 | SourceDb slots | invariant over read histories |
| C29 | once-cells keyed by task | invariant over histories |
| C30 | policy decision functions | decision logic |
| C31 | compile / notify / save state machine | see C09; negation if the re-emission is dropped |
| C32 | FutureFolder state machine | invariants over schedules |
| C33 | EditorActor diagnostics maps | refinement to "last report per project" |
| C34 | focus/pin state machine | invariants over histories |
| C35 | route resolution over directory chains | decision logic, induction over ancestors |
| C36 | `calc_diff` over UTF-8 bytes | negation witness; partial for aligned suffixes |
| C37 | word counting automaton | equality with a declarative count |
| C38 | span interner | negation witness after GC; partial before GC |
| C39 | hex printing/parsing | round-trip law |
| C40 | range clamping | arithmetic |
| C41 | editor actor loop | negation witness; partial without jump requests |
| C42 | render actor batches | negation witness; partial for batches without full-render requests |
| C43 | outline tree building | preorder law by induction |
| C44 | folding post-processing | filter laws |
| C45 | tokenizer push/delta | invariant over leaf streams |
| C46 | on_enter text computation | text laws |
| C47 | with_shadow_file | negation when a buffer exists; partial otherwise |
| C48 | Outgoing queue | invariant over histories |
| C49 | diagnostics grouping | list laws |
| C50 | notified/status revisions | monotonicity over histories |
| C51 | the driver's treatment of every request | decision logic; negation witness for one command |
| C52 | the driver's result on exit | negation witness |
| C53 | lock file printing and reading at the level of TOML tables | round-trip law; negation witnesses for colons and transforms |
| C54 | page selection of exports | equality with the selected pages; negation witness |
| C55 | `TaskCompileArgs::to_task` | decision logic; negation witness |
| C56 | recorded and printed paths | denotation of paths; negation witness |
| C57 | `EntryResolver` | denotation of paths over all histories of the id table |
| C58 | resolution of imported package files | case analysis; negation witnesses |
| C59 | the export queue with two projects | invariant over schedules; negation witness |
| C60 | compile results, lint tasks and the editor actor | invariant over schedules; negation witness |
| C61 | preview start, stop and reload | invariant over careful histories; negation witnesses |
| C62 | the origin check of the preview server | exact characterisation of the sites let in |
| C63 | the same check for the server's own page | characterisation; negation witnesses |
| C64 | rename and will-rename answers: dependents, links, string index, `rename_path_expr`, `diff` | path algebra: following a path inside the project commutes with join, clean, print and diff; negation witnesses |
| C65 | `FingerprintMap`: construction, routing, shards | invariant over all histories; refinement to the last operation on a key |
| C66 | the hierarchy worker's stack, document symbols, folding over the hierarchy | flattening the stack is invariant under every pop; visiting nodes that nest as `t` adds `t`, by induction on the nesting; what the outline sees of the stack is monotone |
| C67 | the entry resolver with its cache, over arbitrary file systems | the cache holds what a search would find, by induction over the lookups; the ancestors of a path are its prefixes, longest first |
| C68 | signatures of functions, the matching of arguments with parameters, the hints of a call | the state of the matching after j arguments in closed form, by induction over the arguments; compared with the evaluator's rule as a relation |
| C69 | the loop of signature help over the parameters | the active index in closed form, by induction over the parameters; compared with the evaluator's rule of C68 |
| C70 | `ExprWorker`: scopes, resolution, exports of files | simulation of the checker by an environment semantics, mutual induction over expressions and parameters; then induction over the files for the exports |
| C71 | `ReferencesWorker`, `SearchCtx`, `get_refs`, `is_exported`, the index of identifiers | invariant of the worklist (what is visited has contributed its places and its importers), a measure for the end, `Reached` as an inductive relation |
| C72 | the edits of a rename applied to the documents | relation between the environments before and after, preserved by every construct; mutual induction, then induction over the files; combined with C70 and C71 |
| C73 | `SelectionRangeRequest` over `LinkedNode::leaf_at` | tree induction: the chain is the filtered preorder list of nodes; the end of the document as a negation |
| C74 | Syntax tree with roles and accessor spans (Model/Coverage), worker output as pieces | mutual induction over the tree: the worker appends, copies exactly the tokens, frames every due body, adds no other place |
| C75 | Heap of counters, map of regions, last-hit cache (Model/Coverage) | invariant over histories: each file read has one region with the saturated number of runs of each call |
| C76 | `TestRunner`: each case a program of atomic steps on shared state, a schedule interleaves them (Model/Testing) | non-interference: a case that touches only its own files behaves as if alone; then evaluation of one case; ghost claims of names for duplicates |
| C77 | the same model, schedules that end anywhere and system calls that fail | invariants kept by every step of every program; two-stage invariant for image and hash |
| C78 | `prepare_package`, `download_package`: calls as programs of disk steps, interleaved, with failures and crashes (Model/Packages) | invariant over histories relating each phase to what is in its directory; witnesses |
| C79 | `determine_latest_version`, `download_index`, `list_package`, `package_completions` (Model/Packages) | maximum of a list; parsing inverts printing; sorting and removing neighbours of one group; witnesses |
| C80 | `scaffold_project` on a disk of nodes (Model/Packages) | induction over the files and the components of their paths |
| C81 | code actions: `work`, `wrap_actions`, `heading_actions`, `equation_actions` over a syntax tree with kinds; `interpret_mode_at` and `\p{Punctuation}` are parameters (Model/CodeAction) | the leaf search gives the nodes around a byte, edits by pieces of the text, positions by C19; witnesses |
| C82 | document highlight: climbing to the nearest loop, the work list over the loop's body, ranges with the hash sign (Model/Highlight) | the work list finds what the loop holds (induction on its weight), the leaf search gives the way from a jump to its loop; positions by C19 |
| C83 | settings: reading them, asking for them, refusing them (Model/Config); decoders and the command line parser are parameters | each field against a table of settings; induction over the history of changes; answers by position in the list of sections |
| C84 | what a change of the settings does to exports, status, registrations, formatter, fonts and projects (Model/Config) | invariant over all histories; the fonts by showing that equal primary options give equal font options |
| C85 | `t_with_args`: the loop over the characters with `take_while` and the extra `next` (Model/L10n) | equations of the loop, a relation `Filled` that gives each message one meaning; violated |
| C86 | `set_locale`, `find_message` over a list of languages in iteration order (Model/L10n) | case analysis on lookup and search; the prefix test means a region |
| C87 | reading and writing the file line by line, maps as lists of entries, the updating, collecting the calls from source text (Model/L10n) | what is read can be written (invariant), the lines written are read back one by one (induction), lookups after a fold of insertions; parsing equals a grammar of calls |
| C88 | `Linter`: the walk over expressions with the current loop and function (Model/Lint) | places of expressions as a relation on the tree; mutual induction, the state is restored and warnings are those of the nodes; violated in arguments of calls |
| C89 | `LateFuncLinter`: the backward walk with what is known about returns (Model/Lint) | big-step semantics of jumps `Run`, of continuations `After`; invariant that what is known can happen; violated for conditions |
| C90 | `buggy_block`, `only_show` (Model/Lint) | decision logic by induction on the block, mutual induction on the tree |
| C91 | `InlayHintWorker::work` over syntax trees with lengths (Model/Inlay) | calls of a tree as a relation with offsets; mutual induction; violated for calls that reach out of the range |
| C92 | `analyze_node`: the counting loop with its break and the loop over arguments (Model/Inlay) | the counts as lengths of filters, induction over the arguments |
| C93 | the two levels of the hierarchy that are searched, over the hierarchy worker of C66 (Model/Symbols) | what is looked at is monotone while the stack grows; headings on the stack stand on headings of lesser levels; three violations |
| C94 | the loader of YAML events and the translation of characters to bytes (Model/Bib) | nested values leave the loader as it is, mutual induction; the walk resolves every offset of a strictly sorted list, induction over the text |
| C95 | `analyze_path` over the files, the ordered map (Model/Bib) | lookups after insertions and updates, induction over entries and files |
| C96 | the matcher of comments and the collection of their text (Model/Docs) | the run of comments by induction with the count of line breaks as invariant; the text is that of the specification; three violations |
| C97 | the search for parameters from the last line up (Model/Docs) | one item is read whatever is above, induction over the items from the last; braces by induction over balanced texts; violations |
| C98 | `fallback_docs` (Model/Docs) | the longest run bounds every run, induction; no two backticks of an escaped text are adjacent |
| C99 | `to_lsp_snippet`, the built-in snippets and the skeleton of documentation (Model/Complete) | the protocol's syntax as an inductive relation; induction over the pieces of a snippet; every built-in snippet is made of such pieces; violations |
| C100 | the main edit of a completion (Model/Complete) | the text after the edit by cutting the document at the leaf; the comma by the trimmed end |
| C101 | the edits for labels and references and the text of values (Model/Complete) | by cutting the document at the leaf; violations |
| C102 | the end of `complete_cursor` and the filter of `work` (Model/Complete) | padded numbers are ordered as numbers, by induction over the width; an ordered permutation with distinct keys is unique; the loop of the filter decides sublists |
| C103 | `slice_at` (Model/Complete) | each loop stops at the first boundary or at the other end; characters by their offsets |
| C104 | parsing of postfix snippets and their edits (Model/CompleteMore) | the placeholders of a snippet by induction over its pieces; the edits by cutting the document; violations |
| C105 | `ufcs_completions`, `CompletionKindChecker`, the least arguments of a function (Model/CompleteMore) | case analysis on what is offered; the edits as in C104; fold invariant; violations |
| C106 | the expansion of snippet contexts and the lookup (Model/CompleteMore) | both sides as membership; expansion over a complete list of modes and syntaxes |
| C107 | `complete_path` with its order and numbering (Model/CompleteMore, Model/Paths) | the relative path leads back by the theorem on `diff` for renaming; merge sort by an order that agrees on the labels present; fixed-width numbers keep the order |
| C108 | `import_item_completions` (Model/CompleteMore) | equality with a filter stated over paths |
| C109 | `package_completions` (Model/CompleteMore) | merge sort by a total order; removing repetitions in a sorted list keeps the first of each name |
| C110 | `label_completions_` (Model/CompleteMore) | counts by induction over the labels with those seen |
| C111 | `raw`, `to_raw_block`, the raw function, the message of a failed rendering (Model/Typlite) | lines of a text are unique; a fold invariant bounds the runs of backticks; violations |
| C112 | `table` with its arguments (Model/Typlite) | induction over the arguments; chunks are the only arrangement in rows; violations |
| C113 | the library of functions and the way arguments are taken (Model/Typlite) | computation with arguments given in any way; lines of a text |
| C114 | `list_item` with `annotate_elem` (Model/Typlite) | induction over the fuel and the document; the depth is an invariant |
| C115 | `render`, the numbering and the writing of files, the definitions kept for `context` (Model/Typlite) | names of files are injective; closure of the conversion under an invariant on the files written; violations |
| C116 | `include` and the recursion of `eval` with a bound on its depth (Model/Typlite) | more depth never changes a result; a rank of files and the size of nodes bound the depth; violation by induction |
| C117 | `heading`, `list_item`, `enum_item`, `strong`, `emph`, `reduce` (Model/Typlite) | lines of a text; induction over the items; violations |
| C118 | `SigTy::new`, `matches`, `MutateDriver`, `SubstituteChecker`, arguments and closures of the checker (Model/Ty) | mutation is substitution; the bindings of a call are what is passed; violations |
| C119 | `TypeSimplifier` with its two caches (Model/Ty) | the number of variables not yet seen decreases; invariants of the caches; violation |
| C120 | `TypeDescriber` (Model/TyDescribe) | an invariant of the visit of a union; the text is that of the specification; violation |
| C121 | `CompilerUniverse`, `RevisingUniverse` with its `drop` (Model/Universe) | an invariant of the changes of one revision; induction over the history; violations |
| C122 | `CompilerWorld` with tasks, clones, shared tables of contents and the time (Model/Universe) | invariants of the heap of tables; new worlds never reach the old tables; violation |
| C123 | `SystemFontSearcher`, `MemoryFontSearcher`, `FontSlot`, `FontResolverImpl` (Model/Fonts) | book and slots are aligned; an invariant of the slots over all requests; violations |
| C124 | `get_font_resources` (Model/Fonts) | families partition the indices; numbers of places only grow; violation |
| C125 | files, directories and maps as association lists; paths as components followed one by one; copying as a fold | induction on the entries; the keyed list law for the last value of a key; witnesses for paths that leave the directory |
| C126 | the walk of a directory as a filter on the files of the disk; an archive as entries with a short and a whole name | membership characterised both ways; witnesses for the dotted base and for cut names |
| C127 | the frame tree, the map of fonts as a keyed list, the numbering of sources; typst's spans and sources as parameters | flattening of the tree to its texts; an invariant of the map over the texts; induction for the numbering |
| C128 | the syntax tree with its calls; evaluation and hexadecimal digits as parameters | the walk equals a filter of the list of calls, by induction on the tree; witnesses |
| C129 | the frame as a tree of items; the search from the last item to the first | the search equals a search in the flattened list of boxes, by induction on the tree with moved origin; witnesses for links, glyphs without source and ends of texts |
| C130 | `find_in_frame` with its mutable closest glyph as a state that is passed on | the first match equals `find?` on the flattened glyphs; the closest one as a fold with the invariant of the first minimum; witness for a moved group |
| C131 | the path from a leaf to the root with the siblings on the left; the table of kinds; `prev_leaf` | induction on the path against an inductive definition of the mode; witnesses for matrix rows, blocks behind a hash and the end of the file |
| C132 | the path from the leaf to the root, with what the nodes on it and to its left declare; the map with the first insertion kept | the first declaration found going outwards is the newest one when running inwards, by induction on the path; witnesses for headings, ends of blocks, a let itself and double imports |
| C133 | `expr_tooltip` as a fold over the values, with its counter and its unique function | the runs as an inductive relation, unique and spelling out the values; invariant of the fold; witnesses |
| C134 | `summarize_font_family`: the variants sorted by style, weight and stretch, and a fold with least and greatest weight | invariant of the fold over the sorted variants; witness for a family with a light italic |
| C135 | the scanner of `plain_docs_sentence` over characters, with the flag for being in a link; `resolve` with the table of known pages | induction over the segments of a text; the table by evaluation; witnesses |
| C136 | the search of `preview` at growing distances, the filter of `link`, JSON strings and percent encoding over bytes | induction over the distances; inductive relations for reading JSON strings and percent escapes, both deterministic; witnesses for links |
| C137 | `Interned` as a transition system: reference counts, the map, handles in use, in `drop_slow`, about to be released | an invariant that ties counts to handles and the entry, kept by each step; induction over schedules; a second invariant for programs whose drops do not overlap; a leaking schedule for every value |
| C138 | the worker of `instr.rs` over syntax trees, debug sessions | every part of the worker appends, by mutual induction over trees; paths through the tree as compositions of the three ways a node is gone through; witnesses |
| C139 | texts and frames of viewers, the data plane as a transition system, how the page reads positions | round trips through splitting and printing; the counter counts connections that did not end plus unread ends, by induction over histories |
| C140 | requests of the debug adapter over the files of a project; the thread of a debugged compilation with its queue of requests | induction over histories from their end; the answers in closed form by induction over stops and requests |
| C141 | the steps of any number of processes at one file as a transition system | invariant: the lock is held alone by a writer, contents are those of the updates finished so far; witnesses for lost updates |
| C142 | `collect_links` on syntax trees, `LinkTarget::resolve` on paths (Model/Links) | membership iff a declarative relation by induction over trees, counting links against strings, paths by the theory of C24/C25 |
| C143 | `ScanDefCtx` over the exports of files, `package_docs` as rounds over modules (Model/PkgDocs) | a two-state contract of the scan by induction over fuel (files with children are the newly seen ones), a measure of unseen files for termination, permutation of sections against the tree, paths as an inductive relation |
| C144 | `check_syntax` and `Joiner` on a small language of expressions (Model/ExprTy), with an evaluator of Typst's joins and the meaning of types as specification | induction over well-behaved expressions, with an invariant of the join; general counterexamples for the rest |
| C145 | `path_to_url` and `url_to_path`, with percent-encoding, `Url::from_file_path`, `Url::to_file_path` and the parser for `untitled:` of the url crate, over bytes (Model/Uris) | induction over bytes and names for the round trip; general counterexamples for documents without a file |
| C146 | Model/BuildScript.lean: the script's text and the parser of `tinymist compile`; Spec: a shell's reader of words | round trip of quoting by induction on texts; refusals by induction on arguments |
| C147 | Model/Pointer.lean: syntax trees with places, `leaf_at`, `prev_leaf`, `classify_syntax`, `classify_for_decl` | the search for a leaf inverts the text before a place, by induction on the way to the root; then case analysis on kinds |
| C148 | Model/Mirror.lean: `BufReader`, `MirrorWriter`, `read_line`, `read_exact`, `read_msg_text`, the reader thread | refinement: a law of buffered inputs gives reading by bytes (Model/Framing.lean), with the recorded bytes as consumed prefix; induction on messages |
| C149 | Model/Clock.lean: `today`, `task`, `snapshot_with`, `to_typst_time`, `PdfExport::run`, `parse_source_date_epoch` | the day number splits into cycles of 400, 100, 4 and 1 years; the step law of the calendar by cases of months; invariant on the cells of worlds over all histories |
| C150 | the decisions of prepareRename, rename and references for all kinds of definitions (Renaming); what the tables of names say is an input | the answers as functions; exact characterisations; the way between two paths from C25, with the refusals proved from the shape of cleaned paths |
| C151 | the definition of a place by its class, and the link made of it (Renaming) | case analysis over all classes and kinds |
| C152 | Command line of `run_trace_program`, its reading by clap and `parse_input_pair`, the reading thread as steps over the bytes written, `trace_main` | Induction over the lists of arguments; the message framing of C17 for the thread; the thread at the end of output is a fixed point |
| C153 | The service of `make_http_server` as a function of a request, its idle loop as a function of the times of requests | Case analysis; induction over the requests |
| C154 | `get_semantic_tokens_full` over syntax trees: classification, styles as bits, the two loops | Induction over trees: the tokens are those of a listing of all nodes; positions grow by C19; names and bits by the legend |
| C155 | the tables of query statistics as histories of events of guards, `report` | Invariant over histories: each row is a function of the events of its key; that function does not depend on their order; sorting keeps the rows |
| C156 | `AllocStats` with two loads at different points, the order of rows, `human_size` | Counting over histories; induction on the loop over units |
| C157 | TypeOffer: types as trees, the walk with its sets of seen types and keys | items are a permutation of those of the reachable types, by an invariant of the depth-first walk |
| C158 | TypeOffer: the features of functions and the items made from them | items are just those of the specification, which quantifies over the functions |
| C159 | TypeOffer: what is before the dot, the value, parameters and captures | names offered are just those of the specification |
| C160 | Scan: folders as trees, the walk with its stack of open folders | the walk is the pre-order list of kept files up to the limit; membership by mutual induction |
| C161 | Scan: patterns matched without regard to case, kinds in their order | equivalence with the table of extensions by folding both sides; first match in order |
| C162 | Scan: casts as trees, the iterator with its stack, the table of parameters | the iterator yields the leaves, by functional induction; the table by cases |
| C163 | `WebFonts` | the loop that takes off words, modifiers and separators; one round on `name ++ separator ++ words` gives the name; the result is a prefix that a further round would not shorten |
| C164 | `WebFonts` | the searches through the lists of words; which word is found first in the style and last in the other names; words that contain others |
| C165 | `Constrain` | the arms of `constrain` with the cache of calls over a state of bounds; an inductive relation of what a use tells; the state after is the state before and what is told, by induction on depth with calls in progress known to be deeper |
| C166 | the argument the cursor is in (classify_context, callee_context, arg_context, request of signature help) over the zipper of Pointer | theorems per kind of place, by the position of the first and last child of a kind; concrete violations as general theorems |
| C167 | what is around the cursor (surrounding_syntax, check_surrounding_syntax, check_previous_syntax) | iff with an inductive specification over the nearest deciding node, induction over ancestors |
| C168 | what is expected of an argument (check_cursor, SignatureReceiver) | iff over all signatures |
| C169 | `Alias` | the search for what an alias stands for, as a walk with a stack, and the signature made of documentation and type; the walk equals the first of a list given by two mutually recursive functions, by structural induction over nested types |
| C170 | `LatestDoc` | snapshot, document and committed revision of a project under all histories; an invariant over histories, and the document kept characterised by the trace of results |
| C171 | `Exporting` | path, checks, directory, lock file, contents and write of an export as a list of effects; success characterised, and effects by cases on the outcome |
| C172 | `Exporting` | contents of an export for each kind of task over any renderers; equivalence with a relation that says what each format holds |
| C173 | `Exporting` | queries over any retrieval and serialization; equivalences for one and for all elements |
| C174 | `DocTypes` | names, unions, arrays and tags checked with the caches as state; soundness of the cache is the invariant, meaning is an inductive relation |
| C175 | `DocTypes` | as C174 with closures; termination by a rank on names, state only grows (tidy), witnesses for the violations |
| C176 | `RevCache` | slots per revision, previous and global maps with validation of old results by their imports; invariant: everything kept is right for the text and imports it was made from |
| C177 | `Waiting` | threads as stacks of files being analysed; the files waited for have falling rank, a measure bounds all schedules |
| C178 | `ImportCursor` | zipper over the syntax tree, `complete_imports`'s four cases in order, the list of items as paths; a separate inductive description of import lists; names offered by `Complete.importItems`. |
| C179 | `SigCache` | the map of signatures with lifetimes, cells that outlive entries, questions that overlap; invariant over all histories; counting for sequential ones; the exchange loop with arbitrary other threads. |
| C180 | `Groups` | zipper over arbitrary trees; complete_code/math/markup as decision functions with starts; the scanner of the language proved equal to a split of the text; two violations. |
| C181 | `Members` | types as trees with interfaces at the leaves; the arms of the checker in their order; insertion where the first stays; exactness against a specification of members by interface; the fold of kinds by mutual induction. |
| C182 | `Naming` | the checks before the groups, over the zipper of `Pointer` and the classes proved there; the value of a binding and the body of a function as places. |
| C183 | `Coloring` | kinds and modifiers as inductive types with their numbers in the legend; the color of a leaf over the zipper of `Pointer`, with the modifiers of the nodes around it; the next leaf written down and compared with leaves next to each other. |
| C184 | `Answer` | the dispatch of requests over the entries and tables of `Workspace`; main files by `Entry`'s theorem, lock files as parameters. |
| C185 | `Tips` | the tips in order on places of `Pointer`'s trees; alternatives as a list of strings by mutual induction. |
| C186 | `Elements` | the walk through unions and bounds with its receiver; membership by mutual induction against a relation of the types that a type may be. |
| C187 | `Listed` | the walk over the syntax tree with its context and the sibling before; soundness by mutual induction over the tree, completeness along a relation of statements; two wrong lists by witnesses |
| C188 | `Told` | the parts of a hover and how they are put together; equality with a relational specification, injectivity of the list of names by induction |
| C189 | `OutlineFlow`, `OutlineMany` | the loop that makes outlines, one or any number of them, with the bounded channel, under all interleavings; an invariant on what is pending, and a measure for coming to rest |
| C190 | `Recorded` | what compiling writes into the lock file, composed with the answering of requests (`Answer`) and with `from_user_sys` (`Paths`) |

## Appendix: axioms of the theorems

<!-- axioms: generated by tools/axioms.py -->

Axioms: Classical.choice, Quot.sound, propext.

* `Tinymist.Alias`: `defined_described`, `aliased_described_partial`, `aliased_once`, `before_forgotten`
* `Tinymist.Answer`: `answered`, `own_project_partial`, `named_project_partial`, `named_root`, `global_project`, `global_rootless`, `unchanged`, `foreign_document`, `inputs_ignored`
* `Tinymist.Bib`: `positions_between_characters`, `entries_found_partial`, `quoted_key_misplaced`, `last_definition`, `undefined_not_found`, `keys_once`
* `Tinymist.Breakpoint`: `texts_kept`, `numbered`, `block_stops`, `body_stops_partial`, `branch_without_stop`, `line_broken`, `show_set_called`, `stops_where_enabled`
* `Tinymist.BuildScript`: `script_words_partial`, `script_replays_partial`, `when_lost`, `document_renamed`, `html_becomes_svg`, `query_compiled`, `output_refused`, `inputs_refused`, `timestamp_refused`, `pretty_refused`, `open_pages_refused`, `format_refused`, `injected`, `when_declared`, `output_declared`, `name_declared`, `lockfile_declared`, `comment_of`
* `Tinymist.CallArgs`: `matched_is_bound_partial`, `alias_forgets_with`, `sized_iff`, `alias_takes`, `highlighted_is_bound_partial`, `highlighted_listed`, `sink_never_highlighted`
* `Tinymist.Click`: `click_on_top_partial`, `detached_glyph_shifts`, `exact_positions`, `closest_position_partial`
* `Tinymist.Clock`: `calendar_right`, `one_calendar`, `today_partial`, `today_small`, `big_offset_panics`, `day_later`, `plain_forward`, `stamp_names`, `stamp_inj`, `pdf_set`, `pdf_years`, `pdf_unset`, `date_not_set`
* `Tinymist.CodeAction`: `actions_meant`, `offered_iff`, `conversion_keeps_partial`
* `Tinymist.Coloring`: `called_function`
* `Tinymist.Colors`: `colors_shown`, `conversion_not_shown`, `label_shows_partial`, `first_label_no_color`
* `Tinymist.Complete`: `builtin_shown`, `subscript_doubled`, `argument_inserted`, `label_completed`, `label_edit_at_cursor_partial`, `string_completed_partial`, `typed_string_broken`, `field_named_partial`, `field_quote_broken`, `list_shown_partial`, `list_can_be_shown`, `slice_whole`, `window_whole`, `paths_listed`, `path_broken`, `path_package`, `import_offered`, `import_self`, `newest_versions`, `all_versions_partial`, `listed_twice`, `labels_offered`
* `Tinymist.Compute`: `same_result`, `runs_once`, `no_deadlock`, `compilation_result`
* `Tinymist.Config`: `settings_in_force_partial`, `settings_exist`, `refused_changes_nothing`, `unreadable_warned_partial`, `poll_as_start_partial`, `lint_unread`, `lint_ignored`, `top_level_lost`, `pushed_namespace_unread`, `poll_forgets`, `silently_ignored`, `server_follows`, `fonts_follow_partial`, `font_change_restarts`, `project_stale`, `fonts_stale`, `project_at_start`
* `Tinymist.Constrain`: `told_partial`, `only_told`, `kept`, `strong_iff`, `any_order`, `never_fails`, `argument_learned`, `passed_learned`, `contained`, `compared`, `weaken_iff`
* `Tinymist.Context`: `value`, `named_value`, `element`, `entry`, `behind_call`, `on_name`, `at_value`, `in_paren`, `in_path`, `elsewhere`, `expected_named`
* `Tinymist.Coverage`: `block_runs_counted`, `body_runs_counted_partial`, `show_runs_counted_partial`, `branch_not_counted`, `semicolon_torn_off`, `counters_right`, `report_right`, `summary_right`
* `Tinymist.Debugging`: `evaluates_launched`, `refused_without`
* `Tinymist.DiagConvert`: `convert_iff`, `get_convertAll`, `grouped_in_order`, `order_kept`, `each_counts_once`, `shown_as_is`, `shown_at_place`, `missing_main_unreported`, `hints_shown`, `trace_shown`, `lints_of_files`
* `Tinymist.DiagFlow`: `latest_told_partial`, `latest_told_nolint_partial`, `closed_told_partial`
* `Tinymist.DocText`: `docs_shown_partial`, `address_kept`, `page_link`, `page_link_below`, `definition_link`, `foreign_link_lost`, `example_shown`
* `Tinymist.DocTypes`: `plain_right_partial`, `names_right`, `strings_right`, `vars_right`, `means_unique`, `sound_init`, `ends_partial`, `circular`, `own_name`, `fresh`
* `Tinymist.Docs`: `docs_of_definition_partial`, `docs_of_module`, `trailing_comment_taken`, `blank_line_ignored`, `empty_line_keeps_indent`, `parameters_read_partial`, `no_description`, `arrow_taken`, `shown_as_code`
* `Tinymist.EditorDiag`: `shown_is_union_of_last_reports`, `closed_project_contributes_nothing`
* `Tinymist.Elements`: `expected_iff`, `expected_once`, `nothing_expected`
* `Tinymist.ExportPolicy`: `due_merges`
* `Tinymist.Exporting`: `exported_iff`, `written`, `side_effects`, `opened_iff`, `deps_noted`, `failed_touches`, `contents_iff_partial`, `editor_contents`, `fill_used`, `query_one`, `query_many`, `txt_many`, `unknown_format`
* `Tinymist.ExprTy`: `type_describes_partial`
* `Tinymist.Fingerprint`: `svg_id_roundtrip`, `svg_id_injective`
* `Tinymist.Folder`: `one_at_a_time`, `newest_wins`, `starts_le_submissions`, `drains`, `drained_newest_ran`, `latest_of_project_ran_partial`
* `Tinymist.FontSummary`: `summary_partial`, `summary_one_style`
* `Tinymist.Fonts`: `font_of_entry_partial`, `fonts_stay`, `fonts_listed_partial`
* `Tinymist.Format`: `edit_turns_iff`, `ascii_edit_partial`, `ascii_change_partial`, `client_gets_output_partial`, `lost_change`, `underflow`, `crlf_position`
* `Tinymist.Framing`: `stream_roundtrip`, `extra_headers_ignored`, `truncated_is_error`, `truncated_stream`, `oversized_is_error`, `read_was_sent`
* `Tinymist.Highlight`: `highlights_partial`, `stray_unmarked`
* `Tinymist.Hover`: `closest_previewed`, `escape_unescapes`, `argument_read`, `command_read`
* `Tinymist.ImportCursor`: `offers_partial`, `own_left_out`
* `Tinymist.Inlay`: `hints_of_range`, `none_missing_partial`, `ranges_meet`, `hinted`
* `Tinymist.Interned`: `reads_value`, `equal_iff_same`, `never_panics`, `stats_exact`, `last_drop_removes`, `no_entry_left_partial`
* `Tinymist.Interner`: `issued_id_resolves_partial`, `issued_id_expires`, `hex_roundtrip`
* `Tinymist.Jump`: `selection_inside`, `selection_exact`, `selection_to_end`
* `Tinymist.L10n`: `character_swallowed`, `setting_warning`, `root_not_shown`, `locale_language`, `unspecific`, `file_updated_partial`, `written_once`, `loaded`, `collected`, `line_break_breaks`, `load_panics`, `broken_file_kept`
* `Tinymist.LatestDoc`: `deps_newest`
* `Tinymist.Links`: `links_named_partial`, `no_link_twice`, `answer_lists`, `later_position_missed`, `toml_missed`, `rooted_link_example`
* `Tinymist.Lint`: `no_effect`
* `Tinymist.Listed`: `listed_sound`, `let_listed`, `for_listed`, `function_listed`, `anonymous_listed`, `label_listed`, `keyed_unlisted`, `compared_listed`
* `Tinymist.Lock`: `commit_contents`, `commit_order_irrelevant`, `commits_on_disk_partial`, `only_supported_overwritten`, `other_version_kept`, `newer_version_refused`, `failed_or_noop_update_kept`, `crash_loses_lock_file`, `colon_bricks_lock_file`
* `Tinymist.LockFlow`: `updates_serialise_partial`, `readers_see_whole_partial`, `update_works_on_last_partial`, `update_alone_partial`, `never_stuck`
* `Tinymist.Members`: `once`, `only_partial`, `all_partial`, `imported`, `nearest`, `nearest_dot`, `no_methods`, `no_scope`, `fields_of_values`, `docs_mixed`
* `Tinymist.Metrics`: `fonts_of_document`, `answered_iff`
* `Tinymist.Mirror`: `mirror_transparent`, `pieces_irrelevant`, `mirror_is_input`, `replay_same`, `replay_so_far`, `replay_after_crash`
* `Tinymist.Mode`: `mode_read_partial`, `matrix_row_code`
* `Tinymist.Naming`: `variable_quiet_partial`, `function_quiet_partial`, `function_without_body`, `value_heard`, `body_heard`
* `Tinymist.Offer`: `offered_partial`, `heading_not_offered`, `end_of_block_not_offered`, `own_name_offered`, `import_twice`
* `Tinymist.OnEnter`: `continued_iff`, `math_iff`, `comment_continues_partial`, `math_opens`, `math_content_kept`, `tab_becomes_space`, `in_front_of_all`
* `Tinymist.Origin`: `let_in_iff`, `foreign_page_refused`, `reads_exist`, `own_page_served_partial`, `local_page_served`, `port_80_refused`, `all_addresses_refused`
* `Tinymist.Outline`: `outline_iff`
* `Tinymist.OutlineFlow`: `settles`
* `Tinymist.OutlineMany`: `latest_shown_many`, `sent_stored`, `settles_many`
* `Tinymist.Packages`: `found_whole_partial`, `preview_only_and_there`, `half_while_unpacking`, `half_for_ever`, `removed_by_other`, `call_answers`, `latest_right`, `latest_found_partial`, `latest_not_found`, `listed`, `listed_twice`, `offered`, `template_copied_whole`
* `Tinymist.Packs`: `map_copy`, `dir_to_map`
* `Tinymist.Pages`: `pages_accepted_iff`, `pages_round_trip`, `pages_rejects`, `page_selection_ignored`, `declared_task_partial`, `declared_task_wrong`
* `Tinymist.PathPattern`: `substitute_partial`, `empty_pattern`, `documented_patterns`, `root_substituted`, `directory_substituted`, `text_substituted`, `untitled_output`
* `Tinymist.Paths`: `diff_leads_to_target_partial`, `diff_absolute`, `diff_wrong_relative`, `printed_same`, `printed_form`, `recorded_path_partial`, `recorded_path_elsewhere`, `script_path`
* `Tinymist.PkgDocs`: `docs_made`, `sections_of`, `section_once`, `section_lists`, `section_path`, `section_names`, `external_linked`, `local_unlinked`, `link_resolves_partial`, `shortest_shown`
* `Tinymist.Pointer`: `name_before_blank_partial`, `comment_names_line_before`, `new_line_is_block`, `end_missed`, `text_is_nothing`, `path_found`, `label_found`
* `Tinymist.Position`: `column_past_line_spills`, `reported_position_is_meant`, `utf8_reports_characters`, `line_ends`, `every_edit_has_positions`, `utf8_texts_diverge`, `separators_diverge`
* `Tinymist.PreviewEditor`: `standalone_jump_exits`
* `Tinymist.PreviewTabs`: `watched_iff_there_partial`, `killed_is_free_partial`, `can_start_partial`, `failed_start_leaks`, `same_name_leaks`, `reload_race`, `reload_blinds_background`, `answer_tells`, `which_project`, `kill_takes_effect_partial`, `killAll_takes_effect_partial`
* `Tinymist.Project`: `buffers_up_to_date_partial`, `buffers_up_to_date_lockstep`, `buffers_up_to_date_no_close`, `projects_see_the_same`, `knows_open`, `closing_waits`, `kept_open_at_once`, `no_change_forgotten`, `compiling_or_covered`, `committed_increases`, `instances_distinct`, `compiling_iff_in_flight`, `up_to_date_when_idle_partial`, `typing_compiles`, `delayed_change_compiles`, `no_change_no_compile`, `clean_not_compiled`, `delivered_committed`, `restart_leaves_others`, `settle_leaves_others`, `ids_distinct_partial`, `deps_of_projects`, `nothing_left_partial`, `orderly_no_panic`, `save_compiles_partial`, `never_notified_again`, `results_in_order`, `statuses_in_order_partial`
* `Tinymist.Recorded`: `recorded_iff`, `recorded_right_partial`, `answered_with_it_partial`, `other_file`, `id_tells`
* `Tinymist.Rename`: `renamed_file_followed_partial`, `rename_request_followed_partial`, `import_defines`
* `Tinymist.Renaming`: `offered_name_renamed`, `offered_path_renamed_iff`, `offered_path_refused`, `untitled_refused`
* `Tinymist.RevCache`: `answer_right_partial`, `answered`, `inv_run`, `answered_always`
* `Tinymist.Routes`: `resolve_fresh`, `resolve_cached_partial`, `resolve_any`, `stale_lock`, `lock_update_known`, `material_update_known`
* `Tinymist.Scan`: `found_sound`, `found_iff_partial`, `found_once`, `offered_iff_partial`, `sources_iff_partial`, `no_workspace`, `hidden_workspace`, `any_narrowed`, `cbor_missing`, `accepted_iff`, `named_ascii`, `any_iff_ext`, `special_iff`, `overlap`, `kind_some`, `kind_accepts`, `kind_iff_partial`, `never_bibliography`, `unknown_named`, `square_fill`, `special_param_partial`
* `Tinymist.Scoping`: `definition_follows_rules_partial`, `no_definition_elsewhere_partial`, `references_sound`, `search_ends`, `references_complete_partial`, `own_file_complete`, `importer_complete`, `references_follow_rules_partial`, `rename_preserves_meaning_partial`, `edits_preserve`
* `Tinymist.Sections`: `sections_nested_partial`, `outline_nested_partial`, `last_section_folds_partial`, `section_folds_partial`, `comment_hides`, `list_hides`, `inner_heading_captures`, `last_subsection_unfolded`, `fold_leaves_list`
* `Tinymist.Selection`: `selection_ranges_partial`, `selection_nested_partial`
* `Tinymist.Server`: `answered_at_most_once`, `answered_once_settled`, `answer_is_first_outcome`, `refused_before_initialized`, `refused_after_shutdown`, `served_while_open`, `notifications_only_while_open`, `exit_ends_session`, `unknown_refused`, `commands_served`, `dap_answered_once_partial`, `dap_refusals`, `dap_large_seq_misanswered`, `outgoing_ids_distinct`, `continuations_run_once`, `response_runs_its_continuation`
* `Tinymist.ShardMap`: `new_iff`
* `Tinymist.SnapshotMap`: `log_released`
* `Tinymist.Stats`: `row_tells_partial`, `any_order`, `name_verbatim`, `names_confused`
* `Tinymist.Symbols`: `empty_search_panics`, `deep_heading_missed`, `deep_label_missed`
* `Tinymist.Testing`: `verdict_right_partial`, `duplicates_fail`, `dotted_names_collide`, `mismatch_reported_passed`, `panic_by_name`, `success_means_recorded_partial`, `dotted_names_share`, `references_kept`, `references_after_partial`, `accepted_again_partial`, `cut_short_partial`
* `Tinymist.Tips`: `font_shown`, `shadowed`, `font_without_call`
* `Tinymist.TokenCache`: `client_streams_correct_partial`, `known_gets_delta`, `idle_keeps_one`
* `Tinymist.Tokens`: `tokens_describe_leaves_partial`, `tokens_sorted`, `tokens_within_lines`, `tokens_same_or_disjoint`, `every_leaf_has_token`, `heading_tokens_overlap`, `utf8_tokens_overlap`
* `Tinymist.Told`: `shown`, `parts_exist`, `star_tells`, `definition_hides`, `module_hides`
* `Tinymist.Trace`: `child_sees_partial`, `refused_iff`, `key_cut`, `value_trimmed`, `font_path_cut`, `answered`, `broken_ends`, `never_answered`, `diagnostics_first`, `profiled_partial`, `not_profiled`, `panics_iff`, `served_iff`, `allowed_is_asker`, `timings_at_root`, `kept_by_stranger`
* `Tinymist.TypeOffer`: `offered`, `mem_offered`, `once_each_partial`, `argument_given`, `text_only`, `no_names`, `self_excluded_partial`, `self_offered`, `items_iff_partial`, `labels_differ`, `any_order`, `elements_only`, `given_forgotten`, `method_bracket`, `one_needs_arguments`, `wraps_iff`, `types_asked`
* `Tinymist.Types`: `call_type_partial`, `sink_taken`, `no_sink`, `simplify_ends`, `nothing_lost_partial`, `describe_says_partial`, `describe_ends`
* `Tinymist.Typlite`: `raw_function_partial`, `raw_function_ticks`, `raw_block_partial`, `raw_block_open`, `raw_inline_partial`, `raw_inline_glued`, `raw_inline_tick`, `shown_as_source_partial`, `render_error`, `table_partial`, `footer_shifted`, `no_columns_panic`, `link_call`, `simple_calls`, `alter_call`, `image_call`, `call_errors`, `box_call`, `image_text`, `items_marked_partial`, `items_unmarked`, `picture_files_partial`, `chosen_theme_overwritten`, `pictures_kept_partial`, `include_overwrites`, `definitions_first_partial`, `stray_hash`, `picture_in_line`, `picture_apart`, `address_linked`, `functions_kept`, `source_linked`, `convert_more`, `conversion_ends_partial`, `self_include_runs_on`, `include_in_place`, `heading_partial`, `heading_deep`, `item_partial`, `enum_item_partial`, `item_shallow`, `numbers_partial`, `number_lost`, `marked_text`, `document_text`
* `Tinymist.Uris`: `file_round`, `file_urls_differ`, `answered_same`, `untitled_round_partial`, `urls_differ_partial`, `escape_decoded`, `untitled_url`
* `Tinymist.Vfs`: `read_newest_layer`, `read_not_older_than_report`, `snapshot_isolated_partial`, `clean_check_sound_partial`, `shadow_undone_partial`, `shadow_by_id_undone_partial`, `shadow_visible_to_query`
* `Tinymist.Viewers`: `understood`, `unknown_ends`, `no_argument_panics`, `path_cut`, `jump_nearest`, `viewport_goes`, `idle_only_alone`, `shut_down_asked`, `idle_when_alone_partial`, `failed_never_idle`, `viewer_stays`, `ping_ends`, `big_page_panics`, `up_until`, `comes_while_up`
* `Tinymist.Watch`: `steady_reported_partial`, `reports_differ_partial`
* `Tinymist.WebFonts`: `variants_together`, `modified_together`, `joined_together`, `unstyled_kept`, `family_bare_partial`, `modern_named`, `family_source`, `refused_iff`, `no_family`, `twice_differs`, `weight_named_partial`, `style_decides`, `stretch_named_partial`, `style_iff`, `flags_iff`, `extra_bold`, `extra_light`, `never_stretched`, `sans_serif`, `style_not_asked`
* `Tinymist.WordCount`: `word_count_is`, `counts_are`
* `Tinymist.Workspace`: `root_changes_id`, `untidy_root_exhausts`, `ws_import_foreign`, `root_of_file_partial`, `new_package_unnoticed`, `nearer_package_unnoticed`

Axioms: Quot.sound, propext.

* `Tinymist.Alias`: `alias_first`, `twice_unknown`, `plain_unknown`, `known_aliased`, `skipped_calls`, `none_unknown`, `default_shown`, `known_itself`
* `Tinymist.Answer`: `syntactic`, `pinned_project`, `remembered`
* `Tinymist.AtomicWrite`: `old_or_new`, `finished`
* `Tinymist.Breakpoint`: `never_stops`, `point_text`, `session_removed`
* `Tinymist.CallArgs`: `named_matched`, `hinted_iff`, `hints_in_order`, `sink_in_the_middle_wrong`, `alias_wrong`, `after_spread_wrong`, `help_lists`, `named_highlighted`, `sink_highlights_other`, `with_named_shifts`, `sink_highlights_named`
* `Tinymist.Click`: `link_nowhere`, `end_of_text_to_start`, `moved_group_lost`
* `Tinymist.Clock`: `same_answer`, `new_snapshot`, `derived_same`, `plain_back_ignored`, `epoch_round_trip`, `pdf_option`, `pdf_refused`
* `Tinymist.CodeAction`: `depth_restored`, `bracket_taken`, `comment_lost`
* `Tinymist.Coloring`: `listed`, `styles`, `stands_shown_partial`, `unknown_shown`, `hash_alike`, `variable_of_function`
* `Tinymist.Complete`: `snippet_shown_partial`, `document_function`, `dollar_lost`, `reference_completed`, `thousand_misplaced`, `postfix_wraps`, `postfix_moves_partial`, `postfix_ignored`, `postfix_panics`, `ufcs_called`, `ufcs_left_partial`, `ufcs_right`, `ufcs_only`, `takes_least`, `ufcs_dollar_lost`, `snippet_offered`, `snippet_offered_mode`
* `Tinymist.Compute`: `copy_shares`, `execute_shows`
* `Tinymist.Constrain`: `consistent_start`, `variables_not_linked`
* `Tinymist.Context`: `separator`, `closing`, `closing_named`, `help_at_partial`, `end_missed`, `behind_nested`, `on_set`, `at_separator`, `entry_colon`, `behind_dot`, `says_iff`, `outside_hidden_partial`, `nested_name`, `expected_iff_partial`, `set_positional`
* `Tinymist.Coverage`: `tokens_kept`, `calls_in_order`, `places_genuine`, `unread_hit_panics`
* `Tinymist.Debugging`: `launch_announces`, `answered_in_place_partial`
* `Tinymist.DiagConvert`: `spanId_place`
* `Tinymist.DocText`: `bare_unique`, `open_backtick`
* `Tinymist.DocTypes`: `tidy`, `params_shape`
* `Tinymist.Elements`: `spread_uncounted`, `string_key`
* `Tinymist.ExportPolicy`: `signalExport_iff`, `exportBytes_iff`, `exports_agree`, `preconfig_covers`, `preconfig_only`
* `Tinymist.Exporting`: `unfinished_partial`, `panic_iff`, `onExport_writes`, `directory_blocks`, `directory_missed`, `same_for_html`, `no_first_page`, `fill_ignored`, `query_all_partial`
* `Tinymist.Fingerprint`: `u128_roundtrip`
* `Tinymist.Focus`: `pinned_stays`, `unpin_restores_partial`, `main_follows`, `answer_iff`, `preview_shows`, `configured_main`, `history_holds`, `explicit_wins`, `reload_loses_pin`
* `Tinymist.Folder`: `panic_blocks_forever`, `waiting_replaced_iff`
* `Tinymist.Folding`: `two_lines`, `of_an_element`, `starts_differ_partial`, `three_nested_clash`
* `Tinymist.FontSummary`: `bold_not_said`
* `Tinymist.Fonts`: `file_replaced`, `no_fonts_panic`, `index_not_in_source`
* `Tinymist.Groups`: `markup_fits`, `code_name`, `code_else`, `rule`, `raw_language_partial`, `raw_in_line`, `raw_of_binding`, `raw_behind_hash`, `markup`
* `Tinymist.Highlight`: `start_missed`
* `Tinymist.Hover`: `closest_unique`, `link_offered_partial`, `inner_link_offered`, `last_character_no_link`, `quote_has_link`, `escape_plain`, `unescapes_unique`, `in_quotes_unique`
* `Tinymist.ImportCursor`: `on_name`, `on_last_dot`, `on_dot_all`, `on_comma`, `on_colon`, `wildcard`, `behind`, `renamed_none`
* `Tinymist.Inlay`: `part_of_range`
* `Tinymist.Interned`: `clone_gives`, `entry_left`
* `Tinymist.Interner`: `collected_ids_resolve_wrongly`
* `Tinymist.L10n`: `filled_partial`, `filled_exists`, `filled_unique`, `swallows`, `unknown_mangled`
* `Tinymist.LatestDoc`: `answer_current_partial`, `kept_iff`, `newer`, `fresh_after_edit`, `answer_finished`, `stale_answer`, `begins`, `begins_only`
* `Tinymist.Links`: `link_leads_partial`, `rooted_link_wrong`
* `Tinymist.Lint`: `jumps_partial`, `returns_partial`, `no_false_alarm`, `discarded_partial`, `before_return`
* `Tinymist.Lock`: `resource_path_with_colon_unreadable`, `lock_roundtrip_partial`
* `Tinymist.LockFlow`: `lost_without_locks`, `reader_finds_empty`, `killed_tears`
* `Tinymist.Members`: `shown`, `item_of`, `kind_only`
* `Tinymist.Mirror`: `replay_without_mirror`, `mirror_written`
* `Tinymist.Mode`: `mode_within`
* `Tinymist.Naming`: `others_offered`, `elsewhere_heard`, `number_quiet`
* `Tinymist.OnEnter`: `comment_insertion`, `math_insertion`, `edit_in_place`
* `Tinymist.Origin`: `opaque_page_refused`, `header_inj`, `path_refused`, `page_opens`, `no_origin_served`
* `Tinymist.Outline`: `lists_bookmarked`, `nested_rightly`
* `Tinymist.OutlineFlow`: `latest_shown`, `never_back`, `places_kept`, `no_more_than_asked`
* `Tinymist.OutlineMany`: `places_swapped`, `queue_bounded`, `no_more_than_asked_many`
* `Tinymist.Packages`: `kept_for_ever`, `local_first`, `installed_found`, `index_once`, `nothing_lost`, `template_copied`
* `Tinymist.Packs`: `dir_copy_partial`, `copy_escapes`, `copy_stops`, `read_dir_partial`, `read_archive_partial`, `long_names_cut`
* `Tinymist.Pages`: `unselected_exports_all_partial`, `editor_selection`
* `Tinymist.PathPattern`: `no_output`
* `Tinymist.Paths`: `clean_denotes`, `clean_eq_iff`
* `Tinymist.PkgDocs`: `renamed_dangling`, `module_dangling`
* `Tinymist.Pointer`: `name_found`, `name_before_mark`, `ref_found`
* `Tinymist.Position`: `position_round_trip`, `position_monotone`, `position_injective`, `past_end_clamped`, `lands_on_boundary`, `utf8_total`, `column_past_document_fails`, `utf16_units`, `past_end_reported`, `texts_stay_equal_partial`, `reversed_range_panics`, `column_past_document_panics`, `utf8_ordered_no_panic`
* `Tinymist.PreviewEditor`: `survives_partial`, `goes_on_iff`, `served`, `webview_jump_ends_connection`, `malformed_span_panics`
* `Tinymist.PreviewRender`: `latest_shown_partial`, `ordinary_turn_shows_latest`, `settles`, `no_request_lost`, `taken_stays`, `mixed_only_when_shown`
* `Tinymist.Project`: `older_edit_wins`, `open_buffer_lost`, `restarted_project_stuck`, `status_out_of_order`, `restarted_statuses_dropped`
* `Tinymist.Rename`: `other_paths_untouched`, `own_path_changed_iff`
* `Tinymist.Renaming`: `prepared_iff`, `renamed_offered_partial`, `field_renamed_unoffered`, `own_files_only`, `native_stays`, `labels_stay`, `module_name_stays`, `path_shown_without_quotes`, `alias_shown_by_other_name`, `goto_file`, `selection_inside`, `offered_can_be_gone_to`
* `Tinymist.RevCache`: `put_newest`, `unlock_keeps`, `oldest_unlock`, `sweep_keeps`
* `Tinymist.Routes`: `nearest_unique`
* `Tinymist.Sampled`: `values_shown`, `runs_unique`, `hidden_iff_partial`, `equal_values_merged`
* `Tinymist.Scan`: `union_parts`, `grouping`, `given_same`, `closure_cast`, `file_param`, `value_type`, `other_param`
* `Tinymist.Scoping`: `for_iterable_wrong`, `default_wrong`, `assignment_wrong`, `heading_wrong`, `context_wrong`, `export_wrong`, `import_path_wrong`, `import_source_wrong`, `import_builtin_wrong`, `references_once_partial`, `facade_hides`, `rename_breaks_alias`, `rename_captures`
* `Tinymist.Sections`: `hierarchy_complete`, `outline_complete_partial`, `outline_sound`, `headings_listed`
* `Tinymist.Selection`: `end_has_no_answer`
* `Tinymist.Server`: `only_getResources_panics_partial`
* `Tinymist.ShardMap`: `access_in_bounds`, `get_last`, `items_exact`
* `Tinymist.SigCache`: `answer_from`, `right_alone_partial`, `age`, `fresh`, `stale`, `settles`, `kept`
* `Tinymist.SnapshotMap`: `behaves_like_copies`, `close_unopened`
* `Tinymist.SourceDb`: `reads_see_first_content`, `first_answer_is_earlier`, `dependencies_exact`
* `Tinymist.Stats`: `durations_are`, `report_sorted`, `alloc_row`, `alloc_bounds`, `alloc_sorted`, `human_unit_partial`, `largest_last`, `human_panics`
* `Tinymist.Symbols`: `found_are_symbols`, `search_answers_partial`, `headings_found_partial`, `search_exact_partial`, `labels_listed_partial`
* `Tinymist.Testing`: `watch_update`
* `Tinymist.Tips`: `argument_name`, `argument_string`, `param_only`, `option_only`, `closure_shown`, `nothing_on_trivia`
* `Tinymist.TokenDelta`: `token_delta_roundtrip`, `token_delta_in_bounds`, `token_delta_empty_iff`
* `Tinymist.Tokens`: `wanted_tiles`
* `Tinymist.Trace`: `stops_when_idle_partial`
* `Tinymist.TypeOffer`: `walk_ends`, `texts_twice`, `names_iff_partial`, `modifiers_anyway`, `params_iff`
* `Tinymist.Types`: `behind_sink_wrong`, `sink_wrong`, `spread_wrong`, `annotated_wrong`, `rests_match`, `no_variables`, `nothing_made_up`, `second_function_lost`
* `Tinymist.Universe`: `revision_identifies_partial`, `change_counts`, `nothing_counts`, `entry_set`, `inputs_set`, `fonts_set`, `packages_set`, `same_providers_silent`, `same_day`, `tried_texts_private_partial`
* `Tinymist.Uris`: `url_taken`, `hash_cut`
* `Tinymist.Vfs`: `repeatable_read`, `not_isolated_when_read_overlaps_edit`, `reset_is_dirty`
* `Tinymist.Waiting`: `never_stuck_partial`, `ends`, `all_done`, `one_thread`, `deadlock`
* `Tinymist.Watch`: `last_report_is_disk_partial`, `last_report_is_disk_unwatched`, `removal_not_reported`, `truncation_not_reported`, `second_look_reported`, `stale_look_loses_error`, `dependency_reported`, `only_dependencies_watched`, `dependencies_watched`, `forgotten_after_30`, `watched_stays`, `directory_not_watched`, `removal_unwatches`
* `Tinymist.WebTokens`: `tokens_of_document_partial`, `every_character`, `overlap`, `length_not_bytes`
* `Tinymist.WordCount`: `runs_exist`, `runs_unique`, `count_append`
* `Tinymist.Workspace`: `file_id_denotes`, `file_inside_root`, `ids_distinguish_roots`, `vpathResolve_spec`, `entry_is_the_file`, `entry_resolves`, `not_on_disk`, `ws_import_panics`, `gone_package_noticed`

Axioms: none.

* `Tinymist.Bib`: `alias_missed`
* `Tinymist.Breakpoint`: `no_session_ever`
* `Tinymist.Click`: `no_text_no_position`
* `Tinymist.Clock`: `plain_utc`
* `Tinymist.Complete`: `identifier_edit_at_cursor`, `label_edit_elsewhere`, `last_bound_decides`
* `Tinymist.Debugging`: `launch_refused`, `evaluation_hangs`, `never_begins`, `end_announced`
* `Tinymist.Focus`: `refused_pin_pins`, `refused_focus_followed`, `preview_and_pin`
* `Tinymist.Inlay`: `in_order`
* `Tinymist.Jump`: `shown_in_order`
* `Tinymist.L10n`: `message_shown`
* `Tinymist.Lock`: `transforms_lost`
* `Tinymist.Pointer`: `one_meaning`
* `Tinymist.PreviewRender`: `reaches_preview_iff`, `status_told_iff`
* `Tinymist.RevCache`: `last_unlock`
* `Tinymist.Routes`: `priority_ignored`
* `Tinymist.Scan`: `bool_type`
* `Tinymist.SnapshotMap`: `commit_out_of_order`
* `Tinymist.TokenCache`: `clear_reuses_result_ids`, `clear_panics`
* `Tinymist.Trace`: `stderr_lost`
* `Tinymist.TypeOffer`: `not_narrowed`
* `Tinymist.Universe`: `mutate_entry_silent`, `with_entry_file_silent`
* `Tinymist.WebTokens`: `legend_distinct`
* `Tinymist.WordCount`: `html_paragraphs_merge`

Axioms: propext.

* `Tinymist.Alias`: `simplified`
* `Tinymist.CallArgs`: `set_rule_highlights_nothing`
* `Tinymist.Click`: `link_in_group_falls_through`
* `Tinymist.Clock`: `moment_stays`
* `Tinymist.CodeAction`: `wrap_crosses`
* `Tinymist.Coloring`: `legend_types`, `legend_modifiers`, `plain_shown`, `in_node_shown`, `times_text`, `bit_names`
* `Tinymist.Complete`: `identifier_replaced`, `kind_told_partial`, `path_read_partial`
* `Tinymist.Compute`: `compiler_acyclic`, `copy_runs_again`, `provider_told`
* `Tinymist.Constrain`: `elements_not_compared`, `all_alternatives`
* `Tinymist.Context`: `behind_blank_partial`, `bad_needs`, `behind_block`, `behind_word`
* `Tinymist.Debugging`: `only_bad_launch_panics`, `thread_order`, `last_evaluation_hangs`, `threads_announced`
* `Tinymist.DiagFlow`: `stale_lint_shown`, `closed_project_shown`
* `Tinymist.DocTypes`: `vars_all`, `operator_ignored`, `closure_reads`, `param_stands`, `order_matters`, `rest_reads`
* `Tinymist.ExportPolicy`: `shouldRun_iff`, `shouldRun_decides`, `shouldLint_iff`, `due_merge`
* `Tinymist.Exporting`: `same_target`, `pretty_ignored`
* `Tinymist.ExprTy`: `loop_type_lost`, `loop_addition_lost`, `value_beside_variable_lost`, `markup_as_code`, `spread_lost`
* `Tinymist.Focus`: `focusing_followed`
* `Tinymist.Folder`: `other_project_lost`
* `Tinymist.Groups`: `fits`, `nowhere`, `code_hash`, `code_blank`, `math`
* `Tinymist.ImportCursor`: `on_bare_colon`
* `Tinymist.Inlay`: `hint_outside`
* `Tinymist.Interned`: `intern_gives`, `others_stay`
* `Tinymist.LatestDoc`: `other_file`
* `Tinymist.Lint`: `never_panics`, `argument_unseen`, `returned_unseen`, `sometimes_kept`, `rule_in_effect`, `discarded_unseen`, `reported_once`, `before_branches`, `before_jump`
* `Tinymist.Lock`: `crash_leaves_old_or_prefix_partial`, `resource_path_roundtrip_partial`, `resource_path_reads_exactly`, `transforms_written`, `written_tasks_differ`
* `Tinymist.LockFlow`: `zeros_without_locks`
* `Tinymist.Members`: `kind_of_all`
* `Tinymist.Mode`: `reads_unique`, `block_behind_hash`, `end_of_file_markup`
* `Tinymist.Naming`: `asked`, `marks_heard`
* `Tinymist.Outline`: `belongs_unique`
* `Tinymist.OutlineFlow`: `places_lost`, `nothing_by_itself`
* `Tinymist.OutlineMany`: `goes_back`
* `Tinymist.Packs`: `dotted_base_empty`
* `Tinymist.Pages`: `accepted_bounds`
* `Tinymist.PkgDocs`: `shorter_missed`
* `Tinymist.PreviewRender`: `sends_known`, `stale_after_full`
* `Tinymist.Project`: `ids_not_distinct`, `removed_while_compiling`, `save_not_notified`
* `Tinymist.Recorded`: `recorded_id`
* `Tinymist.Rename`: `include_not_updated`, `reading_not_updated`, `own_paths_redirected`, `moved_imports_break`, `at_sign_breaks`
* `Tinymist.Renaming`: `references_found`, `goto_name_partial`, `goto_entry`, `goto_module`, `element_missed`, `no_document`
* `Tinymist.RevCache`: `made_once`, `race_at_start`, `two_projects`, `types_stale`, `reused`, `reused_alone`, `circle_order`
* `Tinymist.Sampled`: `runs_expand`, `other_function_hidden`
* `Tinymist.Scan`: `own_types`
* `Tinymist.Scoping`: `alias_hides`, `cycle_repeats`
* `Tinymist.Server`: `getResources_without_args_panics`, `exit_without_shutdown_reported_as_success`, `exit_reported_partial`
* `Tinymist.Stats`: `unfinished_row`
* `Tinymist.TokenCache`: `clear_makes_delta_wrong`
* `Tinymist.TypeOffer`: `narrowed_iff`
* `Tinymist.Types`: `tuple_at`, `loop_loses`
* `Tinymist.Universe`: `task_world`, `export_worlds`, `symbols_disturb`
* `Tinymist.Uris`: `root_lost`, `untitled_slash_lost`, `percent_read`, `other_scheme_confused`, `untitled_escapes`, `others_kept`
* `Tinymist.Vfs`: `snapshot_sees_later_edit`, `not_isolated_after_report_of_unread_file`, `not_isolated_after_buffer_by_id`, `eviction_breaks_repeatable_read`, `clean_check_wrong_when_edit_overtakes_read`, `clean_check_wrong_after_reset`, `clean_check_wrong_after_eviction`, `shadow_not_undone_over_buffer`
* `Tinymist.Watch`: `same_report_twice`
* `Tinymist.WordCount`: `layout_irrelevant`
* `Tinymist.Workspace`: `same_root_same_id_partial`, `other_imports_safe_partial`
