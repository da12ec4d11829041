# Formal model of dissemia/disseminate in Lean 4

## Layout

* `lean/Verif/Model/*.lean`: the model, one file per area of the code. Every definition cites the file and lines of
  `/repo` it models and says where it simplifies.
* `lean/Verif/Spec/*.lean`: small specifications used in the statements of theorems (what "balanced", "in order" or
  "flat" mean). They use the data types of the model, not its functions.
* `lean/Verif/Lemmas/*.lean`: helper lemmas; nothing here is claimed.
* `lean/Verif/Props/*.lean`: the theorems of the properties (listed in `MANIFEST.json`) with, next to each, an `example`
  that shows that its hypotheses are met by a concrete case.
* `properties.jsonl`: the properties in English.
* `seeded/LOG.jsonl`: wrong programs the theorems were tried against: the definition that was changed, the claim it breaks,
  the theorems that failed, and those that were tightened because nothing failed.

## How the code is read

* A Python `str` is a list of characters, a `list` is a list. A `dict` is the list of its items in order of insertion,
  with distinct keys (Python 3.7 or later). Where the code cannot observe the order of a `set`, it is a list.
* A raised exception is the `error` case of `Except`, or `none` where there is one kind of error.
* Mutation gives the new value. Where objects are shared (contexts, tags, documents), there is an explicit heap.
* A regular expression is a hand-written matcher with the same greedy semantics, cited with the pattern. Classes of
  characters such as `\w` and `\s` are parameters, so the theorems hold for every reading of Unicode.
* A loop or recursion that need not end has a bound (`fuel`); theorems quantify over all bounds or find a sufficient one.
* The file system, the clock, subprocesses, hash functions and what receivers of signals do are parameters: theorems hold
  for all of them, and for any change of them between calls.

Where a property is false of the code, the theorems say so: a concrete case is proved to break it, and a theorem with the
suffix `_partial` proves what is left.


## Properties

For each property: what is modelled, how it is proved, and what holds, is missing or is refuted. The theorems are listed in
`MANIFEST.json`; those that end in `_partial` prove a part, the others that refute a claim say so in their comments.

### C01 Parsing a document body never loses, duplicates or reorders text

* Modelled: `parse_tags` with its regular expressions and brace counter, as a scanner over the characters (Model/Parser).
* Proof: Induction on the text that remains; the source of each tag is stored with it in the specification, so the statement is that the sources concatenate to the text.
* Status: proved, 3 theorems. Losslessness, plain text and tag recognition hold for every text.

### C02 A tag owns exactly the text up to its matching brace, and an unclosed tag is an error

* Modelled: As C01; the loop that counts braces and its limit.
* Proof: Induction on the text, against a separate definition of balanced text and nesting depth.
* Status: partial, 6 theorems. Matching braces and errors are characterised exactly; the code rejects properly closed tags whose content nests braces nine or more deep (C02_deep_nesting_rejected), so the error characterisation is relative to depth 8.

### C03 Target-specific attributes win, and other targets' attributes never leak

* Modelled: `Attributes.get`, `find_item`, `strip_attr`, positional values (Model/Attributes).
* Proof: Case analysis on the order of lookups over all dicts; refinement to a lookup in the specification.
* Status: partial, 8 theorems. Precedence and no-leak hold for names. Refuted parts: values that end in a target suffix are cut (C03_value_is_stripped); positional values of other targets are returned (C03_positional_leaks) and matched without separator (C03_positional_no_separator).

### C04 Filtering attributes for a target yields only requested attributes, each at most once

* Modelled: `Attributes.filter` with its sorting by target.
* Proof: List induction; the answer is characterised by name, value and order.
* Status: partial, 8 theorems. Entries, uniqueness and requested order hold in full; the dict order holds for names with a plain entry, refuted for names with only a target-specific entry (C04_order_of_specific_entries).

### C05 Attribute strings round-trip

* Modelled: `Attributes.load` with its regular expression as a matcher; `Attributes.html`.
* Proof: Induction on the entries that are spelled.
* Status: partial, 5 theorems. Spelled strings load to the entries; html round trip for values that quoting can carry; refuted for values with quotes (C05_quote_lost, C05_html_apostrophe).

### C06 Context updates never change the type of an existing entry, never touch other entries

* Modelled: `BaseContext.match_update` on a heap with shared objects (Model/Context).
* Proof: Invariants on the heap; an independent value-level specification by structural rules (Spec/ContextTree); induction on the bound of nesting.
* Status: partial, 10 theorems. Exact values at any nesting, for contexts and changes whose objects occur at one place (C06_update_nested, with the rules in Spec/ContextTree; C06_rules and C06_kinds_along_paths derive the English claims). Kinds with any sharing (C06_kinds_at_any_depth). Entries that share an object change together (C06_aliased_entries_change_together), so the full claim needs the separation. A truth value changed with a truth value raises (C06_bool_update_raises).

### C07 Updating a document's context never alters its parent or the source of the update

* Modelled: As C06, for parents and initial values.
* Proof: Separation of addresses, kept by every operation of a history.
* Status: partial, 4 theorems. Holds for flat parents and initial values; refuted for values nested two deep, which are shared (C07_nested_values_are_shared). A single update never changes the changes, at any nesting (C07_changes_untouched_nested).

### C08 Reset makes context state a function of its initial values

* Modelled: `BaseContext.reset` as C06.
* Proof: Histories of updates followed by a reset are compared to a fresh context.
* Status: partial, 3 theorems. Holds for flat parents and initial values without excluded entries; refuted otherwise (C08_excluded_entry_grows, C08_nested_values_are_not_restored).

### C09 The header is split off the body without loss

* Modelled: The regular expression of header blocks as a matcher (Model/Header).
* Proof: Induction on lines; the header is characterised by the first and last delimiter.
* Status: proved, 7 theorems. 

### C10 Labels are unique per document and id, whatever the history of edits

* Modelled: `LabelManager` with its dict of labels: `add_label`, `reset`, `register` (Model/Labels).
* Proof: Invariant over histories of calls.
* Status: proved, 2 theorems. Full: for all histories of add, reset and register.

### C11 A label lookup returns the label that was added, or LabelNotFound

* Modelled: `get_label`, `get_labels_by_id`, `get_labels_by_kind`, identifiers with a document part.
* Proof: Invariant of C10, case analysis on identifiers.
* Status: partial, 8 theorems. Lookup exact for all reachable states; identifiers with two separators are misread (C11_two_separators).

### C12 Registration orders labels by document order and drops labels of removed documents

* Modelled: `register_content_labels`, the order of documents in the tree.
* Proof: List induction; stability of sorting.
* Status: proved, 6 theorems. Full, with and without a root document.

### C13 Label numbers count consecutively and restart exactly where configured

* Modelled: `register_orders` and its counters.
* Proof: The counters are refined to 'number of labels of the kind since the last reset'.
* Status: proved, 7 theorems. Full for the numbers; lookups by several kinds list a label twice (C13_by_kinds_lists_twice).

### C14 Hierarchical numbers point at the enclosing part, chapter and section

* Modelled: The links to enclosing headings in `register_orders`.
* Proof: Loop invariant over the list of labels.
* Status: partial, 5 theorems. Exact for labels that had no link before (so for the first registration); false after project changes (C14_stale_link).

### C15 Forgetting a document's labels forgets exactly those

* Modelled: `LabelManager.reset` for documents.
* Proof: Filter characterisation.
* Status: proved, 4 theorems. Full.

### C16 Loading a project terminates and loads every included file once

* Modelled: `Document.load` and `load_subdocuments` over a file system that says what each file includes, with a bound on the recursion (Model/Document).
* Proof: Termination is characterised by the absence of endless include chains; counterexamples are runs of the model for all bounds.
* Status: partial, 10 theorems. Termination is characterised exactly (C16_terminates): loading ends iff all reachable files load and there is no endless include chain avoiding the root. The English claim is false of the code: a cycle that avoids the root never ends (C16_cycle_never_ends), a file included in two places is loaded twice (C16_diamond_loads_twice), a duplicate include line loses documents (C16_duplicate_loses), a document can be listed after one it includes (C16_order_refuted). Reading order is proved if the root has no duplicate includes; loading once is proved if each file is included in one place.

### C17 A document reloads exactly when its file, or a changed ancestor, requires it

* Modelled: `load_required`, modification times, and the text and includes of files (Model/Document).
* Proof: Induction over histories of loads with arbitrary changes of times. For histories with any edits: an invariant that a loaded document is up to date or older than its file (Lemmas/DocumentFresh), where each file is included in one place, an invariant of the loop over includes that describes the tree of documents (Lemmas/DocumentAnew), and that documents never get below themselves, so that a load that works anew works (Lemmas/DocumentWorks).
* Status: partial, 13 theorems. The reload decision, its exact effect for every history of loads with arbitrary modification times, and that a second load does nothing, are proved for projects whose includes stay the same and form a tree. For arbitrary edits, with failing loads in between: C17_fresh (all that was loaded is up to date; no condition on includes), C17_works (if loading anew works, so does loading again; no condition on includes), C17_listed (the list of documents always ends) and C17_anew_partial (loading again equals loading anew, if each file is included in one place; false otherwise, C17_anew_refuted). Findings: grandchildren are not reloaded (C17_grandchild_not_reloaded), a file with an older time is not reloaded (C17_older_file_not_reloaded), a document can be reloaded at each load although no file changes (C17_reloads_forever).

### C18 A build step never starts before its prerequisite step is done

* Modelled: `CompositeBuilder.build` and `status` over arbitrary sub-builders (Model/Builder).
* Proof: Invariant over histories of calls with an arbitrary world in between.
* Status: proved, 2 theorems. Every history of calls, with arbitrary changes of the world between and during calls; sub-builders are arbitrary (status, build) machines, so nesting is covered by taking a composite as a sub-builder.

### C19 Parallel builds finish, and report failure or success truthfully

* Modelled: As C18 for parallel builders, with `build(complete=True)`.
* Proof: Invariants; a measure for completion.
* Status: partial, 6 theorems. Status, never-dropped, only-ready and completion hold for every history. 'Starts every sub-build that is not done' is false: a missing or cancelled sub-builder blocks the later ones (C19_blocked); without such a one it holds (C19_all_started_partial).

### C20 A successful build is not repeated, and any change triggers a rebuild

* Modelled: `Md5Decision` with its database, hash function as a parameter (Model/Decider).
* Proof: Invariant over histories of builds; injectivity of the hash is an explicit hypothesis where it is needed.
* Status: partial, 5 theorems. False as stated when another builder records the same inputs with another output: the database is keyed by the input digest alone (C20_shared_inputs). C20_exact gives the answer for every history, C20_change shows that no change is missed, C20_not_repeated_partial excludes such other builders.

### C21 The input digest does not depend on the order of inputs

* Modelled: `hash_items`.
* Proof: Sorting of a permutation; injectivity hypothesis for the other direction.
* Status: proved, 3 theorems. C21_order and C21_different (both directions). Finding: the kind and the name of an input are not part of the digest (C21_names_ignored).

### C22 Hashing a pdf does not depend on the read-chunk size and ignores only dates and ids

* Modelled: `line_splitter`, `hash_pdf`.
* Proof: Induction over the chunks.
* Status: proved, 6 theorems. C22_pdf gives the hashed text for every content and chunk size. Finding: line breaks are not hashed (C22_line_breaks_ignored).

### C23 The builder chosen for a conversion is available, matches, and has the highest priority

* Modelled: `Builder.find_builder_cls` (Model/Builder).
* Proof: List induction over the registry.
* Status: proved, 3 theorems. The registry is that of the first call: the code caches it. With a target the output extension is ignored (C23_out_ext_ignored), and a missing copy builder gives a KeyError instead of a BuildError.

### C24 Signal receivers run once each, in ascending order, and no order is used twice

* Modelled: `Signal.connect`, `emit`, `reset`, weak references (Model/Signals).
* Proof: Invariant over histories.
* Status: proved, 6 theorems. Every history of connects and resets, receivers that raise, die or change the world during emission; the tag signal's switches too.

### C25 Macros are fully substituted and substitution terminates

* Modelled: `replace_macros` with a bound on its loop (Model/Macros).
* Proof: Counterexample runs for all bounds; a measure for the positive theorems.
* Status: partial, 7 theorems. Termination and complete substitution hold if the values have no '@' and macros can be told apart (Good). In general both are false: C25_does_not_end, C25_left, C25_left_at.

### C26 Paragraph grouping keeps all text and splits exactly at blank lines

* Modelled: `group_paragraphs`, `clean_paragraphs`, `assign_paragraph_roles`, `process_paragraph_tags` (Model/Paragraphs).
* Proof: List induction.
* Status: proved, 9 theorems. group_paragraphs, clean_paragraphs, assign_paragraph_roles and the P conversion over abstract tags. Finding: blank content becomes an empty list (C26_blank_content).

### C27 List levels reflect indentation and nesting keeps every item in order

* Modelled: `parse_string_list`, `clean_string_list`, `normalize_levels`, `xhtml_list` (Model/ListTag).
* Proof: List induction; the html nest is compared to the levels.
* Status: partial, 10 theorems. Parsing, cleaning, levels and html nesting are proved for all inputs; the depth equals the level only for well-nested levels (C27_html_depth_partial), and is refuted otherwise (C27_html_depth_false). Spaces on blank lines count as indentation (C27_blank_line_counts).

### C28 Verbatim LaTeX never ends early

* Modelled: `tex_verb` (Model/Formats).
* Proof: Case analysis.
* Status: partial, 2 theorems. Holds unless the text has all of | ! ^; such text is returned without a command (C28_all_delimiters).

### C29 Only allowed LaTeX commands and environments are produced, with the arguments they need

* Modelled: `tex_cmd`, `tex_env` with the tables of the settings.
* Proof: Reduction to the attribute theorems C03, C04.
* Status: proved, 9 theorems. Exact output for required and optional arguments, for the tables of the settings. Values are not escaped (C29_injection).

### C30 Only allowed html tags and attributes are produced

* Modelled: `xhtml_tag` up to the element that lxml serialises.
* Proof: Reduction to the attribute theorems C03, C04.
* Status: proved, 4 theorems. Exact attributes, names, content and errors, for the element before serialisation by lxml. Finding: C30_html_entry_ignored.

### C31 Percentage widths map to the nearest larger supported width class

* Modelled: `percentage`, `tex_percentwidth`, `xhtml_percentwidth`.
* Proof: Arithmetic over rationals, for all widths.
* Status: partial, 10 theorems. Holds for all percentages but 34, which has no class (C31_gap); negative widths use the absolute value (C31_negative).

### C32 Renaming and re-targeting paths keeps the parts that were not asked to change

* Modelled: `rename`, `SourcePath`, `TargetPath` over a model of pathlib (Model/Paths).
* Proof: Case analysis on parts; list induction.
* Status: partial, 18 theorems. rename, use_name, use_suffix and use_subpath are proved for every path, given as a directory and a name. Partial: the suffix read back equals the one given only for suffixes with a single period (C32_use_suffix_refuted), rename adds a period to a name without extension (C32_rename_adds_period) and a target ending in a period is changed (C32_target_changes).

### C33 File search honours the order of search paths and never invents a file

* Modelled: `find_files`, `find_file` over any file system.
* Proof: List induction.
* Status: proved, 9 theorems. find_file is proved equal to taking the first location with a file, for every file system, including the case of OSErrors. A search path obtained from a SourcePath by a pathlib operation is excluded: its files are looked for in a directory named None (C33_untracked_lost).

### C34 Output paths of different inputs do not collide and stay inside the target directory

* Modelled: `generate_outfilepath`.
* Proof: Case analysis; refutations by concrete paths.
* Status: partial, 10 theorems. Location of the output proved for relative inputs. Partial: a name that starts like the media path is not placed there, absolute inputs with the same name and files already in the media directory collide, and '..' escapes the target directory (refutations given).

### C35 Project roots are found once and do not nest

* Modelled: `Environment._get_src_filepaths` over directory trees.
* Proof: Structural induction on the tree.
* Status: proved, 4 theorems. Proved for every directory tree; glob looks at names only, so a directory with the extension is taken for a document (C35_directory_taken).

### C36 List utilities obey their laws

* Modelled: `utils/list.py` (Model/Lists).
* Proof: List induction.
* Status: proved, 10 theorems. transpose needs at least one row and one column, see C36_transpose_no_columns.

### C37 Splitting strings into lists keeps entries intact

* Modelled: `str_to_list` (Model/Utils).
* Proof: List induction over the pieces.
* Status: partial, 7 theorems. False as stated for semicolons and commas: empty entries are kept, and a text without separators is returned unstripped (C37_empty_entries). Everything else is proved: the exact result for every text, via its pieces.

### C38 Indented header text parses to the nested entries it spells

* Modelled: `str_to_dict`.
* Proof: Induction over the lines.
* Status: proved, 6 theorems. C38_blocks gives the exact dict for every list of lines, C38_blocks_unique shows its blocks are determined, C38_entry and C38_no_entry say which lines are entries, C38_round_trip inverts the canonical text. C38_odd_lines shows two surprising cases.

### C39 Longest-key-first lookup of format strings

* Modelled: `find_entry` of `utils/dict.py`.
* Proof: List induction.
* Status: proved, 2 theorems. 

### C40 Previous and next links follow reading order

* Modelled: `set_navigation_labels` (Model/Navigation).
* Proof: List induction over the documents.
* Status: partial, 3 theorems. Holds for the targets of the last document in the tree (C40_links_partial); for other targets the entries are never set or removed (C40_other_targets, C40_tex_links_missing).

### C41 Tables of contents list the requested labels and abbreviate only other documents

* Modelled: `Toc` construction and its abbreviation.
* Proof: List induction.
* Status: partial, 9 theorems. Lists are exact; 'abbreviated' holds for headings or documents alone (C41_abbreviated_partial, refuted for both by C41_abbreviated_twice); entries show their labels if the ids differ (C41_shown_partial, refuted in general by C41_same_id).

### C42 Delimited data keeps all its columns and rows

* Modelled: `Data` tags from the rows of the csv module (Model/Data).
* Proof: List induction.
* Status: partial, 11 theorems. Proved for tables of rows as the csv module gives them, ragged ones included: columns up to the shortest row. Not as stated: a header without rows, or one row without header, is lost (C42_single_row); columns of the same name are merged (C42_same_names); an empty source raises StopIteration (C42_empty). C42_tex_row_partial leaves out cells with backslashes, of which an escaped ampersand breaks the table (C42_escaped).

### C43 Dependency availability is the and/or of its parts

* Modelled: `SoftwareDependencyList`, the checkers and their version comparison (Model/Checkers).
* Proof: Structural induction on dependency trees.
* Status: partial, 24 theorems. Availability, lookup and flattening are proved for every tree; the package part holds if no other installed name begins with the required one (C43_package_partial), and the check of a list of lists if their categories differ; the failures are proved as C43_other_package_taken, C43_package_hidden, C43_version_without_operator, C43_second_list_ignored.

### C44 Copying a tag is deep, replacing its context is complete

* Modelled: `copy_tag`, `replace_context` on a heap (Model/Tags).
* Proof: Heap invariants: fresh addresses, reachability.
* Status: partial, 9 theorems. Copies share nothing with the original and replacing the context reaches every tag, proved for all heaps; replacement is proved for tags without lists in lists and refuted for tags in nested lists (C44_nested_list_keeps_context). Attributes other than name, attributes, content and context are not modelled.

### C45 Typographic replacement keeps words and is stable

* Modelled: `process_typography` and its regular expressions as matchers (Model/Typography).
* Proof: Induction on the text.
* Status: proved, 14 theorems. Proved for all texts, all trees and all classes of characters that separate spaces, word characters and the dashes and quotes; paragraph breaks beside dashes are lost (C45_paragraph_break_lost).

### C46 The right tag class is used for a name

* Modelled: `TagFactory` and the table of classes.
* Proof: List induction, for all class lists with distinct names.
* Status: proved, 7 theorems. Proved for every list of classes with distinct names, and for the class table of the package; listing an alias as inactive has no effect (C46_inactive_alias).

### C47 Common-prefix and grouping helpers

* Modelled: `find_basestring`, `group_strings`.
* Proof: List induction.
* Status: proved, 4 theorems. find_basestring and group_strings (strings, empty and nested lists). Finding: grouping is not idempotent.

### C48 Parameter tuples are validated or rejected, never mangled

* Modelled: `validate_tuple` and the arguments of `PdfCrop` (Model/Validators).
* Proof: Case analysis.
* Status: partial, 8 theorems. validate_tuple is proved to return a tuple exactly for an iterable of the right length whose items convert. Not as stated: with raise_error=False a ValueError of an item is raised anyway (C48_raises_anyway). The arguments of the crop builder are modelled too; an integer offset is ignored (C48_single_offset_ignored).

### C49 Rendering of mixed content concatenates its parts

* Modelled: `format_content`, `content_to_str`, `Tag.default_fmt`.
* Proof: Structural induction on tag trees.
* Status: partial, 5 theorems. Proved for contents without lists in lists; nested lists raise a TypeError (C49_nested_list_error).

### C50 A failed or missing command never counts as built, a running one is never started twice

* Modelled: `Builder.build`, `status` with a process that ends at any time in any way.
* Proof: Invariant over histories.
* Status: proved, 6 theorems. At most one submission in any history, building while running, done only after success or when up to date, failures raise. Finding C50_stale: a builder never runs twice, so it records a stale output as up to date when an input changes after its run.

### C51 Parsing parsed content again changes nothing

* Modelled: `parse_tags` on parsed content.
* Proof: Structural induction.
* Status: partial, 2 theorems. Idempotent when no tag with content processing turned off occurs; refuted otherwise by C51_reparse_raw_changes.

### C52 The LaTeX of a tag tree has all its text, in order, in the right commands

* Modelled: `tex_fmt` of text, box, note, figure, heading and equation tags (Model/Render) with the tables of the settings (Model/Settings).
* Proof: Structural induction on tag trees against an inductive relation between trees and LaTeX.
* Status: partial, 6 theorems. Proved for all trees without headings that have no label and without @verb of a text with all three delimiters. A heading with nolabel loses its text in LaTeX (C52_heading_lost). Equations are in the trees with their content; tables, lists, images and references are in them as tags of which only the result is known (it has their texts).

### C53 The html of a tag tree has all its text, in order, in allowed elements

* Modelled: `html_fmt` of the same tags up to the element tree.
* Proof: Structural induction on tag trees against an inductive relation between trees and elements.
* Status: proved, 4 theorems. Proved for all trees. Equations, tables, lists, images and references are in the trees as tags of which only the result is known (with their texts, in allowed elements). Not modelled: what lxml refuses in text, attributes and entity names, and serialisation.

### C54 References and links lead to what they name

* Modelled: `TargetPath.get_url` with `os.path.relpath`, and the links of `Ref` (Model/Links).
* Proof: Walking the link from the directory of the page, against a walk relation on names; induction on the names.
* Status: partial, 14 theorems. Links read back by walking names; files with a '#' in the name, hidden directories in absolute links and LaTeX references without a pdf target are shown not to work (C54_hash_in_name, C54_hidden_directory, C54_tex_without_pdf).

### C55 Headings, captions and references show the title and number of their label

* Modelled: `titlelize`, `generate_label_id`, `create_label` of headings and captions, `format_string` with `label_fmts`, `Heading.tex_fmt` (Model/LabelText).
* Proof: Titles against a relation on sentences and words; texts by composing the theorems about numbers (C13, C14) with those about macros (C25); LaTeX by composing with C29 and C45.
* Status: proved, 23 theorems. Texts are proved for titles without '@'. Findings: headings of two documents with the same id attribute show the title and number of the first one (C55_other_heading); '--' in an id becomes a dash in the LaTeX label (C55_label_dash); a heading is cut behind an abbreviation (C55_title_cut); titlelize is not idempotent (C55_title_not_stable); a caption without number shows the macro (C55_caption_not_numbered).

### C56 Each listed target of a document has one file in a predictable place

* Modelled: Model/Targets: the properties targets and includes of the context, target_filepath(s), add_target_builders with the constructors of the target builders as far as they create target builders and output files
* Proof: An invariant of the tables of builders (each builder is the one made for its document and target, and is wanted; .pdf implies .tex, .epub of the root implies .xhtml everywhere) is kept by every step, for targets in any order; the theorems give the files of each document as an equivalence (C56_target_filepath, C56_target_filepaths), failure exactly if a target is impossible (C56_impossible), independence of order (C56_order) and absence of clashes (C56_no_clash). Entries and include lines by C37 and the theory of split. Partial: files coincide for documents that differ in their extension (C56_same_stem), paths with '..' are not simplified (C56_include_not_simplified), a sub-document that lists .epub has no file for it (C56_epub_of_root), a single name is not trimmed (C56_single_not_trimmed)
* Status: partial, 16 theorems. Proved for projects whose documents have different, proper source paths, in environments with proper paths; the cache is the directory .cache among those of the targets for C56_no_clash. Findings: documents that differ in their extension only share their files, include lines with '..' are not simplified, a single name is not trimmed, .epub of a sub-document is ignored. The state after an exception and the subbuilders other than target builders are not modelled.

### C57 Functions for texts do what they say on every text

* Modelled: Model/Text (`space_indent`, `stub`, `strip_multi_newlines`, `convert_camelcase`) and the functions of Model/Utils for lines, quotes and escapes
* Proof: Each function against a relation on texts given by its parts (Lines, Joined, OneNewline, Unescaped, Quoted, CapWord): the function's result is the only text in the relation. Partial: text in front of the first capital letter is lost (C57_camelcase_loses), the quotes at the two ends need not belong together (C57_quotes_apart) and a blank line is doubled (C57_blank_doubled)
* Status: partial, 12 theorems. Texts: lines, indents, stubs, newlines, joins, camel case, quotes and escaped colons against relations that determine the result. Missing: camel case loses what is in front of the first capital letter (C57_camelcase_loses), quotes at the ends that do not belong together are removed (C57_quotes_apart), and blank lines are doubled (C57_blank_doubled), so the English claim is false of the code there.

### C58 A chain of builders turns its input into its output, step by step

* Modelled: Model/Chain: builders as trees with stored parameters and cached output paths; chain_subbuilders, outfilepath with its cache, the constructor with the added copy; running as a change of the files
* Proof: Chaining keeps the shape of the tree and gives a tree in the inductive relation Chained (C58_chained), by induction on levels; the content of the output file follows by induction on Chained, using that each step reads the file the one before has just written (C58_flow, C58_new). Success as an equivalence (C58_succeeds), failure with an empty part as a finding (C58_empty_part)
* Status: proved, 5 theorems. Proved for trees of any depth, for any steps, parameters and files. C58_empty_part records that an empty sequential builder cannot be a part of another one (IndexError).

### C59 Rendered files have names of their own

* Modelled: Model/Mock: generate_mock_parameters and the output path of JinjaRender, with the model of paths of C32-C34; hashes are given texts
* Proof: Name and place by computing with paths (C59_name_partial, C59_no_document); different documents or hashes of one length give different paths by C34 (C59_distinct_partial). Partial: for a document whose name has another period the hash is dropped by with_suffix (C59_period_loses_hash), so all its rendered files have one path (C59_clash)
* Status: partial, 5 theorems. The name of the document has one period at most. For other names the theorem is false of the code: with_suffix drops the part behind the last period, which holds the hash (C59_period_loses_hash), so different renders of a document such as a.b.dm share one file (C59_clash).

### C60 The header of a document wins over its template, the template over the templates it extends

* Modelled: Model/Template: process_headers with a disk (directories, texts, template files), the search for extends statements, context files, and the context on the heap of C06
* Proof: The result is in the relation Loaded (C60_loaded), which is built from relations for each part: Cuts, Headers, Searched, FilesOf, LastOnly, FirstOf and the rules Entry of C06, by induction over the headers, the files and the text; the order of the set of headers is any permutation. The values follow by cases for new entries, texts and lists (C60_new_entry, C60_text_entry, C60_list_entry, C60_other_entries), and the precedence of the template (C60_child_first_partial). Partial: templates extended by extended templates are not searched (C60_grandparent); a shared context file counts in the place of the last template that has it (C60_shared_file); with two headers the order of a set decides (C60_two_headers)
* Status: partial, 12 theorems. Partial: the templates that extended templates extend are not searched (C60_grandparent, a finding); a context file shared by two templates counts in the place of the later one (C60_shared_file); if two entries have headers with the same key the order of a set decides (C60_two_headers).

### C61 Links of pages lead to files that exist

* Modelled: Model/Scanner: the two regular expressions as backtracking matchers (lists of matches in the order of the engine), finditer, the filter on protocols, and the scan over parameters with a disk
* Proof: A match of the expression is a link (C61_sound, by cases over the parts), and for a usual link - one href, a name without quotes, spaces before the tag's end as in the templates - the first match in the order of backtracking is this link (C61_found, by induction over pages and over lazy and greedy repetitions). The lookup is the relation LeadsTo; the scan follows by induction over the parameters (C61_scan, C61_missing, C61_exist). Findings: C61_not_raised, C61_second, C61_unquoted.
* Status: proved, 8 theorems. Found names: for pages whose links are usual (one href per tag, quoted names). For all other pages every name found is in a link tag (C61_sound). Findings: without raise_error a missing file is an IndexError (C61_not_raised); the second href of a tag may win (C61_second); names without quotes run on (C61_unquoted).

### C62 An epub file has every file of the book once and lists it

* Modelled: Model/Epub: the parameters of XHtml2Epub (given resolution of links and slugs), the scan of C61, the lists for the package file, the names in the archive with normalisation, and the collection of files by EpubBuilder
* Proof: The archive is in the relation IsEpub (C62_archive), built from FirstBy, Scanned (C61), Reading, OfType, ItemsFor and Written, by induction over the lists; that resolving twice and removing equal paths in between keeps the first of each resolved path is uniq_coarse. Places are walks (Within), and normalising a path keeps its walk. C62_complete, C62_once, C62_listed, C62_links, C62_ids, C62_success, C62_needs_toc and C62_documents follow. The hypothesis of C62_links that a file has one place below the roots holds for a single root (C62_one_root). Findings: C62_two_tocs, C62_png, C62_same_place, C62_plain.
* Status: proved, 14 theorems. Slugs, the resolution of symbolic links and the zip format are given from outside. Findings: C62_two_tocs (the check for a table of contents is never true), C62_png (PNG images are not in the manifest), C62_same_place (equal paths below different roots share a name), C62_plain.

### C63 Images lead to their files and are built once

* Modelled: Model/Media: Img.add_file with the cache of files and the list of builds, Img.tex_fmt, Img.html_fmt and Eq.html_fmt, composed from the models of formats (C29, C31), links (C54) and trees (C52, C53)
* Proof: The builds are one for each target by an invariant over the renderings (C63_once); the LaTeX is in Includes, Bracketed and ImgOption (C63_image_tex), the html has a source that Leads to the file and a class in ImgClass (C63_image_html), with theorems on when there is an output, and C63_in_trees shows what C52 and C53 ask of tags. Refuted: equations add a build with each rendering (C63_equation_again); a percentage in width.tex is left with its percent sign (C63_tex_width_raw).
* Status: proved, 10 theorems. Proved for every image with a well-formed file. Two findings are proved as refutations beside it: equations are built again with each html rendering (C63_equation_again), and width.tex percentages stay raw (C63_tex_width_raw).

### C64 Captions, tables, lists and panels show their parts in order

* Modelled: Model/Composite: captions, tables (with cells made of the data of C42), lists (with the nesting of C27) and panels on the trees of Model/Render, as nodes with their LaTeX and html
* Proof: What each is written as is a relation built from Written of C52 for its parts (CaptionWritten, TableWritten, ListWritten, PanelWritten), and in html it is Shown (C53) as a tree of plain tags (dataTree, listTree) with its class; by induction over cells, rows and items. Texts in order and balanced braces follow as in C52; there is output exactly if the parts are Flat (C52). C64_in_trees shows that they can be parts of trees in C52 and C53 themselves. C64_cells links to the data of C42, C64_columns the column letters to the attributes of C05. Findings: the attributes of a list are not shown (C64_list_attributes), another positional attribute is taken as a panel's width (C64_panel_positional), a panel needs a width (C64_panel_no_width), an escaped & is escaped again (C64_escaped_again).
* Status: proved, 25 theorems. Panels: for panels without positional attributes (finding C64_panel_positional); texts with newlines in a panel have their empty lines removed. Lists: depth for lists without skipped levels, as in C27.

### C65 What is written in a document is what is shown

* Modelled: Model/Page: makeItems is parse_tags with the creation of each tag, receive the receivers for typography and paragraphs in their order, again the parsing of the content of a paragraph, makeBody the body of a document, toNode the tags as Model/Render formats them
* Proof: Reads says, without the model, which texts a text has and which tags are around them. A tree is Good if parsing it again (within the depth limit of 30, bounded by the 9 levels of braces) and typesetting it again change nothing; by induction over Reads the items of a text become Good (typography makes no tags, C45_stable; pieces of typeset texts are typeset; group_strings, parse_tags and the typography are the identity on Good trees), and any value of texts that does not depend on spaces is kept by the grouping of paragraphs (induction over the loop of group_paragraphs). With C53_shown and C52_texts this gives the characters of the html and of the LaTeX. Findings: a verbatim tag in another tag in a paragraph is read again (C65_verbatim_again), a blank box is dropped and the texts around it are joined and read again as a tag (C65_blank_box)
* Status: proved, 9 theorems. For texts in which the texts of verbatim tags and symbols have no tags and boxes are not blank; without these conditions it is false of the code (C65_verbatim_again, C65_blank_box). Tags with a constructor of their own (headings with labels, captions, tables, lists, equations, images, references) are not in these texts: they are in C52, C53, C63 and C64.

### C66 Headings, references and tables of contents show the text of their labels and lead to them

* Modelled: Model/Refs: LabelTag, Heading, Ref, Toc and Next/Prev, composed from the texts of labels (C55, C47), links (C54), the tags of a text (C65), levels of entries (C41) and nested lists (C27), with the text of an element read again by an XML reader
* Proof: What a label's text shows is ShowsIn/Writes, from the relation Reads of C65 by the lemmas for C65 on texts without paragraphs; a link is LinkTo, an entry of a table ReadBack (an inductive relation on elements) of a list item with such a link, by induction over the labels. The nesting is that of C27, the place a link leads to that of C54. Findings with witnesses: dashes in an identifier become another character, so that the reference is not found and a table of contents with it fails (C66_dashes); in LaTeX the text of a reference is lost if its format has several items (C66_tex_lost), a url with a space is cut (C66_tex_space), the links to other documents are errors (C66_around_tex); a symbol in a heading makes the table of contents fail, since XML has no such entity (C66_symbol)
* Status: partial, 20 theorems. Partial: refuted by the code for identifiers with dashes (C66_dashes), texts of several items and urls with spaces or commas in LaTeX (C66_tex_lost, C66_tex_space), symbols in tables of contents (C66_symbol) and the links to other documents in LaTeX (C66_around_tex); in html tables of contents the depth is that of the level only if no level is skipped.

### C67 New projects are full copies of a starter and nothing else

* Modelled: Model/Starters: a disk is a map from paths to directories and files; glob, mkdir and copy2 on it, and each function of cli/init.py; str_to_dict, strip and splitlines are parameters
* Proof: NewProject says which files are where after it, without the model; the loop of clone_starter is followed by induction over the files, with the invariant that the files done are in place, those to do are not in the way and all else is as before. The names are those of Describes and CalledAs; that the dict has each is by induction over the descriptions found (Flat: no two have the same name). Sound disks have directories above all files. Findings with witnesses: a faulty description disables all starters (C67_faulty), two starters can have the same name (C67_clash), a directory in the place of a file gets the file inside (C67_in_directory), a starter without files fails (C67_no_files), an empty description breaks the list (C67_no_list)
* Status: partial, 11 theorems. Partial: refuted by the code if one description is faulty (C67_faulty), two descriptions give the same name (C67_clash), a directory is in the place of a file (C67_in_directory), a starter has no files (C67_no_files), or a description is empty (C67_no_list); proved for all other disks.

### C68 Copied files are up to date and saved texts are written

* Modelled: Model/CopyFile: the Copy and SaveTempFile builders with the decider of C20 on files with contents; histories of changes, copies, saved texts and calls of other builders
* Proof: By induction over the history every entry of the database is from a step that recorded the digests of its inputs and output as they were right after it (run_rec); for equal digests C21_different gives equal contents, and a case analysis on the step shows that only a copy of one file can have the contents of such a copy, so that the output has its contents. Findings, with witnesses for every hash function: contents exchanged between the copied file and a dependency (C68_exchanged), a saved text that reads copy for a file that reads save (C68_save_clash); also a file copied to a pdf (C68_to_pdf), a copy to itself is done without the file (C68_itself), a copy without a file is ready and raises (C68_no_file)
* Status: partial, 11 theorems. Partial: refuted by the code for copies with dependencies (C68_exchanged), for texts that read like an action (C68_save_clash) and between pdf files and others (C68_to_pdf); also C68_itself and C68_no_file. Links between files are not modelled.

### C69 Rendered files are up to date

* Modelled: Model/Jinja: the choice of the template, the references between templates (loader and Jinja itself are parameters), the parameters, the status and the build of a renderer, and histories of changes of files, environments and contexts, with the decider of C20
* Proof: Which templates are reached is the relation Reaches; that their files are found exactly if the references are loadable and bounded in depth is by induction over the depth. As for C68, by induction over the history each entry of the database is from a build that recorded what it watched and wrote; with C21_different a renderer that is done watches the same contents as one that rendered before, and the text is the same if it is determined by these (Determined). Findings, for every hash function: header entries that are texts, macros and labels of other documents are not watched (C69_stale), nor is the context file of a parent directory (C69_context_unwatched), and templates that include themselves cannot be used (C69_cycle)
* Status: partial, 11 theorems. Proved under the condition that the rendered text is determined by what is watched; the cases where it is not (header entries that are texts, macros, labels of other documents, context files of parent directories) are refuted with witnesses in C69_stale and C69_context_unwatched; templates that include themselves in C69_cycle

### C70 Paths in templates become links to the files in the target directory

* Modelled: Model/Rewrite: the filter rewrite_path of templates, with find_file of Model/Paths and get_url of Model/Links
* Proof: The stub is reduced to its names, the four places that are searched are computed, and the link is shown to lead as in C54
* Status: partial, 4 theorems. partial: with a file of that name in the working directory the page cannot be rendered (C70_current_directory), and the directory of the page is not searched (C70_same_directory)

### C71 The preview server builds before it answers and shows every document once

* Modelled: Model/Server: the routes, the store of projects, the handlers for the tree, checkers, signals and source files, and histories of requests; finding and building projects are parameters that may differ at each request, Tornado is reduced to the choice of the first matching pattern
* Proof: The route is compared with a declarative relation, the store is followed by induction over the requests, and the trees are compared position by position
* Status: proved, 10 theorems. proved; refuted parts: requests for pdf and text files do not build them (C71_pdf_not_built), files outside of the current directory are shown (C71_outside)

### C72 Authors, titles and labels of documents

* Modelled: Model/Preamble: the content of an authors tag and its text, the title and short title of a document, and the labels that loading a tree of documents makes; the slug is a parameter
* Proof: Lists of names by induction; labels are compared with the lines from the root to each document, in preorder, by mutual induction
* Status: proved, 7 theorems. a subdocument without a title inherits the title of its parent instead of its file name, marked-up names are lost, and labels may collide; each shown on witnesses

### C73 Stylesheets and images of a template are copied to where the links of the page lead

* Modelled: Model/HtmlCopy: what a render builder depends on (scan and uniq), the copy builders of an html target, and running them; builds on Model/Scanner, CopyFile, Rewrite and Targets
* Proof: The files of the templates are those of the scan (C61), below the root of their template; with roots that are not nested uniq keeps each. Running is induction over the copies, of which each leaves the places of the others alone; contents by C68, links by C70
* Status: partial, 7 theorems. C73_content_partial and C73_link_partial have the hypotheses of C68_build_partial and C70_link_partial. C73_nested_refuted: with template directories in one another a stylesheet is copied for one of the templates only. C73_clash: stylesheets with the same path next to two templates go to the same place. C73_other_types: a jpg is a dependency and is not copied.

### C74 A build that reports 'done' leaves files that are up to date

* Modelled: Model/Build: the builders of a project as numbered steps and composite builders over each other (so that a builder can be shared), the files they read and write, the database, and the loop that builds a document; commands end at any times. Builds on Model/Builder and Model/Decider
* Proof: An invariant with a growing set of settled steps (recorded, with all that they use settled) is kept by every operation: ends of commands, status, run, build of steps and of composite builders (triples over the monad of Model/Builder, then induction on the nesting), and the loop (induction on rounds). 'done' puts all steps of a builder into the set. Equality with a clean build by induction on the order of the steps
* Status: proved, 8 theorems. Commands read their inputs when they start and write when they end with success. Faithful is the assumption that digests do not collide on the states of the files that occur (it says so of exact contents, so of pdf files whose dates differ it is not met). The removal of finished builders in a sequence is refuted as unconditional property (C74_clearing_refuted); the theorems have the condition Clears.

### C75 A build ends, and ends well if nothing goes wrong

* Modelled: Model/Build, as for C74; that commands end is a hypothesis (Ending)
* Proof: A measure: steps to be run and commands that have not ended. Every round of the loop whose status is 'ready' or 'building' either runs a step, or ends or settles one, or lets time pass to the next end of a command; statuses that are neither end the loop. Triples for each operation of a composite builder on top of the invariant of C74, then induction on the nesting and on the measure; that further rounds change nothing is induction on rounds
* Status: proved, 3 theorems. The build loop ends if every command does; it ends with done if nothing fails and the sources are there. Conditions of C74 (no clearing of stale later steps) apply

### C76 External commands get exactly the files of the build

* Modelled: The format of actions, the cleaning and joining of fields, the split into arguments, and the options of the builders with commands (Model/Command); the sanitizing library is a parameter.
* Proof: The format of an action is a concatenation of literal pieces and values (induction over the pieces), and the split of such a text is the concatenation of the splits (Lemmas/Command).
* Status: partial, 10 theorems. Proved for names without spaces that do not begin or end with -, * or a backtick and that pathvalidate leaves as they are (C76_command_partial), and, without the condition on the ends, that no name becomes an option (C76_no_options_partial). False of the code otherwise: a name with a space is several arguments (C76_spaces_refuted), of which one can be an option (C76_no_options_refuted); a name that ends in - is cut, so that two documents have the same job name (C76_cut_refuted). A page of a pdf cannot be converted, since the number is not made a text (C76_page_refuted), and a single number as offset is ignored (C76_offset_refuted).

### C77 The result of a command is reported, and every command ends

* Modelled: `run` with a process that writes to two pipes of bounded size, the error and success handlers, and the pool of threads (Model/Executor).
* Proof: Induction over what the program does; for the pool, a number of ticks that bounds the end of a command and falls at each tick (Lemmas/Executor). C77_takes gives the time a command is waited for exactly.
* Status: partial, 8 theorems. Proved for programs that write no more than the pipes hold; false otherwise: the code waits for the exit before it reads, so that a program that writes more blocks until the timeout although it would succeed (C77_result_refuted). That all commands end is proved for all programs (C77_ends).

### C78 The files of images are copied or converted to places of their own

* Modelled: `Img.add_file`, the receiver `add_file` and `add_build` (Model/AddFile), on top of the models of the search of files, of the choice of builder classes and of output paths.
* Proof: Composition of C33, C23 and C34; the search for the files named by attributes never fails (Lemmas/AddFile). The refutations are concrete projects.
* Status: partial, 9 theorems. C78_copied, C78_converted, C78_no_builder, C78_not_a_file, C78_frame and C78_pdf are proved. C78_distinct_partial covers copied images; C78_distinct_refuted: fig.svg and fig.pdf, or fig.pdf with different scales, get the same html file. C78_attribute_refuted: an attribute without a value is taken as a file to copy, so that the image is never copied.

### C79 Images are up to date after builds that render their page

* Modelled: A build in which the rendering of a page appends builders to a composite builder (Model/BuildAdds), on top of Model/Build.
* Proof: The invariant of C74 holds with the sub-builders there are by now (`grown`): nothing is run by polls and records, so the triples of C74 apply between two renderings; a page is run at most once, and when it is, nothing above the group that gets builders had been removed, as the page is beside it. Then induction on the nesting and on rounds (Lemmas/BuildAdds, BuildAddsRun). The refutation is a project with one page and one image.
* Status: proved, 7 theorems. For builders that fit together (Fits, BeginsAdds): groups that get builders are beside their page in a builder that keeps finished ones, as in target builders. C79_stale_refuted: an edited image whose page is not rendered stays old. Each group gets builders from one page.

### C80 The command 'build' builds each project it finds

* Modelled: The loop of the command over environments (Model/Cli), on top of Model/BuildAdds: `status`, `build(complete=False)` while it is 'ready' or 'building', and the status that is printed.
* Proof: The loop of one project keeps the invariant of C79 (Lemmas/Cli). For several: induction on the environments; a project keeps the files of the others (`buildAll_sources`), so their conditions hold when it is their turn, and what is current stays so. The refutation is a project without its document.
* Status: proved, 9 theorems. Proved for environments whose projects are apart. C80_exit_refuted: the command ends without an error although nothing could be built; only the printed status tells.

### C81 All targets of a project are up to date after a build that reports 'done'

* Modelled: The builders that the constructors of target builders and `create_root_builder` make for the documents of a project (Model/Assembly), from the table of target builders of Model/Targets, as a project of Model/BuildAdds. Epub targets, the parameters of pages, and which files are copied or are images are left out or given.
* Proof: The builders have keys, and each key has the number of its position; by cases on keys, the conditions of C79 hold: what a builder uses is made before it, no two builders make one file (C56), and pages are beside the group to which they add. Then C79 and C80 apply (Lemmas/Assembly, Props/Assembly). An example with two documents is built by evaluation.
* Status: proved, 9 theorems. Epub targets are C82; chains of converters for images and the parameters of pages are not part of the model; documents whose names differ in the extension only are excluded. Images are current only if their page was rendered in this build (C81_image_refuted). LaTeX reads image files that are no parameters of the pdf's builder, so a pdf is not recompiled when only an image was edited (C81_pdf_again).

### C82 When the archive of an epub is written

* Modelled: The build of an epub (Model/BuildEpub), on top of Model/Build: `XHtml2Epub` is a sequence with one sub-builder, the package file, whose `build` renders the package file again and writes the archive, while its status is that of any sequence.
* Proof: The first claim by following `build` to its end. For the second, an invariant of all operations on all builders (Lemmas/BuildEpub, `Still`): the package file stays recorded, so the `XHtml2Epub` is 'done' whenever it is asked, and its `build` is never called. For the other direction (Lemmas/BuildFresh), the invariant of C74 with the archive as one more step: the package file is not recorded, or the archive is settled; inside of the build of the `XHtml2Epub` this does not hold, and it holds again at the end. The refutation that epubs are up to date is a project with one page that is built, edited and built again, by evaluation.
* Status: proved, 4 theorems. An epub can be old although the build reports 'done' (C82_current_refuted): the status of XHtml2Epub only looks at the builder of content.opf. An interruption between the rendering of content.opf and the archive has the same effect. Images that pages add during the build are not part of this model.

### C83 A build that is interrupted does no lasting harm

* Modelled: Builds and commands that may be interrupted before and after each status, run and record, and between the writing of a file and its record (Model/BuildStop), on top of Model/BuildAdds and Model/Cli. That a file is half-written is an edit; that records are lost is a step of a history. A record is written as a whole or not at all, and commands do not outlive the process.
* Proof: Every prefix of an operation keeps the invariant of C79 (Lemmas/BuildStop), as a file is written before its record and each record is made by reading the file; so the histories of C74, C79 and C80 may contain interrupted builds, and their theorems hold for the next build. If nothing interrupts, the build is that of C79 and C80 (C83_not_stopped). The example is a build that is killed between the file and the record.
* Status: proved, 7 theorems. Records are written as a whole or not at all (the database uses transactions), and commands of a killed build do not go on; a command that outlives the process and writes during the next build is outside of the model.

### C84 Equations that differ have images of their own

* Modelled: The image of an equation (Model/EqImage): the attributes that `Eq.html_fmt` sets, the parameters of `Img.add_file`, the items of `JinjaRender.parameters` with the template and the hash of the raw content, and the paths of the LaTeX file, the pdf file and the svg file through `PdfRender` and `SvgRender`. The LaTeX is that of Model/Render. The two hashes are parameters.
* Proof: C84_place computes the path; it determines the hash. Given that the hash tells the items of these two equations apart, their items are the same; from these the content, the entries and the class are recovered (C04 for the filter), and the LaTeX depends on nothing else (Lemmas/EqImage, `tex_congr`): the tables of the settings ask for at most one number in an environment of mathematics. Outside of the conditions there are four refutations. The theorem is named _partial for these.
* Status: partial, 7 theorems. Proved for equations with usual attributes; outside of these the property is false of the code: C84_bold_refuted (@term and @termb share an image), C84_target_refuted (env.tex), C84_order_refuted (two numbers), C84_mistaken_refuted (an attribute with the text of the content). The digests are parameters; that they tell the two equations' items apart is a hypothesis about these two equations only.

### C85 Copies of contexts

* Modelled: `filtered`, `copied` and `isValid` (Model/ContextCopy) on the heap of contexts of Model/Context, where sharing is visible; types of values as `isinstance` sees them.
* Proof: An invariant of the loop of `match_update` on an empty dict: what has been copied so far, where, and that all copies are new and different; independence of later updates from the theory of owned objects made for C07. Nested values and repeated keys are refuted with witnesses.
* Status: partial, 6 theorems. filter, copy.copy and is_valid of contexts. Independence of the copy is proved for values that are not nested; nested values are shared (C85_nested_refuted), and a key given twice is merged into its own copy or raises (C85_repeated_refuted).

### C86 Classes found and weak attributes

* Modelled: `allSubclasses`, `allParents`, `allValues`, `allDicts` (Model/Classes) on a table of classes, the method resolution order being a parameter; `weakattr` as a state machine of the names found by the descriptors, the references kept by each object and the objects that are gone.
* Proof: Induction on the depth of calls against an inductive `Derives`; `all_dicts` is a search for the first class that gives the name, which is the nearest for single inheritance; for weak attributes an invariant of all histories relates the references to the last assignment. The claims about precedence are refuted for several bases.
* Status: partial, 8 theorems. Class utilities and weak attributes. The precedence of all_dicts and the reading of weak attributes fail with several bases (C86_dicts_refuted, C86_weak_refuted); proved for single inheritance, which is what the builders, tags and labels of the package with weak attributes use.

### C87 Links to other formats lead to the files of the document

* Modelled: `otherRelpath` and `format` (Model/OtherLink) for the tags that link to the source and to other targets, on the builders of Model/Targets and `os.path.relpath` of Model/Links, with `markupsafe.escape`.
* Proof: The files found are those of C56; relative paths lead to their file by the walk of C54; escaped text is read back by an inductive `Shown`, which reads a text in one way only. That links in `.tex` files are escaped for HTML is refuted with a name that contains `&`.
* Status: partial, 7 theorems. Links on HTML pages are proved for all names. In .tex files links are escaped for HTML, so names with & lead nowhere (C87_tex_refuted), and the tags raise NotImplementedError for .xhtml.

### C88 Header entries become tags in every order

* Modelled: `processTags` (Model/HeaderTags): the loop over the set of keys in any order, with the maker of tags as a parameter that gives a tag and what it adds, or an exception.
* Proof: Each entry has an outcome that depends only on the entries that are not listed, so that it is the same before and after the others are processed; induction on the order. The order of labels is refuted for two entries that add labels.
* Status: partial, 7 theorems. Proved for all iteration orders of the set of keys. The order of labels depends on the hash seed if two listed entries add labels (C88_added_refuted); with the default entries only the body does.

### C89 A page depends on the labels its references name, in one order

* Modelled: The comparisons and the hash of labels, `sorted`, and `addRefLabels` (Model/RefDeps) on the label manager of Model/Labels; the set of identifiers is a list in any order.
* Proof: The comparisons equal an inductive lexicographic order. Sorting permutes and orders; labels with the same key are the same label in every reachable manager, so that two sorted permutations are equal. That equal labels have equal hashes is refuted for a document label and a content label with the same identifier.
* Status: partial, 8 theorems. Comparisons, order and the dependencies of pages are proved for all reachable label managers and all iteration orders. Equal labels of different classes (a document and a heading with the same identifier) have different hashes (C89_hash_refuted). Finding outside of this claim: the renderer of a page does not use these dependencies (see C69).

### C90 Code tags show the code that is written, or that of the files named

* Modelled: `content`, `lexer`, `htmlFmt` and `texFmt` (Model/Code) on `find_files` of Model/Paths and the elements of Model/Render; Pygments and the texts of files are parameters.
* Proof: The files are those of C33; reading and joining are matched with inductive specifications; the loop for the lexer by induction on the attributes. Two claims are refuted: verbatim LaTeX for code with all delimiters, and that lines which name no file are shown beside files.
* Status: partial, 7 theorems. Proved for all texts, files and attributes, with Pygments as a parameter. Refuted: verbatim LaTeX for code with all of | ! ^ (C90_inline_tex_refuted); if one line names a file, lines that name none are lost (C90_lines_refuted).

### C91 Each document's context has the values of that document

* Modelled: `docReset`, `loadCtx`, `newCtx` and `step` (Model/DocContext) on the contexts of Model/Context; documents, managers, environments and paths are values, the defaults, the conversion of strings and the file times are parameters.
* Proof: An invariant of every reachable state, by induction on the events: the entries of each context that are its own, the document above it and its manager. The specification is a relation `Below` between documents. Two claims are refuted: a moved sub-document that outlives its parent, and a header that gives a level.
* Status: proved, 10 theorems. Full claims proved with their conditions. Findings: a sub-document moved up, so that its former parent is removed, keeps a weak reference to the parent's context and becomes its own root document at level 1 without targets at its next loading (C91_moved_refuted); a header 'level' changes the levels of the documents below (C91_level_refuted).

### C92 The report of dependencies has a right verdict for each of them

* Modelled: `printCheckers`, `printDep`, `singleCheck` and `fillString` (Model/Terminal) on the dependencies of Model/Checkers; `click.style` is a parameter.
* Proof: The lines are matched one by one with a specification of a line by induction on the tree; the verdict is the predicate `Met` of C43; the cause by induction on the tree. A claim that is refuted: a line can fail although the checker passes, for a list inside alternatives.
* Status: proved, 6 theorems. Full claim proved. Finding: the parts of an All list inside a list of alternatives are reported as FAIL although the checker passes (C92_nested_refuted).

### C93 The progress of a build is shown without changing the build

* Modelled: `buildEnv`, `loop`, `newTable`, `tableRow` and `flatten` (Model/Terminal); the build is a parameter with any states, and so is the text of a percentage.
* Proof: Induction on the passes, which are an inductive relation; the counts by induction on the tree of builders; the columns from the lengths of the texts.
* Status: proved, 3 theorems. 

### C94 Each caption of a figure or table has one label, and its element is where references lead

* Modelled: `make`, `makes`, `relabel` and `relabels` (Model/Figures) on the labels of Model/LabelText and Model/Labels.
* Proof: The constructors are shown to add the labels of a list that the specification gives, by mutual induction on the trees; that labels are added exactly if their identifiers are new follows from C10. Two claims are refuted: figures around captioned figures or tables always fail without an identifier, and with one the caption has two labels.
* Status: proved, 5 theorems. Full claim proved for figures and tables that are not inside each other. Findings: a figure without identifier around a figure or table with a caption always fails with DuplicateLabel (C94_nested_refuted); with an identifier the caption has two labels and the first leads nowhere (C94_two_labels_refuted).

### C95 Data tags have the tables that are written in them or in the files they name

* Modelled: `step`, `rows`, `stream` and `loadTag` (Model/Csv): the states of the reader of Python's `csv` module with the options that the tag gives, the choice between text and file, and the data of Model/Data.
* Proof: The texts of a table are an inductive relation; by induction on it the reader is shown to go through its states to the end of each cell, row and table. Totality is by an invariant of the states. Findings: a text that starts with a line end, as in the documentation, gives no data; the tag `tsv` reads commas.
* Status: proved, 10 theorems. Findings: a text that starts with a line end, as in the example of the documentation, gives an empty table (C95_blank_start, C95_documented_refuted); the tag tsv reads commas, not tabs (C95_tabs_refuted); lines that end with a carriage return only raise an exception (C95_carriage_return).

### C96 Linking or copying a file changes nothing else, wherever it stops

* Modelled: `linkOrCopy` (Model/LinkCopy): a disk with names, numbered files on devices and texts, and the list of all states on the way.
* Proof: By cases on the names and whether a link can be made; the states of the copy are shown to differ at the second name only, since its file is new. Two findings: devices are not compared, and a directory as the first name removes the second file.
* Status: proved, 5 theorems. Findings: the devices are not compared, so that a file on another device with the same number is kept (C96_devices_refuted); for a directory as the first name the second file is removed before the exception (C96_directory_refuted).

### C97 Attributes have the last values given, copies are equal, and added values are put at the end

* Modelled: `init`, `copy` and `append` (Model/AttrEdit) on the parser of Model/Attributes.
* Proof: By lemmas on the update of dictionaries and induction on the texts and values. Findings: attributes named self cannot be copied, and values added to positional attributes are put behind the text of a Python class.
* Status: proved, 9 theorems. Findings: attributes with the name self raise a TypeError when they are copied (C97_self_refuted); a value that is added to a positional attribute is put behind the text of a Python class (C97_append_class_refuted).

### C98 Images are cropped, converted and scaled in this order, exactly if this is asked for

* Modelled: `pdfToSvg`, `asyToSvg`, `saveAsyPdf`, `saveAsySvg` and `svgRender` (Model/Convert) on the options of Model/Command.
* Proof: The results of the constructors are shown to be those of relations for the steps to crop and to scale, with C76 for the number. Finding: the page of a pdf file is never used.
* Status: proved, 3 theorems. Finding: the attributes page and page_no are read by a part of the conversion that is never given them (C98_page_refuted).

### C99 The check for LaTeX packages runs one process for each, waits for all, and runs five at a time

* Modelled: `events` (Model/Kpse): the list of starts and waits, by recursion on the tree with the position in a chunk.
* Proof: By mutual induction on the tree: the numbers started, the numbers waited for as a permutation, their order, and the numbers of starts and waits of every prefix. At most five run for lists without lists in them (`C99_five_partial`); each level adds up to four (`C99_bound`), and with lists inside each other no number bounds them (`C99_five_refuted`).
* Status: partial, 6 theorems. At most five processes at a time is false of the code for lists inside lists: a list is checked while the processes of its chunk still run (C99_five_refuted: no number bounds them). Proved for lists without lists (C99_five_partial) and with the depth of the tree (C99_bound).

### C100 A context keeps the entries it is made of, and the reserved names are not entries

* Modelled: `construct` (Model/ContextArgs): the start of the constructor of contexts, with values of any type.
* Proof: By lemmas on the update of dicts and the deletion of names. Reserved names in a positional argument are initial values again (`C100_reserved_refuted`), and keywords do not replace its values as in a dict (`C100_keyword_refuted`).
* Status: partial, 6 theorems. That reserved names are not initial values is false of positional arguments: dict(*args, **kwargs) takes them from args again (C100_reserved_refuted). Proved for keywords (C100_reserved_partial).

### C101 The search for a scanner finds one exactly if there is one for the extension

* Modelled: `getScanner` (Model/ScannerCache) on the classes of Model/Classes, with the dict kept for each class, and histories of definitions and searches.
* Proof: The first search by C86 and lemmas on the update of dicts; histories by induction with an invariant on the dicts that are kept. A scanner defined after a search is not found (`C101_late_refuted`). For classes with one base (C86).
* Status: proved, 4 theorems. For classes with at most one base. Finding: a scanner class that is defined after the first search is never found (C101_late_refuted).

### C102 The classes of tags at the first search decide what all names mean

* Modelled: `search` and `run` (Model/TagCache) on the dict of tag classes of Model/Tags; a new class takes any place in the order of the classes.
* Proof: By induction on the history: a dict that is kept stays, and names that are there twice stay twice. With C46 for one search. Findings: classes defined after a search are not found, and a clash of names makes all tags fail or has no effect (`C102_late_refuted`, `C102_clash_refuted`).
* Status: proved, 5 theorems. Findings: a tag class defined after the first search is never found (C102_late_refuted); a clash of names makes all tags fail, or has no effect if there was a search before (C102_clash_refuted).

### C103 A class of contexts excludes the entries of its own and of its parents from inheritance, in every history

* Modelled: `find` and `run` (Model/InheritCache) on the classes of Model/Classes, with the set kept for each class.
* Proof: By induction on the history with the invariant that what is kept is right for the classes now; new classes do not change what older classes derive from. With C86 for one search. Finding: an attribute set after a search has no effect (`C103_assign_refuted`).
* Status: proved, 2 theorems. Finding: an attribute do_not_inherit that is set after a search has no effect (C103_assign_refuted); the property is about histories without such changes.

### C104 Replacing the tags of a class by a text replaces all of them and nothing else

* Modelled: `replTags` (Model/ReplTags) on the trees of Model/Tags; no tag or list is at two places.
* Proof: By induction on places in trees: outside of tags of the class, the element at a place of the result is the changed element, and all places of the result are such places.
* Status: proved, 5 theorems. Trees in which no tag or list is at two places.

### C105 A builder class is active exactly if all that it requires is there

* Modelled: `active` and `run` (Model/BuilderActive): the three tests and the dict of answers by the names of classes, while programs are installed and removed.
* Proof: The tests by cases; histories by induction: answers that are kept stay, and each was computed for a class that was asked. Findings: classes with the same name share one answer, and programs installed or removed later are not noticed (`C105_names_refuted`, `C105_installed_refuted`); the property is proved for different names and no changes (`C105_history_partial`).
* Status: partial, 5 theorems. False in general: answers are kept by the names of classes and for ever, so that classes with one name share an answer (C105_names_refuted) and changes of programs are not noticed (C105_installed_refuted). Proved for classes with different names and without changes (C105_history_partial).

### C106 The parents of a path are the directories above it

* Modelled: `parents` (Model/ParentPaths): `os.path.split` and `os.path.splitext` of POSIX on the text of the path, and the loop with a number of rounds.
* Proof: The list by induction on the names from the end; the end of the loop by the length of the text, which gets shorter; what is listed by the loop's rounds. Findings: the function does not return for any path that starts with two slashes (`C106_ends_refuted`; `C106_ends_partial` is for all other paths), and a directory with a slash at its end is listed twice (`C106_slash_refuted`).
* Status: partial, 5 theorems. Proved for all paths of names and, for termination, all paths that do not start with two slashes. For every path that does, the function never returns (C106_ends_refuted). A directory with a slash at its end is listed twice (C106_slash_refuted).

### C107 Tags are equal exactly if they are the same in all parts

* Modelled: `Tag.__eq__` (Model/TagEq) on trees of tags, texts and lists, with equality of dicts for attributes and contexts that are read through weak references.
* Proof: Equality against an inductive relation by recursion on both trees, dicts by the permutation of their names; equivalence and time by recursion on the relation. Finding: tags of different documents are equal once both contexts are gone (`C107_contexts_refuted`; `C107_contexts_partial` needs one of them to be there).
* Status: partial, 5 theorems. Proved for all trees and all sets of contexts that are gone. The claim that tags of different documents are different holds while one of the contexts is there (C107_contexts_partial); once both are gone such tags are equal (C107_contexts_refuted).

### C108 The text of a version identifies the version

* Modelled: `get_version` (Model/VersionText) on tuples of integers and texts, with the exceptions.
* Proof: The text of a version in closed form; that it is unique by taking the texts apart at the ends of their numbers, which give back the numbers. Findings: an update below zero is left out instead of refused, and words are accepted for the first two numbers (`C108_negative_refuted`, `C108_words_refuted`).
* Status: partial, 9 theorems. Texts, uniqueness and PEP 440 are proved for all versions. Tuples that are no versions are refused only in part: an update below zero is left out, a major number below zero is written with its sign, and words are accepted for the first two numbers (C108_negative_refuted, C108_sign_refuted, C108_words_refuted).

### C109 A composite builder lists and counts the builders in it

* Modelled: `flatten`, `futures` and `__len__` of composite builders (Model/BuilderTree) on trees of builders.
* Proof: By recursion on the tree, against an inductive relation for the builders below and their number. Findings: the length counts two levels only (`C109_length_refuted`; `C109_length_partial` says exactly when it is right), and the list for a given builder has the sub-builders of the builder that was asked (`C109_given_refuted`).
* Status: partial, 6 theorems. List, order and futures are proved for all trees. The length is right exactly if there are no builders on a third level (C109_length_partial, C109_length_refuted). The list for a given builder has the sub-builders of the builder that was asked (C109_given_refuted).

## Trusted base

* Lean 4.33.0's kernel.
* The axioms `propext`, `Classical.choice` and `Quot.sound` of Lean. No axioms are added; there is no `sorry`, no
  `native_decide` and no `bv_decide`.
* The reading of the Python source. The code was read, never run.
* The reading of Python and its libraries stated above and in the comments of the model: `str` methods (Model/Strings),
  `dict` and `sorted` (Model/Dict), `pathlib` (Model/Paths), `re` as matchers in each model.
* That the specifications in `Spec` say what the English properties say.


### Axioms of each theorem

As printed by `#print axioms` for the theorems of `MANIFEST.json`.

* none: C109_given_refuted, C109_order, C42_num_rows, C31_gap, C27_html_depth_false, C36_chunks_nonpositive, C89_total, C102_clash_refuted, C102_late_refuted, C92_fail.

* `propext`: C97_init_two, C80_all, C80_raised, C19_blocked, C50_done, C50_submitted_once, C109_flatten, C95_blank_start, C95_rows, C95_unique, C95_writable, C42_empty, C42_single_row, C16_diamond_loads_twice, C16_duplicate_loses, C16_order_refuted, C17_anew_refuted, C17_grandchild_not_reloaded, C17_older_file_not_reloaded, C17_reloads_forever, C62_one_root, C77_lossless, C09_keep, C15_reset_all, C96_nothing, C27_clean_one_line, C36_flatten, C36_transpose_no_columns, C36_unwrap, C25_plain, C41_content, C26_blocks_unique, C47_tag_with_empty_list_disappears, C32_splits, C32_use_name_empty, C32_use_suffix_refused, C34_none, C34_untracked, C104_kept, C104_none, C104_replaced, C44_replace_none, C49_nested_list_error, C49_single_nested_error, C56_no_includes, C57_nicejoin, C48_exceptions, C48_raises_anyway.

* `Quot.sound`: C95_total, C29_settings_lookup.

* `Quot.sound`, `propext`: C03_other_targets_do_not_leak, C03_target_wins_partial, C03_without_target_partial, C05_html_round_trip_partial, C05_load_inverts_spelling, C05_to_tuple, C97_init, C74_sources, C79_sources, C80_out_dir, C80_sources, C82_kept, C82_packed, C83_not_stopped, C83_sources, C19_all_started_partial, C50_building, C50_failed, C50_missing, C50_stale, C109_futures, C109_length_refuted, C58_chained, C58_flow, C43_available, C43_check_partial, C43_executables, C43_kpsewhich, C43_lookup_all, C43_order, C86_dicts_partial, C86_parents, C86_subclasses, C86_values, C06_kinds_along_paths, C06_kinds_at_any_depth, C06_objects_keep_their_kind, C06_rules, C85_copy, C85_valid, C42_header, C42_header_rectangular, C20_exact, C20_missing, C20_not_repeated_partial, C20_shared_inputs, C21_names_ignored, C21_order, C22_line_breaks_ignored, C22_lines, C22_lines_exist, C16_by_id, C16_fuel, C17_fresh, C17_required, C77_bounded, C77_result_partial, C77_takes, C77_timeout, C31_monotone, C31_same_windows, C09_no_block, C09_usual_document, C88_added, C88_added_partial, C88_processed, C69_templates, C99_after, C99_bound, C99_five_partial, C99_five_refuted, C99_started, C11_parse, C13_first, C13_next, C13_restart, C96_result, C96_stop, C54_one_place, C27_parse_all, C27_tex, C36_dupes, C36_transpose_cells, C36_transpose_involutive, C36_uniq_complete, C36_uniq_keeps_first, C25_none_left_partial, C25_replaced_partial, C63_equation_again, C63_once, C59_name_partial, C59_no_document, C59_period_loses_hash, C41_words, C26_clean, C26_group, C32_rename, C32_rename_adds_period, C32_text, C32_use_name, C32_use_name_target, C32_use_subpath, C32_use_subpath_last, C32_use_subpath_last_target, C32_use_subpath_target, C32_use_suffix, C32_use_suffix_reads_partial, C32_use_suffix_target, C34_absolute, C34_below, C34_injective_partial, C34_media_partial, C34_placed, C35_exact, C35_not_nested, C89_ids, C104_result, C104_twice, C71_signals, C71_tree, C71_tree_missing, C24_connect, C24_emit, C24_history, C24_live, C24_receivers_dict, C24_signal_by_name, C102_found, C102_generic, C102_raises, C107_contexts_partial, C44_copy_partial, C44_deep, C44_flatten_partial, C44_flatten_sound, C44_replace_frame, C44_replace_partial, C46_class, C46_classes, C46_generic, C49_concat_partial, C49_plain_partial, C49_text_partial, C56_absolute_include, C56_includes, C92_verdict, C37_commas, C37_every_text, C37_lines, C37_round_trip_partial, C37_semicolons, C37_single, C38_entry, C38_no_entry, C47_longest_common_prefix, C57_camelcase, C57_indent, C57_lines, C57_newlines, C57_quotes_lines, C57_stub, C57_unescape, C48_failure, C48_tuple.

* `Classical.choice`, `Quot.sound`, `propext`: C78_attribute_refuted, C78_converted, C78_copied, C78_distinct_partial, C78_distinct_refuted, C78_frame, C78_no_builder, C78_not_a_file, C78_pdf, C03_positional_first_partial, C03_positional_leaks, C03_positional_no_separator, C03_target_order_irrelevant, C03_value_is_stripped, C04_dict_order_partial, C04_filter_all, C04_filter_class, C04_filter_entries, C04_filter_without_target, C04_order_of_specific_entries, C04_requested_order, C04_strip, C05_html_apostrophe, C05_quote_lost, C97_append_class_refuted, C97_append_new, C97_append_others, C97_append_positional, C97_append_texts, C97_copy, C97_self_refuted, C74_again, C74_clean, C74_clearing_refuted, C74_current, C74_not_needed, C74_once, C74_truthful, C75_done, C75_ends, C75_same, C79_current, C79_images, C79_not_needed, C79_once, C79_stale_refuted, C79_truthful, C80_current, C80_exit_refuted, C80_not_needed, C80_past, C80_truthful, C81_image_refuted, C82_current_refuted, C82_fresh, C83_clean, C83_command, C83_past, C83_recovers, C83_truthful, C81_command, C81_copy, C81_image, C81_page, C81_page_again, C81_past, C81_pdf, C81_pdf_again, C18_done_means_all_done, C18_in_order, C19_completes, C19_never_dropped, C19_only_ready, C19_status, C23_by_extension, C23_by_target, C23_out_ext_ignored, C105_first, C105_history_partial, C105_installed_refuted, C105_kept, C105_names_refuted, C109_length_partial, C58_empty_part, C58_new, C58_succeeds, C43_flatten, C43_handlers_keep, C43_images, C43_missing_handler, C43_operator_without_version, C43_other_package_taken, C43_package_first, C43_package_hidden, C43_package_partial, C43_packages_not_looked_for, C43_parse, C43_parse_name, C43_pdf, C43_pdf_parts, C43_python, C43_second_list_ignored, C43_version_period, C43_version_without_operator, C86_delete_partial, C86_dicts_refuted, C86_weak_partial, C86_weak_refuted, C90_block, C90_content, C90_inline_html, C90_inline_tex_partial, C90_inline_tex_refuted, C90_lines_refuted, C90_unreadable, C76_command_partial, C76_crop, C76_cut_refuted, C76_latex_output, C76_no_options_partial, C76_no_options_refuted, C76_offset_refuted, C76_page_refuted, C76_scale, C76_spaces_refuted, C64_caption_balanced, C64_caption_html, C64_caption_renders, C64_caption_tex, C64_cells, C64_columns, C64_escaped_again, C64_in_trees, C64_list_attributes, C64_list_balanced, C64_list_html, C64_list_tex, C64_panel_balanced, C64_panel_html, C64_panel_no_width, C64_panel_positional, C64_panel_renders, C64_panel_tex, C64_placed, C64_table_balanced, C64_table_html, C64_table_html_renders, C64_table_html_texts, C64_table_renders, C64_table_tex, C06_aliased_entries_change_together, C06_bool_update_raises, C06_header_never_raises_partial, C06_update_nested, C06_update_partial, C06_values_partial, C07_changes_untouched_nested, C07_changes_untouched_partial, C07_nested_values_are_shared, C07_others_untouched_partial, C08_excluded_entry_grows, C08_nested_values_are_not_restored, C08_reset_partial, C85_filter, C85_independent_partial, C85_nested_refuted, C85_repeated_refuted, C100_error, C100_keyword_refuted, C100_parent, C100_reserved_partial, C100_reserved_refuted, C100_values, C98_page_refuted, C98_pdf, C98_programs, C68_build_partial, C68_copied, C68_exchanged, C68_fresh_partial, C68_itself, C68_missing, C68_no_file, C68_only_output, C68_save_clash, C68_saved, C68_to_pdf, C95_carriage_return, C95_columns, C95_documented_refuted, C95_tabs_refuted, C95_tag, C42_escaped, C42_noheader, C42_noheader_rectangular, C42_same_names, C42_tex_row_partial, C42_tex_table, C20_change, C21_different, C22_chunk_size, C22_pdf, C22_what_counts, C91_flags, C91_level_refuted, C91_load, C91_manager, C91_moved_refuted, C91_none, C91_own, C91_paths, C91_root, C91_total, C16_cycle_never_ends, C16_listed_once, C16_loads_once_partial, C16_reading_order_partial, C16_terminates, C17_anew_partial, C17_listed, C17_load_works, C17_reload_partial, C17_second_load_partial, C17_settled_partial, C17_works, C62_archive, C62_complete, C62_documents, C62_ids, C62_links, C62_listed, C62_needs_toc, C62_once, C62_plain, C62_png, C62_same_place, C62_success, C62_two_tocs, C84_bold_refuted, C84_mistaken_refuted, C84_order_refuted, C84_own_partial, C84_place, C84_shared, C84_target_refuted, C77_ends, C77_reported_partial, C77_result_refuted, C94_anchors, C94_labels, C94_nested_refuted, C94_total, C94_two_labels_refuted, C28_all_delimiters, C28_delimiter_partial, C29_arguments_by_name, C29_command, C29_environment, C29_injection, C29_not_allowed, C29_optionals, C29_optionals_only, C29_settings, C30_element, C30_error, C30_html_entry_ignored, C30_settings, C31_class_partial, C31_errors, C31_html, C31_negative, C31_no_width, C31_percentage, C31_tex, C09_block_and_rest, C09_empty_header, C09_has_header, C09_longer_closing_marker, C88_added_refuted, C88_again, C88_fails, C88_order, C73_clash, C73_content_partial, C73_copied, C73_files, C73_link_partial, C73_nested_refuted, C73_other_types, C103_assign_refuted, C103_excluded, C69_context_unwatched, C69_cycle, C69_fresh_partial, C69_missing, C69_order, C69_parameters, C69_rendered, C69_selected, C69_stale, C69_update_partial, C99_waited, C55_caption, C55_caption_not_numbered, C55_chapter, C55_duplicate, C55_figure, C55_heading, C55_heading_id, C55_heading_tex, C55_heading_tex_error, C55_label_dash, C55_no_label, C55_number_taken, C55_numbered, C55_other_heading, C55_same_caption, C55_same_title, C55_section, C55_title, C55_title_clean, C55_title_cut, C55_title_not_stable, C55_title_same, C55_title_text, C10_add, C10_unique, C11_added_is_found, C11_by_ids, C11_not_found, C11_parse_default, C11_two_separators, C11_with_document, C11_without_document, C12_grouped, C12_kept_and_dropped, C12_order, C12_register_again, C12_registered_once, C12_up_to_date, C13_by_kind, C13_by_kind_raises, C13_by_kinds_lists_twice, C13_numbers, C14_enclosing, C14_first_registration, C14_only_enclosing_partial, C14_stale_link, C14_tree_number, C15_add_again, C15_not_found, C15_reset, C96_devices_refuted, C96_directory_refuted, C54_absolute_distinct_partial, C54_absolute_partial, C54_anchor_partial, C54_base_url, C54_errors, C54_example, C54_hash_in_name, C54_hidden_directory, C54_link_leads, C54_other_document, C54_owner_known, C54_same_document, C54_tex_without_pdf, C27_blank_line_counts, C27_clean, C27_html_depth_partial, C27_html_order, C27_levels, C27_parse, C36_chunks, C25_does_not_end, C25_ends_partial, C25_left, C25_left_at, C63_equation_html, C63_html_renders, C63_image_html, C63_image_tex, C63_in_trees, C63_placed, C63_tex_renders, C63_tex_width_raw, C59_clash, C59_distinct_partial, C40_links_partial, C40_other_targets, C40_tex_links_missing, C41_abbreviated_partial, C41_abbreviated_twice, C41_labels, C41_levels, C41_part_of_word, C41_same_id, C41_shown_partial, C87_html, C87_no_context, C87_no_link, C87_shown, C87_tex_partial, C87_tex_refuted, C87_xhtml_refuted, C65_blank_box, C65_html, C65_html_exists, C65_html_words, C65_page, C65_tex, C65_tex_words, C65_verbatim_again, C65_verbatim_outside, C26_blank_content, C26_group_applies, C26_idempotent, C26_process, C26_roles, C26_split_at_blank_lines, C106_beginnings, C106_ends_partial, C106_ends_refuted, C106_listing, C106_slash_refuted, C47_group_strings, C47_grouping_is_not_idempotent, C01_parse_lossless, C01_plain_text, C01_tag_is_found, C02_content_balanced, C02_deep_nesting_rejected, C02_error_iff_unclosed_partial, C02_only_notClosed, C02_raw_content_is_text, C02_unclosed_named, C51_reparse_idempotent_partial, C51_reparse_raw_changes, C32_target_changes, C32_target_root, C32_use_suffix_refuted, C33_files, C33_find, C33_found, C33_not_a_path, C33_raises, C33_raises_or_finds, C33_text, C33_tracked, C33_untracked_lost, C34_escapes, C34_injective_refuted, C34_media_refuted, C35_directory_taken, C35_one_root, C72_header, C72_inherited_title, C72_labels, C72_listed, C72_markup, C72_own, C72_same_label, C89_comparisons, C89_hash_partial, C89_hash_refuted, C89_labels, C89_missing, C89_order, C66_around, C66_around_tex, C66_dashes, C66_example_headings, C66_example_refs, C66_example_toc, C66_heading_exists, C66_heading_html, C66_heading_tex, C66_leads_to_heading, C66_other_document, C66_ref_html, C66_ref_tex_partial, C66_symbol, C66_tex_lost, C66_tex_space, C66_toc_exists, C66_toc_html_partial, C66_toc_tex, C66_unknown, C52_balanced_partial, C52_heading_lost, C52_renders_partial, C52_texts_partial, C52_texts_unique, C52_written_partial, C53_allowed, C53_renders, C53_shown, C53_texts, C70_current_directory, C70_link_partial, C70_not_found, C70_same_directory, C61_exist, C61_found, C61_missing, C61_not_raised, C61_scan, C61_second, C61_sound, C61_unquoted, C101_first, C101_history, C101_kept, C101_late_refuted, C71_built, C71_checkers, C71_failed, C71_not_built, C71_outside, C71_pdf_not_built, C71_route, C67_asks_only, C67_clash, C67_example, C67_faulty, C67_in_directory, C67_list, C67_new_project, C67_no_files, C67_no_list, C67_starters, C67_untouched, C107_contexts_refuted, C107_equal, C107_equivalence, C107_stays_equal, C44_nested_list_keeps_context, C44_none_content_error, C46_inactive_alias, C46_package, C46_package_found, C46_usable, C56_entry, C56_epub_of_root, C56_impossible, C56_include_not_simplified, C56_no_clash, C56_none, C56_order, C56_same_stem, C56_single_not_trimmed, C56_target_filepath, C56_target_filepaths, C56_targets, C56_targets_text, C60_child_first_partial, C60_grandparent, C60_list_entry, C60_loaded, C60_new_entry, C60_no_paths, C60_no_template, C60_other_entries, C60_shared_file, C60_template_entries, C60_text_entry, C60_two_headers, C92_cause, C92_lines, C92_nested_refuted, C92_width, C93_progress, C93_quiet, C93_total, C45_dash_in_text, C45_emdash, C45_endash, C45_hyphens_kept, C45_only, C45_paragraph_break_lost, C45_quotes, C45_set, C45_set_unchanged, C45_split, C45_stable, C45_tree, C45_tree_stable, C45_unchanged, C37_empty_entries, C38_blocks, C38_blocks_unique, C38_odd_lines, C38_round_trip, C39_find_entry, C39_key_error, C57_blank_doubled, C57_camelcase_loses, C57_quotes_apart, C57_quotes_partial, C48_crop, C48_crop_other, C48_offset, C48_single_offset_ignored, C108_distinct, C108_final, C108_negative_refuted, C108_parts, C108_pep440, C108_refused, C108_sign_refuted, C108_types, C108_words_refuted.

## Which parts of the code are modelled

Lines of code (without imports, comments and docstrings) that are cited by definitions of the model, of all lines of code, per
file of `src/disseminate`. The last column says what is left out. Class and constructor lines that only hold the parts
together are not cited.

| file | modelled | in | not modelled |
|---|---|---|---|
| __version__.py | 11/13 | VersionText | the constant `VERSION` |
| attributes/attributes.py | 162/169 | AddFile, AttrEdit, Attributes, TagEq | representation, `append` to lists |
| builders/__init__.py | 0/8 |  | imports |
| builders/asy_builders.py | 30/54 | Command, Convert | class attributes |
| builders/builder.py | 251/259 | AddFile, Assembly, Build, BuildStop, Builder, BuilderActive, Chain, Command, Convert, CopyFile, Epub, Executor, HtmlCopy, Jinja | parameters from signals, class attributes |
| builders/composite_builders/composite_builder.py | 78/101 | Assembly, Build, Builder, BuilderTree, Chain, HtmlCopy, Jinja, Terminal | `print`, bookkeeping of names |
| builders/composite_builders/parallel_builder.py | 35/38 | AddFile, Build, BuildAdds, EqImage | `add_build` with a given output path or builder class; the shared loop is in composite_builder |
| builders/composite_builders/sequential_builder.py | 35/45 | AddFile, Chain, Convert, EqImage | names of builders; the shared loop is in composite_builder |
| builders/copy.py | 41/41 | AddFile, Assembly, Build, BuildStop, CopyFile | links between files |
| builders/deciders/decider.py | 10/22 | Decider | abstract methods |
| builders/deciders/md5decider.py | 29/43 | Cli, Decider | the database file |
| builders/deciders/utils_hash.py | 53/53 | CopyFile, Decider |  |
| builders/environment.py | 92/113 | Assembly, Build, Cli, Paths | creation of environments |
| builders/executor.py | 35/35 | Build, Executor | programs that cannot be started, text of the message |
| builders/imagemagick.py | 1/13 | Command | class attributes |
| builders/jinja_render.py | 116/158 | Assembly, Build, BuildAdds, BuildEpub, BuildStop, Chain, EqImage, HtmlCopy, Jinja, Mock, Rewrite | the language of Jinja2 (a parameter), the generated output path |
| builders/latexmk.py | 14/20 | Command | class attributes |
| builders/pdf2svg.py | 36/48 | Command, Convert | class attributes |
| builders/pdfcrop.py | 31/38 | Command, Validators | class attributes |
| builders/pdflatex.py | 12/18 | Command | class attributes |
| builders/pdfrender.py | 18/24 | Chain, Convert, EqImage | use without a context |
| builders/save_temp.py | 13/26 | Build, BuildStop, CopyFile | constructor, logging |
| builders/scalesvg.py | 16/23 | Command | class attributes |
| builders/scanners/html_scanner.py | 19/20 | Scanner | the class of spaces is a parameter (what \\s means for unicode) |
| builders/scanners/scanner.py | 48/57 | Jinja, Scanner, ScannerCache | the constructor, which always raises |
| builders/svgrender.py | 16/22 | Chain, Convert, EqImage | use without a context |
| builders/target_builders/__init__.py | 0/3 |  | imports |
| builders/target_builders/epub_builder.py | 57/88 | BuildEpub, Epub, Targets | deletion |
| builders/target_builders/html_builder.py | 21/26 | Assembly, HtmlCopy | the copies of the page itself at the end of the chain (one for each tracked extension) |
| builders/target_builders/pdf_builder.py | 31/40 | AddFile, Assembly, Targets | the choice of the converter (given as a tool) |
| builders/target_builders/receivers.py | 55/66 | AddFile, Assembly, Build, BuildAdds, BuildEpub, BuildStop, Media, Targets | `build(complete=False)` and build_needed |
| builders/target_builders/signals.py | 0/6 |  | declarations |
| builders/target_builders/target_builder.py | 65/96 | AddFile, Assembly, Build, Jinja, Targets | signals for parameters (given as parameters) |
| builders/target_builders/tex_builder.py | 0/5 |  | class attributes |
| builders/target_builders/txt_builder.py | 0/5 |  | class attributes |
| builders/target_builders/xhtml_builder.py | 0/5 |  | class attributes |
| builders/utils.py | 57/63 | EqImage, Mock, Paths | `sort_key`, the creation of directories |
| builders/validators.py | 30/30 | Validators |  |
| builders/xhtml2epub.py | 99/102 | BuildEpub, Epub | the template of the package file, the zip format, pages that are added by `scan_parameters` during a build |
| checkers/__init__.py | 0/4 |  | imports |
| checkers/checker.py | 30/42 | Checkers | constructor |
| checkers/exceptions.py | 0/4 |  | declarations |
| checkers/external.py | 0/3 |  | constructor |
| checkers/pdf.py | 20/51 | Checkers, Kpse | what kpsewhich answers (a parameter) |
| checkers/python.py | 30/44 | Checkers | call of pip |
| checkers/types.py | 60/75 | Checkers | representation |
| checkers/utils.py | 21/21 | Checkers |  |
| cli/build.py | 21/22 | BuildStop, Cli, Terminal | options |
| cli/init.py | 111/158 | Starters | options and what is printed (but the list and the files copied) |
| cli/main.py | 0/11 |  | command line |
| cli/options.py | 7/26 | Cli | declarations of options |
| cli/preview.py | 0/7 |  | command line |
| cli/setup/checkers.py | 53/55 | Terminal | the colours of a terminal |
| cli/setup/setup.py | 0/10 |  | command line |
| cli/setup/signals.py | 0/31 |  | printing |
| cli/term.py | 8/14 | Terminal | the width of the terminal, `wrap_with_newlines` |
| cli/utils/progressbar.py | 46/54 | Terminal | the text of a percentage |
| context/context.py | 151/168 | Context, ContextArgs, ContextCopy, DocContext, Header, InheritCache, Template | printing, iterators as arguments |
| context/utils.py | 18/18 | Header, Template |  |
| document/document.py | 171/209 | DocContext, Document, Links, Preamble | properties, building |
| document/document_context.py | 109/138 | DocContext, Document, Preamble, Targets | the logging of is_valid; see C06-C08 and C91 |
| document/exceptions.py | 0/4 |  | declarations |
| document/receivers/__init__.py | 0/2 |  | imports |
| document/receivers/load.py | 6/6 | DocContext | reading of the file |
| document/receivers/process_document_label.py | 12/13 | Preamble |  |
| document/receivers/process_headers.py | 58/58 | DocContext, Template | reading of files |
| document/receivers/process_tags.py | 12/13 | HeaderTags, Page | what `TagFactory.tag` does for entries other than the body |
| document/receivers/reset.py | 5/12 | DocContext | the order of receivers (C91 takes a reset, the header and the template as one event) |
| document/signals.py | 0/22 |  | declarations |
| formats/__init__.py | 0/2 |  | imports |
| formats/exceptions.py | 0/2 |  | declarations |
| formats/tex.py | 88/90 | Composite, EqImage, Formats, Media, Refs, Render |  |
| formats/xhtml.py | 109/117 | Composite, Formats, ListTag, Refs, Render |  |
| label_manager/__init__.py | 0/2 |  | imports |
| label_manager/exceptions.py | 0/6 |  | declarations |
| label_manager/label_manager.py | 103/113 | LabelText, Labels | constructor, reading of the root context |
| label_manager/receivers.py | 0/8 |  | calls `reset` |
| label_manager/register_content_labels.py | 36/37 | Labels |  |
| label_manager/register_orders.py | 29/31 | Labels |  |
| label_manager/signals.py | 0/4 |  | declarations |
| label_manager/types/content_label.py | 21/62 | LabelText, Labels | representation |
| label_manager/types/document_label.py | 0/5 |  | constructor |
| label_manager/types/label.py | 14/48 | RefDeps | representation |
| paths/paths.py | 109/113 | Links, Paths, Rewrite | representation |
| paths/utils.py | 71/71 | Csv, Paths, Rewrite | `load_io_stream` for streams and paths |
| server/app.py | 0/14 |  | Tornado |
| server/handlers/__init__.py | 0/3 |  | imports |
| server/handlers/checkers.py | 41/48 | Server | messages |
| server/handlers/projects.py | 11/11 | Server | logging |
| server/handlers/pygmentize.py | 5/6 | Server | highlighting |
| server/handlers/server.py | 4/33 | Server | error pages, headers |
| server/handlers/signals.py | 21/25 | Server | docstrings |
| server/handlers/static.py | 0/2 |  | serving of files by Tornado |
| server/handlers/store.py | 0/4 |  | deletion |
| server/handlers/tree.py | 23/29 | Server | the template of the page |
| server/urls.py | 14/16 | Server | names of routes |
| settings.py | 130/212 | AddFile, Attributes, Context, Formats, HtmlCopy, LabelText, Links, Page, Paths, Refs, Settings, Starters | constants the modelled code does not use |
| signals/exceptions.py | 0/2 |  | declarations |
| signals/signals.py | 28/46 | Signals | representation, the namespace of signals |
| software_dependencies.py | 26/27 | Checkers |  |
| tags/__init__.py | 0/6 |  | imports |
| tags/asy.py | 0/4 |  | class statements |
| tags/caption.py | 42/53 | Composite, Figures, LabelText | captions inside captions |
| tags/code.py | 65/70 | Code, Tags | highlighting by Pygments (a parameter) |
| tags/data.py | 106/132 | Composite, Csv, Data | representation |
| tags/eqs.py | 51/65 | EqImage, Media, Render | the constructor, the LaTeX document of the image |
| tags/exceptions.py | 0/7 |  | declarations |
| tags/featurebox.py | 17/20 | Page, Render, Tags | class statements |
| tags/figs.py | 37/57 | Composite, Figures, LabelText, Page, Render | class statements |
| tags/headings.py | 92/116 | LabelText, Navigation, Page, Refs, Render | class statements |
| tags/img.py | 64/73 | AddFile, BuildAdds, EqImage, Media | the constructor, RenderedImg |
| tags/label.py | 119/142 | Composite, Figures, LabelText, Refs | the constructor |
| tags/list.py | 63/107 | Composite, ListTag | constructors of tags |
| tags/navigation.py | 135/162 | Navigation, OtherLink, Refs | class statements, the constructor of `OtherLink` |
| tags/notes.py | 2/5 | Render | class statements |
| tags/preamble.py | 35/71 | Preamble | Titlepage, markup around the names |
| tags/receivers/__init__.py | 0/2 |  | imports |
| tags/receivers/content.py | 76/77 | Page, Parser |  |
| tags/receivers/hash.py | 6/6 | EqImage, Jinja | the hash function |
| tags/receivers/macros.py | 0/6 |  | calls `replace_macros` |
| tags/receivers/paragraphs.py | 90/90 | Page, Paragraphs | a `process_paragraphs` in the context other than that of the settings |
| tags/receivers/typography.py | 32/32 | Page, Typography | compiled patterns |
| tags/ref.py | 113/134 | LabelText, Links, Navigation, RefDeps, Refs | `default_fmt` (it always raises) |
| tags/signals.py | 11/15 | Parser, Signals | declarations |
| tags/table.py | 71/79 | Composite, Figures | class statements |
| tags/tag.py | 109/151 | Composite, Media, Page, Parser, Render, TagCache, TagEq, Tags | constructor, representation, tex and html shortcuts |
| tags/text.py | 97/142 | Page, Paragraphs, Render | class statements, xhtml |
| tags/toc.py | 92/114 | Navigation, Refs | the constructor |
| tags/utils.py | 107/109 | Composite, Formats, Render, ReplTags, Tags | `repl_tags` of a tag that is at two places |
| utils/classes.py | 38/45 | Classes, Labels, TagEq, Tags | the method resolution order is a parameter; access of a weak attribute through its class |
| utils/dict.py | 14/14 | Utils |  |
| utils/file.py | 26/26 | LinkCopy, ParentPaths | logging |
| utils/list.py | 43/44 | Data, Kpse, Lists |  |
| utils/pygments/dm.py | 0/16 |  | lexer |
| utils/string.py | 155/159 | LabelText, Macros, Parser, Text, Utils | hash functions |
| utils/tests.py | 0/4 |  | test helper |
| utils/types.py | 21/22 | AttrEdit, Attributes |  |

All: 5378 of 6873 lines.
