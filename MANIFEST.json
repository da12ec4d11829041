{
 "claims": [
  {
   "property": "C01",
   "status": "proved",
   "theorems": [
    "Verif.Parser.Props.C01_parse_lossless",
    "Verif.Parser.Props.C01_plain_text",
    "Verif.Parser.Props.C01_tag_is_found"
   ],
   "note": "Losslessness, plain text and tag recognition hold for every text."
  },
  {
   "property": "C02",
   "status": "partial",
   "theorems": [
    "Verif.Parser.Props.C02_content_balanced",
    "Verif.Parser.Props.C02_raw_content_is_text",
    "Verif.Parser.Props.C02_error_iff_unclosed_partial",
    "Verif.Parser.Props.C02_only_notClosed",
    "Verif.Parser.Props.C02_unclosed_named",
    "Verif.Parser.Props.C02_deep_nesting_rejected"
   ],
   "note": "Matching braces and errors are characterised exactly; the code rejects properly closed tags whose content nests braces nine or more deep (C02_deep_nesting_rejected), so the error characterisation is relative to depth 8."
  },
  {
   "property": "C03",
   "status": "partial",
   "theorems": [
    "Verif.Attrs.C03_target_wins_partial",
    "Verif.Attrs.C03_without_target_partial",
    "Verif.Attrs.C03_other_targets_do_not_leak",
    "Verif.Attrs.C03_target_order_irrelevant",
    "Verif.Attrs.C03_value_is_stripped",
    "Verif.Attrs.C03_positional_leaks",
    "Verif.Attrs.C03_positional_no_separator",
    "Verif.Attrs.C03_positional_first_partial"
   ],
   "note": "Precedence and no-leak hold for names. Refuted parts: values that end in a target suffix are cut (C03_value_is_stripped); positional values of other targets are returned (C03_positional_leaks) and matched without separator (C03_positional_no_separator)."
  },
  {
   "property": "C04",
   "status": "partial",
   "theorems": [
    "Verif.Attrs.C04_filter_entries",
    "Verif.Attrs.C04_filter_class",
    "Verif.Attrs.C04_requested_order",
    "Verif.Attrs.C04_dict_order_partial",
    "Verif.Attrs.C04_order_of_specific_entries",
    "Verif.Attrs.C04_filter_all",
    "Verif.Attrs.C04_filter_without_target",
    "Verif.Attrs.C04_strip"
   ],
   "note": "Entries, uniqueness and requested order hold in full; the dict order holds for names with a plain entry, refuted for names with only a target-specific entry (C04_order_of_specific_entries)."
  },
  {
   "property": "C05",
   "status": "partial",
   "theorems": [
    "Verif.Attrs.C05_load_inverts_spelling",
    "Verif.Attrs.C05_html_round_trip_partial",
    "Verif.Attrs.C05_to_tuple",
    "Verif.Attrs.C05_quote_lost",
    "Verif.Attrs.C05_html_apostrophe"
   ],
   "note": "Spelled strings load to the entries; html round trip for values that quoting can carry; refuted for values with quotes (C05_quote_lost, C05_html_apostrophe)."
  },
  {
   "property": "C06",
   "status": "partial",
   "theorems": [
    "Verif.Context.C06_update_partial",
    "Verif.Context.C06_values_partial",
    "Verif.Context.C06_header_never_raises_partial",
    "Verif.Context.C06_kinds_at_any_depth",
    "Verif.Context.C06_objects_keep_their_kind",
    "Verif.Context.C06_bool_update_raises",
    "Verif.Context.C06_update_nested",
    "Verif.Context.C06_rules",
    "Verif.Context.C06_kinds_along_paths",
    "Verif.Context.C06_aliased_entries_change_together"
   ],
   "note": "Exact values at any nesting, for contexts and changes whose objects occur at one place (C06_update_nested, with the rules in Spec/ContextTree; C06_rules and C06_kinds_along_paths derive the English claims). Kinds with any sharing (C06_kinds_at_any_depth). Entries that share an object change together (C06_aliased_entries_change_together), so the full claim needs the separation. A truth value changed with a truth value raises (C06_bool_update_raises)."
  },
  {
   "property": "C07",
   "status": "partial",
   "theorems": [
    "Verif.Context.C07_others_untouched_partial",
    "Verif.Context.C07_changes_untouched_partial",
    "Verif.Context.C07_nested_values_are_shared",
    "Verif.Context.C07_changes_untouched_nested"
   ],
   "note": "Holds for flat parents and initial values; refuted for values nested two deep, which are shared (C07_nested_values_are_shared). A single update never changes the changes, at any nesting (C07_changes_untouched_nested)."
  },
  {
   "property": "C08",
   "status": "partial",
   "theorems": [
    "Verif.Context.C08_reset_partial",
    "Verif.Context.C08_excluded_entry_grows",
    "Verif.Context.C08_nested_values_are_not_restored"
   ],
   "note": "Holds for flat parents and initial values without excluded entries; refuted otherwise (C08_excluded_entry_grows, C08_nested_values_are_not_restored)."
  },
  {
   "property": "C09",
   "status": "proved",
   "theorems": [
    "Verif.Header.C09_block_and_rest",
    "Verif.Header.C09_no_block",
    "Verif.Header.C09_keep",
    "Verif.Header.C09_has_header",
    "Verif.Header.C09_usual_document",
    "Verif.Header.C09_longer_closing_marker",
    "Verif.Header.C09_empty_header"
   ],
   "note": ""
  },
  {
   "property": "C10",
   "status": "proved",
   "theorems": [
    "Verif.Labels.C10_unique",
    "Verif.Labels.C10_add"
   ],
   "note": "Full: for all histories of add, reset and register."
  },
  {
   "property": "C11",
   "status": "partial",
   "theorems": [
    "Verif.Labels.C11_parse",
    "Verif.Labels.C11_parse_default",
    "Verif.Labels.C11_with_document",
    "Verif.Labels.C11_without_document",
    "Verif.Labels.C11_not_found",
    "Verif.Labels.C11_added_is_found",
    "Verif.Labels.C11_two_separators",
    "Verif.Labels.C11_by_ids"
   ],
   "note": "Lookup exact for all reachable states; identifiers with two separators are misread (C11_two_separators)."
  },
  {
   "property": "C12",
   "status": "proved",
   "theorems": [
    "Verif.Labels.C12_order",
    "Verif.Labels.C12_kept_and_dropped",
    "Verif.Labels.C12_grouped",
    "Verif.Labels.C12_up_to_date",
    "Verif.Labels.C12_registered_once",
    "Verif.Labels.C12_register_again"
   ],
   "note": "Full, with and without a root document."
  },
  {
   "property": "C13",
   "status": "proved",
   "theorems": [
    "Verif.Labels.C13_numbers",
    "Verif.Labels.C13_first",
    "Verif.Labels.C13_next",
    "Verif.Labels.C13_restart",
    "Verif.Labels.C13_by_kind",
    "Verif.Labels.C13_by_kinds_lists_twice",
    "Verif.Labels.C13_by_kind_raises"
   ],
   "note": "Full for the numbers; lookups by several kinds list a label twice (C13_by_kinds_lists_twice)."
  },
  {
   "property": "C14",
   "status": "partial",
   "theorems": [
    "Verif.Labels.C14_enclosing",
    "Verif.Labels.C14_only_enclosing_partial",
    "Verif.Labels.C14_first_registration",
    "Verif.Labels.C14_stale_link",
    "Verif.Labels.C14_tree_number"
   ],
   "note": "Exact for labels that had no link before (so for the first registration); false after project changes (C14_stale_link)."
  },
  {
   "property": "C15",
   "status": "proved",
   "theorems": [
    "Verif.Labels.C15_reset",
    "Verif.Labels.C15_reset_all",
    "Verif.Labels.C15_add_again",
    "Verif.Labels.C15_not_found"
   ],
   "note": "Full."
  },
  {
   "property": "C16",
   "status": "partial",
   "theorems": [
    "Verif.Documents.C16_terminates",
    "Verif.Documents.C16_fuel",
    "Verif.Documents.C16_listed_once",
    "Verif.Documents.C16_reading_order_partial",
    "Verif.Documents.C16_loads_once_partial",
    "Verif.Documents.C16_cycle_never_ends",
    "Verif.Documents.C16_diamond_loads_twice",
    "Verif.Documents.C16_duplicate_loses",
    "Verif.Documents.C16_order_refuted",
    "Verif.Documents.C16_by_id"
   ],
   "note": "Termination is characterised exactly (C16_terminates): loading ends iff all reachable files load and there is no endless include chain avoiding the root. The English claim is false of the code: a cycle that avoids the root never ends (C16_cycle_never_ends), a file included in two places is loaded twice (C16_diamond_loads_twice), a duplicate include line loses documents (C16_duplicate_loses), a document can be listed after one it includes (C16_order_refuted). Reading order is proved if the root has no duplicate includes; loading once is proved if each file is included in one place."
  },
  {
   "property": "C17",
   "status": "partial",
   "theorems": [
    "Verif.Documents.C17_required",
    "Verif.Documents.C17_reload_partial",
    "Verif.Documents.C17_load_works",
    "Verif.Documents.C17_second_load_partial",
    "Verif.Documents.C17_settled_partial",
    "Verif.Documents.C17_fresh",
    "Verif.Documents.C17_anew_partial",
    "Verif.Documents.C17_works",
    "Verif.Documents.C17_listed",
    "Verif.Documents.C17_grandchild_not_reloaded",
    "Verif.Documents.C17_older_file_not_reloaded",
    "Verif.Documents.C17_reloads_forever",
    "Verif.Documents.C17_anew_refuted"
   ],
   "note": "The reload decision, its exact effect for every history of loads with arbitrary modification times, and that a second load does nothing, are proved for projects whose includes stay the same and form a tree. For arbitrary edits, with failing loads in between: C17_fresh (all that was loaded is up to date; no condition on includes), C17_works (if loading anew works, so does loading again; no condition on includes), C17_listed (the list of documents always ends) and C17_anew_partial (loading again equals loading anew, if each file is included in one place; false otherwise, C17_anew_refuted). Findings: grandchildren are not reloaded (C17_grandchild_not_reloaded), a file with an older time is not reloaded (C17_older_file_not_reloaded), a document can be reloaded at each load although no file changes (C17_reloads_forever)."
  },
  {
   "property": "C18",
   "status": "proved",
   "theorems": [
    "Verif.Builder.C18_in_order",
    "Verif.Builder.C18_done_means_all_done"
   ],
   "note": "Every history of calls, with arbitrary changes of the world between and during calls; sub-builders are arbitrary (status, build) machines, so nesting is covered by taking a composite as a sub-builder."
  },
  {
   "property": "C19",
   "status": "partial",
   "theorems": [
    "Verif.Builder.C19_status",
    "Verif.Builder.C19_all_started_partial",
    "Verif.Builder.C19_never_dropped",
    "Verif.Builder.C19_only_ready",
    "Verif.Builder.C19_blocked",
    "Verif.Builder.C19_completes"
   ],
   "note": "Status, never-dropped, only-ready and completion hold for every history. 'Starts every sub-build that is not done' is false: a missing or cancelled sub-builder blocks the later ones (C19_blocked); without such a one it holds (C19_all_started_partial)."
  },
  {
   "property": "C20",
   "status": "partial",
   "theorems": [
    "Verif.Decider.C20_missing",
    "Verif.Decider.C20_exact",
    "Verif.Decider.C20_not_repeated_partial",
    "Verif.Decider.C20_change",
    "Verif.Decider.C20_shared_inputs"
   ],
   "note": "False as stated when another builder records the same inputs with another output: the database is keyed by the input digest alone (C20_shared_inputs). C20_exact gives the answer for every history, C20_change shows that no change is missed, C20_not_repeated_partial excludes such other builders."
  },
  {
   "property": "C21",
   "status": "proved",
   "theorems": [
    "Verif.Decider.C21_order",
    "Verif.Decider.C21_names_ignored",
    "Verif.Decider.C21_different"
   ],
   "note": "C21_order and C21_different (both directions). Finding: the kind and the name of an input are not part of the digest (C21_names_ignored)."
  },
  {
   "property": "C22",
   "status": "proved",
   "theorems": [
    "Verif.Decider.C22_lines",
    "Verif.Decider.C22_lines_exist",
    "Verif.Decider.C22_pdf",
    "Verif.Decider.C22_what_counts",
    "Verif.Decider.C22_chunk_size",
    "Verif.Decider.C22_line_breaks_ignored"
   ],
   "note": "C22_pdf gives the hashed text for every content and chunk size. Finding: line breaks are not hashed (C22_line_breaks_ignored)."
  },
  {
   "property": "C23",
   "status": "proved",
   "theorems": [
    "Verif.Builder.C23_by_extension",
    "Verif.Builder.C23_by_target",
    "Verif.Builder.C23_out_ext_ignored"
   ],
   "note": "The registry is that of the first call: the code caches it. With a target the output extension is ignored (C23_out_ext_ignored), and a missing copy builder gives a KeyError instead of a BuildError."
  },
  {
   "property": "C24",
   "status": "proved",
   "theorems": [
    "Verif.Signals.C24_history",
    "Verif.Signals.C24_connect",
    "Verif.Signals.C24_emit",
    "Verif.Signals.C24_live",
    "Verif.Signals.C24_receivers_dict",
    "Verif.Signals.C24_signal_by_name"
   ],
   "note": "Every history of connects and resets, receivers that raise, die or change the world during emission; the tag signal's switches too."
  },
  {
   "property": "C25",
   "status": "partial",
   "theorems": [
    "Verif.Macros.C25_plain",
    "Verif.Macros.C25_ends_partial",
    "Verif.Macros.C25_replaced_partial",
    "Verif.Macros.C25_none_left_partial",
    "Verif.Macros.C25_does_not_end",
    "Verif.Macros.C25_left",
    "Verif.Macros.C25_left_at"
   ],
   "note": "Termination and complete substitution hold if the values have no '@' and macros can be told apart (Good). In general both are false: C25_does_not_end, C25_left, C25_left_at."
  },
  {
   "property": "C26",
   "status": "proved",
   "theorems": [
    "Verif.Para.C26_split_at_blank_lines",
    "Verif.Para.C26_group",
    "Verif.Para.C26_group_applies",
    "Verif.Para.C26_blocks_unique",
    "Verif.Para.C26_idempotent",
    "Verif.Para.C26_clean",
    "Verif.Para.C26_roles",
    "Verif.Para.C26_process",
    "Verif.Para.C26_blank_content"
   ],
   "note": "group_paragraphs, clean_paragraphs, assign_paragraph_roles and the P conversion over abstract tags. Finding: blank content becomes an empty list (C26_blank_content)."
  },
  {
   "property": "C27",
   "status": "partial",
   "theorems": [
    "Verif.ListTag.C27_parse",
    "Verif.ListTag.C27_parse_all",
    "Verif.ListTag.C27_clean",
    "Verif.ListTag.C27_clean_one_line",
    "Verif.ListTag.C27_levels",
    "Verif.ListTag.C27_html_order",
    "Verif.ListTag.C27_html_depth_partial",
    "Verif.ListTag.C27_tex",
    "Verif.ListTag.C27_html_depth_false",
    "Verif.ListTag.C27_blank_line_counts"
   ],
   "note": "Parsing, cleaning, levels and html nesting are proved for all inputs; the depth equals the level only for well-nested levels (C27_html_depth_partial), and is refuted otherwise (C27_html_depth_false). Spaces on blank lines count as indentation (C27_blank_line_counts)."
  },
  {
   "property": "C28",
   "status": "partial",
   "theorems": [
    "Verif.Formats.C28_delimiter_partial",
    "Verif.Formats.C28_all_delimiters"
   ],
   "note": "Holds unless the text has all of | ! ^; such text is returned without a command (C28_all_delimiters)."
  },
  {
   "property": "C29",
   "status": "proved",
   "theorems": [
    "Verif.Formats.C29_not_allowed",
    "Verif.Formats.C29_command",
    "Verif.Formats.C29_environment",
    "Verif.Formats.C29_optionals_only",
    "Verif.Formats.C29_optionals",
    "Verif.Formats.C29_arguments_by_name",
    "Verif.Formats.C29_settings",
    "Verif.Formats.C29_settings_lookup",
    "Verif.Formats.C29_injection"
   ],
   "note": "Exact output for required and optional arguments, for the tables of the settings. Values are not escaped (C29_injection)."
  },
  {
   "property": "C30",
   "status": "proved",
   "theorems": [
    "Verif.Formats.C30_element",
    "Verif.Formats.C30_error",
    "Verif.Formats.C30_settings",
    "Verif.Formats.C30_html_entry_ignored"
   ],
   "note": "Exact attributes, names, content and errors, for the element before serialisation by lxml. Finding: C30_html_entry_ignored."
  },
  {
   "property": "C31",
   "status": "partial",
   "theorems": [
    "Verif.Formats.C31_class_partial",
    "Verif.Formats.C31_monotone",
    "Verif.Formats.C31_same_windows",
    "Verif.Formats.C31_gap",
    "Verif.Formats.C31_percentage",
    "Verif.Formats.C31_html",
    "Verif.Formats.C31_tex",
    "Verif.Formats.C31_no_width",
    "Verif.Formats.C31_errors",
    "Verif.Formats.C31_negative"
   ],
   "note": "Holds for all percentages but 34, which has no class (C31_gap); negative widths use the absolute value (C31_negative)."
  },
  {
   "property": "C32",
   "status": "partial",
   "theorems": [
    "Verif.Paths.C32_text",
    "Verif.Paths.C32_splits",
    "Verif.Paths.C32_rename",
    "Verif.Paths.C32_rename_adds_period",
    "Verif.Paths.C32_use_subpath",
    "Verif.Paths.C32_use_subpath_target",
    "Verif.Paths.C32_use_subpath_last",
    "Verif.Paths.C32_use_subpath_last_target",
    "Verif.Paths.C32_use_name",
    "Verif.Paths.C32_use_name_target",
    "Verif.Paths.C32_use_name_empty",
    "Verif.Paths.C32_use_suffix",
    "Verif.Paths.C32_use_suffix_target",
    "Verif.Paths.C32_use_suffix_refused",
    "Verif.Paths.C32_use_suffix_reads_partial",
    "Verif.Paths.C32_use_suffix_refuted",
    "Verif.Paths.C32_target_changes",
    "Verif.Paths.C32_target_root"
   ],
   "note": "rename, use_name, use_suffix and use_subpath are proved for every path, given as a directory and a name. Partial: the suffix read back equals the one given only for suffixes with a single period (C32_use_suffix_refuted), rename adds a period to a name without extension (C32_rename_adds_period) and a target ending in a period is changed (C32_target_changes)."
  },
  {
   "property": "C33",
   "status": "proved",
   "theorems": [
    "Verif.Paths.C33_find",
    "Verif.Paths.C33_not_a_path",
    "Verif.Paths.C33_found",
    "Verif.Paths.C33_raises",
    "Verif.Paths.C33_raises_or_finds",
    "Verif.Paths.C33_text",
    "Verif.Paths.C33_tracked",
    "Verif.Paths.C33_files",
    "Verif.Paths.C33_untracked_lost"
   ],
   "note": "find_file is proved equal to taking the first location with a file, for every file system, including the case of OSErrors. A search path obtained from a SourcePath by a pathlib operation is excluded: its files are looked for in a directory named None (C33_untracked_lost)."
  },
  {
   "property": "C34",
   "status": "partial",
   "theorems": [
    "Verif.Paths.C34_placed",
    "Verif.Paths.C34_none",
    "Verif.Paths.C34_below",
    "Verif.Paths.C34_media_partial",
    "Verif.Paths.C34_injective_partial",
    "Verif.Paths.C34_absolute",
    "Verif.Paths.C34_media_refuted",
    "Verif.Paths.C34_injective_refuted",
    "Verif.Paths.C34_escapes",
    "Verif.Paths.C34_untracked"
   ],
   "note": "Location of the output proved for relative inputs. Partial: a name that starts like the media path is not placed there, absolute inputs with the same name and files already in the media directory collide, and '..' escapes the target directory (refutations given)."
  },
  {
   "property": "C35",
   "status": "proved",
   "theorems": [
    "Verif.Paths.C35_exact",
    "Verif.Paths.C35_one_root",
    "Verif.Paths.C35_not_nested",
    "Verif.Paths.C35_directory_taken"
   ],
   "note": "Proved for every directory tree; glob looks at names only, so a directory with the extension is taken for a document (C35_directory_taken)."
  },
  {
   "property": "C36",
   "status": "proved",
   "theorems": [
    "Verif.Lists.Props.C36_uniq_keeps_first",
    "Verif.Lists.Props.C36_uniq_complete",
    "Verif.Lists.Props.C36_dupes",
    "Verif.Lists.Props.C36_unwrap",
    "Verif.Lists.Props.C36_flatten",
    "Verif.Lists.Props.C36_chunks",
    "Verif.Lists.Props.C36_chunks_nonpositive",
    "Verif.Lists.Props.C36_transpose_cells",
    "Verif.Lists.Props.C36_transpose_involutive",
    "Verif.Lists.Props.C36_transpose_no_columns"
   ],
   "note": "transpose needs at least one row and one column, see C36_transpose_no_columns."
  },
  {
   "property": "C37",
   "status": "partial",
   "theorems": [
    "Verif.Utils.C37_semicolons",
    "Verif.Utils.C37_lines",
    "Verif.Utils.C37_commas",
    "Verif.Utils.C37_single",
    "Verif.Utils.C37_every_text",
    "Verif.Utils.C37_round_trip_partial",
    "Verif.Utils.C37_empty_entries"
   ],
   "note": "False as stated for semicolons and commas: empty entries are kept, and a text without separators is returned unstripped (C37_empty_entries). Everything else is proved: the exact result for every text, via its pieces."
  },
  {
   "property": "C38",
   "status": "proved",
   "theorems": [
    "Verif.Utils.C38_blocks",
    "Verif.Utils.C38_blocks_unique",
    "Verif.Utils.C38_entry",
    "Verif.Utils.C38_no_entry",
    "Verif.Utils.C38_round_trip",
    "Verif.Utils.C38_odd_lines"
   ],
   "note": "C38_blocks gives the exact dict for every list of lines, C38_blocks_unique shows its blocks are determined, C38_entry and C38_no_entry say which lines are entries, C38_round_trip inverts the canonical text. C38_odd_lines shows two surprising cases."
  },
  {
   "property": "C39",
   "status": "proved",
   "theorems": [
    "Verif.Utils.C39_find_entry",
    "Verif.Utils.C39_key_error"
   ],
   "note": ""
  },
  {
   "property": "C40",
   "status": "partial",
   "theorems": [
    "Verif.Navigation.C40_links_partial",
    "Verif.Navigation.C40_other_targets",
    "Verif.Navigation.C40_tex_links_missing"
   ],
   "note": "Holds for the targets of the last document in the tree (C40_links_partial); for other targets the entries are never set or removed (C40_other_targets, C40_tex_links_missing)."
  },
  {
   "property": "C41",
   "status": "partial",
   "theorems": [
    "Verif.Navigation.C41_words",
    "Verif.Navigation.C41_content",
    "Verif.Navigation.C41_labels",
    "Verif.Navigation.C41_abbreviated_partial",
    "Verif.Navigation.C41_levels",
    "Verif.Navigation.C41_shown_partial",
    "Verif.Navigation.C41_abbreviated_twice",
    "Verif.Navigation.C41_same_id",
    "Verif.Navigation.C41_part_of_word"
   ],
   "note": "Lists are exact; 'abbreviated' holds for headings or documents alone (C41_abbreviated_partial, refuted for both by C41_abbreviated_twice); entries show their labels if the ids differ (C41_shown_partial, refuted in general by C41_same_id)."
  },
  {
   "property": "C42",
   "status": "partial",
   "theorems": [
    "Verif.Data.C42_header",
    "Verif.Data.C42_header_rectangular",
    "Verif.Data.C42_noheader",
    "Verif.Data.C42_noheader_rectangular",
    "Verif.Data.C42_single_row",
    "Verif.Data.C42_same_names",
    "Verif.Data.C42_empty",
    "Verif.Data.C42_num_rows",
    "Verif.Data.C42_tex_row_partial",
    "Verif.Data.C42_escaped",
    "Verif.Data.C42_tex_table"
   ],
   "note": "Proved for tables of rows as the csv module gives them, ragged ones included: columns up to the shortest row. Not as stated: a header without rows, or one row without header, is lost (C42_single_row); columns of the same name are merged (C42_same_names); an empty source raises StopIteration (C42_empty). C42_tex_row_partial leaves out cells with backslashes, of which an escaped ampersand breaks the table (C42_escaped)."
  },
  {
   "property": "C43",
   "status": "partial",
   "theorems": [
    "Verif.Checkers.C43_available",
    "Verif.Checkers.C43_executables",
    "Verif.Checkers.C43_lookup_all",
    "Verif.Checkers.C43_kpsewhich",
    "Verif.Checkers.C43_flatten",
    "Verif.Checkers.C43_check_partial",
    "Verif.Checkers.C43_handlers_keep",
    "Verif.Checkers.C43_pdf_parts",
    "Verif.Checkers.C43_pdf",
    "Verif.Checkers.C43_parse",
    "Verif.Checkers.C43_parse_name",
    "Verif.Checkers.C43_order",
    "Verif.Checkers.C43_package_first",
    "Verif.Checkers.C43_package_partial",
    "Verif.Checkers.C43_other_package_taken",
    "Verif.Checkers.C43_package_hidden",
    "Verif.Checkers.C43_version_without_operator",
    "Verif.Checkers.C43_version_period",
    "Verif.Checkers.C43_missing_handler",
    "Verif.Checkers.C43_second_list_ignored",
    "Verif.Checkers.C43_images",
    "Verif.Checkers.C43_packages_not_looked_for",
    "Verif.Checkers.C43_operator_without_version",
    "Verif.Checkers.C43_python"
   ],
   "note": "Availability, lookup and flattening are proved for every tree; the package part holds if no other installed name begins with the required one (C43_package_partial), and the check of a list of lists if their categories differ; the failures are proved as C43_other_package_taken, C43_package_hidden, C43_version_without_operator, C43_second_list_ignored."
  },
  {
   "property": "C44",
   "status": "partial",
   "theorems": [
    "Verif.Tags.C44_deep",
    "Verif.Tags.C44_flatten_partial",
    "Verif.Tags.C44_flatten_sound",
    "Verif.Tags.C44_replace_partial",
    "Verif.Tags.C44_replace_frame",
    "Verif.Tags.C44_copy_partial",
    "Verif.Tags.C44_nested_list_keeps_context",
    "Verif.Tags.C44_none_content_error",
    "Verif.Tags.C44_replace_none"
   ],
   "note": "Copies share nothing with the original and replacing the context reaches every tag, proved for all heaps; replacement is proved for tags without lists in lists and refuted for tags in nested lists (C44_nested_list_keeps_context). Attributes other than name, attributes, content and context are not modelled."
  },
  {
   "property": "C45",
   "status": "proved",
   "theorems": [
    "Verif.Typography.C45_quotes",
    "Verif.Typography.C45_only",
    "Verif.Typography.C45_stable",
    "Verif.Typography.C45_set",
    "Verif.Typography.C45_set_unchanged",
    "Verif.Typography.C45_unchanged",
    "Verif.Typography.C45_hyphens_kept",
    "Verif.Typography.C45_split",
    "Verif.Typography.C45_emdash",
    "Verif.Typography.C45_endash",
    "Verif.Typography.C45_dash_in_text",
    "Verif.Typography.C45_paragraph_break_lost",
    "Verif.Typography.C45_tree_stable",
    "Verif.Typography.C45_tree"
   ],
   "note": "Proved for all texts, all trees and all classes of characters that separate spaces, word characters and the dashes and quotes; paragraph breaks beside dashes are lost (C45_paragraph_break_lost)."
  },
  {
   "property": "C46",
   "status": "proved",
   "theorems": [
    "Verif.Tags.C46_classes",
    "Verif.Tags.C46_class",
    "Verif.Tags.C46_generic",
    "Verif.Tags.C46_package",
    "Verif.Tags.C46_package_found",
    "Verif.Tags.C46_usable",
    "Verif.Tags.C46_inactive_alias"
   ],
   "note": "Proved for every list of classes with distinct names, and for the class table of the package; listing an alias as inactive has no effect (C46_inactive_alias)."
  },
  {
   "property": "C47",
   "status": "proved",
   "theorems": [
    "Verif.Utils.C47_longest_common_prefix",
    "Verif.Parser.C47_group_strings",
    "Verif.Parser.C47_tag_with_empty_list_disappears",
    "Verif.Parser.C47_grouping_is_not_idempotent"
   ],
   "note": "find_basestring and group_strings (strings, empty and nested lists). Finding: grouping is not idempotent."
  },
  {
   "property": "C48",
   "status": "partial",
   "theorems": [
    "Verif.Validators.C48_tuple",
    "Verif.Validators.C48_failure",
    "Verif.Validators.C48_exceptions",
    "Verif.Validators.C48_raises_anyway",
    "Verif.Validators.C48_crop",
    "Verif.Validators.C48_crop_other",
    "Verif.Validators.C48_offset",
    "Verif.Validators.C48_single_offset_ignored"
   ],
   "note": "validate_tuple is proved to return a tuple exactly for an iterable of the right length whose items convert. Not as stated: with raise_error=False a ValueError of an item is raised anyway (C48_raises_anyway). The arguments of the crop builder are modelled too; an integer offset is ignored (C48_single_offset_ignored)."
  },
  {
   "property": "C49",
   "status": "partial",
   "theorems": [
    "Verif.Tags.C49_text_partial",
    "Verif.Tags.C49_concat_partial",
    "Verif.Tags.C49_plain_partial",
    "Verif.Tags.C49_nested_list_error",
    "Verif.Tags.C49_single_nested_error"
   ],
   "note": "Proved for contents without lists in lists; nested lists raise a TypeError (C49_nested_list_error)."
  },
  {
   "property": "C50",
   "status": "proved",
   "theorems": [
    "Verif.Builder.C50_submitted_once",
    "Verif.Builder.C50_building",
    "Verif.Builder.C50_done",
    "Verif.Builder.C50_failed",
    "Verif.Builder.C50_missing",
    "Verif.Builder.C50_stale"
   ],
   "note": "At most one submission in any history, building while running, done only after success or when up to date, failures raise. Finding C50_stale: a builder never runs twice, so it records a stale output as up to date when an input changes after its run."
  },
  {
   "property": "C51",
   "status": "partial",
   "theorems": [
    "Verif.Parser.Props.C51_reparse_idempotent_partial",
    "Verif.Parser.Props.C51_reparse_raw_changes"
   ],
   "note": "Idempotent when no tag with content processing turned off occurs; refuted otherwise by C51_reparse_raw_changes."
  },
  {
   "property": "C52",
   "status": "partial",
   "theorems": [
    "Verif.Render.C52_written_partial",
    "Verif.Render.C52_texts_partial",
    "Verif.Render.C52_texts_unique",
    "Verif.Render.C52_balanced_partial",
    "Verif.Render.C52_renders_partial",
    "Verif.Render.C52_heading_lost"
   ],
   "note": "Proved for all trees without headings that have no label and without @verb of a text with all three delimiters. A heading with nolabel loses its text in LaTeX (C52_heading_lost). Equations are in the trees with their content; tables, lists, images and references are in them as tags of which only the result is known (it has their texts)."
  },
  {
   "property": "C53",
   "status": "proved",
   "theorems": [
    "Verif.Render.C53_shown",
    "Verif.Render.C53_texts",
    "Verif.Render.C53_allowed",
    "Verif.Render.C53_renders"
   ],
   "note": "Proved for all trees. Equations, tables, lists, images and references are in the trees as tags of which only the result is known (with their texts, in allowed elements). Not modelled: what lxml refuses in text, attributes and entity names, and serialisation."
  },
  {
   "property": "C54",
   "status": "partial",
   "theorems": [
    "Verif.Links.C54_link_leads",
    "Verif.Links.C54_one_place",
    "Verif.Links.C54_same_document",
    "Verif.Links.C54_other_document",
    "Verif.Links.C54_anchor_partial",
    "Verif.Links.C54_owner_known",
    "Verif.Links.C54_errors",
    "Verif.Links.C54_absolute_partial",
    "Verif.Links.C54_absolute_distinct_partial",
    "Verif.Links.C54_base_url",
    "Verif.Links.C54_example",
    "Verif.Links.C54_hash_in_name",
    "Verif.Links.C54_hidden_directory",
    "Verif.Links.C54_tex_without_pdf"
   ],
   "note": "Links read back by walking names; files with a '#' in the name, hidden directories in absolute links and LaTeX references without a pdf target are shown not to work (C54_hash_in_name, C54_hidden_directory, C54_tex_without_pdf)."
  },
  {
   "property": "C55",
   "status": "proved",
   "theorems": [
    "Verif.LabelText.C55_title",
    "Verif.LabelText.C55_title_clean",
    "Verif.LabelText.C55_title_same",
    "Verif.LabelText.C55_title_not_stable",
    "Verif.LabelText.C55_title_cut",
    "Verif.LabelText.C55_heading",
    "Verif.LabelText.C55_heading_id",
    "Verif.LabelText.C55_duplicate",
    "Verif.LabelText.C55_same_title",
    "Verif.LabelText.C55_numbered",
    "Verif.LabelText.C55_number_taken",
    "Verif.LabelText.C55_figure",
    "Verif.LabelText.C55_same_caption",
    "Verif.LabelText.C55_chapter",
    "Verif.LabelText.C55_section",
    "Verif.LabelText.C55_title_text",
    "Verif.LabelText.C55_caption",
    "Verif.LabelText.C55_no_label",
    "Verif.LabelText.C55_heading_tex",
    "Verif.LabelText.C55_heading_tex_error",
    "Verif.LabelText.C55_other_heading",
    "Verif.LabelText.C55_label_dash",
    "Verif.LabelText.C55_caption_not_numbered"
   ],
   "note": "Texts are proved for titles without '@'. Findings: headings of two documents with the same id attribute show the title and number of the first one (C55_other_heading); '--' in an id becomes a dash in the LaTeX label (C55_label_dash); a heading is cut behind an abbreviation (C55_title_cut); titlelize is not idempotent (C55_title_not_stable); a caption without number shows the macro (C55_caption_not_numbered)."
  },
  {
   "property": "C56",
   "status": "partial",
   "theorems": [
    "Verif.Targets.C56_entry",
    "Verif.Targets.C56_targets",
    "Verif.Targets.C56_none",
    "Verif.Targets.C56_targets_text",
    "Verif.Targets.C56_single_not_trimmed",
    "Verif.Targets.C56_impossible",
    "Verif.Targets.C56_target_filepath",
    "Verif.Targets.C56_target_filepaths",
    "Verif.Targets.C56_order",
    "Verif.Targets.C56_no_clash",
    "Verif.Targets.C56_includes",
    "Verif.Targets.C56_no_includes",
    "Verif.Targets.C56_absolute_include",
    "Verif.Targets.C56_epub_of_root",
    "Verif.Targets.C56_same_stem",
    "Verif.Targets.C56_include_not_simplified"
   ],
   "note": "Proved for projects whose documents have different, proper source paths, in environments with proper paths; the cache is the directory .cache among those of the targets for C56_no_clash. Findings: documents that differ in their extension only share their files, include lines with '..' are not simplified, a single name is not trimmed, .epub of a sub-document is ignored. The state after an exception and the subbuilders other than target builders are not modelled."
  },
  {
   "property": "C57",
   "status": "partial",
   "theorems": [
    "Verif.Utils.C57_nicejoin",
    "Verif.Utils.C57_lines",
    "Verif.Utils.C57_indent",
    "Verif.Utils.C57_stub",
    "Verif.Utils.C57_newlines",
    "Verif.Utils.C57_unescape",
    "Verif.Utils.C57_camelcase",
    "Verif.Utils.C57_camelcase_loses",
    "Verif.Utils.C57_quotes_partial",
    "Verif.Utils.C57_blank_doubled",
    "Verif.Utils.C57_quotes_lines",
    "Verif.Utils.C57_quotes_apart"
   ],
   "note": "Texts: lines, indents, stubs, newlines, joins, camel case, quotes and escaped colons against relations that determine the result. Missing: camel case loses what is in front of the first capital letter (C57_camelcase_loses), quotes at the ends that do not belong together are removed (C57_quotes_apart), and blank lines are doubled (C57_blank_doubled), so the English claim is false of the code there."
  },
  {
   "property": "C58",
   "status": "proved",
   "theorems": [
    "Verif.Chain.C58_succeeds",
    "Verif.Chain.C58_chained",
    "Verif.Chain.C58_flow",
    "Verif.Chain.C58_new",
    "Verif.Chain.C58_empty_part"
   ],
   "note": "Proved for trees of any depth, for any steps, parameters and files. C58_empty_part records that an empty sequential builder cannot be a part of another one (IndexError)."
  },
  {
   "property": "C59",
   "status": "partial",
   "theorems": [
    "Verif.Mock.C59_name_partial",
    "Verif.Mock.C59_period_loses_hash",
    "Verif.Mock.C59_distinct_partial",
    "Verif.Mock.C59_clash",
    "Verif.Mock.C59_no_document"
   ],
   "note": "The name of the document has one period at most. For other names the theorem is false of the code: with_suffix drops the part behind the last period, which holds the hash (C59_period_loses_hash), so different renders of a document such as a.b.dm share one file (C59_clash)."
  },
  {
   "property": "C60",
   "status": "partial",
   "theorems": [
    "Verif.Template.C60_loaded",
    "Verif.Template.C60_new_entry",
    "Verif.Template.C60_text_entry",
    "Verif.Template.C60_list_entry",
    "Verif.Template.C60_other_entries",
    "Verif.Template.C60_child_first_partial",
    "Verif.Template.C60_template_entries",
    "Verif.Template.C60_no_paths",
    "Verif.Template.C60_no_template",
    "Verif.Template.C60_grandparent",
    "Verif.Template.C60_shared_file",
    "Verif.Template.C60_two_headers"
   ],
   "note": "Partial: the templates that extended templates extend are not searched (C60_grandparent, a finding); a context file shared by two templates counts in the place of the later one (C60_shared_file); if two entries have headers with the same key the order of a set decides (C60_two_headers)."
  },
  {
   "property": "C61",
   "status": "proved",
   "theorems": [
    "Verif.Scanner.C61_found",
    "Verif.Scanner.C61_sound",
    "Verif.Scanner.C61_scan",
    "Verif.Scanner.C61_missing",
    "Verif.Scanner.C61_exist",
    "Verif.Scanner.C61_not_raised",
    "Verif.Scanner.C61_second",
    "Verif.Scanner.C61_unquoted"
   ],
   "note": "Found names: for pages whose links are usual (one href per tag, quoted names). For all other pages every name found is in a link tag (C61_sound). Findings: without raise_error a missing file is an IndexError (C61_not_raised); the second href of a tag may win (C61_second); names without quotes run on (C61_unquoted)."
  },
  {
   "property": "C62",
   "status": "proved",
   "theorems": [
    "Verif.Epub.C62_archive",
    "Verif.Epub.C62_success",
    "Verif.Epub.C62_complete",
    "Verif.Epub.C62_once",
    "Verif.Epub.C62_listed",
    "Verif.Epub.C62_links",
    "Verif.Epub.C62_one_root",
    "Verif.Epub.C62_ids",
    "Verif.Epub.C62_needs_toc",
    "Verif.Epub.C62_documents",
    "Verif.Epub.C62_two_tocs",
    "Verif.Epub.C62_png",
    "Verif.Epub.C62_same_place",
    "Verif.Epub.C62_plain"
   ],
   "note": "Slugs, the resolution of symbolic links and the zip format are given from outside. Findings: C62_two_tocs (the check for a table of contents is never true), C62_png (PNG images are not in the manifest), C62_same_place (equal paths below different roots share a name), C62_plain."
  },
  {
   "property": "C63",
   "status": "proved",
   "theorems": [
    "Verif.Media.C63_once",
    "Verif.Media.C63_equation_again",
    "Verif.Media.C63_image_tex",
    "Verif.Media.C63_tex_renders",
    "Verif.Media.C63_tex_width_raw",
    "Verif.Media.C63_image_html",
    "Verif.Media.C63_html_renders",
    "Verif.Media.C63_equation_html",
    "Verif.Media.C63_in_trees",
    "Verif.Media.C63_placed"
   ],
   "note": "Proved for every image with a well-formed file. Two findings are proved as refutations beside it: equations are built again with each html rendering (C63_equation_again), and width.tex percentages stay raw (C63_tex_width_raw)."
  },
  {
   "property": "C64",
   "status": "proved",
   "theorems": [
    "Verif.Composite.C64_caption_tex",
    "Verif.Composite.C64_caption_renders",
    "Verif.Composite.C64_caption_balanced",
    "Verif.Composite.C64_caption_html",
    "Verif.Composite.C64_table_tex",
    "Verif.Composite.C64_table_renders",
    "Verif.Composite.C64_table_balanced",
    "Verif.Composite.C64_table_html",
    "Verif.Composite.C64_table_html_texts",
    "Verif.Composite.C64_table_html_renders",
    "Verif.Composite.C64_cells",
    "Verif.Composite.C64_columns",
    "Verif.Composite.C64_list_tex",
    "Verif.Composite.C64_list_balanced",
    "Verif.Composite.C64_list_html",
    "Verif.Composite.C64_panel_tex",
    "Verif.Composite.C64_panel_renders",
    "Verif.Composite.C64_panel_balanced",
    "Verif.Composite.C64_panel_html",
    "Verif.Composite.C64_in_trees",
    "Verif.Composite.C64_placed",
    "Verif.Composite.C64_list_attributes",
    "Verif.Composite.C64_panel_positional",
    "Verif.Composite.C64_panel_no_width",
    "Verif.Composite.C64_escaped_again"
   ],
   "note": "Panels: for panels without positional attributes (finding C64_panel_positional); texts with newlines in a panel have their empty lines removed. Lists: depth for lists without skipped levels, as in C27."
  },
  {
   "property": "C65",
   "status": "proved",
   "theorems": [
    "Verif.Page.C65_page",
    "Verif.Page.C65_html_exists",
    "Verif.Page.C65_html",
    "Verif.Page.C65_html_words",
    "Verif.Page.C65_tex",
    "Verif.Page.C65_tex_words",
    "Verif.Page.C65_verbatim_outside",
    "Verif.Page.C65_verbatim_again",
    "Verif.Page.C65_blank_box"
   ],
   "note": "For texts in which the texts of verbatim tags and symbols have no tags and boxes are not blank; without these conditions it is false of the code (C65_verbatim_again, C65_blank_box). Tags with a constructor of their own (headings with labels, captions, tables, lists, equations, images, references) are not in these texts: they are in C52, C53, C63 and C64."
  },
  {
   "property": "C66",
   "status": "partial",
   "theorems": [
    "Verif.Refs.C66_heading_html",
    "Verif.Refs.C66_heading_exists",
    "Verif.Refs.C66_heading_tex",
    "Verif.Refs.C66_ref_html",
    "Verif.Refs.C66_unknown",
    "Verif.Refs.C66_leads_to_heading",
    "Verif.Refs.C66_other_document",
    "Verif.Refs.C66_ref_tex_partial",
    "Verif.Refs.C66_toc_html_partial",
    "Verif.Refs.C66_toc_exists",
    "Verif.Refs.C66_toc_tex",
    "Verif.Refs.C66_around",
    "Verif.Refs.C66_around_tex",
    "Verif.Refs.C66_example_headings",
    "Verif.Refs.C66_example_refs",
    "Verif.Refs.C66_example_toc",
    "Verif.Refs.C66_dashes",
    "Verif.Refs.C66_tex_lost",
    "Verif.Refs.C66_tex_space",
    "Verif.Refs.C66_symbol"
   ],
   "note": "Partial: refuted by the code for identifiers with dashes (C66_dashes), texts of several items and urls with spaces or commas in LaTeX (C66_tex_lost, C66_tex_space), symbols in tables of contents (C66_symbol) and the links to other documents in LaTeX (C66_around_tex); in html tables of contents the depth is that of the level only if no level is skipped."
  },
  {
   "property": "C67",
   "status": "partial",
   "theorems": [
    "Verif.Starters.C67_new_project",
    "Verif.Starters.C67_starters",
    "Verif.Starters.C67_asks_only",
    "Verif.Starters.C67_untouched",
    "Verif.Starters.C67_faulty",
    "Verif.Starters.C67_list",
    "Verif.Starters.C67_example",
    "Verif.Starters.C67_in_directory",
    "Verif.Starters.C67_no_list",
    "Verif.Starters.C67_no_files",
    "Verif.Starters.C67_clash"
   ],
   "note": "Partial: refuted by the code if one description is faulty (C67_faulty), two descriptions give the same name (C67_clash), a directory is in the place of a file (C67_in_directory), a starter has no files (C67_no_files), or a description is empty (C67_no_list); proved for all other disks."
  },
  {
   "property": "C68",
   "status": "partial",
   "theorems": [
    "Verif.CopyFile.C68_fresh_partial",
    "Verif.CopyFile.C68_build_partial",
    "Verif.CopyFile.C68_copied",
    "Verif.CopyFile.C68_only_output",
    "Verif.CopyFile.C68_missing",
    "Verif.CopyFile.C68_saved",
    "Verif.CopyFile.C68_exchanged",
    "Verif.CopyFile.C68_save_clash",
    "Verif.CopyFile.C68_itself",
    "Verif.CopyFile.C68_no_file",
    "Verif.CopyFile.C68_to_pdf"
   ],
   "note": "Partial: refuted by the code for copies with dependencies (C68_exchanged), for texts that read like an action (C68_save_clash) and between pdf files and others (C68_to_pdf); also C68_itself and C68_no_file. Links between files are not modelled."
  },
  {
   "property": "C69",
   "status": "partial",
   "theorems": [
    "Verif.Jinja.C69_selected",
    "Verif.Jinja.C69_templates",
    "Verif.Jinja.C69_cycle",
    "Verif.Jinja.C69_parameters",
    "Verif.Jinja.C69_order",
    "Verif.Jinja.C69_fresh_partial",
    "Verif.Jinja.C69_rendered",
    "Verif.Jinja.C69_update_partial",
    "Verif.Jinja.C69_missing",
    "Verif.Jinja.C69_stale",
    "Verif.Jinja.C69_context_unwatched"
   ],
   "note": "Proved under the condition that the rendered text is determined by what is watched; the cases where it is not (header entries that are texts, macros, labels of other documents, context files of parent directories) are refuted with witnesses in C69_stale and C69_context_unwatched; templates that include themselves in C69_cycle"
  },
  {
   "property": "C70",
   "status": "partial",
   "theorems": [
    "Verif.Rewrite.C70_link_partial",
    "Verif.Rewrite.C70_not_found",
    "Verif.Rewrite.C70_current_directory",
    "Verif.Rewrite.C70_same_directory"
   ],
   "note": "partial: with a file of that name in the working directory the page cannot be rendered (C70_current_directory), and the directory of the page is not searched (C70_same_directory)"
  },
  {
   "property": "C71",
   "status": "proved",
   "theorems": [
    "Verif.Server.C71_route",
    "Verif.Server.C71_built",
    "Verif.Server.C71_failed",
    "Verif.Server.C71_not_built",
    "Verif.Server.C71_pdf_not_built",
    "Verif.Server.C71_tree",
    "Verif.Server.C71_tree_missing",
    "Verif.Server.C71_checkers",
    "Verif.Server.C71_signals",
    "Verif.Server.C71_outside"
   ],
   "note": "proved; refuted parts: requests for pdf and text files do not build them (C71_pdf_not_built), files outside of the current directory are shown (C71_outside)"
  },
  {
   "property": "C72",
   "status": "proved",
   "theorems": [
    "Verif.Preamble.C72_listed",
    "Verif.Preamble.C72_own",
    "Verif.Preamble.C72_header",
    "Verif.Preamble.C72_markup",
    "Verif.Preamble.C72_labels",
    "Verif.Preamble.C72_inherited_title",
    "Verif.Preamble.C72_same_label"
   ],
   "note": "a subdocument without a title inherits the title of its parent instead of its file name, marked-up names are lost, and labels may collide; each shown on witnesses"
  },
  {
   "property": "C73",
   "status": "partial",
   "theorems": [
    "Verif.HtmlCopy.C73_copied",
    "Verif.HtmlCopy.C73_files",
    "Verif.HtmlCopy.C73_content_partial",
    "Verif.HtmlCopy.C73_link_partial",
    "Verif.HtmlCopy.C73_nested_refuted",
    "Verif.HtmlCopy.C73_clash",
    "Verif.HtmlCopy.C73_other_types"
   ],
   "note": "C73_content_partial and C73_link_partial have the hypotheses of C68_build_partial and C70_link_partial. C73_nested_refuted: with template directories in one another a stylesheet is copied for one of the templates only. C73_clash: stylesheets with the same path next to two templates go to the same place. C73_other_types: a jpg is a dependency and is not copied."
  },
  {
   "property": "C74",
   "status": "proved",
   "theorems": [
    "Verif.Build.C74_truthful",
    "Verif.Build.C74_current",
    "Verif.Build.C74_once",
    "Verif.Build.C74_not_needed",
    "Verif.Build.C74_again",
    "Verif.Build.C74_sources",
    "Verif.Build.C74_clean",
    "Verif.Build.C74_clearing_refuted"
   ],
   "note": "Commands read their inputs when they start and write when they end with success. Faithful is the assumption that digests do not collide on the states of the files that occur (it says so of exact contents, so of pdf files whose dates differ it is not met). The removal of finished builders in a sequence is refuted as unconditional property (C74_clearing_refuted); the theorems have the condition Clears."
  },
  {
   "property": "C75",
   "status": "proved",
   "theorems": [
    "Verif.Build.C75_ends",
    "Verif.Build.C75_done",
    "Verif.Build.C75_same"
   ],
   "note": "The build loop ends if every command does; it ends with done if nothing fails and the sources are there. Conditions of C74 (no clearing of stale later steps) apply"
  },
  {
   "property": "C76",
   "status": "partial",
   "theorems": [
    "Verif.Command.C76_command_partial",
    "Verif.Command.C76_no_options_partial",
    "Verif.Command.C76_latex_output",
    "Verif.Command.C76_scale",
    "Verif.Command.C76_crop",
    "Verif.Command.C76_offset_refuted",
    "Verif.Command.C76_page_refuted",
    "Verif.Command.C76_spaces_refuted",
    "Verif.Command.C76_no_options_refuted",
    "Verif.Command.C76_cut_refuted"
   ],
   "note": "Proved for names without spaces that do not begin or end with -, * or a backtick and that pathvalidate leaves as they are (C76_command_partial), and, without the condition on the ends, that no name becomes an option (C76_no_options_partial). False of the code otherwise: a name with a space is several arguments (C76_spaces_refuted), of which one can be an option (C76_no_options_refuted); a name that ends in - is cut, so that two documents have the same job name (C76_cut_refuted). A page of a pdf cannot be converted, since the number is not made a text (C76_page_refuted), and a single number as offset is ignored (C76_offset_refuted)."
  },
  {
   "property": "C77",
   "status": "partial",
   "theorems": [
    "Verif.Executor.C77_result_partial",
    "Verif.Executor.C77_lossless",
    "Verif.Executor.C77_timeout",
    "Verif.Executor.C77_reported_partial",
    "Verif.Executor.C77_result_refuted",
    "Verif.Executor.C77_takes",
    "Verif.Executor.C77_ends",
    "Verif.Executor.C77_bounded"
   ],
   "note": "Proved for programs that write no more than the pipes hold; false otherwise: the code waits for the exit before it reads, so that a program that writes more blocks until the timeout although it would succeed (C77_result_refuted). That all commands end is proved for all programs (C77_ends)."
  },
  {
   "property": "C78",
   "status": "partial",
   "theorems": [
    "Verif.AddFile.C78_copied",
    "Verif.AddFile.C78_converted",
    "Verif.AddFile.C78_no_builder",
    "Verif.AddFile.C78_frame",
    "Verif.AddFile.C78_pdf",
    "Verif.AddFile.C78_not_a_file",
    "Verif.AddFile.C78_distinct_partial",
    "Verif.AddFile.C78_distinct_refuted",
    "Verif.AddFile.C78_attribute_refuted"
   ],
   "note": "C78_copied, C78_converted, C78_no_builder, C78_not_a_file, C78_frame and C78_pdf are proved. C78_distinct_partial covers copied images; C78_distinct_refuted: fig.svg and fig.pdf, or fig.pdf with different scales, get the same html file. C78_attribute_refuted: an attribute without a value is taken as a file to copy, so that the image is never copied."
  },
  {
   "property": "C79",
   "status": "proved",
   "theorems": [
    "Verif.Build.C79_truthful",
    "Verif.Build.C79_current",
    "Verif.Build.C79_images",
    "Verif.Build.C79_once",
    "Verif.Build.C79_not_needed",
    "Verif.Build.C79_sources",
    "Verif.Build.C79_stale_refuted"
   ],
   "note": "For builders that fit together (Fits, BeginsAdds): groups that get builders are beside their page in a builder that keeps finished ones, as in target builders. C79_stale_refuted: an edited image whose page is not rendered stays old. Each group gets builders from one page."
  },
  {
   "property": "C80",
   "status": "proved",
   "theorems": [
    "Verif.Build.C80_truthful",
    "Verif.Build.C80_past",
    "Verif.Build.C80_current",
    "Verif.Build.C80_not_needed",
    "Verif.Build.C80_sources",
    "Verif.Build.C80_all",
    "Verif.Build.C80_raised",
    "Verif.Build.C80_out_dir",
    "Verif.Build.C80_exit_refuted"
   ],
   "note": "Proved for environments whose projects are apart. C80_exit_refuted: the command ends without an error although nothing could be built; only the printed status tells."
  },
  {
   "property": "C81",
   "status": "proved",
   "theorems": [
    "Verif.Build.Kit.C81_past",
    "Verif.Build.Kit.C81_page",
    "Verif.Build.Kit.C81_pdf",
    "Verif.Build.Kit.C81_copy",
    "Verif.Build.Kit.C81_image",
    "Verif.Build.Kit.C81_page_again",
    "Verif.Build.Kit.C81_pdf_again",
    "Verif.Build.Kit.C81_command",
    "Verif.Build.C81_image_refuted"
   ],
   "note": "Epub targets are C82; chains of converters for images and the parameters of pages are not part of the model; documents whose names differ in the extension only are excluded. Images are current only if their page was rendered in this build (C81_image_refuted). LaTeX reads image files that are no parameters of the pdf's builder, so a pdf is not recompiled when only an image was edited (C81_pdf_again)."
  },
  {
   "property": "C82",
   "status": "proved",
   "theorems": [
    "Verif.Build.C82_packed",
    "Verif.Build.C82_kept",
    "Verif.Build.C82_current_refuted",
    "Verif.Build.C82_fresh"
   ],
   "note": "An epub can be old although the build reports 'done' (C82_current_refuted): the status of XHtml2Epub only looks at the builder of content.opf. An interruption between the rendering of content.opf and the archive has the same effect. Images that pages add during the build are not part of this model."
  },
  {
   "property": "C83",
   "status": "proved",
   "theorems": [
    "Verif.Build.C83_truthful",
    "Verif.Build.C83_recovers",
    "Verif.Build.C83_clean",
    "Verif.Build.C83_past",
    "Verif.Build.C83_command",
    "Verif.Build.C83_sources",
    "Verif.Build.C83_not_stopped"
   ],
   "note": "Records are written as a whole or not at all (the database uses transactions), and commands of a killed build do not go on; a command that outlives the process and writes during the next build is outside of the model."
  },
  {
   "property": "C84",
   "status": "partial",
   "theorems": [
    "Verif.EqImage.C84_place",
    "Verif.EqImage.C84_own_partial",
    "Verif.EqImage.C84_shared",
    "Verif.EqImage.C84_bold_refuted",
    "Verif.EqImage.C84_target_refuted",
    "Verif.EqImage.C84_order_refuted",
    "Verif.EqImage.C84_mistaken_refuted"
   ],
   "note": "Proved for equations with usual attributes; outside of these the property is false of the code: C84_bold_refuted (@term and @termb share an image), C84_target_refuted (env.tex), C84_order_refuted (two numbers), C84_mistaken_refuted (an attribute with the text of the content). The digests are parameters; that they tell the two equations' items apart is a hypothesis about these two equations only."
  },
  {
   "property": "C85",
   "status": "partial",
   "theorems": [
    "Verif.Context.C85_filter",
    "Verif.Context.C85_independent_partial",
    "Verif.Context.C85_nested_refuted",
    "Verif.Context.C85_repeated_refuted",
    "Verif.Context.C85_copy",
    "Verif.Context.C85_valid"
   ],
   "note": "filter, copy.copy and is_valid of contexts. Independence of the copy is proved for values that are not nested; nested values are shared (C85_nested_refuted), and a key given twice is merged into its own copy or raises (C85_repeated_refuted)."
  },
  {
   "property": "C86",
   "status": "partial",
   "theorems": [
    "Verif.Classes.C86_subclasses",
    "Verif.Classes.C86_parents",
    "Verif.Classes.C86_values",
    "Verif.Classes.C86_dicts_partial",
    "Verif.Classes.C86_dicts_refuted",
    "Verif.Classes.C86_weak_partial",
    "Verif.Classes.C86_weak_refuted",
    "Verif.Classes.C86_delete_partial"
   ],
   "note": "Class utilities and weak attributes. The precedence of all_dicts and the reading of weak attributes fail with several bases (C86_dicts_refuted, C86_weak_refuted); proved for single inheritance, which is what the builders, tags and labels of the package with weak attributes use."
  },
  {
   "property": "C87",
   "status": "partial",
   "theorems": [
    "Verif.OtherLink.C87_shown",
    "Verif.OtherLink.C87_html",
    "Verif.OtherLink.C87_no_link",
    "Verif.OtherLink.C87_no_context",
    "Verif.OtherLink.C87_tex_partial",
    "Verif.OtherLink.C87_tex_refuted",
    "Verif.OtherLink.C87_xhtml_refuted"
   ],
   "note": "Links on HTML pages are proved for all names. In .tex files links are escaped for HTML, so names with & lead nowhere (C87_tex_refuted), and the tags raise NotImplementedError for .xhtml."
  },
  {
   "property": "C88",
   "status": "partial",
   "theorems": [
    "Verif.HeaderTags.C88_fails",
    "Verif.HeaderTags.C88_processed",
    "Verif.HeaderTags.C88_added",
    "Verif.HeaderTags.C88_order",
    "Verif.HeaderTags.C88_added_partial",
    "Verif.HeaderTags.C88_again",
    "Verif.HeaderTags.C88_added_refuted"
   ],
   "note": "Proved for all iteration orders of the set of keys. The order of labels depends on the hash seed if two listed entries add labels (C88_added_refuted); with the default entries only the body does."
  },
  {
   "property": "C89",
   "status": "partial",
   "theorems": [
    "Verif.RefDeps.C89_comparisons",
    "Verif.RefDeps.C89_total",
    "Verif.RefDeps.C89_ids",
    "Verif.RefDeps.C89_labels",
    "Verif.RefDeps.C89_order",
    "Verif.RefDeps.C89_missing",
    "Verif.RefDeps.C89_hash_partial",
    "Verif.RefDeps.C89_hash_refuted"
   ],
   "note": "Comparisons, order and the dependencies of pages are proved for all reachable label managers and all iteration orders. Equal labels of different classes (a document and a heading with the same identifier) have different hashes (C89_hash_refuted). Finding outside of this claim: the renderer of a page does not use these dependencies (see C69)."
  },
  {
   "property": "C90",
   "status": "partial",
   "theorems": [
    "Verif.Code.C90_content",
    "Verif.Code.C90_unreadable",
    "Verif.Code.C90_inline_html",
    "Verif.Code.C90_inline_tex_partial",
    "Verif.Code.C90_block",
    "Verif.Code.C90_inline_tex_refuted",
    "Verif.Code.C90_lines_refuted"
   ],
   "note": "Proved for all texts, files and attributes, with Pygments as a parameter. Refuted: verbatim LaTeX for code with all of | ! ^ (C90_inline_tex_refuted); if one line names a file, lines that name none are lost (C90_lines_refuted)."
  },
  {
   "property": "C91",
   "status": "proved",
   "theorems": [
    "Verif.DocContext.C91_own",
    "Verif.DocContext.C91_paths",
    "Verif.DocContext.C91_manager",
    "Verif.DocContext.C91_root",
    "Verif.DocContext.C91_flags",
    "Verif.DocContext.C91_load",
    "Verif.DocContext.C91_total",
    "Verif.DocContext.C91_none",
    "Verif.DocContext.C91_moved_refuted",
    "Verif.DocContext.C91_level_refuted"
   ],
   "note": "Full claims proved with their conditions. Findings: a sub-document moved up, so that its former parent is removed, keeps a weak reference to the parent's context and becomes its own root document at level 1 without targets at its next loading (C91_moved_refuted); a header 'level' changes the levels of the documents below (C91_level_refuted)."
  },
  {
   "property": "C92",
   "status": "proved",
   "theorems": [
    "Verif.Terminal.C92_lines",
    "Verif.Terminal.C92_verdict",
    "Verif.Terminal.C92_width",
    "Verif.Terminal.C92_cause",
    "Verif.Terminal.C92_fail",
    "Verif.Terminal.C92_nested_refuted"
   ],
   "note": "Full claim proved. Finding: the parts of an All list inside a list of alternatives are reported as FAIL although the checker passes (C92_nested_refuted)."
  },
  {
   "property": "C93",
   "status": "proved",
   "theorems": [
    "Verif.Terminal.C93_progress",
    "Verif.Terminal.C93_quiet",
    "Verif.Terminal.C93_total"
   ],
   "note": ""
  },
  {
   "property": "C94",
   "status": "proved",
   "theorems": [
    "Verif.Figures.C94_labels",
    "Verif.Figures.C94_anchors",
    "Verif.Figures.C94_total",
    "Verif.Figures.C94_nested_refuted",
    "Verif.Figures.C94_two_labels_refuted"
   ],
   "note": "Full claim proved for figures and tables that are not inside each other. Findings: a figure without identifier around a figure or table with a caption always fails with DuplicateLabel (C94_nested_refuted); with an identifier the caption has two labels and the first leads nowhere (C94_two_labels_refuted)."
  },
  {
   "property": "C95",
   "status": "proved",
   "theorems": [
    "Verif.Csv.C95_rows",
    "Verif.Csv.C95_writable",
    "Verif.Csv.C95_unique",
    "Verif.Csv.C95_total",
    "Verif.Csv.C95_tag",
    "Verif.Csv.C95_columns",
    "Verif.Csv.C95_blank_start",
    "Verif.Csv.C95_documented_refuted",
    "Verif.Csv.C95_tabs_refuted",
    "Verif.Csv.C95_carriage_return"
   ],
   "note": "Findings: a text that starts with a line end, as in the example of the documentation, gives an empty table (C95_blank_start, C95_documented_refuted); the tag tsv reads commas, not tabs (C95_tabs_refuted); lines that end with a carriage return only raise an exception (C95_carriage_return)."
  },
  {
   "property": "C96",
   "status": "proved",
   "theorems": [
    "Verif.LinkCopy.C96_result",
    "Verif.LinkCopy.C96_stop",
    "Verif.LinkCopy.C96_nothing",
    "Verif.LinkCopy.C96_devices_refuted",
    "Verif.LinkCopy.C96_directory_refuted"
   ],
   "note": "Findings: the devices are not compared, so that a file on another device with the same number is kept (C96_devices_refuted); for a directory as the first name the second file is removed before the exception (C96_directory_refuted)."
  },
  {
   "property": "C97",
   "status": "proved",
   "theorems": [
    "Verif.Attrs.C97_init",
    "Verif.Attrs.C97_init_two",
    "Verif.Attrs.C97_copy",
    "Verif.Attrs.C97_self_refuted",
    "Verif.Attrs.C97_append_others",
    "Verif.Attrs.C97_append_texts",
    "Verif.Attrs.C97_append_new",
    "Verif.Attrs.C97_append_positional",
    "Verif.Attrs.C97_append_class_refuted"
   ],
   "note": "Findings: attributes with the name self raise a TypeError when they are copied (C97_self_refuted); a value that is added to a positional attribute is put behind the text of a Python class (C97_append_class_refuted)."
  },
  {
   "property": "C98",
   "status": "proved",
   "theorems": [
    "Verif.Convert.C98_pdf",
    "Verif.Convert.C98_programs",
    "Verif.Convert.C98_page_refuted"
   ],
   "note": "Finding: the attributes page and page_no are read by a part of the conversion that is never given them (C98_page_refuted)."
  },
  {
   "property": "C99",
   "status": "partial",
   "theorems": [
    "Verif.Kpse.C99_started",
    "Verif.Kpse.C99_waited",
    "Verif.Kpse.C99_after",
    "Verif.Kpse.C99_bound",
    "Verif.Kpse.C99_five_partial",
    "Verif.Kpse.C99_five_refuted"
   ],
   "note": "At most five processes at a time is false of the code for lists inside lists: a list is checked while the processes of its chunk still run (C99_five_refuted: no number bounds them). Proved for lists without lists (C99_five_partial) and with the depth of the tree (C99_bound)."
  },
  {
   "property": "C100",
   "status": "partial",
   "theorems": [
    "Verif.ContextArgs.C100_error",
    "Verif.ContextArgs.C100_values",
    "Verif.ContextArgs.C100_parent",
    "Verif.ContextArgs.C100_reserved_partial",
    "Verif.ContextArgs.C100_reserved_refuted",
    "Verif.ContextArgs.C100_keyword_refuted"
   ],
   "note": "That reserved names are not initial values is false of positional arguments: dict(*args, **kwargs) takes them from args again (C100_reserved_refuted). Proved for keywords (C100_reserved_partial)."
  },
  {
   "property": "C101",
   "status": "proved",
   "theorems": [
    "Verif.ScannerCache.C101_first",
    "Verif.ScannerCache.C101_kept",
    "Verif.ScannerCache.C101_history",
    "Verif.ScannerCache.C101_late_refuted"
   ],
   "note": "For classes with at most one base. Finding: a scanner class that is defined after the first search is never found (C101_late_refuted)."
  },
  {
   "property": "C102",
   "status": "proved",
   "theorems": [
    "Verif.TagCache.C102_raises",
    "Verif.TagCache.C102_found",
    "Verif.TagCache.C102_generic",
    "Verif.TagCache.C102_late_refuted",
    "Verif.TagCache.C102_clash_refuted"
   ],
   "note": "Findings: a tag class defined after the first search is never found (C102_late_refuted); a clash of names makes all tags fail, or has no effect if there was a search before (C102_clash_refuted)."
  },
  {
   "property": "C103",
   "status": "proved",
   "theorems": [
    "Verif.InheritCache.C103_excluded",
    "Verif.InheritCache.C103_assign_refuted"
   ],
   "note": "Finding: an attribute do_not_inherit that is set after a search has no effect (C103_assign_refuted); the property is about histories without such changes."
  },
  {
   "property": "C104",
   "status": "proved",
   "theorems": [
    "Verif.ReplTags.C104_replaced",
    "Verif.ReplTags.C104_kept",
    "Verif.ReplTags.C104_result",
    "Verif.ReplTags.C104_none",
    "Verif.ReplTags.C104_twice"
   ],
   "note": "Trees in which no tag or list is at two places."
  },
  {
   "property": "C105",
   "status": "partial",
   "theorems": [
    "Verif.BuilderActive.C105_first",
    "Verif.BuilderActive.C105_history_partial",
    "Verif.BuilderActive.C105_kept",
    "Verif.BuilderActive.C105_names_refuted",
    "Verif.BuilderActive.C105_installed_refuted"
   ],
   "note": "False in general: answers are kept by the names of classes and for ever, so that classes with one name share an answer (C105_names_refuted) and changes of programs are not noticed (C105_installed_refuted). Proved for classes with different names and without changes (C105_history_partial)."
  },
  {
   "property": "C106",
   "status": "partial",
   "theorems": [
    "Verif.ParentPaths.C106_listing",
    "Verif.ParentPaths.C106_ends_partial",
    "Verif.ParentPaths.C106_ends_refuted",
    "Verif.ParentPaths.C106_beginnings",
    "Verif.ParentPaths.C106_slash_refuted"
   ],
   "note": "Proved for all paths of names and, for termination, all paths that do not start with two slashes. For every path that does, the function never returns (C106_ends_refuted). A directory with a slash at its end is listed twice (C106_slash_refuted)."
  },
  {
   "property": "C107",
   "status": "partial",
   "theorems": [
    "Verif.TagEq.C107_equal",
    "Verif.TagEq.C107_equivalence",
    "Verif.TagEq.C107_stays_equal",
    "Verif.TagEq.C107_contexts_partial",
    "Verif.TagEq.C107_contexts_refuted"
   ],
   "note": "Proved for all trees and all sets of contexts that are gone. The claim that tags of different documents are different holds while one of the contexts is there (C107_contexts_partial); once both are gone such tags are equal (C107_contexts_refuted)."
  },
  {
   "property": "C108",
   "status": "partial",
   "theorems": [
    "Verif.VersionText.C108_distinct",
    "Verif.VersionText.C108_final",
    "Verif.VersionText.C108_pep440",
    "Verif.VersionText.C108_parts",
    "Verif.VersionText.C108_refused",
    "Verif.VersionText.C108_types",
    "Verif.VersionText.C108_negative_refuted",
    "Verif.VersionText.C108_sign_refuted",
    "Verif.VersionText.C108_words_refuted"
   ],
   "note": "Texts, uniqueness and PEP 440 are proved for all versions. Tuples that are no versions are refused only in part: an update below zero is left out, a major number below zero is written with its sign, and words are accepted for the first two numbers (C108_negative_refuted, C108_sign_refuted, C108_words_refuted)."
  },
  {
   "property": "C109",
   "status": "partial",
   "theorems": [
    "Verif.BuilderTree.C109_flatten",
    "Verif.BuilderTree.C109_order",
    "Verif.BuilderTree.C109_futures",
    "Verif.BuilderTree.C109_length_partial",
    "Verif.BuilderTree.C109_length_refuted",
    "Verif.BuilderTree.C109_given_refuted"
   ],
   "note": "List, order and futures are proved for all trees. The length is right exactly if there are no builders on a third level (C109_length_partial, C109_length_refuted). The list for a given builder has the sub-builders of the builder that was asked (C109_given_refuted)."
  }
 ]
}