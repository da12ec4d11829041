{"id": "C01", "title": "Parsing a document body never loses, duplicates or reorders text", "statement": "Whenever turning a source string into tags succeeds, writing the result back out (plain strings as they are, each tag as '@name[attributes]{content}' exactly as it was spelled) gives the source string character for character.", "quantifier": "every source string and every set of recognised tag names", "why_tests_cant": "The loss would be at one position of one particular interleaving of '@', '[', '{' and '}'; a test only sees the documents it contains.", "anchors": ["src/disseminate/tags/receivers/content.py: parse_tags, process_content", "src/disseminate/tags/tag.py: TagFactory.tag"]}
{"id": "C02", "title": "A tag owns exactly the text up to its matching brace, and an unclosed tag is an error", "statement": "The content given to a braced tag is brace-balanced and is the text between its '{' and the first '}' at which the braces balance; if no such '}' exists a TagError is raised instead of silently swallowing the document; text that is balanced is never rejected.", "quantifier": "every source string, every nesting depth and every position of a tag in it", "why_tests_cant": "Nesting depth and brace placement are unbounded; the tests nest two or three levels.", "anchors": ["src/disseminate/tags/receivers/content.py: parse_tags"]}
{"id": "C03", "title": "Target-specific attributes win, and other targets' attributes never leak", "statement": "attrs.get(name, target=T) returns the value stored under 'name.T' when there is one, otherwise the value stored under 'name', otherwise the default; an entry that is specific to a different target is never returned.", "quantifier": "every attributes dict, every attribute name and every target", "why_tests_cant": "The lookup interacts with any other entry of the dict and any suffix; tests use a few fixed dicts.", "anchors": ["src/disseminate/attributes/attributes.py: Attributes.find_item, Attributes.get, strip_attr, is_target_specific"]}
{"id": "C04", "title": "Filtering attributes for a target yields only requested attributes, each at most once", "statement": "attrs.filter(names, target=T) contains only entries of attrs whose (suffix-free) name was requested, never an entry specific to another target, each name at most once, in the dict's own order (or in the requested order with sort_by_attrs), and filtering leaves the original unchanged.", "quantifier": "every attributes dict, every list of requested names and every target", "why_tests_cant": "Correctness depends on the combination of duplicates, ordering and suffixes over unbounded dicts.", "anchors": ["src/disseminate/attributes/attributes.py: Attributes.filter, Attributes.strip"]}
{"id": "C05", "title": "Attribute strings round-trip", "statement": "Loading an attribute string and reading it back as a tuple, or formatting the attributes for html and loading that string again, gives the same names, values and order.", "quantifier": "every list of names and values that can be written in an attribute string", "why_tests_cant": "Quoting and positional values combine freely; round trips are statements about all values.", "anchors": ["src/disseminate/attributes/attributes.py: Attributes.load, Attributes.totuple, Attributes.html, re_attrs"]}
{"id": "C06", "title": "Context updates never change the type of an existing entry, never touch other entries", "statement": "After context.match_update(changes) every key that is not in changes keeps its value, every key of changes that was missing is added, and an existing entry keeps its kind of value (list stays list, number stays number, bool stays bool, nested dict stays dict) whatever text the header supplied; with overwriting turned off it keeps its value.", "quantifier": "every pair of (nested) contexts and changes, every set of replace keys", "why_tests_cant": "Values nest to arbitrary depth and the header comes from the user.", "anchors": ["src/disseminate/context/context.py: BaseContext.match_update"]}
{"id": "C07", "title": "Updating a document's context never alters its parent or the source of the update", "statement": "A child context starts with copies of its parent's mutable entries, so later match_update calls on the child leave every entry of the parent context, at every nesting level, as it was; likewise the dict passed as changes is not modified.", "quantifier": "every parent context, child context and finite sequence of updates and resets", "why_tests_cant": "Aliasing only shows after particular histories of updates to nested mutable values.", "anchors": ["src/disseminate/context/context.py: BaseContext.__init__, reset, match_update", "src/disseminate/document/document_context.py: DocumentContext.reset"]}
{"id": "C08", "title": "Reset makes context state a function of its initial values", "statement": "context.reset() restores exactly the entries present at creation (and inherited ones), removes everything added since except the entries excluded from the reset, and resetting twice equals resetting once.", "quantifier": "every history of additions, removals, updates and resets of a context", "why_tests_cant": "A left-over entry depends on the whole editing history of a document in a long-running preview server.", "anchors": ["src/disseminate/context/context.py: BaseContext.reset", "src/disseminate/document/document_context.py: DocumentContext.reset"]}
{"id": "C09", "title": "The header is split off the body without loss", "statement": "Loading a header from a string returns the text that follows the header block unchanged; a string without a header block is returned unchanged; the header block together with the rest is the original string.", "quantifier": "every document string", "why_tests_cant": "Dashes, blank lines and missing closing markers can occur anywhere in user text.", "anchors": ["src/disseminate/context/utils.py: load_from_string, re_header_block", "src/disseminate/context/context.py: BaseContext.load"]}
{"id": "C10", "title": "Labels are unique per document and id, whatever the history of edits", "statement": "After any sequence of adding labels, resetting a document's labels and registering, no two labels held by the label manager share the same (document id, label id); adding a label whose key exists raises DuplicateLabel and changes nothing that a user can look up.", "quantifier": "every finite history of add_label / reset / register calls over any number of documents", "why_tests_cant": "Only histories can break it; tests exercise one or two.", "anchors": ["src/disseminate/label_manager/label_manager.py: LabelManager.add_label, reset, register"]}
{"id": "C11", "title": "A label lookup returns the label that was added, or LabelNotFound", "statement": "get_label(id) returns the label added under that document and id if one is present; without a document id it returns the earliest label in document order carrying the id; otherwise it raises LabelNotFound; it never returns a label with another id.", "quantifier": "every history of label operations and every identifier, with and without a 'doc::id' prefix", "why_tests_cant": "Identifiers are arbitrary user text.", "anchors": ["src/disseminate/label_manager/label_manager.py: parse_id, LabelManager.get_label, get_labels_by_id"]}
{"id": "C12", "title": "Registration orders labels by document order and drops labels of removed documents", "statement": "After registration the labels are exactly those of documents still in the tree, grouped in document order, and labels of one document keep the order in which they were added; registering again changes nothing.", "quantifier": "every list of labels and every document order", "why_tests_cant": "Sorting stability and purging are statements about all permutations.", "anchors": ["src/disseminate/label_manager/register_orders.py: reorder_and_purge"]}
{"id": "C13", "title": "Label numbers count consecutively and restart exactly where configured", "statement": "After registration, for each kind of label the numbers along the document order go up by one at each label of that kind and restart at one after a label of a kind configured to reset it; no other label affects them; every label has one number per kind it belongs to.", "quantifier": "every sequence of labels with arbitrary kinds and every reset table", "why_tests_cant": "It is a fold over an unbounded history of labels.", "anchors": ["src/disseminate/label_manager/register_orders.py: register_orders", "src/disseminate/settings.py: label_resets"]}
{"id": "C14", "title": "Hierarchical numbers point at the enclosing part, chapter and section", "statement": "After registration each content label's enclosing part, chapter, section and subsection is the nearest preceding heading of that kind with no intervening heading of a higher rank, and there is none if no such heading precedes it; this holds after any re-ordering of the documents and re-registration.", "quantifier": "every sequence of labels and every number of re-registrations", "why_tests_cant": "Stale values are only visible after particular sequences of re-registration.", "anchors": ["src/disseminate/label_manager/register_content_labels.py: register_content_labels", "src/disseminate/label_manager/types/content_label.py: ContentLabel", "src/disseminate/utils/classes.py: weakattr.__set__"]}
{"id": "C15", "title": "Forgetting a document's labels forgets exactly those", "statement": "Resetting labels for a document removes all labels that belong to it and no label of any other document, and the remaining labels keep their order.", "quantifier": "every label collection and every document", "why_tests_cant": "Statement over arbitrary collections; tests use two documents.", "anchors": ["src/disseminate/label_manager/label_manager.py: LabelManager.reset", "src/disseminate/label_manager/receivers.py: reset_label_manager"]}
{"id": "C16", "title": "Loading a project terminates and loads every included file once", "statement": "Loading a root document loads every file reachable through 'include' entries once, terminates even if documents include each other in a cycle, and lists documents in reading order (a document before the documents it includes, in include order).", "quantifier": "every finite set of files and every include graph, cyclic ones too", "why_tests_cant": "The include graph is arbitrary user input; cycles of length three and diamonds are not in the tests.", "anchors": ["src/disseminate/document/document.py: Document.load_subdocuments, documents_list, documents_dict"]}
{"id": "C17", "title": "A document reloads exactly when its file, or a changed ancestor, requires it", "statement": "Document.load reloads a document if it was never loaded, if its file's modification time is newer than the recorded one, if reload is forced, or if the parent's recorded time is newer; otherwise nothing changes; after a load with no file change, a second load does nothing. Whatever files were edited, made or removed before, and however earlier loads ended, a load that succeeds leaves every document below the loaded one with the text and includes its file has now; and loading the project again gives the same documents, in the same order, with the same texts, includes and subdocuments, as loading it anew in a new process.", "quantifier": "every history of file modifications (also of includes) and load calls, successful or not", "why_tests_cant": "Depends on the interleaving of edits and loads.", "anchors": ["src/disseminate/document/document.py: Document.load_required, load, _update_mtime"]}
{"id": "C18", "title": "A build step never starts before its prerequisite step is done", "statement": "In a sequential builder, building never starts the k-th step unless all earlier steps report 'done'; the steps are started in order; the whole reports 'done' only if every step is done.", "quantifier": "every number of steps, every nesting of sequential and parallel builders and every schedule of step completions", "why_tests_cant": "Completion order is decided by background processes.", "anchors": ["src/disseminate/builders/composite_builders/composite_builder.py: CompositeBuilder.status, build, run_build", "src/disseminate/builders/composite_builders/sequential_builder.py: SequentialBuilder"]}
{"id": "C19", "title": "Parallel builds finish, and report failure or success truthfully", "statement": "Repeatedly calling build on a parallel builder starts every sub-build that is not done, never drops one that is not done, ends as soon as all are done, and its status is 'done' exactly when every sub-build is done, else the status of the first one that is not.", "quantifier": "every number of sub-builds and every completion schedule", "why_tests_cant": "Schedules are unbounded.", "anchors": ["src/disseminate/builders/composite_builders/composite_builder.py: CompositeBuilder.status, build", "src/disseminate/builders/composite_builders/parallel_builder.py: ParallelBuilder.build_needed"]}
{"id": "C20", "title": "A successful build is not repeated, and any change triggers a rebuild", "statement": "After a build is recorded, the builder reports that no build is needed until an input file, an input string, or the output file changes or disappears; if any of these changes (and the digests do not collide) a build is needed again.", "quantifier": "every list of inputs, every file system history and every other build that shares the cache", "why_tests_cant": "Involves all later histories of file edits and of other builders that use the same database.", "anchors": ["src/disseminate/builders/deciders/md5decider.py: Md5Decision.build_needed, calculate_hash", "src/disseminate/builders/deciders/decider.py: Decision.build_needed"]}
{"id": "C21", "title": "The input digest does not depend on the order of inputs", "statement": "The digest used to decide on a rebuild is the same for any permutation of the inputs, and different input sets give different digests as long as the hash function itself does not collide.", "quantifier": "every list of inputs and every permutation", "why_tests_cant": "Permutations and lists are unbounded.", "anchors": ["src/disseminate/builders/deciders/utils_hash.py: hash_items", "src/disseminate/builders/deciders/md5decider.py: Md5Decision.calculate_hash"]}
{"id": "C22", "title": "Hashing a pdf does not depend on the read-chunk size and ignores only dates and ids", "statement": "The digest of a pdf is the same for every positive chunk size, and is determined by the sequence of its lines other than those that begin with /CreationDate, /ModDate or /ID.", "quantifier": "every file content and every positive chunk size", "why_tests_cant": "A line may straddle a chunk boundary at any offset.", "anchors": ["src/disseminate/builders/deciders/utils_hash.py: line_splitter, hash_pdf"]}
{"id": "C23", "title": "The builder chosen for a conversion is available, matches, and has the highest priority", "statement": "find_builder_cls(in_ext, out_ext) returns an available builder whose input and output extensions fit the request and whose priority is maximal among those; if there is none it raises BuildError.", "quantifier": "every set of builder classes, extensions and targets", "why_tests_cant": "Quantifies over all registries; user plug-ins add builders.", "anchors": ["src/disseminate/builders/builder.py: Builder.find_builder_cls"]}
{"id": "C24", "title": "Signal receivers run once each, in ascending order, and no order is used twice", "statement": "After any sequence of connect calls, emitting a signal calls every live receiver exactly once in ascending order of its order value and returns their results in that order; connecting with an order that is in use raises DuplicateSignal and leaves the receivers unchanged.", "quantifier": "every history of connect/reset calls and every set of order values", "why_tests_cant": "Registration order depends on import order.", "anchors": ["src/disseminate/signals/signals.py: Signal.connect, emit, reset"]}
{"id": "C25", "title": "Macros are fully substituted and substitution terminates", "statement": "replace_macros(s, macros) terminates for every string and macro dict, leaves a string without '@' unchanged, and its result contains no occurrence of a defined macro.", "quantifier": "every string and macro dictionary, including macros that mention other macros or themselves", "why_tests_cant": "Macro definitions come from document headers and may be recursive.", "anchors": ["src/disseminate/utils/string.py: replace_macros, _re_macro", "src/disseminate/tags/receivers/macros.py: process_macros"]}
{"id": "C26", "title": "Paragraph grouping keeps all text and splits exactly at blank lines", "statement": "Grouping a tag's content into paragraphs keeps every tag once and all text other than the blank-line separators, in order; a paragraph break occurs exactly at blank lines or around tags that may not be in paragraphs; no empty paragraph is produced.", "quantifier": "every list of strings and tags", "why_tests_cant": "Content is an arbitrary interleaving of text and tags.", "anchors": ["src/disseminate/tags/receivers/paragraphs.py: group_paragraphs, clean_paragraphs"]}
{"id": "C27", "title": "List levels reflect indentation and nesting keeps every item in order", "statement": "Parsing an indented list gives every item once, in order, with a level that is monotone in its indentation and zero for the least indented; rendering it as a nested html list keeps every item once in order, each at a nesting depth given by its level.", "quantifier": "every sequence of list items with arbitrary indentation", "why_tests_cant": "Level sequences are arbitrary (they may jump by more than one, or start deep).", "anchors": ["src/disseminate/tags/list.py: parse_string_list, clean_string_list, normalize_levels", "src/disseminate/formats/xhtml.py: xhtml_list"]}
{"id": "C28", "title": "Verbatim LaTeX never ends early", "statement": "tex_verb(text) uses a delimiter that does not occur in the text, so the verbatim text is exactly the given text.", "quantifier": "every string", "why_tests_cant": "Statement about all strings, including those using every delimiter.", "anchors": ["src/disseminate/formats/tex.py: tex_verb"]}
{"id": "C29", "title": "Only allowed LaTeX commands and environments are produced, with the arguments they need", "statement": "tex_cmd and tex_env either raise TexFormatError or return a string that begins with the requested, allowed command followed by exactly the required arguments; a name on neither list of allowed names always raises.", "quantifier": "every command or environment name, attributes and content", "why_tests_cant": "Attributes are user-controlled.", "anchors": ["src/disseminate/formats/tex.py: tex_cmd, tex_env", "src/disseminate/settings.py: tex_cmd_arguments, tex_env_arguments"]}
{"id": "C30", "title": "Only allowed html tags and attributes are produced", "statement": "xhtml_tag renders a name that is not allowed as a span that carries the name as its class; attributes that are not allowed for the tag never appear in the result; required attributes are present or XHtmlFormatError is raised.", "quantifier": "every tag name, attribute dict and nesting level", "why_tests_cant": "User-controlled names and attributes.", "anchors": ["src/disseminate/formats/xhtml.py: xhtml_tag"]}
{"id": "C31", "title": "Percentage widths map to the nearest larger supported width class", "statement": "For every percentage in ]0,100] exactly one width class is chosen, it is at least as wide as asked for (up to rounding of thirds), and wider requests never get narrower classes; values outside give no class.", "quantifier": "every percentage value", "why_tests_cant": "A gap at a single integer is easy to miss.", "anchors": ["src/disseminate/tags/utils.py: percentage, tex_percentwidth, xhtml_percentwidth"]}
{"id": "C32", "title": "Renaming and re-targeting paths keeps the parts that were not asked to change", "statement": "rename, use_name, use_suffix and use_subpath change exactly the requested part: the directory, root, target and unaffected name parts are unchanged; repeated use_subpath depends only on the last; the suffix after use_suffix(x) is x.", "quantifier": "every path and every name, suffix, subpath", "why_tests_cant": "Names can have any number of dots and components.", "anchors": ["src/disseminate/paths/utils.py: rename", "src/disseminate/paths/paths.py: SourcePath, TargetPath"]}
{"id": "C33", "title": "File search honours the order of search paths and never invents a file", "statement": "find_file returns an existing file; if the given path exists as given it is returned; otherwise the result comes from the first search path (in order) that has it; if none does, FileNotFoundError is raised (or None when raising is disabled).", "quantifier": "every file system, path and list of search paths", "why_tests_cant": "Quantifies over file systems.", "anchors": ["src/disseminate/paths/utils.py: find_files, find_file"]}
{"id": "C34", "title": "Output paths of different inputs do not collide and stay inside the target directory", "statement": "generate_outfilepath places the output below the target root (or cache), below the target's subdirectory, in the media directory when use_media is set, keeps the input's subpath apart from its extension, and is injective in the subpath's stem for fixed options.", "quantifier": "every environment, path and option combination", "why_tests_cant": "Arbitrary user file names.", "anchors": ["src/disseminate/builders/utils.py: generate_outfilepath", "src/disseminate/paths/paths.py: TargetPath"]}
{"id": "C35", "title": "Project roots are found once and do not nest", "statement": "Searching a directory tree for projects returns documents only from directories none of whose ancestors also contains documents; every document file lies in or below exactly one such root directory.", "quantifier": "every directory tree", "why_tests_cant": "Arbitrary nesting of directories.", "anchors": ["src/disseminate/builders/environment.py: Environment._get_src_filepaths"]}
{"id": "C36", "title": "List utilities obey their laws", "statement": "uniq keeps exactly the first occurrence of every item in order; dupes keeps exactly the items occurring more than once; chunks concatenate to the list with every chunk but the last of the given size; flatten keeps all leaves in order; transpose is an involution on rectangular tables; unwrap removes exactly the single-item wrapping.", "quantifier": "every list, key function and chunk size", "why_tests_cant": "Algebraic laws over all lists.", "anchors": ["src/disseminate/utils/list.py: uniq, unique_everseen, dupes, unwrap, flatten, chunks, transpose"]}
{"id": "C37", "title": "Splitting strings into lists keeps entries intact", "statement": "str_to_list splits at semicolons if there is one, else at newlines, else at commas; entries are stripped, none is empty, order is kept; a list of clean entries joined by the separator is recovered.", "quantifier": "every string and every list of entries", "why_tests_cant": "Separators can occur anywhere in user text.", "anchors": ["src/disseminate/utils/string.py: str_to_list"]}
{"id": "C38", "title": "Indented header text parses to the nested entries it spells", "statement": "str_to_dict maps each 'key: value' line to an entry, attaches more-indented following lines to the last key, keeps order of first occurrence, never drops a value line after the first key, and inverts the canonical rendering of a dict.", "quantifier": "every header string", "why_tests_cant": "Arbitrary indentation patterns.", "anchors": ["src/disseminate/utils/string.py: str_to_dict"]}
{"id": "C39", "title": "Longest-key-first lookup of format strings", "statement": "find_entry(dicts, *keys, suffix) returns the entry with the longest matching key prefix in the first dict that has any match, preferring the suffixed entry over the plain one for the same prefix, and raises KeyError if no dict has any.", "quantifier": "every list of dicts, key sequence and suffix", "why_tests_cant": "Interaction of prefix length, suffix and dict order.", "anchors": ["src/disseminate/utils/dict.py: find_entry", "src/disseminate/label_manager/label_manager.py: LabelManager.format_string"]}
{"id": "C40", "title": "Previous and next links follow reading order", "statement": "For each target, the previous/next label of a document is the first heading of the adjacent document, in reading order, among the documents rendered to that target; the first document has no previous and the last no next; documents not rendered to the target have none, and no stale link survives.", "quantifier": "every document list, every assignment of targets to documents and every earlier state", "why_tests_cant": "Depends on the combination of targets over all documents and on earlier states.", "anchors": ["src/disseminate/tags/navigation.py: set_navigation_labels"]}
{"id": "C41", "title": "Tables of contents list the requested labels and abbreviate only other documents", "statement": "A table of contents lists exactly the labels of the requested kinds (all documents or only the current one) in order; with 'abbreviated' all labels of the current document stay and every other document contributes exactly its first label.", "quantifier": "every list of labels, every current document and toc kind", "why_tests_cant": "Arbitrary label lists.", "anchors": ["src/disseminate/tags/toc.py: Toc.get_labels, reference_tags"]}
{"id": "C42", "title": "Delimited data keeps all its columns and rows", "statement": "Loading delimiter-separated data gives one column per header with the values in row order; with 'noheader' the first row is data; transposing back gives the original rows.", "quantifier": "every rectangular table, with and without a header", "why_tests_cant": "Tables of any size, including empty ones.", "anchors": ["src/disseminate/tags/data.py: DelimData.load, Data.rows_transpose", "src/disseminate/utils/list.py: transpose"]}
{"id": "C43", "title": "Dependency availability is the and/or of its parts", "statement": "After checking, a required list is available iff all its parts are, an alternative list iff some part is, an optional list always; every executable at any nesting depth has been looked up; and a package is reported available only if that package (same name) is installed with a fitting version.", "quantifier": "every dependency tree and every set of installed programs and packages", "why_tests_cant": "Trees nest arbitrarily; installed sets differ per machine.", "anchors": ["src/disseminate/checkers/types.py: Any, All, Optional, SoftwareDependencyList.flatten", "src/disseminate/checkers/checker.py: Checker.check_executables", "src/disseminate/checkers/python.py: PythonChecker.check_packages_pip"]}
{"id": "C44", "title": "Copying a tag is deep, replacing its context is complete", "statement": "copy_tag gives a tag equal to the original such that later changes of the copy's attributes, content or context do not show in the original; replace_context sets the context of every tag in the tree.", "quantifier": "every tag tree", "why_tests_cant": "Trees of any depth and mixture of lists and tags.", "anchors": ["src/disseminate/tags/utils.py: copy_tag, replace_context", "src/disseminate/tags/tag.py: Tag.flatten"]}
{"id": "C45", "title": "Typographic replacement keeps words and is stable", "statement": "Replacing '---', '--' and quotes changes only those characters, leaves all other text as it is in order, and applying it again changes nothing.", "quantifier": "every string", "why_tests_cant": "Runs of dashes of any length; quotes at any position.", "anchors": ["src/disseminate/tags/receivers/typography.py: process_typography"]}
{"id": "C46", "title": "The right tag class is used for a name", "statement": "A tag name that is the (lower-case) class name or an alias of an active tag class gives that class, unless the context lists it as inactive; any other name gives a generic tag that renders its content.", "quantifier": "every tag name and inactive list", "why_tests_cant": "Names come from user text.", "anchors": ["src/disseminate/tags/tag.py: TagFactory.tag_class, tag_classes, tag"]}
{"id": "C47", "title": "Common-prefix and grouping helpers", "statement": "find_basestring returns the longest common prefix; group_strings partitions adjacent strings and keeps everything else in order.", "quantifier": "every list of strings", "why_tests_cant": "Lists of any length.", "anchors": ["src/disseminate/utils/string.py: find_basestring, group_strings, nicejoin, strip_end_quotes, strip_multi_newlines"]}
{"id": "C48", "title": "Parameter tuples are validated or rejected, never mangled", "statement": "validate_tuple returns a tuple of the requested length and type built from the given value, or, when the value cannot be converted, raises or (if asked not to raise) returns False.", "quantifier": "every value, type and length", "why_tests_cant": "All combinations of values.", "anchors": ["src/disseminate/builders/validators.py: validate_tuple"]}
{"id": "C49", "title": "Rendering of mixed content concatenates its parts", "statement": "Formatting content to text concatenates the rendering of its parts in order; the text of a tree without formatting tags is the concatenation of its strings.", "quantifier": "every content tree", "why_tests_cant": "Trees of any depth.", "anchors": ["src/disseminate/tags/utils.py: content_to_str, format_content", "src/disseminate/tags/tag.py: Tag.default_fmt"]}
{"id": "C50", "title": "A failed or missing command never counts as built, a running one is never started twice", "statement": "A builder submits its command at most once until that run has ended; it reports 'building' while it runs; it reports 'done' only when the run succeeded and the output is recorded; a failed run raises a build error or leaves the builder not done.", "quantifier": "every schedule of build calls and completions", "why_tests_cant": "Interleavings of polling and completion.", "anchors": ["src/disseminate/builders/builder.py: Builder.status, build, run_cmd", "src/disseminate/builders/executor.py"]}
{"id": "C51", "title": "Parsing parsed content again changes nothing", "statement": "The parser documents itself as idempotent: running it on content that was already parsed into tags and strings gives the same content.", "quantifier": "every source string that parses", "why_tests_cant": "The parsed content is re-parsed at paragraph grouping, for trees of any shape.", "anchors": ["src/disseminate/tags/receivers/content.py: parse_tags", "src/disseminate/tags/receivers/paragraphs.py: process_paragraph_tags"]}
{"id": "C52", "title": "The LaTeX of a tag tree has all its text, in order, in the right commands", "statement": "Rendering a tree of tags in LaTeX writes each tag as its command or environment around the LaTeX of its content, keeps every text whole and in order, and has balanced braces if the texts have; an equation is written in mathematics, in its colour, weight and environment, without the spaces at its ends; it fails only for contents with lists in lists, malformed @supsub and equations whose colour or environment there is not.", "quantifier": "every tree of text, paragraph, box, note, figure, heading and equation tags, of any depth, in text or in mathematics", "why_tests_cant": "Trees have any depth and any mix of tags and attributes.", "anchors": ["src/disseminate/tags/tag.py: Tag.tex_fmt", "src/disseminate/tags/text.py", "src/disseminate/tags/featurebox.py", "src/disseminate/tags/figs.py: BaseFigure", "src/disseminate/tags/headings.py: Heading.tex_fmt", "src/disseminate/tags/eqs.py: Eq.tex_fmt", "src/disseminate/tags/utils.py: format_content"]}
{"id": "C53", "title": "The html of a tag tree has all its text, in order, in allowed elements", "statement": "Rendering a tree of tags in html gives each tag its element with its class and allowed attributes around the html of its content, keeps every text whole and in order, has only elements and attributes of the allowed tables, and fails exactly for lists in lists, malformed @supsub and missing or positional attributes.", "quantifier": "every tree of text, paragraph, box, note, figure and heading tags, of any depth, and all attributes", "why_tests_cant": "Trees have any depth and any mix of tags and attributes.", "anchors": ["src/disseminate/tags/tag.py: Tag.html_fmt", "src/disseminate/tags/text.py", "src/disseminate/tags/featurebox.py", "src/disseminate/tags/figs.py: BaseFigure.html_fmt", "src/disseminate/formats/xhtml.py: xhtml_tag, xhtml_entity"]}
{"id": "C54", "title": "References and links lead to what they name", "statement": "With relative links, the link that a page gets to a file, read in the directory of the page, names that file, wherever the two are; it leads to no other file. A reference to a label of the same document is the anchor of the label, one to a label of another document is the link to the page of that document in the same target with the anchor behind it, and a reference to a missing document or target is reported. With absolute links, the link is the base url filled in with the target and path of the file, and two files have different links. Names with '#' are not quoted, a leading period of the path is lost in absolute links, and in a project without the pdf target references between documents fail in LaTeX.", "quantifier": "every page and file, of any depth and with '..' in their paths, every working directory, label table and document table", "why_tests_cant": "Pages and files have any number of directories.", "anchors": ["src/disseminate/paths/paths.py: TargetPath.get_url", "src/disseminate/tags/ref.py: Ref.html_fmt, Ref.tex_fmt", "src/disseminate/tags/utils.py"]}
{"id": "C55", "title": "Headings, captions and references show the title and number of their label", "statement": "The title made of a text consists of the words of its first sentence on one line. A heading without an id gets an identifier made of its level, its document and its title (a number if it has no text), a caption one made of its text; an identifier that is in use in the document is an error; a figure hands its id to its first caption only. A chapter or part shows its number and its title, a section the numbers of the headings that enclose it, a caption its kind and number, and a reference to any of them the same number or title; the LaTeX of a numbered heading sets the LaTeX counter so that LaTeX counts to that number, and has a label with the identifier. A text of a label that is not there is an error.", "quantifier": "every text, every history of labels over any number of documents, every target of the settings", "why_tests_cant": "Titles have any length, and numbers depend on all labels registered before.", "anchors": ["src/disseminate/utils/string.py: titlelize", "src/disseminate/label_manager/label_manager.py: format_string", "src/disseminate/tags/headings.py: Heading", "src/disseminate/tags/caption.py: Caption", "src/disseminate/tags/figs.py: BaseFigure", "src/disseminate/tags/label.py: LabelTag, create_label", "src/disseminate/tags/ref.py: Ref", "src/disseminate/settings.py: label_fmts"]}
{"id": "C56", "title": "Each listed target of a document has one file in a predictable place", "statement": "The targets of a document are the names of its entry 'target', or else 'targets', each with a leading period and once, none of them if the list has 'none'; text lists names separated by commas, semicolons or lines. Once the document tree is loaded, target_filepath gives a file for exactly the listed targets ('.epub' for the root document only) and their intermediates ('.tex' of '.pdf', '.xhtml' of all documents if the root document lists '.epub'), with or without the period of the target, and raises TargetNotFound for others; target_filepaths gives exactly the same files. The file is <target_root>/<target>/<subpath with the extension of the target>, in <target_root>/.cache instead of <target_root> if the target is not listed. Loading raises a BuildError exactly if a listed target is unknown or its conversion is unavailable. The result does not depend on the order in which sets are iterated, and two files of a project coincide only for the same target of documents with the same directory and name apart from the extension. The lines of 'include' (or else 'includes') are paths relative to the directory of the document, blank lines are skipped and absolute paths are errors.", "quantifier": "all entries, document trees with any documents, targets in any order, available tools, and all texts of include entries", "why_tests_cant": "the targets are sets with arbitrary iteration order, builders are created for a target by the builders of other targets and other documents, and clashes concern every pair of files of a project", "anchors": ["src/disseminate/document/document_context.py: targets, target_filepath, target_filepaths, includes", "src/disseminate/builders/target_builders/receivers.py: add_target_builders, find_builder", "src/disseminate/builders/target_builders/target_builder.py: TargetBuilder.__init__", "src/disseminate/builders/target_builders/pdf_builder.py: PdfBuilder", "src/disseminate/builders/target_builders/epub_builder.py: EpubBuilder"]}
{"id": "C57", "title": "Functions for texts do what they say on every text", "statement": "Splitting a text into lines cuts it at each line break, where a carriage return and a newline that follow each other are one break, and nothing else is lost; indenting puts the spaces in front of every line. The stub of a text is its first paragraph, with each line break and the spaces around it replaced by one space and everything else kept. Stripping multiple newlines leaves one newline for each run of them and changes nothing else. A list of names is joined by the separator with the terminal separator before the last. A text in camel case becomes its words in lower case, joined by the separator. A text in quotes loses exactly the quotes around it, line by line; other texts are not changed. An escaped colon loses its backslash and nothing else changes.", "quantifier": "all texts, separators, lists of names, and classes of space and line break characters", "why_tests_cant": "texts are arbitrary strings with any mix of spaces, breaks and quotes; the tests have a few of each", "anchors": ["src/disseminate/utils/string.py: nicejoin, space_indent, stub, strip_multi_newlines, strip_end_quotes, convert_camelcase, str_to_dict"]}
{"id": "C58", "title": "A chain of builders turns its input into its output, step by step", "statement": "A sequential builder hands its parameters to its first sub-builder; each further sub-builder has the output file of the one before as its first parameter, followed by those parameters of it that are not paths; this holds on every level of nested sequential builders. A sequential builder that is made with at least one sub-builder always has an output file, the one it was given if there was one, and running its sub-builders in order leaves in that file what the steps of all levels make, one after the other, of the first input file, whatever files there were before. Chaining fails exactly if some sequential builder in it has no sub-builders.", "quantifier": "all trees of sequential builders of any depth and length, all parameters, output paths (even coinciding ones), functions of the steps and contents of files", "why_tests_cant": "the parameters and output files are set while the tree is walked, and setting one reads others that are cached; the tests have chains of two or three builders", "anchors": ["src/disseminate/builders/composite_builders/sequential_builder.py: SequentialBuilder.__init__, chain_subbuilders, outfilepath", "src/disseminate/builders/builder.py: Builder.parameters, Builder.outfilepath", "src/disseminate/builders/copy.py: Copy"]}
{"id": "C59", "title": "Rendered files have names of their own", "statement": "A file rendered for a document is named after the first parameter that is a path of the project, or else after the document, without its extension, followed by an underscore and the hash of what it is rendered from, and is in the directory of that document; without a document the hash alone is the name. The output paths of two renders are therefore equal only if the directories, the names of the documents and the hashes are.", "quantifier": "all project paths, parameters, documents, hashes of one length, extensions and targets", "why_tests_cant": "the claim is about every pair of documents and contents, and depends on how names with periods are taken apart", "anchors": ["src/disseminate/builders/utils.py: generate_mock_parameters, generate_outfilepath", "src/disseminate/builders/jinja_render.py: JinjaRender.outfilepath"]}
{"id": "C60", "title": "The header of a document wins over its template, the template over the templates it extends", "statement": "When the headers of a document's context are processed, header blocks are cut from its texts, the directories of its template and of the templates that this one extends are put before its paths, and the entries of the context files of these templates and of the headers are written to the context. For every key the entry of the header counts before that of the template, the entry of the template before those of the templates it extends, and these before what the context had; lists get the items of all of them in this order, unless the entry is one that is replaced, and then only those of the first that has any. Keys in neither are left as they are.", "quantifier": "all contexts, headers, templates on disk, extends statements and orders of visit", "why_tests_cant": "the claim is about every set of keys, every tree of templates and every order in which the set of headers is visited", "anchors": ["src/disseminate/document/receivers/process_headers.py: process_headers, find_template_paths, find_jinja2_parent_templates, find_additional_context_filepaths", "src/disseminate/context/utils.py: find_header_entries, load_from_string", "src/disseminate/context/context.py: BaseContext.match_update"]}
{"id": "C61", "title": "Links of pages lead to files that exist", "statement": "The scan of a list of files for dependencies gives, for each html page among them, one file for every local link of its link and img tags, in order: the file with that name relative to the directory of the page, or else relative to the root of the project or target. Links with a protocol are left out. Every file given exists and has a relative path below the root of the page. If a link leads to no file the scan fails, and it fails in no other case.", "quantifier": "all texts of pages, spacings, attributes, quotes, names, files on disk and lists of parameters", "why_tests_cant": "the pages are arbitrary texts and the regular expressions backtrack; the tests look at one template", "anchors": ["src/disseminate/builders/scanners/scanner.py: Scanner.scan, get_scanner", "src/disseminate/builders/scanners/html_scanner.py: HtmlScanner.scan_function"]}
{"id": "C62", "title": "An epub file has every file of the book once and lists it", "statement": "The epub file made from a list of output files begins with the mimetype, has the container and the package file, and then each given file and each file the pages among them link to, no file twice, at the place of its path below its root in the directory xhtml. The manifest lists every page, SVG image and style sheet of the archive and nothing else, with links that lead to its place, and the reading order has the title and the table of contents first. A link of a page that leads to a file in the project leads to the same file inside the archive. Identifiers are different if slugs are. If all files exist and all links lead to files, the epub file is made; a builder without a table of contents is refused, and the parameters made for a project always have one.", "quantifier": "all lists of parameters, roots, symbolic links between them, links of pages and files on disk", "why_tests_cant": "the claim is about every set of files and links in every directory layout; the tests unpack one example book", "anchors": ["src/disseminate/builders/xhtml2epub.py: XHtml2Epub.__init__, parameters, create_opf_builder, filepath_dict_list, build", "src/disseminate/builders/target_builders/epub_builder.py: EpubBuilder.xhtml_filepaths, has_toc_xhtml", "src/disseminate/builders/builder.py: Builder.scan_parameters"]}
{"id": "C63", "title": "Images lead to their files and are built once", "statement": "However often an image is rendered, each rendering has the file for its target and there is one build for each target. In LaTeX an image includes its file by the path, the part before the extension in braces, with its height and its width - a percentage becomes a part of the width of the text - as options and no others. In html it is an img element whose source leads from the page to the file, with the class of its width after the class that is given, and the alternate text and style. The image of an equation has the class eq, or eq blockeq. An image can be rendered unless its width is infinite or an attribute of the element is positional.", "quantifier": "all sequences of renderings, targets, attributes, widths, paths of files and pages, and places in a tree of tags", "why_tests_cant": "the claim is about every path, every combination of attributes and every history of renderings; the tests render one image once", "anchors": ["src/disseminate/tags/img.py: Img.add_file, tex_fmt, html_fmt", "src/disseminate/tags/eqs.py: Eq.html_fmt", "src/disseminate/tags/utils.py: tex_percentwidth, xhtml_percentwidth"]}
{"id": "C64", "title": "Captions, tables, lists and panels show their parts in order", "statement": "Captions, tables, lists and panels may have any tags in them, and may be anywhere in a document. In LaTeX a caption is its label and its content in the caption command, followed by the label's anchor; a table is its environment with, for each data, a tabular environment with as many columns as the data has, and a line for the header (between rules) and for each row, with the cells in order and & escaped; a list has for each item, in order, one mark more than its level; a panel is an environment with its width as argument. In html a caption is an element with the label and then the content; a table has its class after the one given, and a head and a body with the cells in rows; a list has an element for each item, at the depth of its level if no level is skipped; a panel has its class and that of its width. All texts of the parts are there in order, braces are balanced, and there is an output exactly if the parts have one and the table, or panel, has what it needs.", "quantifier": "all trees of tags as labels, contents, cells and items, all numbers of columns and rows, levels of items, attributes and widths", "why_tests_cant": "the claim is about every nesting of tags in cells and items and every shape of the data; the tests render a few examples", "anchors": ["src/disseminate/tags/caption.py: Caption.tex_fmt, html_fmt", "src/disseminate/tags/table.py: BaseTable.tex_fmt, html_fmt", "src/disseminate/tags/data.py: DelimData.tex_table, html_table, Cell", "src/disseminate/tags/list.py: List.tex_fmt, html_fmt, ListItem", "src/disseminate/tags/figs.py: Panel"]}
{"id": "C65", "title": "What is written in a document is what is shown", "statement": "The body of a document is made of its text through the tags, the typography and the paragraphs, and is shown in html and in LaTeX. Every text whose tags are closed, in which the texts of verbatim tags and of symbols have no tags and in which boxes are not blank, makes a document. In its html the characters other than spaces are exactly those of the texts of the document, in their order, each once, and each in the elements of the tags around it; texts are typeset, apart from those of verbatim tags, and no other character is changed. The LaTeX exists and has the same texts in the same order (if each verbatim text has a delimiter). The same holds with any number of tags in tags and of paragraphs, although the content of paragraphs is read and typeset again.", "quantifier": "all texts, all nestings of tags, all attributes, all paragraphs, all classes of letters and spaces", "why_tests_cant": "the texts and their nestings are unbounded, and the parser, the typography and the paragraphs work on each other's results several times; a test checks the output of a few texts", "anchors": ["src/disseminate/tags/tag.py: TagFactory.tag, tag_class, Tag.__init__", "src/disseminate/tags/receivers/content.py: process_content, parse_tags", "src/disseminate/tags/receivers/typography.py: process_typography", "src/disseminate/tags/receivers/paragraphs.py: process_paragraphs, process_paragraph_tags", "src/disseminate/document/receivers/process_tags.py: process_tags"]}
{"id": "C66", "title": "Headings, references and tables of contents show the text of their labels and lead to them", "statement": "A heading is an element for its level with the identifier of its label as its id, and shows the text of the label, typeset and with the tags that are written in it; in LaTeX it sets the counter so that LaTeX counts to the number of the label, and is the command of its level with the text. A reference shows the text for references to the label that its content names, and is a link that leads to it: in its own document to the element with the id of the heading, else to the page of the other document, with the label as the anchor. A reference to a label that there is not is an error. A table of contents has one entry for each label, in order, in the list of its level, with a link to the label; in LaTeX it has one line for each, with one mark for each level. The links to the next and the previous document are references, or empty if there is none.", "quantifier": "all label managers, formats, identifiers, texts of labels with nested tags, attributes, levels, lists of labels, paths of documents and targets", "why_tests_cant": "the texts of the labels are parsed again as documents and the result is read again as XML; the tests look at a few headings with plain texts", "anchors": ["src/disseminate/tags/headings.py: Heading.html_fmt, tex_fmt", "src/disseminate/tags/label.py: LabelTag.html_fmt, tex_fmt", "src/disseminate/tags/ref.py: Ref.html_fmt, tex_fmt", "src/disseminate/tags/toc.py: Toc.html_fmt, tex_fmt, TocRef", "src/disseminate/tags/navigation.py: Next, Prev"]}
{"id": "C67", "title": "New projects are full copies of a starter and nothing else", "statement": "Every starter in the template directory is offered under its name (the path without the starters directory and the name of its description), no other name is accepted, and making a project from a starter gives the directory each file of the starter, in its place and with its contents, each exactly once and parents before children, without the description; it needs an empty directory, a confirmation or the non-interactive mode. Listing, asking for information and an unconfirmed project change nothing on disk. Nothing is changed but the places of the copied files and new directories for them, and the starter itself is unchanged. The list has each starter once, in order of names, with the first line of its description. Stated conditions: every description has a description entry and lies in a starters directory, no two have the same name, no file is in the place of a needed directory and no directory in that of a file; a faulty description disables every starter.", "quantifier": "all disks (any files and directories in the templates and the project directory), starters, names, directories and options", "why_tests_cant": "what is copied depends on the whole state of two directory trees; the tests make a few projects from the starters that come with the package", "anchors": ["src/disseminate/cli/init.py: init, generate_starters_dict, starter_path_to_name, starter_path_template_name, starter_filepaths, clone_starter, is_empty, filepath_key, print_starters_list"]}
{"id": "C68", "title": "Copied files are up to date and saved texts are written", "statement": "After any history of changes of files, copies, saved texts and builds of others, a copy whose status is done has the present contents of its source (as far as they count: all of a file, and of a pdf file the lines other than dates and identifiers), build() of a copy of an existing file ends as done with these contents, and a copy that is made has all of the contents; a missing file is reported and nothing is written. Saving a text writes the first string of the parameters, and fails without one. Neither changes any file but its output. Stated conditions: the hash does not collide, the copy has one parameter (contents exchanged with those of a dependency go unnoticed), a file is not copied to or from a pdf with another extension, and the word copy was not saved as a text.", "quantifier": "all histories of file changes and builds, all contents, parameters and paths", "why_tests_cant": "a stale copy needs a particular history of builds and changes; the tests copy one file once or twice", "anchors": ["src/disseminate/builders/copy.py: Copy", "src/disseminate/builders/save_temp.py: SaveTempFile", "src/disseminate/builders/builder.py: Builder.build_needed, parameters, infilepaths, status", "src/disseminate/builders/deciders/md5decider.py: Md5Decision.build_needed"]}
{"id": "C69", "title": "Rendered files are up to date", "statement": "The template of a document is the first that there is of the three names for its template entry and the extension of the target. What a target watches is the files of the template and of all templates it refers to, their context files, the files that the scanner finds in these, what it was given, and the hashes of the tags of the context, each once and in an order that does not depend on how the context was made. After any history of changes of files, templates, contexts and builds, if the status of a rendered target is done then its file has the text that the template gives for the context now; a target that is ready is rendered, is done then, and no other file changes; a missing template file is reported and nothing is written. Stated conditions: the hash does not collide, and the text is determined by what is watched. It is not determined by it if a header entry that is a text (title, author), a macro or a label of another document is changed: then the file stays as it was.", "quantifier": "all histories of changes and builds, template loaders, contexts, names, extensions and depths of references", "why_tests_cant": "a stale output needs a particular history of changes to things that the output depends on; the tests change one template and render again", "anchors": ["src/disseminate/builders/jinja_render.py: JinjaRender.template, parameters, build, template_filepaths, context_filepaths", "src/disseminate/builders/builder.py: Builder.status, build_needed", "src/disseminate/builders/target_builders/target_builder.py: TargetBuilder", "src/disseminate/tags/receivers/hash.py: process_hash"]}
{"id": "C70", "title": "Paths in templates become links to the files in the target directory", "statement": "For every page, target and path written in a template through rewrite_path, with or without slashes around it: if the target directory has a file of that name (and the working directory and its None/None directory do not), the path becomes a relative link that leads from the page of the document to that file; if no searched place has it, the path becomes itself without the slashes around it. It is shown that a file of the same name in the working directory makes the page impossible to render, and that a file in the directory of the page is not found, although that directory is listed as searched.", "quantifier": "all pages, paths, targets, working directories, contexts with a document and file systems", "why_tests_cant": "whether a link leads to a file depends on the directory of the page, the working directory and what else is on the disk; the tests have one page in the root of the target and one css file", "anchors": ["src/disseminate/builders/jinja_render.py: rewrite_path", "src/disseminate/paths/utils.py: find_file, search_paths", "src/disseminate/paths/paths.py: TargetPath.get_url, TargetPath.use_subpath"]}
{"id": "C71", "title": "The preview server builds before it answers and shows every document once", "statement": "For every sequence of requests to the preview server, whatever changes on the disk between them: a request for the tree page, an html, epub or tex file first builds every known root document once and in order, and is answered by an error page if one cannot be built; no other request builds anything; the known root documents are those that the first successful search found. The tree page has exactly one entry for every document, at its place, with its depth, its number among its siblings, title, date and links to its targets. The pages of checkers and signals show every dependency and every live receiver once, with the right status and in ascending order. It is shown that requests for pdf and text files do not build them, and that every file of the disk whose name ends in .dm can be read through the server by its absolute path.", "quantifier": "all sequences of requests and states of the disk between them, document trees, trees of dependencies, namespaces of signals and request paths", "why_tests_cant": "which handler answers depends on the whole path and on the order of the patterns, and what is shown depends on all earlier requests; the tests make single requests on one example project", "anchors": ["src/disseminate/server/urls.py: url_patterns", "src/disseminate/server/handlers/projects.py: load_projects", "src/disseminate/server/handlers/tree.py: TreeHandler.tree_to_dict", "src/disseminate/server/handlers/checkers.py: CheckerHandler.checker_to_dict", "src/disseminate/server/handlers/signals.py: SignalHandler.signals_to_dict", "src/disseminate/server/handlers/pygmentize.py: PygmentizeHandler.get", "src/disseminate/server/handlers/server.py: ServerHandler.initialize"]}
{"id": "C72", "title": "Authors, titles and labels of documents", "statement": "For every list of names the authors of a document are shown as a sentence (a, b and c), whether they are written in the authors tag or in the entries author or authors of the header, with semicolons, newlines or commas in between; an authors tag without content shows those of the header. Loading a project makes exactly one label for each document, in the order of inclusion, with the depth of the document and its name: its short title, or else the nearest title among the document and those that include it, or else the path of its file without the extension. It is shown that a subdocument without a title is named like the document that includes it, that names that are marked up are not shown or cannot be rendered, and that two documents may get the same label.", "quantifier": "all lists of names and texts that write them, headers, and trees of documents of any depth with any titles", "why_tests_cant": "the name and depth of a document depend on all the documents above it; the tests have one level of subdocuments and three authors", "anchors": ["src/disseminate/tags/preamble.py: Authors", "src/disseminate/document/document.py: Document.title, Document.short", "src/disseminate/document/receivers/process_document_label.py: process_document_label", "src/disseminate/document/document_context.py: DocumentContext.reset, do_not_inherit"]}
{"id": "C73", "title": "Stylesheets and images of a template are copied to where the links of the page lead", "statement": "For an html or xhtml target of a document, every css, svg or png file that a link or img tag of one of its templates names, by a path next to the template, is copied to the same path below the directory of the target (in the cache directory if the target is not one of the document). Nothing else is copied, and no file twice. When the copies have been made, in any project, each copy is there, new copies have the content of the file, the files themselves and all others are untouched, and the path in the template is replaced by a link that leads from the page to the copy. After any history of edits, copies and builds the copies have the contents of the files (with the exceptions of C68). This needs that no template directory is in another one and that no two templates name different files with the same path: otherwise a file can be missing at the place of its link, or be that of the other template.", "quantifier": "all documents and places of them, html and xhtml, all lists of templates in directories of their own, texts of templates, file systems, histories of the project before the copies are made, and working directories", "why_tests_cant": "whether a copy is at the place of a rewritten link depends on the scan, the target directories, the decider and the search for the file together; the tests look at one template with one stylesheet and only count the builders", "anchors": ["src/disseminate/builders/target_builders/html_builder.py: HtmlBuilder.__init__", "src/disseminate/builders/target_builders/xhtml_builder.py: XHtmlBuilder", "src/disseminate/builders/jinja_render.py: JinjaRender.parameters, rewrite_path", "src/disseminate/builders/copy.py: Copy", "src/disseminate/settings.py: tracked_deps"]}
{"id": "C74", "title": "A build that reports 'done' leaves files that are up to date", "statement": "If the build of a document reports 'done', then the file of each build step is what its tool makes from the files that are there now, whatever builds, failed or interrupted builds, losses of records and edits there were before, in whatever order commands end and however builders are nested; so the outputs are those of a build from scratch. A step is run at most once in a build, and not at all if nothing it depends on was changed; a second build runs nothing. A build changes no file that no step makes. The record of finished steps never calls a file up to date that is not. This is so if no step uses what is made by a step beside it, and a builder that removes finished ones while it builds in sequence has no old files but those that are up to date; the last condition is needed, and edited images that are converted in steps do not meet it: the build may report 'done' with an old file.", "quantifier": "all trees of builders, steps and tools, files, histories of builds and edits, times at which commands end and their exit codes, and numbers of rounds", "why_tests_cant": "staleness shows for particular interleavings of commands with the rounds of the loop and particular earlier builds; the tests build small documents once or twice with commands that end at once", "anchors": ["src/disseminate/builders/target_builders/receivers.py: build", "src/disseminate/builders/environment.py: Environment.create_root_builder", "src/disseminate/builders/composite_builders/composite_builder.py: CompositeBuilder", "src/disseminate/builders/composite_builders/parallel_builder.py: ParallelBuilder", "src/disseminate/builders/composite_builders/sequential_builder.py: SequentialBuilder", "src/disseminate/builders/builder.py: Builder.status, build, run_cmd", "src/disseminate/builders/deciders/md5decider.py: Md5Decision.build_needed", "src/disseminate/builders/copy.py: Copy.build", "src/disseminate/builders/save_temp.py: SaveTempFile.build", "src/disseminate/builders/jinja_render.py: JinjaRender.build"]}
{"id": "C75", "title": "A build ends, and ends well if nothing goes wrong", "statement": "If every command that a build starts ends at some time, with any exit code, then the build of a document ends: with a status or with an exception. If moreover no command fails and the files that no step makes are there, then it ends with 'done', and the file of each step is what its tool makes. So two builds of the same builders from the same sources end with the same files, whatever was built before and in whatever order commands end. This is so under the conditions of C74, if each step has at least one input.", "quantifier": "all trees of builders of any depth and width, steps and tools, files, histories of builds and edits, and times at which commands end and their exit codes", "why_tests_cant": "the loop of a build has no bound; that it ends needs an argument about all schedules of commands, and tests that end say nothing about the others", "anchors": ["src/disseminate/builders/target_builders/receivers.py: build", "src/disseminate/builders/composite_builders/composite_builder.py: CompositeBuilder.status, build", "src/disseminate/builders/composite_builders/parallel_builder.py: ParallelBuilder.build", "src/disseminate/builders/composite_builders/sequential_builder.py: SequentialBuilder.build", "src/disseminate/builders/builder.py: Builder.status, build, run_cmd"]}
{"id": "C76", "title": "External commands get exactly the files of the build", "statement": "The command that a builder runs is its program, the options that its parameters ask for, the output file and each input file once, in order, every file being one argument, whatever characters are in the names of files; no name of a file turns into an option of the program. For latex, the directory and job name of the command are those of the output file.", "quantifier": "all builders with commands, lists of parameters, crops, offsets and scales, paths of inputs and outputs, and behaviours of the library that validates paths", "why_tests_cant": "a name that is split, cut or read as an option gives a wrong command only for particular names; the tests use plain names of temporary files", "anchors": ["src/disseminate/builders/builder.py: CustomFormatter, Builder.run_cmd_args, Builder.run_cmd, Builder.get_parameter", "src/disseminate/builders/pdfcrop.py: PdfCrop", "src/disseminate/builders/pdf2svg.py: Pdf2svg", "src/disseminate/builders/scalesvg.py: ScaleSvg", "src/disseminate/builders/asy_builders.py: Asy2pdf", "src/disseminate/builders/latexmk.py: Latexmk", "src/disseminate/builders/pdflatex.py: Pdflatex", "src/disseminate/builders/imagemagick.py: ImageMagick"]}
{"id": "C77", "title": "The result of a command is reported, and every command ends", "statement": "For every program that ends in time, its exit code and all that it has written are kept without loss; the build is done if the code is zero and the output file is there, and otherwise fails with an exception that has the command, the code and what was written. Every command that is started ends, at the latest at its timeout, with never more running at once than there are threads and none lost, however many commands are started and whatever they do.", "quantifier": "all programs, outputs, exit codes, timeouts, sizes of pipes, numbers of threads, and sequences of commands handed in at any times", "why_tests_cant": "a program that blocks on its output does so only for large outputs, and whether all commands end depends on all schedules of the pool; the tests run short commands one at a time", "anchors": ["src/disseminate/builders/executor.py: run, runtime_success, runtime_error, executor", "src/disseminate/builders/builder.py: Builder.run_cmd, Builder.status"]}
{"id": "C78", "title": "The files of images are copied or converted to places of their own", "statement": "For a document in html, xhtml or tex: an image whose file is found and whose extension the target can show is copied under its name to the media directory of the target; one with another extension is converted to the first extension of the target for which there is a converter, keeping its stem; the source is the file that was found, and exactly one build is added, at the end. If there is no converter, or the text names no file, an exception is raised and nothing is added. Images with different paths have different files (false when images are converted), and attributes do not prevent the copy (false for attributes without a value).", "quantifier": "all texts of images, attributes, search paths, states of the file system, lists of builder classes and tables of target builders", "why_tests_cant": "names, extensions, search paths and builder classes combine without bound; the tests add a handful of images, one at a time", "anchors": ["src/disseminate/tags/img.py: Img.add_file, Img.content_as_filepath", "src/disseminate/builders/target_builders/receivers.py: add_file", "src/disseminate/builders/target_builders/target_builder.py: TargetBuilder.add_build", "src/disseminate/builders/composite_builders/parallel_builder.py: ParallelBuilder.add_build", "src/disseminate/builders/copy.py: Copy.__init__"]}
{"id": "C79", "title": "Images are up to date after builds that render their page", "statement": "A build of documents adds builders for the files of images while pages are rendered. If it reports 'done', then every output file of the builders there were and of those that were added is what its tool makes from the current files; so the file of each image of a page that was rendered in this build is current, whether it is copied or converted, and whenever commands end. The record of digests stays truthful, no step is run twice, a step whose digests and those of all it depends on are recorded is not run, and no file that no builder makes is changed. A page that need not be rendered adds nothing: if only an image was edited, the build reports 'done' with the old file of the image.", "quantifier": "all projects of nested builders, all sets of builders that pages add, all files and databases left by any earlier builds and edits, all times and exit codes of commands, any number of rounds", "why_tests_cant": "tests build a page with a fixed image once; the claim is about all nestings and schedules, with builders that appear during the build, and about edits between builds", "anchors": ["src/disseminate/builders/target_builders/receivers.py: add_file, build", "src/disseminate/builders/composite_builders/parallel_builder.py: ParallelBuilder.add_build", "src/disseminate/builders/composite_builders/composite_builder.py: CompositeBuilder", "src/disseminate/builders/jinja_render.py: JinjaRender.build", "src/disseminate/builders/target_builders/target_builder.py: TargetBuilder", "src/disseminate/tags/img.py: Img.html_fmt, Img.tex_fmt"]}
{"id": "C80", "title": "The command 'build' builds each project it finds", "statement": "The command 'build' builds the projects that it is given one after the other and prints a status for each; projects of one directory share a database. If no project makes a file that another makes or uses, then for each project with the printed status 'done', after the whole command every output file of its builders, and of those added for images, is what its tool makes from the current files, and its digests are recorded. No step is run twice or though recorded, and no file that no builder makes is changed. If no exception is raised, a status is printed for every project; after an exception in one project the later ones are not built. Several projects with one output directory are refused. The command ends the same way whether files were built or could not be: only the printed status tells.", "quantifier": "all lists of projects with nested builders and builders that pages add, all files and databases left by earlier builds, commands and edits, all times and exit codes of commands, any number of rounds", "why_tests_cant": "tests run the command on one project; the claim is about all lists of projects that share files, all schedules and all earlier histories", "anchors": ["src/disseminate/cli/build.py: build", "src/disseminate/cli/options.py: check_out_dir", "src/disseminate/builders/composite_builders/composite_builder.py: CompositeBuilder", "src/disseminate/builders/composite_builders/parallel_builder.py: ParallelBuilder"]}
{"id": "C81", "title": "All targets of a project are up to date after a build that reports 'done'", "statement": "If the build of a project (without an epub) reports 'done', then the file of each target of each document, at the place where it belongs, is what the renderer makes from the files of the author as they were before the build; this also holds for files that are only needed for other targets; the pdf of a document is what the compiler makes from that tex file; each file that a page needs is copied; and the images of each page that was rendered in this build are made from their files. This holds whatever the documents and their targets are, whatever was built or edited before, and however the commands end. The next build renders no page and compiles no pdf again whose sources and files were not edited, whatever else was. The command 'build' gives the same. But if only the file of an image is edited, the next build reports 'done' with the old image.", "quantifier": "all projects with any number of documents, any targets but epub, any files, copies, images, tools, times and exit codes of commands, any histories of builds and edits, and any numbers of rounds", "why_tests_cant": "the tests build small documents once; the claim is about the builders of all projects, their nesting and sharing (the tex builder is part of two others), all schedules and all earlier builds", "anchors": ["src/disseminate/builders/environment.py: Environment.create_root_builder, Environment.collect_target_builders", "src/disseminate/builders/target_builders/target_builder.py: TargetBuilder.__init__, TargetBuilder.add_build", "src/disseminate/builders/target_builders/pdf_builder.py: PdfBuilder", "src/disseminate/builders/target_builders/html_builder.py: HtmlBuilder", "src/disseminate/builders/target_builders/receivers.py: add_target_builders, build, add_file"]}
{"id": "C82", "title": "When the archive of an epub is written", "statement": "When the builder of an epub has built it without an exception, the archive is made from the package file and the pages as they are at that moment, and the package file is the rendering of its own parameters. If the package file is not recorded as up to date when a build of the project begins (it is not there, or its template was edited) and the build reports 'done', then the archive and all other files of the project are what is made from the files there are. But the archive is written only if the package file has to be rendered: as long as the package file is recorded as up to date, no build of the project, however many rounds it takes, changes the archive, whatever the pages have become. So an edited document can leave an old epub although the build reports 'done'.", "quantifier": "all builders of a project with one epub, all files, digests, recorded decisions, times at which commands end, exit codes, and numbers of rounds", "why_tests_cant": "the tests build one epub once, in an empty directory; whether a later build writes the archive depends on what earlier builds recorded and on which files changed since", "anchors": ["src/disseminate/builders/xhtml2epub.py: XHtml2Epub.build", "src/disseminate/builders/composite_builders/composite_builder.py: CompositeBuilder.status", "src/disseminate/builders/target_builders/epub_builder.py: EpubBuilder"]}
{"id": "C83", "title": "A build that is interrupted does no lasting harm", "statement": "If a build of documents, or the command 'build' in any of its projects, is interrupted or killed at any moment, so that files may be half-written and the last records of finished steps may be lost, then the record of finished steps still calls no file up to date that is not, and no file that no builder makes was changed. If the next build or command then reports 'done', every output file is what its tool makes from the files that are there then, the same as after a build from scratch, also if documents were edited or builders changed in the meantime.", "quantifier": "all projects of nested builders with builders that pages add, all moments at which the process is interrupted, all files and databases left by earlier builds (also interrupted ones), all edits of files and losses of records afterwards, all times and exit codes of commands, any number of rounds", "why_tests_cant": "a build has as many moments at which it can be killed as it has operations, and the harm would show only in a later build; no test interrupts a build", "anchors": ["src/disseminate/builders/target_builders/receivers.py: build", "src/disseminate/cli/build.py: build", "src/disseminate/builders/builder.py: Builder.status, build, run_cmd", "src/disseminate/builders/deciders/md5decider.py: Md5Decision.build_needed", "src/disseminate/builders/copy.py: Copy.build", "src/disseminate/builders/save_temp.py: SaveTempFile.build", "src/disseminate/builders/jinja_render.py: JinjaRender.build"]}
{"id": "C84", "title": "Equations that differ have images of their own", "statement": "In html and epub, an equation is shown as an image that is made from its LaTeX, at a path in the media directory with a hash in its name. Two equations whose images have the same path are the same in LaTeX, so that no equation shows the image of another one; equations with the same content and the same attributes, in any order, share one image. This holds for equations with usual attributes: none that is for one target only, at most one number, none that is set by the image itself, and texts that are not mistaken for each other, both or neither of them named termb. (It fails outside of these: @term{x} and @termb{x} have the same image although the second is bold; an attribute env.tex, the order of two numbers, and an attribute of the same text as the content do not change the image's path although they change the equation.)", "quantifier": "all pairs of equations with any contents and attributes, all environments of paths, all hashes that tell the two equations' parameters apart", "why_tests_cant": "tests render single equations; that no two equations of any document collide is a statement about all pairs", "anchors": ["src/disseminate/tags/eqs.py: Eq.tex_fmt, Eq.html_fmt, Eq.block_equation", "src/disseminate/tags/img.py: Img.add_file", "src/disseminate/builders/svgrender.py: SvgRender", "src/disseminate/builders/pdfrender.py: PdfRender", "src/disseminate/builders/jinja_render.py: JinjaRender.parameters, JinjaRender.outfilepath", "src/disseminate/tags/receivers/hash.py: process_hash"]}
{"id": "C85", "title": "Copies of contexts", "statement": "BaseContext.filter(keys), for keys that are all different, does not raise and makes a new context that has exactly the entries of the context for the keys. Immutable values are the same; lists, sets and dicts are copied, one copy for each entry, and nothing that existed before is changed, then or by any later loading of entries into the copy (as long as mutable values are not nested in mutable values). copy.copy() of a context has the same entries and shares their values. is_valid() is true exactly if each given key (or, without keys, each key with a listed type) has a value, unless it need not exist, and the value is of the type listed for the key, if any.", "quantifier": "all contexts, with any values and any sharing of mutable values, all lists of keys, all sequences of updates afterwards, all listings of types", "why_tests_cant": "Equations and epubs render with filtered copies of the context of their document; a test shows one copy with a few entries, not that no combination of entries and no later update reaches the values of the document's context.", "anchors": ["src/disseminate/context/context.py: BaseContext.filter, BaseContext.__copy__, BaseContext.is_valid, BaseContext.match_update"]}
{"id": "C86", "title": "Classes found and weak attributes", "statement": "all_subclasses() finds exactly the classes that derive from a class, and all_parent_classes() those it derives from (object only if it is named as a base), so that every class of tags, builders, scanners and checkers is found; all_attributes_values() collects what the class and all its parents give; all_dicts() has, for single inheritance, the value of the class nearest to the given one. A weak attribute of an object (such as the context of a tag or builder) has the object that was last assigned to it, unless that is gone or the attribute was deleted, and otherwise None; an assignment of None changes nothing.", "quantifier": "all hierarchies of classes and all attributes, all sequences of assignments, deletions, readings and disappearances of objects", "why_tests_cant": "The hierarchies of classes are open (users add tags and builders), and which objects are still there depends on the history of the whole program.", "anchors": ["src/disseminate/utils/classes.py: all_subclasses, all_parent_classes, all_attributes_values, all_dicts, weakattr"]}
{"id": "C87", "title": "Links to other formats lead to the files of the document", "statement": "On the HTML page of a document, the entries srclink, txtlink, texlink, pdflink and epublink give a relative link that, read in the directory of the page, leads to the source file of the document, to its file of the other target, or to the .epub file of the root document, with the special characters of HTML in the names escaped so that a browser reads the names as they are. There is a link exactly if the page's own target and the other target are listed and the link would not lead to the page itself; otherwise the text is empty and no exception is raised. In a .tex file the same holds for names without characters that HTML escapes.", "quantifier": "all projects whose builders could be prepared, all documents and their targets, all names and directories of documents, all current directories", "why_tests_cant": "The link depends on where the document and its targets are, on which targets are listed and on the characters in the names, all of which are open.", "anchors": ["src/disseminate/tags/navigation.py: OtherLink, Srclink, Txtlink, Texlink, Pdflink, Epublink", "src/disseminate/document/document_context.py: DocumentContext.target_filepath, DocumentContext.targets"]}
{"id": "C88", "title": "Header entries become tags in every order", "statement": "When a document is loaded, the text of each entry listed in process_context_tags becomes a tag; other entries, and entries that are no text, stay as they are. The result does not depend on the order in which Python iterates over the set of keys, which differs between runs: loading fails in all orders or in none, the entries are the same and the same labels are added. The order of the labels is the same if only one entry adds labels, as the body does. Processing a context again changes nothing.", "quantifier": "all contexts, all sets of listed entries, all iteration orders of the set, all makers of tags that do not read the listed entries", "why_tests_cant": "The order of a set of texts changes with the hash seed of the process, so that a test sees one order only.", "anchors": ["src/disseminate/document/receivers/process_tags.py: process_tags", "src/disseminate/settings.py: default_context"]}
{"id": "C89", "title": "A page depends on the labels its references name, in one order", "statement": "Labels are compared by the identifier of their document, then by their own identifier, code point by code point; the six comparisons agree with each other and form a total order. The labels on which a page depends are exactly those that references in its tags name, in this order; the list is the same for every order in which Python iterates over the set of identifiers, so that a page is not rebuilt only because a new process uses another order. If the label of a reference is missing there is an exception, in every order. Equal labels of the same class have the same hash.", "quantifier": "all label managers after any sequence of calls, all contexts and tags, all iteration orders of the set of identifiers, all pairs and triples of labels", "why_tests_cant": "The order of a set of texts changes with the hash seed of the process, and the labels of a project are open.", "anchors": ["src/disseminate/tags/ref.py: add_ref_labels", "src/disseminate/label_manager/types/label.py: Label.__lt__, Label.__le__, Label.__gt__, Label.__ge__, Label.__eq__, Label.__ne__, Label.__hash__", "src/disseminate/label_manager/label_manager.py: LabelManager.get_labels_by_id"]}
{"id": "C90", "title": "Code tags show the code that is written, or that of the files named", "statement": "A code tag shows the texts of the files that lines of its text name, in the order of the lines and each on lines of its own; if no line names a file it shows its text as it is written. It fails exactly if such a file cannot be read. In a paragraph, the code is the text of an html element code, whatever the attributes are, and in LaTeX it is verbatim between delimiters that are not in it (unless it has all of the three delimiters). In a paragraph of its own, it is highlighted with the lexer of the first positional attribute for which there is one, or else with the one guessed.", "quantifier": "all texts of tags, all file systems and search paths, all attributes, all lexers", "why_tests_cant": "Which lines name files depends on the files there are, and the text and attributes are open.", "anchors": ["src/disseminate/tags/code.py: Code, Python, Html, Ruby, Java, Javascript, Dm", "src/disseminate/paths/utils.py: find_files", "src/disseminate/formats/tex.py: tex_verb"]}
{"id": "C91", "title": "Each document's context has the values of that document", "statement": "Whatever documents of a project are created, loaded again and removed, and whatever their headers and templates give, the context of a document has that document, its own source file, the environment and directories of the project, paths that end with its own directory and that of the project, and the label manager made for the root document. Its root document is the one above it as long as the documents above are there. If headers and templates do not give them, its id is its path in the project, its level is its depth below the root document and only root documents are marked as such. Each loading starts again from the defaults, the header, the template and what the parent has now, and no header makes it fail.", "quantifier": "all histories of creating, loading, setting entries of and removing documents, all headers, templates and defaults", "why_tests_cant": "The value of an entry depends on the whole history of loadings and on weak references to parents that may be gone.", "anchors": ["src/disseminate/document/document_context.py: DocumentContext.__init__, reset", "src/disseminate/context/context.py: BaseContext.reset, parent_context", "src/disseminate/document/receivers/process_headers.py: process_headers"]}
{"id": "C92", "title": "The report of dependencies has a right verdict for each of them", "statement": "The report of the setup command has one line for each list, program and package that the checkers name, at any depth and in their order, indented by the depth. The line says PASS exactly if the dependency is met, UNKNOWN exactly if it was not looked for, and otherwise FAIL or MISSING as its list needs all of its parts or not. The verdicts end at column 80 if there is room. If a list does not pass, a line below shows a cause, and a list with a part that fails does not pass.", "quantifier": "all checkers with lists nested to any depth, all availabilities, all names and all ways to colour a text", "why_tests_cant": "The trees of dependencies and what is installed are open, and the report combines them recursively.", "anchors": ["src/disseminate/cli/setup/checkers.py: print_checkers, print_dependencies, print_single_check", "src/disseminate/cli/term.py: fill_string", "src/disseminate/checkers/types.py: Any, All, Optional"]}
{"id": "C93", "title": "The progress of a build is shown without changing the build", "statement": "With the option for progress, the build command prints for each environment the header of a table, a row for the state at the start and after each pass, and the status at the end. The columns of all lines are below each other, and each row counts the builders of the project that are done and all of them. Printing never fails, and without the option the passes and the status at the end are the same.", "quantifier": "all projects, names, numbers of documents, trees of builders and sequences of passes", "why_tests_cant": "The number of passes and the widths of the texts are unbounded.", "anchors": ["src/disseminate/cli/build.py: build", "src/disseminate/cli/utils/progressbar.py: SimpleTable, ProgressTable, progress_builders", "src/disseminate/builders/composite_builders/composite_builder.py: CompositeBuilder.flatten"]}
{"id": "C94", "title": "Each caption of a figure or table has one label, and its element is where references lead", "statement": "If the figures and tables of a text are not inside each other, each of their captions at any depth has exactly one label in the document, in the order of the captions, with the kind figure or table and the title of the caption. The first caption of a figure has the identifier of the figure, if it has one, and the others have their own identifiers or ones made of their texts. The element of the caption has the identifier of its label, and a figure keeps the identifier on its own element exactly if it has no caption. Captions outside figures and tables have no label. It fails exactly if two of these identifiers are the same or one is taken in the document.", "quantifier": "all trees of figures, tables, captions and other tags, all identifiers and texts, all states of the label manager", "why_tests_cant": "The trees and the identifiers are open, and labels depend on all the labels made before.", "anchors": ["src/disseminate/tags/figs.py: BaseFigure.__init__", "src/disseminate/tags/table.py: BaseTable.__init__", "src/disseminate/tags/caption.py: Caption.__init__, generate_label_id", "src/disseminate/tags/label.py: LabelMixin.create_label, create_label"]}
{"id": "C95", "title": "Data tags have the tables that are written in them or in the files they name", "statement": "A table of rows of cells, written with one row in each line, cells separated by commas, spaces before cells, and cells in quotes wherever it is needed, is read as these rows by the data tag: cells in quotes can have commas, line ends, spaces and doubled quotes. Every table can be written and no text stands for two tables. Texts without carriage returns can always be read. The tag has the data of its own text if this names no file, and of the first file it names otherwise. With header names that differ and rows as long as the header, the columns have the names of the header and the cells of the rows.", "quantifier": "all tables with all cells, all ways to write them, all delimiters, all searches for files", "why_tests_cant": "The texts are open, and each character can change how all the following ones are read.", "anchors": ["src/disseminate/tags/data.py: DelimData.load", "src/disseminate/paths/utils.py: load_io_stream", "docs/language/tags/data.rst"]}
{"id": "C96", "title": "Linking or copying a file changes nothing else, wherever it stops", "statement": "After link_or_copy the second name has the text of the first, and it is the same file wherever links can be made. All other names, also those that were links to the old file of the second, have the files and texts they had. Wherever it stops, also by an exception, all names but the second are as they were, and the second has no file or the start of the text of the first. If the names are one file already, or the first is missing, nothing is done. This is so for names on one device, or files with different numbers.", "quantifier": "all disks with all links between names, all devices, all texts, all points at which it stops", "why_tests_cant": "It is about every point at which a process can be stopped and about all other names of a disk.", "anchors": ["src/disseminate/utils/file.py: link_or_copy"]}
{"id": "C97", "title": "Attributes have the last values given, copies are equal, and added values are put at the end", "statement": "Attributes made of texts, other attributes and names with values have for each name the value given last. A copy has the same attributes in the same order, if none has the name self. Adding a value to an attribute keeps all the others and the order; a new attribute is the last one. Values that are added one after the other are put behind the first with single spaces between them.", "quantifier": "all lists of arguments, all attributes, all sequences of values that are added", "why_tests_cant": "The arguments and the numbers of values are open.", "anchors": ["src/disseminate/attributes/attributes.py: Attributes.__init__, copy, append"]}
{"id": "C98", "title": "Images are cropped, converted and scaled in this order, exactly if this is asked for", "statement": "The conversion of a pdf file to svg runs the program to crop exactly if there is a crop, then the converter, and then the program to scale exactly if there is a scale, with the crop and the number that are given. Asymptote images and equations are made pdf files before, and then the same is done for the same parameters. Each conversion ends with a copy to the place of its output. It is an exception exactly if there are no parameters, the crop is not valid, or the scale is not a number.", "quantifier": "all lists of parameters, all kinds of images", "why_tests_cant": "The parameters are open, and conversions are nested in conversions.", "anchors": ["src/disseminate/builders/pdf2svg.py: Pdf2SvgCropScale", "src/disseminate/builders/asy_builders.py: SaveAsyPdf, Asy2svg, SaveAsySvg", "src/disseminate/builders/svgrender.py: SvgRender", "src/disseminate/builders/pdfrender.py: PdfRender"]}
{"id": "C99", "title": "The check for LaTeX packages runs one process for each, waits for all, and runs five at a time", "statement": "Checking a list of packages or classes, with lists inside it, starts one process for each name at all levels, in order, with the name and the extension. Each process is waited for exactly once, after it was started. Without kpsewhich nothing is started. No more than five processes run at a time.", "quantifier": "all trees of dependencies, all extensions, all points in time", "why_tests_cant": "It is about every point in time of a schedule for trees of any size and depth.", "anchors": ["src/disseminate/checkers/pdf.py: PdfChecker.check_kpsewhich", "src/disseminate/utils/list.py: chunks"]}
{"id": "C100", "title": "A context keeps the entries it is made of, and the reserved names are not entries", "statement": "A context that is made of a dict or a list of pairs and of keywords has as initial values the last value of each name of the first and, for the other names, the values of the keywords. Its parent is the value parent_context. The names parent_context, _parent_context and _initial_values are not initial values. Two positional arguments are an exception, and nothing else is.", "quantifier": "all lists of arguments, all keywords, all values", "why_tests_cant": "The arguments, their names and repetitions are open.", "anchors": ["src/disseminate/context/context.py: BaseContext.__init__"]}
{"id": "C101", "title": "The search for a scanner finds one exactly if there is one for the extension", "statement": "The first search for an extension finds a scanner exactly if some class that derives from Scanner, at any depth, has the extension, and what it finds has it. All later searches, with any of these classes, find what a search at the time of the first search with Scanner finds, whatever classes are defined since. Without new classes all searches of a history agree.", "quantifier": "all tables of classes, all histories of definitions and searches, all extensions", "why_tests_cant": "It is about every history of definitions and searches.", "anchors": ["src/disseminate/builders/scanners/scanner.py: Scanner.get_scanner", "src/disseminate/utils/classes.py: all_subclasses"]}
{"id": "C102", "title": "The classes of tags at the first search decide what all names mean", "statement": "In every history of definitions of tag classes and searches for the class of a name, a search raises exactly if a name or alias was there twice at the time of the first search. It then raises for ever, and otherwise never. Otherwise it finds the class that had this name or alias at the time of the first search, if it is active and not among the inactive tags of the context, and else the generic tag.", "quantifier": "all classes, all histories of definitions and searches, all names and contexts", "why_tests_cant": "It is about every history of definitions and searches.", "anchors": ["src/disseminate/tags/tag.py: TagFactory.tag_class, TagFactory.tag_classes"]}
{"id": "C103", "title": "A class of contexts excludes the entries of its own and of its parents from inheritance, in every history", "statement": "In every history of definitions of classes and of searches, the entries that a class of contexts does not inherit are those that the class itself or a class it derives from names. Searches with parents or subclasses, before or after, and classes defined since change nothing.", "quantifier": "all tables of classes, all histories of definitions and searches", "why_tests_cant": "It is about every history of definitions and searches.", "anchors": ["src/disseminate/context/context.py: BaseContext.find_do_not_inherit", "src/disseminate/utils/classes.py: all_attributes_values"]}
{"id": "C104", "title": "Replacing the tags of a class by a text replaces all of them and nothing else", "statement": "After the tags of a class are replaced by a text, each tag of the class that was not inside another one is the text, all other elements outside of these tags are where they were, with their text, class or length, and nothing else is there. No tag of the class is left at any depth. Trees without such tags are not changed, and a second replacement changes nothing.", "quantifier": "all trees of tags, lists and texts, all classes, all texts", "why_tests_cant": "The depth and shape of trees are open.", "anchors": ["src/disseminate/tags/utils.py: repl_tags"]}
{"id": "C105", "title": "A builder class is active exactly if all that it requires is there", "statement": "In every history of questions, a builder class is active exactly if, of the things it requires, its priority is a number, its programs are given as a tuple, and all its programs are found. The answer for a name never changes.", "quantifier": "all builder classes, all sets of programs, all histories of questions and of installed programs", "why_tests_cant": "It is about every history of questions and changes of programs.", "anchors": ["src/disseminate/builders/builder.py: Builder.active"]}
{"id": "C106", "title": "The parents of a path are the directories above it", "statement": "For every relative or absolute path of names, the list of its parents is the list of the directories above it, nearest first, without the root and the current directory, and with the path itself first if its name has no extension. For every path the function returns, and what it lists are beginnings of the path, each one of the one before it.", "quantifier": "all paths: all lists of names, and all texts", "why_tests_cant": "It is about every text of a path, and about the end of a loop.", "anchors": ["src/disseminate/utils/file.py: parents"]}
{"id": "C107", "title": "Tags are equal exactly if they are the same in all parts", "statement": "At any time two tags are equal exactly if they have the same class, name, context and, in any order, the same attributes, and their contents are equal in the same sense down to the texts. Equality is reflexive, symmetric and transitive, and tags that are equal stay equal when documents are dropped. Tags of different documents are different.", "quantifier": "all tags with contents of any depth, and all sets of contexts that are gone", "why_tests_cant": "It is about every tree of tags and every moment at which contexts go.", "anchors": ["src/disseminate/tags/tag.py: Tag.__eq__", "src/disseminate/utils/classes.py: weakattr"]}
{"id": "C108", "title": "The text of a version identifies the version", "statement": "For every version the text is an identifier of PEP 440 with the parts in their order, and versions with the same text are the same, but for the number of a final release. Tuples that are no versions are refused.", "quantifier": "all versions with numbers of any size, and all tuples of integers and texts", "why_tests_cant": "It is about every pair of versions.", "anchors": ["src/disseminate/__version__.py: get_version"]}
{"id": "C109", "title": "A composite builder lists and counts the builders in it", "statement": "For every tree of builders the flat list of a composite builder has the builder first and then just the builders below it at any depth, each composite builder before its own sub-builders. The futures are those of the builders in the list, and the length is the number of builders below.", "quantifier": "all trees of builders of any depth", "why_tests_cant": "It is about every depth and shape of a tree.", "anchors": ["src/disseminate/builders/composite_builders/composite_builder.py: CompositeBuilder.flatten, CompositeBuilder.futures, CompositeBuilder.__len__"]}
