{"id": "C01", "title": "Instant file names round-trip", "statement": "Every timeline instant that has a well-formed timestamp is recovered exactly (timestamp, action, state, time) by parsing the file name the library generates for it, and the relative path it is fetched from is '.hoodie/' followed by that name.", "quantifier": "every timestamp accepted by the parser, every action, every state, both timezones", "why_tests_cant": "The set of valid timestamps is unbounded in practice and the name grammar has a special case (commit+inflight) that interacts with every timestamp.", "anchors": ["crates/core/src/timeline/instant.rs: Instant::try_from_file_name_and_timezone, Instant::file_name, Instant::relative_path, Instant::parse_action_and_state"]}
{"id": "C02", "title": "An instant read from the timeline directory designates the file it was read from", "statement": "If a file name in the timeline directory is accepted as an instant, the path the library later reads that instant's metadata from is the path of that very file.", "quantifier": "every file name that may be present in the timeline directory", "why_tests_cant": "Depends on the parser being injective over all strings; tests only try names a writer normally produces.", "anchors": ["crates/core/src/timeline/instant.rs: Instant::parse_action_and_state, Instant::file_name, Instant::relative_path", "crates/core/src/timeline/selector.rs: TimelineSelector::try_create_instant"]}
{"id": "C03", "title": "No file name in the timeline directory can crash table loading", "statement": "Opening a table terminates with a value or an error, never a panic, whatever files happen to be in the timeline directory; unrelated files are ignored.", "quantifier": "every list of file names in the timeline directory", "why_tests_cant": "The space of file names is infinite; a panic hides at names nobody wrote a test for.", "anchors": ["crates/core/src/timeline/selector.rs: TimelineSelector::try_create_instant", "crates/core/src/timeline/instant.rs: Instant::parse_naive_datetime", "crates/core/src/timeline/mod.rs: Timeline::load_instants"]}
{"id": "C04", "title": "Textual timestamp order agrees with time order", "statement": "For any two valid timestamps, comparing them as strings (as file slices, commit-time filters and log files do) gives the same answer as comparing the instants of time they denote (as the timeline does).", "quantifier": "every pair of valid timestamps", "why_tests_cant": "Involves calendar arithmetic over every date; tests check a handful of dates.", "anchors": ["crates/core/src/timeline/instant.rs: Instant::parse_datetime", "crates/core/src/file_group/mod.rs: FileGroup::get_file_slice_as_of", "crates/core/src/file_group/reader.rs: create_filtering_mask_for_base_file_records"]}
{"id": "C05", "title": "The loaded timeline is exactly the completed instants, in time order", "statement": "Loading the timeline yields exactly one entry for each completed commit, deltacommit or replacecommit file of the listing and nothing for requested, inflight or foreign files; the entries are in non-decreasing time order (reversed when descending order is asked for).", "quantifier": "every listing of the timeline directory in every order, every requested action set, ascending or descending", "why_tests_cant": "Sorting and filtering must be right for every listing, in any order the object store returns it.", "anchors": ["crates/core/src/timeline/mod.rs: Timeline::load_instants, get_completed_commits, get_completed_deltacommits, get_completed_replacecommits", "crates/core/src/timeline/selector.rs: TimelineSelector::try_create_instant"]}
{"id": "C06", "title": "The timeline does not depend on listing order", "statement": "Two listings of the same timeline directory in different orders give the same timeline, provided no two completed instants denote the same time.", "quantifier": "every permutation of every listing", "why_tests_cant": "Object stores give no ordering guarantee; only a proof covers all permutations.", "anchors": ["crates/core/src/timeline/mod.rs: Timeline::load_instants", "crates/core/src/timeline/instant.rs: impl Ord for Instant"]}
{"id": "C07", "title": "Selecting instants by time range is exactly (start, end]", "statement": "Selecting from a loaded timeline with an optional start and an optional end returns, in time order, exactly the completed instants of the requested actions whose time is strictly after start and at or before end.", "quantifier": "every loaded timeline, every start and end (present or absent, in any relation), every action set", "why_tests_cant": "The implementation uses binary search on a sub-slice; off-by-one and empty-range cases are unbounded in number.", "anchors": ["crates/core/src/timeline/selector.rs: TimelineSelector::select"]}
{"id": "C08", "title": "Adjacent time ranges partition the history", "statement": "Selecting (a, b] and then (b, c] yields, concatenated, exactly what selecting (a, c] yields when a <= b <= c: no instant is lost or seen twice by a consumer that polls incrementally.", "quantifier": "every timeline and every a <= b <= c", "why_tests_cant": "A statement about every way of cutting every history.", "anchors": ["crates/core/src/timeline/selector.rs: TimelineSelector::select", "crates/core/src/table/mod.rs: Table::get_file_slices_between"]}
{"id": "C09", "title": "Instant range membership honours its boundary flags", "statement": "A range check accepts a timestamp iff it is after (or at, when inclusive) the start and before (or at, when inclusive) the end, and reports an error rather than a wrong answer when a timestamp it needs cannot be parsed.", "quantifier": "every range (all four flag combinations, each bound present or absent), every timestamp", "why_tests_cant": "Boundary equality has to be right at every instant of time.", "anchors": ["crates/core/src/timeline/selector.rs: InstantRange::is_in_range, InstantRange::not_in_range, up_to, within, within_open_closed"]}
{"id": "C10", "title": "The latest commit timestamp is the latest", "statement": "The latest commit timestamp reported for a table belongs to a completed instant whose time is not before that of any completed instant; it is absent exactly when there is no completed instant.", "quantifier": "every timeline directory listing", "why_tests_cant": "Must hold for every listing order and every mix of states.", "anchors": ["crates/core/src/timeline/mod.rs: Timeline::get_latest_commit_timestamp, get_latest_commit_timestamp_as_option"]}
{"id": "C11", "title": "Clustering commits are exactly the replace commits whose operation is clustering", "statement": "The clustering commits reported are, in the same order, exactly those completed replacecommits whose metadata names the operation 'cluster'; if any replacecommit's metadata is unreadable or lacks the operation, an error is reported.", "quantifier": "every timeline and every metadata content", "why_tests_cant": "Metadata contents and their number are unbounded.", "anchors": ["crates/core/src/timeline/mod.rs: Timeline::get_completed_clustering_commits"]}
{"id": "C12", "title": "Base file names round-trip", "statement": "A base file parsed from a name denotes that file: generating the name again gives the original name, so the path read is the path listed; and any base file whose parts contain no separator is recovered from its generated name.", "quantifier": "every file name accepted as a base file name; every tuple of parts", "why_tests_cant": "The grammar is defined over all strings.", "anchors": ["crates/core/src/file_group/base_file.rs: BaseFile::parse_file_name, BaseFile::file_name"]}
{"id": "C13", "title": "Log file names round-trip", "statement": "A log file parsed from a name denotes that file: generating the name again gives the original name; and any log file with separator-free non-empty parts is recovered from its generated name.", "quantifier": "every file name accepted as a log file name; every tuple of parts", "why_tests_cant": "The grammar mixes first and last separators and a fixed part count over all strings.", "anchors": ["crates/core/src/file_group/log_file/mod.rs: LogFile::parse_file_name, LogFile::file_name"]}
{"id": "C14", "title": "Log files are read in version order", "statement": "The log files of a file slice are visited in increasing order of their (numeric) log version for one base commit, whatever order they were discovered in.", "quantifier": "every set of log files, every discovery order, every version number", "why_tests_cant": "The order must be right at every number of digits, and for every insertion order.", "anchors": ["crates/core/src/file_group/log_file/mod.rs: impl Ord for LogFile", "crates/core/src/file_group/file_slice.rs: FileSlice.log_files", "crates/core/src/file_group/mod.rs: FileGroup::add_log_file"]}
{"id": "C15", "title": "No log file of a slice is dropped", "statement": "After log files with pairwise different names and the same file id and extension are added to a file group, each of them is present in exactly the slice of its base commit; adding the same one twice changes nothing, and the order of adding does not matter.", "quantifier": "every sequence of log files added to every file group", "why_tests_cant": "Set semantics under a hand-written order must hold for every sequence.", "anchors": ["crates/core/src/file_group/mod.rs: FileGroup::add_log_file, add_log_files", "crates/core/src/file_group/log_file/mod.rs: impl Ord for LogFile, impl PartialEq for LogFile"]}
{"id": "C16", "title": "As-of lookup returns the closest slice on or before the timestamp", "statement": "Asking a file group for its slice as of T returns the slice with the greatest creation timestamp not after T, and nothing exactly when every slice is later than T; a later T never yields an earlier slice.", "quantifier": "every file group built by any sequence of additions and merges, every T", "why_tests_cant": "Quantifies over all histories of a file group and all query points.", "anchors": ["crates/core/src/file_group/mod.rs: FileGroup::get_file_slice_as_of, get_file_slice_mut_as_of"]}
{"id": "C17", "title": "File groups stay well formed under every sequence of operations", "statement": "Whatever sequence of base-file additions, log-file additions and merges is applied, each slice is filed under the creation timestamp of its base file, lies in the group's partition, holds only log files written against that base, and a slice once added is never replaced or lost; a rejected addition leaves the group unchanged.", "quantifier": "every sequence of operations, successful or failing", "why_tests_cant": "An invariant over unbounded histories.", "anchors": ["crates/core/src/file_group/mod.rs: FileGroup::add_base_file, add_log_file, merge", "crates/core/src/file_group/file_slice.rs: FileSlice::merge"]}
{"id": "C18", "title": "Merging file groups is a union and does not depend on order", "statement": "Merging two file groups succeeds exactly when they are the same group and agree on the base file of every common timestamp; the result has precisely the slices of both with their log files united; merging in either order gives the same slices, merging twice changes nothing.", "quantifier": "every pair (and triple) of file groups", "why_tests_cant": "Algebraic law over all groups.", "anchors": ["crates/core/src/file_group/mod.rs: FileGroup::merge", "crates/core/src/file_group/file_slice.rs: FileSlice::merge"]}
{"id": "C19", "title": "Commit metadata is turned into file groups without losing a write", "statement": "Every write recorded in a commit's metadata shows up: for each partition and each write stat, the resulting file groups contain the stat's file group with the slice for its base file and its log files, and nothing else.", "quantifier": "every well-formed commit metadata document", "why_tests_cant": "Documents are unbounded; the failing case needs two stats for one file group.", "anchors": ["crates/core/src/file_group/builder.rs: build_file_groups"]}
{"id": "C20", "title": "Malformed commit metadata is reported, not silently misread", "statement": "If any write stat in a commit's metadata lacks a field the reader needs or has one of the wrong type or an unparsable file name, the whole commit is reported as an error; no partial set of file groups is returned.", "quantifier": "every commit metadata document", "why_tests_cant": "Every position at which a document may be malformed.", "anchors": ["crates/core/src/file_group/builder.rs: build_file_groups, build_replaced_file_groups"]}
{"id": "C21", "title": "Replaced file groups as of T are exactly those named by replace commits up to T", "statement": "The file groups hidden from a snapshot as of T are exactly the (partition, file id) pairs listed by the completed replacecommits whose time is at or before T; the hidden set only grows with T.", "quantifier": "every timeline, every metadata, every T", "why_tests_cant": "All histories of replace commits and all query points.", "anchors": ["crates/core/src/timeline/mod.rs: Timeline::get_replaced_file_groups_as_of", "crates/core/src/file_group/builder.rs: build_replaced_file_groups"]}
{"id": "C22", "title": "Changed file groups between two times are exactly those written and not replaced", "statement": "The file groups reported as changed in (start, end] are exactly those written by a completed commit in that range and not replaced by a replacecommit in that range, each holding exactly the slices written in that range.", "quantifier": "every timeline, every metadata, every start and end", "why_tests_cant": "All histories and ranges.", "anchors": ["crates/core/src/timeline/mod.rs: Timeline::get_file_groups_between", "crates/core/src/file_group/builder.rs: impl FileGroupMerger for HashSet<FileGroup>"]}
{"id": "C23", "title": "A partition listing yields each data file once, in the right slice", "statement": "Listing a partition gives one file group per file id that has a base file; each base file is in the slice of its commit timestamp and each log file is in the slice it was written against; metadata and checksum files never appear; the result does not depend on the order files are listed in.", "quantifier": "every directory listing in every order", "why_tests_cant": "Unbounded listings and orders.", "anchors": ["crates/core/src/table/listing.rs: FileLister::list_file_groups_for_partition, should_exclude_for_listing"]}
{"id": "C24", "title": "Partition discovery finds exactly the leaf directories outside metadata directories", "statement": "For a partitioned table the partitions considered are exactly the leaf directories below the table root that are not under a lake-format metadata directory and are not pruned; for a non-partitioned table it is the root alone.", "quantifier": "every directory tree", "why_tests_cant": "Trees of every shape and depth.", "anchors": ["crates/core/src/table/listing.rs: FileLister::list_relevant_partition_paths", "crates/core/src/storage/mod.rs: get_leaf_dirs, Storage::list_dirs", "crates/core/src/metadata/mod.rs: LAKE_FORMAT_METADATA_DIRS"]}
{"id": "C25", "title": "A snapshot contains, per live file group, exactly its latest slice as of T", "statement": "The file slices returned as of T are exactly, for each file group found in a partition that passes the filters and not replaced as of T, its latest slice created at or before T: none missing, none repeated, none later than T.", "quantifier": "every table content, every T, every set of filters, every listing order", "why_tests_cant": "Combines listing, pruning, replacement and as-of lookup over all tables.", "anchors": ["crates/core/src/table/mod.rs: Table::get_file_slices_as_of, get_file_slices_internal", "crates/core/src/table/fs_view.rs: FileSystemView::get_file_slices_as_of, collect_file_slices_as_of"]}
{"id": "C26", "title": "Answers do not depend on earlier queries", "statement": "The file slices returned for a query depend only on the table's content at the time of the query, not on which queries were made before through the same table handle.", "quantifier": "every sequence of queries and of intervening changes to the storage", "why_tests_cant": "Histories of a shared cache are unbounded.", "anchors": ["crates/core/src/table/fs_view.rs: FileSystemView::load_file_groups, collect_file_slices_as_of"]}
{"id": "C27", "title": "Data of uncommitted or failed writes is never visible", "statement": "A file slice returned as of T has a base file written by an instant that is completed on the timeline at or before T; files left by a crashed or in-flight writer are not visible.", "quantifier": "every table content, every crash point of a writer", "why_tests_cant": "Crash points leave arbitrary subsets of files behind.", "anchors": ["crates/core/src/table/fs_view.rs: FileSystemView::collect_file_slices_as_of", "crates/core/src/table/listing.rs: FileLister::list_file_groups_for_partition"]}
{"id": "C28", "title": "Time travel is stable", "statement": "The snapshot as of T does not change when later commits (insert, update, replace) are made, as long as no file of that snapshot is removed.", "quantifier": "every table, every T, every sequence of later commits", "why_tests_cant": "Unbounded futures.", "anchors": ["crates/core/src/table/mod.rs: Table::get_file_slices_as_of", "crates/core/src/table/fs_view.rs", "crates/core/src/timeline/mod.rs: get_replaced_file_groups_as_of"]}
{"id": "C29", "title": "Partition pruning never hides a matching partition", "statement": "A partition is skipped only if its path parses against the partition schema and its values fail one of the given filters; paths that do not parse and filters that cannot be evaluated never cause a partition to be skipped.", "quantifier": "every partition path, every schema, every list of filters", "why_tests_cant": "All paths and filters; an unsound prune loses data silently.", "anchors": ["crates/core/src/table/partition.rs: PartitionPruner::should_include, parse_segments"]}
{"id": "C30", "title": "A partition path is read back as the values it was written from", "statement": "For every list of partition values, the path a writer builds from them (plain or hive style, url-encoded or not) is parsed back into exactly those values for the right fields.", "quantifier": "every list of partition fields and values, both styles, both encodings", "why_tests_cant": "Values may contain any character, including the separators.", "anchors": ["crates/core/src/table/partition.rs: PartitionPruner::parse_segments", "crates/core/src/table/mod.rs: Table::get_partition_schema"]}
{"id": "C31", "title": "Filter operators mean what they say", "statement": "Each filter operator keeps exactly the values standing in that relation to the filter value; the negated filter keeps exactly the other values; every operator token parses back to its operator.", "quantifier": "every operator, every pair of values", "why_tests_cant": "All values.", "anchors": ["crates/core/src/expr/mod.rs: ExprOperator, ExprOperator::negate, FromStr", "crates/core/src/expr/filter.rs: Filter::negate, SchemableFilter::apply_comparsion"]}
{"id": "C32", "title": "Splits are a faithful division of the work", "statement": "Dividing the file slices into n splits yields at most max(1, n) splits, none empty, of equal size except possibly the last, which concatenate to exactly the list of file slices in order; there are no splits exactly when there are no file slices.", "quantifier": "every n (including 0) and every number of file slices", "why_tests_cant": "Arithmetic over all n and lengths.", "anchors": ["crates/core/src/table/mod.rs: Table::get_file_slices_splits_internal"]}
{"id": "C33", "title": "Incremental reads return exactly the rows committed in the range", "statement": "Reading a base file with a start (and optional end) commit time keeps exactly the rows whose commit time is after start and not after end, in order; without a start, or without meta fields, every row is kept.", "quantifier": "every file content, every start and end", "why_tests_cant": "All contents and bounds.", "anchors": ["crates/core/src/file_group/reader.rs: create_filtering_mask_for_base_file_records, read_file_slice_by_base_file_path"]}
{"id": "C34", "title": "Log blocks are decoded exactly as written", "statement": "Reading the bytes of a log file made of well-formed blocks yields exactly those blocks in order: header and footer metadata, block type, and content.", "quantifier": "every sequence of blocks with arbitrary metadata and contents", "why_tests_cant": "All block sequences and contents.", "anchors": ["crates/core/src/file_group/log_file/reader.rs: LogFileReader::read_all_blocks, read_next_block, read_block_metadata", "crates/core/src/file_group/log_file/content.rs: Decoder::decode_content", "crates/core/src/file_group/log_file/log_format.rs"]}
{"id": "C35", "title": "A torn log file never yields a corrupted block", "statement": "If a writer crashes at any byte while appending, reading the log file yields the blocks completed before the crash or an error, never a block that was not fully written.", "quantifier": "every crash point (every prefix) of every log file", "why_tests_cant": "Every byte position of every file.", "anchors": ["crates/core/src/file_group/log_file/reader.rs: LogFileReader::read_next_block, read_magic"]}
{"id": "C36", "title": "Blocks outside the queried time range contribute nothing", "statement": "Scanning log files with an instant range yields only records of blocks whose instant time is in the range, and all of those that are not rolled back.", "quantifier": "every list of log files, every range", "why_tests_cant": "All logs and ranges.", "anchors": ["crates/core/src/file_group/log_file/reader.rs: LogFileReader::should_skip_block, read_all_blocks", "crates/core/src/file_group/log_file/scanner.rs: LogFileScanner::scan"]}
{"id": "C37", "title": "Rolled-back blocks contribute nothing", "statement": "If the log files of a slice contain a rollback command for an instant, no record written by that instant is returned; every other block's records are returned, once, in file and block order.", "quantifier": "every list of log files with any number of rollback blocks in any position", "why_tests_cant": "All interleavings of data and rollback blocks across files.", "anchors": ["crates/core/src/file_group/log_file/scanner.rs: LogFileScanner::scan", "crates/core/src/file_group/log_file/log_block.rs: LogBlock::is_rollback_block, target_instant_time"]}
{"id": "C38", "title": "Merging keeps exactly the latest version of every record", "statement": "Under the overwrite-with-latest strategy the merged result has exactly one row for each record key of the inputs, namely one with the greatest (precombine value, commit sequence number); under append-only it is the concatenation of the inputs.", "quantifier": "every list of record batches", "why_tests_cant": "All inputs, sizes and duplicate patterns.", "anchors": ["crates/core/src/merge/record_merger.rs: RecordMerger::merge_record_batches", "crates/core/src/util/arrow.rs: lexsort_to_indices"]}
{"id": "C39", "title": "Merging does not depend on the order of log files or blocks", "statement": "When no two versions of one key tie on (precombine, commit sequence number), the merged set of rows is the same for every order in which the batches are supplied.", "quantifier": "every permutation of every list of batches", "why_tests_cant": "All permutations.", "anchors": ["crates/core/src/merge/record_merger.rs: RecordMerger::merge_record_batches"]}
{"id": "C40", "title": "Reading a merge-on-read slice yields the latest version of each record as of T", "statement": "Reading a file slice as of T merges the base rows with the log records of non-rolled-back blocks at or before T; a slice without logs, or read-optimized mode, yields exactly the base rows.", "quantifier": "every slice content, every T, both modes", "why_tests_cant": "All contents.", "anchors": ["crates/core/src/file_group/reader.rs: FileGroupReader::read_file_slice, create_instant_range_for_log_file_scan"]}
{"id": "C41", "title": "Option precedence", "statement": "For every option key, the value used by a table is the first available of: the table's own properties file, explicitly given options of that kind, generically given options, environment variables (storage options only), the global configuration file (hudi options only); no other key is affected.", "quantifier": "every combination of sources and keys", "why_tests_cant": "All overlaps among five sources.", "anchors": ["crates/core/src/table/builder.rs: TableBuilder::resolve_options, resolve_user_provided_options, resolve_cloud_env_vars, imbue_table_properties, imbue_global_hudi_configs_if_absent"]}
{"id": "C42", "title": "Properties files are parsed line by line", "statement": "Parsing a properties text yields, for each key, the trimmed value of the last line defining it; blank and comment lines define nothing; the value keeps any further separators it contains.", "quantifier": "every text", "why_tests_cant": "All texts.", "anchors": ["crates/core/src/config/util.rs: parse_data_for_options"]}
{"id": "C43", "title": "Splitting options loses nothing", "statement": "Every given option ends up in exactly one of the hudi options and the other options, according to its prefix, with the last given value for its key.", "quantifier": "every list of options", "why_tests_cant": "All option lists.", "anchors": ["crates/core/src/config/util.rs: split_hudi_options_from_others"]}
{"id": "C44", "title": "Typed configuration look-ups fail closed or fall back as documented", "statement": "A required option that is absent or malformed is rejected when the table is opened; an optional one that is absent or malformed yields its default where one exists; a well-formed value is returned as given.", "quantifier": "every option map", "why_tests_cant": "All values of all options.", "anchors": ["crates/core/src/config/mod.rs: HudiConfigs, ConfigParser::validate, parse_value_or_default", "crates/core/src/config/table.rs: HudiTableConfig::parse_value", "crates/core/src/table/builder.rs: validate_configs"]}
{"id": "C45", "title": "Unsupported tables are rejected on opening", "statement": "Unless validation is explicitly skipped, a table opens only if its version is 5 or 6, its timeline layout version is 1, partition columns are not dropped, and its merge strategy is consistent with its meta-field and precombine settings.", "quantifier": "every combination of table properties", "why_tests_cant": "All property combinations.", "anchors": ["crates/core/src/table/builder.rs: TableBuilder::validate_configs", "crates/core/src/merge/record_merger.rs: RecordMerger::validate_configs"]}
{"id": "C46", "title": "Query-engine predicates are translated without changing their meaning", "statement": "When a query predicate is translated to a table filter, every row satisfying the predicate satisfies the filter, so pruning with it loses no matching row; predicates that cannot be translated impose no filter.", "quantifier": "every predicate expression and every row", "why_tests_cant": "All predicates and values.", "anchors": ["crates/datafusion/src/util/expr.rs: exprs_to_filters, binary_expr_to_filter, not_expr_to_filter", "crates/datafusion/src/lib.rs: HudiDataSource::scan, supports_filters_pushdown"]}
{"id": "C47", "title": "A query-engine scan reads every base file of the snapshot exactly once", "statement": "The file groups handed to the query engine contain the path of each file slice's base file exactly once, in at most the requested number of partitions.", "quantifier": "every snapshot, every target partition number", "why_tests_cant": "All sizes.", "anchors": ["crates/datafusion/src/lib.rs: HudiDataSource::scan"]}
{"id": "C48", "title": "Avro schemas map to Arrow schemas field by field", "statement": "Converting an Avro record schema gives an Arrow schema with the same fields, names and order; a field is nullable exactly when the Avro type admits null; unsupported types are reported rather than mis-mapped.", "quantifier": "every Avro record schema", "why_tests_cant": "Schemas nest to any depth.", "anchors": ["crates/core/src/avro_to_arrow/schema.rs: to_arrow_schema, schema_to_field_with_props"]}
{"id": "C49", "title": "A reader of a healthy table always gets an answer", "statement": "If the latest completed commit and all files are well formed, listing file slices and reading a snapshot succeed, whatever kind of commit the latest one is.", "quantifier": "every well-formed table", "why_tests_cant": "All commit kinds and contents.", "anchors": ["crates/core/src/timeline/mod.rs: Timeline::get_latest_schema", "crates/core/src/table/mod.rs: Table::get_partition_schema, get_file_slices_internal"]}
{"id": "C50", "title": "Snapshot equals the state produced by the commit history", "statement": "For every history of completed inserts, updates (new base files), delta commits, compactions, replaces and of rolled-back writes that left no file, the file slices returned as of T are exactly those a simple model of the table (map from file group to its latest version) holds after the commits up to T.", "quantifier": "every history of commits, every T", "why_tests_cant": "Unbounded histories.", "anchors": ["crates/core/src/table/mod.rs: Table::get_file_slices_as_of", "crates/core/src/table/fs_view.rs", "crates/core/src/table/listing.rs", "crates/core/src/timeline/mod.rs"]}
{"id": "C51", "title": "Incremental reads return exactly the changed records", "statement": "Reading records between two timestamps returns, for each file group written in between, the rows of its base file committed after the start and not after the end, merged with the surviving log records of that range; without an end the latest completed commit is the end.", "quantifier": "every table, every pair of timestamps, with or without an end", "why_tests_cant": "All histories and ranges.", "anchors": ["crates/core/src/table/mod.rs: Table::read_incremental_records", "crates/core/src/file_group/reader.rs: FileGroupReader::read_file_slice"]}
{"id": "C52", "title": "An opened table answers for its name, type and time zone", "statement": "Once a table has been opened with validation on, asking for its name, its type, whether it is merge-on-read and its time zone never panics; the name is the configured one, the type is one of the two supported ones, the time zone is utc or local.", "quantifier": "every table, every way of opening it", "why_tests_cant": "All option combinations, from all sources.", "anchors": ["crates/core/src/table/mod.rs: Table::table_name, table_type, is_mor, timezone", "crates/core/src/table/builder.rs: TableBuilder::build"]}
{"id": "C53", "title": "The query engine sees the rows the table's own reader returns", "statement": "For the same filters, scanning a table through the query engine reads, file by file, the rows that reading its latest snapshot returns.", "quantifier": "every table, every list of query predicates", "why_tests_cant": "All tables, with and without log files.", "anchors": ["crates/datafusion/src/lib.rs: HudiDataSource::scan", "crates/core/src/table/mod.rs: Table::read_snapshot"]}
{"id": "C54", "title": "Files are looked up under their own names", "statement": "Whatever characters the base path, a partition and a file name contain, the file is looked up in the object store under exactly that name below the base directory.", "quantifier": "every base path, every relative path", "why_tests_cant": "All names, including spaces, percent signs and letters outside ASCII.", "anchors": ["crates/core/src/storage/mod.rs: Storage::get_file_metadata, get_file_data, get_parquet_file_data, get_storage_reader", "crates/core/src/storage/util.rs: join_url_segments"]}
{"id": "C55", "title": "Options of a CREATE EXTERNAL TABLE command override the session's", "statement": "A table created by a command sees each option of the command with the command's value; any other non-empty option of the session is kept, an empty one is ignored.", "quantifier": "every session configuration, every command", "why_tests_cant": "All overlaps of the two maps.", "anchors": ["crates/datafusion/src/lib.rs: HudiTableFactory::resolve_options"]}
{"id": "C56", "title": "Avro data decodes to what was encoded", "statement": "Decoding the Avro encoding of a value of any schema without references to named types gives that value back and reads exactly its bytes, whatever follows; a block whose schema has such a reference anywhere is refused.", "quantifier": "every Avro schema, every value, every continuation of the stream", "why_tests_cant": "Schemas and values nest to any depth; arrays are split into blocks in any way.", "anchors": ["crates/core/src/file_group/log_file/avro.rs: AvroDataBlockContentReader::next"]}
{"id": "C57", "title": "The rows of an Avro log block are the records written", "statement": "Reading a log block of Avro records yields the records written, in order: every field at every depth has the value written and is null where null was written.", "quantifier": "every schema, every sequence of records, every sequence of blocks", "why_tests_cant": "All schemas with lists, records and optional values nested to any depth; all patterns of missing values.", "anchors": ["crates/core/src/avro_to_arrow/arrow_array_reader.rs: AvroArrowArrayReader::next_batch, build_struct_array, list_array_string_array_builder, build_nested_list_array", "crates/core/src/file_group/log_file/content.rs: Decoder::decode_avro_record_content"]}
{"id": "C58", "title": "File slices changed between two times", "statement": "Asking for the file slices changed between two times returns, for every file group written by a completed commit in that range and not replaced in it, exactly its latest slice up to the end with the base and log files those commits recorded, and nothing else; without an end the latest completed commit is the end, and on a table without commits the answer is empty.", "quantifier": "every table, every pair of timestamps, with or without a start and an end", "why_tests_cant": "All histories and ranges.", "anchors": ["crates/core/src/table/mod.rs: Table::get_file_slices_between, get_file_slices_between_internal", "crates/core/src/timeline/mod.rs: Timeline::get_file_groups_between"]}
{"id": "C59", "title": "The records of a snapshot are those the commit history produced", "statement": "Reading the table as of T returns, for every file group in the table as of T, exactly the latest version of each record among those that the commits completed up to T wrote, whatever later commits have added to the files, and whatever failed writes left behind; without a timestamp, the same after the whole history.", "quantifier": "every history of inserts, updates, appends to log files, compactions and replacements; every T; every placement of log blocks in log files, with failed and rolled-back writes", "why_tests_cant": "The result depends on the whole history, on how blocks of different commits are mixed in log files, and on what later commits appended; no finite set of tables covers that.", "anchors": ["crates/core/src/table/mod.rs: Table::read_snapshot, read_snapshot_as_of, read_snapshot_internal", "crates/core/src/file_group/reader.rs: FileGroupReader::read_file_slice", "crates/core/src/file_group/log_file/scanner.rs: LogFileScanner::scan", "crates/core/src/merge/record_merger.rs: RecordMerger::merge_record_batches"]}
{"id": "C60", "title": "Incremental reads return what the commits of a span changed", "statement": "Reading the changes between two times returns, for every file group that commits in that span changed and that is in the table at its end, exactly the latest version of each record among the versions committed in the span: nothing committed before or after, nothing of failed writes, nothing lost; and the file slices between the two times are those of these file groups.", "quantifier": "every history of inserts, updates, appends to log files, compactions and replacements; every span; every placement of log blocks in log files, with failed and rolled-back writes", "why_tests_cant": "The result depends on the history before, in and after the span, on the metadata of every commit and on how blocks are mixed in log files.", "anchors": ["crates/core/src/table/mod.rs: Table::read_incremental_records, get_file_slices_between", "crates/core/src/timeline/mod.rs: Timeline::get_file_groups_between", "crates/core/src/file_group/builder.rs: build_file_groups", "crates/core/src/file_group/reader.rs: FileGroupReader::read_file_slice"]}
{"id": "C61", "title": "A timestamp denotes the time it spells", "statement": "A timestamp of 14 or 17 digits that names an existing date and time is accepted and denotes that time: the days counted since 1970-01-01, plus the hours, minutes, seconds and milliseconds it spells, in UTC or in the process's time zone as the table says; one that names no existing date or time of day is refused; and the instant read from a timeline file carries that time.", "quantifier": "every digit string of the two lengths, every time zone of the process", "why_tests_cant": "The calendar has 3.6 million days in the range and leap years by three rules; tests try a handful.", "anchors": ["crates/core/src/timeline/instant.rs: Instant::parse_datetime, try_from_file_name_and_timezone"]}
{"id": "C62", "title": "A file slice handed out by name can be read back", "statement": "The description of a file slice that is given out for reading elsewhere (file id, partition, file names, sizes, number of records) is enough: its paths are those of the slice's files, reading it with any file group reader, at any later time, has exactly the outcome that reading the slice itself would have, and the sizes and the number of records are those of the base file on the storage.", "quantifier": "every file slice returned by any query (latest, as of a time, in splits, between two times), after any earlier queries through the handle; every store, reader configuration and later time", "why_tests_cant": "The slice is taken apart into names and rebuilt from them by parsers; tests look at a few tables, never at every name, log file combination and cache state.", "anchors": ["python/src/internal.rs: HudiFileSlice, HudiFileGroupReader::read_file_slice, base_file_relative_path, log_files_relative_paths", "crates/core/src/file_group/mod.rs: FileGroup::add_base_file_from_name, add_log_file_from_name", "crates/core/src/file_group/file_slice.rs: FileSlice::load_metadata_if_needed"]}
{"id": "C63", "title": "Concurrent queries through one handle", "statement": "Queries for file slices that run at the same time through one table handle do not disturb each other: each returns exactly the file slices (in some order) it would return alone, an error only if it would be an error alone, the cache they leave behind is one that sequential queries could leave, and all of them finish.", "quantifier": "any number of queries with any timestamps and filters; every schedule of their steps, every assignment to threads, every order in which the cache is visited, every placement of partitions in the shards of the cache", "why_tests_cant": "The queries share a cache that each fills, visits and changes; the number of interleavings is unbounded and tests run queries one at a time.", "anchors": ["crates/core/src/table/fs_view.rs: FileSystemView::load_file_groups, collect_file_slices_as_of, get_file_slices_as_of", "crates/core/src/table/mod.rs: Table::get_file_slices, get_file_slices_as_of, get_file_slices_internal"]}
{"id": "C64", "title": "The reported schema is that of the data", "statement": "The Avro schema a table reports is the one its latest completed commit recorded; the Arrow schema it reports has the columns of the data that commit wrote, and the partition schema is the partition columns among them, in order; what is missing is an error, never a crash; and every batch returned by a read has the reported columns.", "quantifier": "every table, commit metadata document and store; every read (latest, as of a time, incremental) after any earlier queries", "why_tests_cant": "The schema is found by following names in metadata documents to files; tests look at a few tables with one schema.", "anchors": ["crates/core/src/timeline/mod.rs: Timeline::get_latest_avro_schema, get_latest_schema", "crates/core/src/table/mod.rs: Table::get_avro_schema, get_schema, get_partition_schema, read_snapshot, read_snapshot_as_of, read_incremental_records", "crates/core/src/file_group/reader.rs: FileGroupReader::read_file_slice"]}
{"id": "C65", "title": "A read is not affected by writers working at the same time", "statement": "A read of the latest snapshot, or of the snapshot as of a time, that runs while writers work on the table returns the rows it would have returned had nobody written: nothing of the commits that happen meanwhile shows, and above all never a part of one.", "quantifier": "every interleaving of the requests of the read with the steps of any number of writers: each request to the storage is answered by what the storage holds at that moment", "why_tests_cant": "A read makes many requests (metadata, one listing per directory, one per file); between any two of them other processes may add files, partitions and log files or append to log files. Tests read tables at rest.", "anchors": ["crates/core/src/table/mod.rs: Table::read_snapshot, read_snapshot_as_of, get_file_slices_internal", "crates/core/src/table/fs_view.rs: FileSystemView::get_file_slices_as_of, load_file_groups", "crates/core/src/table/listing.rs: FileLister::list_file_groups_for_relevant_partitions", "crates/core/src/storage/mod.rs: get_leaf_dirs", "crates/core/src/file_group/reader.rs: FileGroupReader::read_file_slice", "crates/core/src/timeline/mod.rs: Timeline::get_replaced_file_groups_as_of, get_latest_schema"]}
{"id": "C66", "title": "Records appended to log files as Avro data are what reads return", "statement": "When commits append records to log files as Avro data, reads of the table (latest, as of a time, incremental) return, for every record key, the latest version among the records of base files and those appended, with every field of an appended record having the value its writer encoded, null where null was written.", "quantifier": "every record schema and every record value of it, every history of commits, failed and rolled-back writes, every placement of blocks in log files, every time", "why_tests_cant": "From bytes to rows there are a binary decoder, a converter of nested values to columns, the selection of blocks, and the merge; tests compose them on one or two small tables.", "anchors": ["crates/core/src/table/mod.rs: Table::read_snapshot, read_snapshot_as_of, read_incremental_records", "crates/core/src/file_group/log_file/reader.rs: LogFileReader::read_all_blocks", "crates/core/src/file_group/log_file/content.rs: Decoder::decode_content", "crates/core/src/avro_to_arrow/arrow_array_reader.rs: AvroArrowArrayReader", "crates/core/src/merge/record_merger.rs: RecordMerger::merge_record_batches"]}
{"id": "C67", "title": "A read does not fail because writers are at work", "statement": "A read of the latest snapshot, or of the snapshot as of a time, that runs while writers only add to the table (files, partitions, blocks at the end of log files) returns whenever it would have returned had nobody written.", "quantifier": "every interleaving of the requests of the read with the steps of any number of writers: each request to the storage is answered by what the storage holds at that moment", "why_tests_cant": "A reader lists a directory, and reads the files it saw, at moments it does not choose; tests read tables at rest, where no directory and no log file is ever half way between two commits.", "anchors": ["crates/core/src/table/mod.rs: Table::read_snapshot, read_snapshot_as_of", "crates/core/src/table/listing.rs: FileLister::list_file_groups_for_relevant_partitions", "crates/core/src/storage/mod.rs: get_leaf_dirs", "crates/core/src/file_group/file_slice.rs: FileSlice::load_metadata_if_needed", "crates/core/src/file_group/log_file/reader.rs: LogFileReader::read_all_blocks", "crates/core/src/file_group/log_file/scanner.rs: LogFileScanner::scan"]}
{"id": "C68", "title": "A read of changes that runs while others write returns what it returns without them", "statement": "A call of read_incremental_records for a range of times returns the same batches whatever other processes write to the table between the requests it makes to the storage, as long as the completed instants in the range and the files they wrote stay.", "quantifier": "all tables, all ranges of times, all interleavings of the requests of the read with the work of writers", "why_tests_cant": "The read makes a request for the metadata of every instant in the range and for every file of every changed file group; tests read tables that nobody writes to, and cannot go through all that may happen between any two requests.", "anchors": ["crates/core/src/table/mod.rs: Table::read_incremental_records, Table::get_file_slices_between_internal", "crates/core/src/timeline/mod.rs: Timeline::get_file_groups_between", "crates/core/src/file_group/reader.rs: FileGroupReader::read_file_slice", "crates/core/src/file_group/log_file/scanner.rs: LogFileScanner::scan"]}
{"id": "C69", "title": "Filters of a read select partitions and nothing else", "statement": "Reading a snapshot with filters on partition columns returns exactly the batches that the read without filters returns for the partitions whose values do not fail a filter, each unchanged; a filter on any other column, or with a value that is not of the column's type, is refused.", "quantifier": "every table, copy-on-write or merge-on-read, every list of filters, every time", "why_tests_cant": "All tables, filters and partition layouts; tests read one or two partitioned tables with two or three filters.", "anchors": ["crates/core/src/table/mod.rs: Table::read_snapshot, read_snapshot_as_of, get_file_slices_internal", "crates/core/src/table/partition.rs: PartitionPruner::new, should_include", "crates/core/src/table/listing.rs: FileLister::list_relevant_partition_paths", "crates/core/src/table/fs_view.rs: FileSystemView::collect_file_slices_as_of", "crates/core/src/expr/filter.rs: SchemableFilter"]}
{"id": "C70", "title": "A query returns exactly the rows that satisfy it", "statement": "A query with predicates through the query engine returns exactly the rows of the table's latest snapshot that satisfy all of them, each as often as it is there, and it does return.", "quantifier": "every table, every list of predicates, every subset of them handed to the table by the engine", "why_tests_cant": "All tables and all predicates; tests run a handful of queries.", "anchors": ["crates/datafusion/src/lib.rs: HudiDataSource::scan, supports_filters_pushdown, can_push_down", "crates/datafusion/src/util/expr.rs: exprs_to_filters", "crates/core/src/table/mod.rs: Table::get_file_slices_splits, get_partition_schema", "crates/core/src/table/partition.rs: PartitionPruner"]}
{"id": "C71", "title": "A table opened by its base path shows what was written to it", "statement": "Opening a table by its base path succeeds exactly if the options it has (by its properties file, the caller, the global configuration) are well formed and supported and its timeline directory holds no malformed instant; reading the table so opened returns, for each file group of its history, the latest version of each record that the completed commits wrote.", "quantifier": "every storage, every properties file, every sequence of calls on the builder, every environment and global configuration, every history of commits, every time", "why_tests_cant": "From a path to rows there are the options' sources, their validation, the timeline, the listing, log files and the merge; tests open a few prepared tables with one or two options.", "anchors": ["crates/core/src/table/mod.rs: Table::new, Table::new_with_options, read_snapshot, read_snapshot_as_of", "crates/core/src/table/builder.rs: TableBuilder::build, resolve_options, validate_configs", "crates/core/src/timeline/mod.rs: Timeline::new_from_storage"]}
{"id": "C72", "title": "A request to the storage that fails is reported and never changes an answer", "statement": "If a request that a call makes to the storage fails (a timeout, a lost connection, a refused access), the call returns an error; a call that returns an answer returns the one it returns when nothing fails. A call that failed, or was abandoned, half-way does not change the answers of later calls through the same handle.", "quantifier": "every call that reads the storage, every table and contents of the storage, every set of requests that fail, every sequence of calls, successful or not, before", "why_tests_cant": "Any request of any call can fail, in any combination, and what a failed call leaves in the handle's cache depends on where it failed; tests run against storages that answer.", "anchors": ["crates/core/src/table/mod.rs: Table::get_file_slices, get_file_slices_as_of, get_file_slices_splits, get_file_slices_between, read_snapshot, read_snapshot_as_of, read_incremental_records, get_schema", "crates/core/src/table/fs_view.rs: FileSystemView::get_file_slices_as_of", "crates/core/src/table/listing.rs: FileLister", "crates/core/src/storage/mod.rs: Storage", "crates/core/src/table/builder.rs: TableBuilder::imbue_global_hudi_configs_if_absent", "crates/datafusion/src/lib.rs: HudiDataSource::schema"]}
{"id": "C73", "title": "Reading the pieces of a table is reading the table", "statement": "Handing out the file slices of a table, as of any time, the latest, or changed in a range of time, in any number of splits, and reading each by its description with a file group reader created by the table or constructed from its base path, returns the batches that reading the table as of that time, its latest snapshot or the changes in that range returns.", "quantifier": "every table and storage, every query, time, range and number of splits, every sequence of earlier queries through the handle, every reader with the table's options", "why_tests_cant": "A planner and its workers share only descriptions and options; tests read whole tables, or one slice with the table's own reader.", "anchors": ["crates/core/src/table/mod.rs: Table::create_file_group_reader_with_options, get_file_slices_splits, get_file_slices_splits_as_of, get_file_slices_between, read_snapshot, read_snapshot_as_of, read_incremental_records", "crates/core/src/file_group/reader.rs: FileGroupReader::new_with_options, new_with_configs_and_options, read_file_slice", "python/src/internal.rs: HudiFileGroupReader"]}
{"id": "C74", "title": "Options are a map", "statement": "The order in which options are given, the calls by which they are given, and the interface (the Rust or the Python builder, or a map of options) do not matter: opening a table with the same options gives handles that have the same options and answer every call alike, or fails with the same error.", "quantifier": "every storage and environment, every base path, all sequences of calls that give each option the same value last, every order of the entries of a map or dictionary, every call on the handle", "why_tests_cant": "Options are kept in hash maps whose order of entries differs between runs; a test sees one order each time it runs.", "anchors": ["crates/core/src/table/builder.rs: TableBuilder", "crates/core/src/table/mod.rs: Table::new_with_options", "crates/core/src/storage/mod.rs: Storage::new", "python/hudi/table/builder.py: HudiTableBuilder", "python/src/internal.rs: build_hudi_table"]}
{"id": "C75", "title": "Read-optimized queries return the rows of base files", "statement": "A read-optimized query of a table, and any query of a table without log files, reads base files and nothing else: as of a time, or the latest, it returns for each file group in the table then exactly the rows of its current base file; the changes between two times are exactly the rows of the base files of the changed file groups that were committed in the range. Log files, even unreadable ones, change nothing, and no record is merged, dropped or reordered.", "quantifier": "every history of commits, appends and replacements whose base files the storage holds, every contents of log files, every time and range, all filters on partitions", "why_tests_cant": "Which base file is current depends on the whole history, and log files may hold anything; tests read a few tables with well-formed log files.", "anchors": ["crates/core/src/file_group/reader.rs: FileGroupReader::read_file_slice, read_file_slice_by_base_file_path, create_filtering_mask_for_base_file_records", "crates/core/src/table/mod.rs: Table::read_snapshot, read_snapshot_as_of, read_incremental_records", "crates/core/src/config/read.rs: HudiReadConfig::UseReadOptimizedMode"]}
{"id": "C76", "title": "Append-only tables keep every record", "statement": "A table without a merge strategy that overwrites (append-only, or without precombine field or meta fields) loses and merges nothing: reading it, as of a time or the latest, returns for each file group every record that the commits up to then wrote to it and that was not rewritten or replaced since, each exactly as often as it was written; reading the changes between two times returns every record committed in the range, each as often as it was written. Records need no keys.", "quantifier": "every history of commits, appends and replacements, every storage holding what they wrote, every division of a commit's records into log files and blocks, every failed write that was rolled back, every time and range, all filters on partitions", "why_tests_cant": "A record lost or doubled between blocks, log files and base files shows only for some divisions of the records; tests write a few small tables.", "anchors": ["crates/core/src/merge/record_merger.rs: RecordMerger::merge_record_batches", "crates/core/src/config/table.rs: HudiTableConfig::RecordMergeStrategy", "crates/core/src/file_group/reader.rs: FileGroupReader::read_file_slice", "crates/core/src/file_group/log_file/scanner.rs: LogFileScanner::scan", "crates/core/src/table/mod.rs: Table::read_snapshot, read_snapshot_as_of, read_incremental_records"]}
{"id": "C77", "title": "Damaged data is reported, not crashed on", "statement": "Whatever the storage contains, whatever arguments a call is given and whichever requests fail, a call on an opened table returns an answer or an error; it does not crash the program.", "quantifier": "every opened table, every contents of the storage at the time of the call (damaged, truncated or foreign files, changed since the table was opened), every call with any arguments, every state of the handle's cache, every set of failing requests", "why_tests_cant": "A crash needs just one kind of damage that nobody thought of; tests cover a few kinds of damage on a few files.", "anchors": ["crates/core/src/table/mod.rs: Table", "crates/core/src/file_group/reader.rs: FileGroupReader::read_file_slice", "crates/core/src/file_group/log_file/reader.rs: LogFileReader", "crates/core/src/file_group/log_file/scanner.rs: LogFileScanner::scan", "crates/core/src/merge/record_merger.rs: RecordMerger::merge_record_batches", "crates/core/src/table/partition.rs: PartitionPruner::new", "crates/core/src/timeline/instant.rs: Instant::parse_datetime", "crates/core/src/config/mod.rs: HudiConfigs::get_or_default"]}
{"id": "C78", "title": "The metadata text of an instant is the content of its file", "statement": "The text that get_instant_metadata_in_json returns for an instant of the timeline is, byte for byte, the present content of that instant's file in the timeline directory; if there is no such file or its bytes are no UTF-8 text, the call returns an error.", "quantifier": "every store, every timeline loaded from it, every instant that the handle gives out, every content of its file, before and after later changes of the store", "why_tests_cant": "All file contents, including those that are no text, and all instants; a test compares a few JSON documents.", "anchors": ["crates/core/src/timeline/mod.rs: Timeline::get_instant_metadata_in_json", "python/src/internal.rs: HudiTimeline::get_instant_metadata_in_json"]}
{"id": "C79", "title": "Cleaning and archiving do not change what readers see", "statement": "Table services may take away superseded file slices, replaced file groups and old instants. As long as they keep what was current at some retained time, every read as of that time or later, and of the latest snapshot, returns what it returned before; reading the changes between two times returns what it returned before as long as the instants in the range are kept on the timeline.", "quantifier": "every table, every set of superseded file slices, replaced file groups and archived instants taken away, every time at or after the retained one, all filters on partitions, all contents of the files", "why_tests_cant": "Which files a read needs depends on the whole history and on what was taken away in which order; tests read a few tables that were never cleaned.", "anchors": ["crates/core/src/timeline/mod.rs: Timeline::get_replaced_file_groups_as_of, get_file_groups_between", "crates/core/src/table/fs_view.rs: FileSystemView::get_file_slices_as_of", "crates/core/src/file_group/mod.rs: FileGroup::get_file_slice_as_of, add_log_file", "crates/core/src/table/mod.rs: Table::read_snapshot, read_snapshot_as_of, read_incremental_records"]}
{"id": "C80", "title": "Changed columns are read as they were last written", "statement": "When the columns of a table change (a column is added, dropped, retyped or moved), every read returns each file group's records with the columns and values they were last written with: a file group that was rewritten with the new columns has them, one that was not keeps the old ones, reads as of a time before the change return the columns of that time, and a value written to a new column is returned.", "quantifier": "every history of commits, appends and replacements in which every base file may have columns of its own, every storage holding what they wrote, every time and range, merging and append-only tables, all filters on partitions", "why_tests_cant": "Which columns a record has depends on the history of its file group; tests read a few tables whose columns never change.", "anchors": ["crates/core/src/file_group/reader.rs: FileGroupReader::read_file_slice", "crates/core/src/merge/record_merger.rs: RecordMerger::merge_record_batches", "crates/core/src/file_group/log_file/scanner.rs: LogFileScanner::scan", "crates/core/src/table/mod.rs: Table::read_snapshot, read_snapshot_as_of, read_incremental_records"]}
{"id": "C81", "title": "Remains of writes that did not complete are not read", "statement": "Whatever base files, log files and log blocks writers that failed, or are still at work, have left in the storage, reading a snapshot as of a time returns exactly the records of the commits that had completed when the table was opened and up to that time.", "quantifier": "every history of completed commits, every set of further base files, log files, log blocks and timeline files left by other writes, every time, all filters on partitions, handles that are older than the storage they read", "why_tests_cant": "A writer can stop after any of its requests, so the remains can be any part of what it wanted to write, of any number of writers; tests read a few finished tables.", "anchors": ["crates/core/src/table/mod.rs: Table::read_snapshot_as_of", "crates/core/src/table/fs_view.rs: FileSystemView::get_file_slices_as_of", "crates/core/src/file_group/mod.rs: FileGroup::get_file_slice_as_of, add_log_file", "crates/core/src/file_group/log_file/scanner.rs: LogFileScanner::scan", "crates/core/src/file_group/log_file/log_block.rs: LogBlock::is_rollback_block, target_instant_time"]}
{"id": "C82", "title": "A write is seen entirely or not at all, wherever its writer stops", "statement": "Writers work on a table, several at a time if they are on different file groups; a writer may stop after any of its requests, and its write is then rolled back, in any number of attempts. Writes complete in the order of their timestamps, after earlier ones that failed have been rolled back, and a failed write that appended to log files is rolled back while no later write is under way. At every moment a table can be opened and reading its latest snapshot, or the snapshot of any completed commit, then or at any later moment, returns exactly the records of the writes that had completed when it was opened: nothing of a write that has not put its file into the timeline, and everything of one that has.", "quantifier": "every sequence and interleaving of writes of any kind, every point at which each may stop, every order and repetition of the requests of writes and rollbacks, every moment of opening, every later moment of reading, all filters on partitions", "why_tests_cant": "The states that a crash can leave are as many as the points at which a writer and its rollback can stop, over all histories; tests read a few finished tables.", "anchors": ["crates/core/src/timeline/mod.rs: Timeline::new_from_storage", "crates/core/src/table/mod.rs: Table::read_snapshot, read_snapshot_as_of", "crates/core/src/table/fs_view.rs: FileSystemView::get_file_slices_as_of", "crates/core/src/file_group/log_file/scanner.rs: LogFileScanner::scan"]}
{"id": "C83", "title": "Reads that run while writers work return a snapshot", "statement": "A read makes many requests to storage, and writers go on between them: a write may begin, make requests, complete, fail and be rolled back while the read is listing directories and reading files. The read nevertheless succeeds and returns exactly the records of the writes that had completed when the table was opened (of those up to the commit asked for): nothing later, and nothing of it missing.", "quantifier": "every sequence of writes, failures and rollbacks, every moment of opening, every assignment of later moments to the requests of the read (files being read after they have been listed), all filters on partitions", "why_tests_cant": "Every interleaving of the requests of a read with those of writers; tests read tables that nobody writes to.", "anchors": ["crates/core/src/table/mod.rs: Table::read_snapshot, read_snapshot_as_of", "crates/core/src/table/listing.rs: FileLister::list_file_groups_for_relevant_partitions", "crates/core/src/table/fs_view.rs: FileSystemView::get_file_slices_as_of", "crates/core/src/storage/mod.rs: get_leaf_dirs", "crates/core/src/file_group/log_file/scanner.rs: LogFileScanner::scan"]}
{"id": "C84", "title": "Reads of changes that run while writers work return what was written in the span", "statement": "Writers work on a table, several at a time if they are on different file groups, may stop after any of their requests, and are rolled back. A reader opens the table at any moment and reads the changes between a time and a commit that had completed by then, or up to the latest one, while writers go on. The read succeeds and returns exactly the records that the writes completed in that span have written: nothing of a write that did not complete, nothing later, and nothing missing.", "quantifier": "every sequence of writes, failures and rollbacks, every moment of opening, every assignment of later moments to the requests of the read, every start and every completed commit as the end", "why_tests_cant": "Every interleaving of the requests of a read with those of writers, from every state that a crash can leave; tests read a few finished tables.", "anchors": ["crates/core/src/table/mod.rs: Table::read_incremental_records, get_file_slices_between", "crates/core/src/timeline/mod.rs: Timeline::get_file_groups_between", "crates/core/src/file_group/builder.rs: build_file_groups", "crates/core/src/file_group/log_file/scanner.rs: LogFileScanner::scan"]}
{"id": "C85", "title": "A handle that is kept goes on reading the table as it was when it was opened", "statement": "A program opens a table and keeps the handle, using it for any calls, some of which fail because requests to storage fail, while writers go on: writes begin, complete, fail and are rolled back, partitions appear and disappear again. Every read through the handle, without a timestamp or as of a commit that had completed when it was opened, returns exactly the records that the writes completed by then had written; and it answers as a fresh handle would. What earlier calls have cached never shows.", "quantifier": "every sequence of writes, failures and rollbacks, every moment of opening, every sequence of calls on the handle at any moments with any requests failing, every later moment of the read, all filters on partitions", "why_tests_cant": "What is cached depends on all earlier calls and on what the storage held at each of them, including files of failed writes that have gone since; tests use a handle once on a table that nobody writes to.", "anchors": ["crates/core/src/table/fs_view.rs: FileSystemView::get_file_slices, load_file_groups, collect_file_slices", "crates/core/src/table/mod.rs: Table::read_snapshot, read_snapshot_as_of, get_file_slices", "crates/core/src/timeline/mod.rs: Timeline::new_from_storage"]}
{"id": "C86", "title": "Whatever fails and whoever writes, a kept handle reads the right records or reports an error", "statement": "A program keeps a table handle and uses it for any calls while writers work. Any request to storage of any of these calls may fail, and every other request is answered at a moment of its own, at which writers may be in the middle of a write, have completed it or be rolling it back. A read without a timestamp, or as of a commit that had completed when the table was opened, returns an error if one of its own requests fails, and otherwise exactly the records that the writes completed by then had written. No combination of failures, interleavings and earlier calls makes it return anything else. The same holds of reads of changes, which return an error or what the writes completed in the span have written (with the exception of C84).", "quantifier": "every sequence of writes, failures and rollbacks, every moment of opening, every sequence of calls with any of their requests failing and the others answered at any later moments, every assignment of failures and moments to the requests of the read, all filters on partitions", "why_tests_cant": "The failures, the interleavings with writers and the history of calls combine: a listing may half succeed, have cached files of a write that is rolled back since, and the next read is interleaved with yet another write. Tests use a handle once on a table that nobody writes to and whose storage answers.", "anchors": ["crates/core/src/table/fs_view.rs: FileSystemView::get_file_slices, load_file_groups, collect_file_slices", "crates/core/src/table/mod.rs: Table::read_snapshot, read_snapshot_as_of, read_incremental_records, get_file_slices", "crates/core/src/table/listing.rs: FileLister::list_file_groups_for_relevant_partitions", "crates/core/src/storage/mod.rs: Storage, get_leaf_dirs", "crates/core/src/file_group/reader.rs: FileGroupReader::read_file_slice"]}
{"id": "C87", "title": "Queries that share a handle while writers work each read the right records", "statement": "A program uses one table handle from several tasks at the same time, while writers work on the table and requests to storage may fail. The queries put listings made at different moments into the shared cache, replace each other's, and look at what others have put there. A query without a timestamp, or as of a commit that had completed when the table was opened, returns an error if one of its own requests has failed; and otherwise file slices from which, whenever each file is read afterwards, exactly the records are read that the writes completed by then had written. The queries never run on forever; and if each has a thread of its own, all of them return.", "quantifier": "every sequence of writes, failures and rollbacks, every moment of opening, any number of queries, every interleaving of their steps with each other and with those of writers, every assignment of failures and moments to their requests, every hash function and order of the cache's maps, all filters on partitions", "why_tests_cant": "The interleavings of queries, of writers and of failures combine: one query may look at a listing another one made before a write was rolled back. Tests run queries one at a time on a table that nobody writes to.", "anchors": ["crates/core/src/table/fs_view.rs: FileSystemView::get_file_slices, load_file_groups, collect_file_slices", "crates/core/src/table/mod.rs: Table::get_file_slices, get_file_slices_as_of, read_snapshot, read_snapshot_as_of", "crates/core/src/file_group/file_slice.rs: FileSlice::load_metadata_if_needed"]}
{"id": "C88", "title": "A consumer that polls for changes misses nothing and receives nothing twice", "statement": "A consumer opens a table from time to time and reads the changes from the latest commit that the table showed it the time before up to now, while writers work. However the visits and the steps of writers interleave, every visit succeeds; every write that completes after the consumer has begun falls in exactly one visit; that visit receives, per file group the write changed and that is still in the table, the latest version of each record written since the visit before; what it received agrees with the history as it is later on; and no two visits receive rows of the same commit.", "quantifier": "every sequence of writes, failures and rollbacks, every number of visits, at every moment, every assignment of moments to the requests of each read; writers completing in any order", "why_tests_cant": "The consumer's position is the timestamp of a commit, and the writes that a visit covers are chosen by timestamp, not by when they completed: whether one is skipped depends on the order in which concurrent writers complete. Tests read the changes of a finished history once.", "anchors": ["crates/core/src/table/mod.rs: Table::read_incremental_records, get_file_slices_between", "crates/core/src/timeline/mod.rs: Timeline::get_latest_commit_timestamp, get_file_groups_between", "crates/core/src/timeline/selector.rs: TimelineSelector::within_open_closed, is_in_range, select"]}
{"id": "C89", "title": "A copy kept up to date from changes equals the table", "statement": "A consumer reads a table once and keeps the records. From then on it opens the table from time to time, reads only what has changed since the latest commit it has seen, and keeps of each record the latest version it has received. However its visits and the steps of writers interleave, its copy after each visit is what it would get by reading the whole table at that moment.", "quantifier": "every sequence of writes, failures and rollbacks, with updates and with files rewritten into other file groups; every number of visits, at every moment, every assignment of moments to the requests of each read", "why_tests_cant": "It relates two ways of reading over a whole history: one snapshot against the sum of all incremental reads, each merged with what came before. A test compares them for one history and one sequence of visits.", "anchors": ["crates/core/src/table/mod.rs: Table::read_snapshot, read_incremental_records", "crates/core/src/timeline/mod.rs: Timeline::get_latest_commit_timestamp, get_file_groups_between", "crates/core/src/file_group/reader.rs: FileGroupReader::read_file_slice, create_filtering_mask_for_base_file_records", "crates/core/src/merge/record_merger.rs: RecordMerger::merge_record_batches"]}
{"id": "C90", "title": "A cleaner that keeps what is retained does not disturb reads", "statement": "While writers work, a cleaner deletes files of versions of file groups that completed writes up to some time have superseded. A reader opens the table at any moment and reads its latest snapshot, or the one as of a commit that had completed by then and is not earlier than that time, while writers and cleaner go on. The read succeeds and returns exactly the records that the writes completed by that commit had written, as if nothing had been deleted.", "quantifier": "every sequence of writes, failures, rollbacks and deletions by the cleaner, every moment of opening, every assignment of later moments to the requests of the read, every commit not earlier than the cleaner's horizon, all filters on partitions", "why_tests_cant": "The cleaner deletes one file at a time, between any two requests of a read and of writers; which of these states disturb a listing depends on which files are left. Tests read tables from which nothing disappears.", "anchors": ["crates/core/src/table/listing.rs: FileLister::list_file_groups_for_partition", "crates/core/src/file_group/mod.rs: FileGroup::add_log_file, get_file_slice_as_of", "crates/core/src/table/fs_view.rs: FileSystemView::load_file_groups, collect_file_slices", "crates/core/src/table/mod.rs: Table::get_partition_schema, read_snapshot, read_snapshot_as_of"]}
{"id": "C91", "title": "A kept handle reads the right records while a cleaner works", "statement": "A program opens a table once and keeps the handle, making any calls on it, while writers work and a cleaner deletes files of superseded versions, some of which the handle has in its cache. Requests to storage may fail. A read of the latest snapshot, or as of a commit that had completed when the handle was opened and is not earlier than the cleaner's horizon, returns an error if one of its requests fails; and otherwise exactly the records that the writes completed by then had written.", "quantifier": "every sequence of writes, failures, rollbacks and deletions by the cleaner, every moment of opening, every sequence of earlier calls on the handle, every assignment of failures and later moments to all requests, every commit not earlier than the cleaner's horizon, all filters on partitions", "why_tests_cant": "Cached listings name files and whole partitions that the cleaner has deleted since; whether they are looked at depends on what was cached when, on what is listed again, and on which file groups have been replaced. Tests use a handle once on a table from which nothing disappears.", "anchors": ["crates/core/src/table/fs_view.rs: FileSystemView::get_file_slices, load_file_groups, collect_file_slices", "crates/core/src/table/mod.rs: Table::read_snapshot, read_snapshot_as_of, get_file_slices", "crates/core/src/table/listing.rs: FileLister::list_file_groups_for_relevant_partitions", "crates/core/src/timeline/mod.rs: Timeline::get_replaced_file_groups_as_of"]}
{"id": "C92", "title": "A cleaner does not take away changes that are read up to a retained commit", "statement": "While writers work, a cleaner deletes files of versions of file groups that completed writes up to some time have superseded. A reader opens the table at any moment and reads the changes from any time, however early, up to now, or up to a commit that had completed then and is not earlier than the cleaner's horizon. Whatever the moments at which its requests are answered, it returns exactly the records written in that span by the writes completed when it opened the table, as if nothing had been deleted.", "quantifier": "every sequence of writes, failures, rollbacks and deletions by the cleaner, every moment of opening, every assignment of later moments to the requests of the read, every start time and every commit not earlier than the cleaner's horizon as the end", "why_tests_cant": "The metadata of the commits in the span names base files and log files that the cleaner has deleted or deletes while the read runs; whether one of them is read depends on which later commits of the span supersede it. Tests read changes of tables that have never been cleaned.", "anchors": ["crates/core/src/table/mod.rs: Table::read_incremental_records, get_file_slices_between", "crates/core/src/timeline/mod.rs: Timeline::get_file_groups_between", "crates/core/src/file_group/builder.rs: build_file_groups", "crates/core/src/file_group/reader.rs: FileGroupReader::read_file_slice"]}
{"id": "C93", "title": "A consumer that follows changes misses nothing while a cleaner works", "statement": "A consumer asks a table from time to time for the changes since the latest commit it has seen, however long it stays away, while writers work and a cleaner deletes files of versions that were superseded by a time that moves on. As long as the cleaner, during a visit, does not go beyond the latest commit at its beginning, every visit succeeds and receives what the completed writes had changed in its span; each completed write falls in exactly one visit, although files it has written may be gone by then, and no two visits receive rows of the same commit.", "quantifier": "every sequence of writes, failures, rollbacks and deletions by the cleaner, every movement of the cleaner's horizon, every number of visits at every moment, every assignment of later moments to the requests of each visit", "why_tests_cant": "The files that a span of changes is read from depend on what the cleaner has left of the writes since the last visit, which may be any number of steps ago. Tests read changes of a history that nobody cleans.", "anchors": ["crates/core/src/table/mod.rs: Table::read_incremental_records, get_file_slices_between", "crates/core/src/timeline/mod.rs: Timeline::get_latest_commit_timestamp, get_file_groups_between", "crates/core/src/file_group/mod.rs: FileGroup::get_file_slice_as_of"]}
{"id": "C94", "title": "A copy kept up to date from changes equals the table while a cleaner works", "statement": "A consumer reads a table once and keeps the records, and from then on reads only what has changed since its last visit, keeping of each record the latest version, while writers work and a cleaner deletes files of versions superseded by a time that moves on but is, at each visit, not later than the latest commit. After each visit its copy is what it would get by reading the whole table at that moment.", "quantifier": "every sequence of writes, failures, rollbacks and deletions by the cleaner, every movement of the cleaner's horizon, every number of visits at every moment, every assignment of later moments to the requests of each read", "why_tests_cant": "It relates one snapshot to the sum of all incremental reads over a history of which files disappear between and during the reads. A test compares them for one history and one sequence of visits.", "anchors": ["crates/core/src/table/mod.rs: Table::read_snapshot, read_incremental_records", "crates/core/src/timeline/mod.rs: Timeline::get_latest_commit_timestamp, get_file_groups_between", "crates/core/src/file_group/reader.rs: FileGroupReader::read_file_slice, create_filtering_mask_for_base_file_records", "crates/core/src/merge/record_merger.rs: RecordMerger::merge_record_batches"]}
{"id": "C95", "title": "Answers do not depend on the order in which hash maps are gone through", "statement": "Two processes read the same table, each going through its hash maps and hash sets in an order of its own and finishing the concurrent listings of partitions in an order of its own. If their handles have seen the same before, every query succeeds in both or in neither, and returns the same file slices, the same number of splits of the same sizes with together the same file slices, and the same batches with the same rows, up to the order of the slices, batches and rows; and the handles have again seen the same.", "quantifier": "all tables, stored trees, options, filters and times, all pairs of iteration orders of every hash map met, all orders in which partition listings complete, all handles that have cached the same", "why_tests_cant": "The order of a hash map with a random seed differs on every run; a test sees one order per run and passes when the result does not happen to depend on it.", "anchors": ["crates/core/src/table/listing.rs: FileLister::list_file_groups_for_partition, list_file_groups_for_relevant_partitions", "crates/core/src/table/fs_view.rs: FileSystemView::load_file_groups, collect_file_slices", "crates/core/src/timeline/mod.rs: Timeline::get_replaced_file_groups_as_of, get_file_groups_between", "crates/core/src/table/mod.rs: Table::get_file_slices, get_file_slices_splits, get_file_slices_between, read_snapshot, read_incremental_records"]}
{"id": "C96", "title": "A builder can be used again", "statement": "A builder with which a table has been opened, or has failed to be opened, any number of times opens the table as a new builder with the same options does: with the same options and instants, or with the same error.", "quantifier": "all sequences of calls on a builder, all sequences of earlier attempts, each with a storage and an environment of its own, all tables, properties files, global configurations and environment variables", "why_tests_cant": "Each attempt leaves what it has found in the builder; whether that shows depends on all sources of options at all earlier times. Tests build once per builder.", "anchors": ["crates/core/src/table/builder.rs: TableBuilder::build, resolve_options, resolve_user_provided_options, resolve_cloud_env_vars, resolve_hudi_options, imbue_table_properties, imbue_global_hudi_configs_if_absent"]}
{"id": "C97", "title": "The order in which the storage lists directories does not matter", "statement": "The same files are listed in two orders, in every directory and at every depth (another object store, a copy of the table, another run). Opening the table gives the same table, and every query succeeds on both or on neither and returns the same file slices, splits of the same sizes, schemas, and batches with the same rows, up to the order of file slices, batches and rows.", "quantifier": "all tables, stored trees, options, filters and times, all orders of the entries of every directory at every depth, all iteration orders of hash maps, all handles that have cached the same", "why_tests_cant": "Object stores and file systems list directories in an order of their own, and concurrent listings end in any order. A test sees the order of the file system it runs on.", "anchors": ["crates/core/src/storage/mod.rs: Storage::list_dirs, list_files, get_leaf_dirs", "crates/core/src/table/listing.rs: FileLister::list_file_groups_for_partition, list_relevant_partition_paths, list_file_groups_for_relevant_partitions", "crates/core/src/timeline/mod.rs: Timeline::load_instants", "crates/core/src/file_group/log_file/mod.rs: impl Ord for LogFile", "crates/core/src/table/builder.rs: TableBuilder::build"]}
{"id": "C98", "title": "A query plan can be executed later, while others work", "statement": "A query engine plans a scan through a table handle and opens the files of the plan later, each at a moment of its own, while writers write, fail and are rolled back and a cleaner deletes old versions. The plan names each file once, the engine finds every file of it, of the size it was told, and the rows that satisfy the query's predicates in them are exactly those in the base files of the table as it was when the handle was opened.", "quantifier": "every sequence of writes, failures and rollbacks before the handle is opened, before the plan is made and after, every sequence of deletions by a cleaner after the plan is made, every assignment of later moments to the files of the plan, all predicates handed to the table", "why_tests_cant": "Between planning and execution any number of writes and deletions may happen, at any point relative to the opening of each file. Tests plan and execute a query on a table that nobody changes.", "anchors": ["crates/datafusion/src/lib.rs: HudiDataSource::scan, supports_filters_pushdown, get_input_partitions", "crates/core/src/table/mod.rs: Table::get_file_slices_splits, get_file_slices, base_url", "crates/core/src/table/fs_view.rs: FileSystemView::get_file_slices_as_of"]}
{"id": "C99", "title": "Compaction and clustering change nothing that readers see", "statement": "Between two reads of a table, table services have rewritten parts of it: file groups have got new base files with the latest versions of their records, or have been replaced by new file groups that hold them. Both reads succeed and return the same rows with the same columns, up to order, whatever partitions are asked for and whatever writers and services do while the reads run; and a reader of changes since a time before which all records were written gets no rows.", "quantifier": "all histories of writes, failures, rollbacks, compactions and clusterings, all moments at which the requests of the reads are answered, all partition filters, all versions of records of which none tie", "why_tests_cant": "A service may rewrite any set of file groups into any other set, any number of times, while reads and writes are under way. A test compares two reads around one compaction of one table.", "anchors": ["crates/core/src/table/mod.rs: Table::read_snapshot, read_incremental_records", "crates/core/src/timeline/mod.rs: Timeline::get_replaced_file_groups_as_of, get_file_groups_between", "crates/core/src/file_group/mod.rs: FileGroup::add_log_file, get_file_slice_as_of", "crates/core/src/file_group/reader.rs: FileGroupReader::read_file_slice, create_filtering_mask_for_base_file_records", "crates/core/src/merge/record_merger.rs: RecordMerger::merge_record_batches"]}
{"id": "C100", "title": "Writers that work at the same time leave a table as if they had worked one after the other", "statement": "Several writers work on a table at the same time, on different file groups; their requests come in any order and may be repeated, any of them may stop after any request and is then rolled back. Whatever a reader asks for - the latest snapshot, the snapshot of a commit, the changes between a time and a commit, with any filters on partitions, while writers go on - it gets the rows that it would get from a table on which one writer has made the completed writes one after the other, in the order of their timestamps, without ever failing.", "quantifier": "every interleaving of any number of writes, failures and rollbacks, every moment of opening and of answering each request of the reads, all partition filters, all completed commits, all starts of spans", "why_tests_cant": "The interleavings of the requests of several writers are unbounded, and each can leave remains of failed writes at every point. Tests read tables that one writer has written.", "anchors": ["crates/core/src/table/mod.rs: Table::read_snapshot, read_snapshot_as_of, read_incremental_records", "crates/core/src/timeline/mod.rs: Timeline::new_from_storage", "crates/core/src/file_group/mod.rs: FileGroup::get_file_slice_as_of", "crates/core/src/file_group/log_file/scanner.rs: LogFileScanner::scan"]}
{"id": "C101", "title": "A table that keeps every record shows each exactly as often as it was written", "statement": "On a table without a merge strategy that overwrites, records with equal keys, even equal records, are kept side by side. Several writers append to such a table at the same time, on different file groups; any of them may stop after any request and is then rolled back. A handle opened at any moment reads, then or at any later moment, or while writers go on, as of any completed commit or without a timestamp, each record exactly as often as the writes completed by then have written it: none is lost, none is doubled. Reads of the changes up to a commit return each record committed in between as often, too; and a cleaner that deletes superseded versions meanwhile makes no difference to reads of what it leaves.", "quantifier": "every interleaving of any number of writes, failures and rollbacks, every moment of opening and of answering each request of the read, all partition filters, all completed commits, all contents of batches", "why_tests_cant": "Whether a record is counted twice or not at all depends on where each block of each write has landed, next to which remains of failed writes. Tests count the rows of a table that one writer has written without failing.", "anchors": ["crates/core/src/merge/record_merger.rs: RecordMerger::merge_record_batches", "crates/core/src/file_group/reader.rs: FileGroupReader::read_file_slice", "crates/core/src/file_group/log_file/scanner.rs: LogFileScanner::scan", "crates/core/src/table/mod.rs: Table::read_snapshot, read_snapshot_as_of, read_incremental_records"]}
{"id": "C102", "title": "Old commits can be archived while readers and writers work", "statement": "While writers write, fail and are rolled back and a cleaner deletes superseded versions, an archiver takes the files of completed commits before some time out of the timeline, except those of commits that replaced file groups. A handle opened at any moment reads as of any commit whose versions the cleaner keeps, archived or not, and the latest snapshot, exactly the records that the writes completed by then had written, those of archived commits included, without ever failing; what was archived before the handle was opened and what is archived while it reads makes no difference, and neither does what the handle was used for before. Reads of the changes since a time from which the archiver keeps the timeline return exactly the records committed since.", "quantifier": "every interleaving of writes, failures, rollbacks, deletions by a cleaner and by an archiver, every moment of opening and of answering each request of the read, all partition filters, all commits not before the cleaner's time", "why_tests_cant": "Any set of old commits may be missing from the timeline a handle has loaded, and more may vanish between its requests. Tests read tables whose timeline is complete and that nobody changes.", "anchors": ["crates/core/src/timeline/mod.rs: Timeline::new_from_storage, get_replaced_file_groups_as_of, get_file_groups_between, get_latest_commit_timestamp", "crates/core/src/timeline/selector.rs: TimelineSelector::select", "crates/core/src/table/mod.rs: Table::read_snapshot, read_snapshot_as_of, read_incremental_records", "crates/core/src/table/fs_view.rs: FileSystemView::get_file_slices_as_of"]}
{"id": "C103", "title": "Consumers can follow a table while old commits are archived", "statement": "A consumer visits a table from time to time and asks for what has changed since its last visit, while writers write, fail and are rolled back, a cleaner deletes superseded versions, and an archiver takes files of completed commits before the consumer's last visit out of the timeline, except those of commits that replaced file groups. Every visit succeeds and tells the consumer the latest commit; each write completed since the beginning is received by exactly one visit, and no two visits receive rows of the same commit. If the consumer keeps a copy of the table, which it has read once, up to date from these visits, the copy is at each visit what reading the whole table then would give.", "quantifier": "every interleaving of writes, failures, rollbacks, deletions by a cleaner and by an archiver, every number of visits at any moments, every moment of answering each request of a visit", "why_tests_cant": "What a visit receives depends on all that was written, cleaned and archived before it and during it, over unboundedly many visits. Tests read changes once, from tables whose timeline is complete.", "anchors": ["crates/core/src/table/mod.rs: Table::read_incremental_records, read_snapshot", "crates/core/src/timeline/mod.rs: Timeline::get_file_groups_between, get_latest_commit_timestamp", "crates/core/src/timeline/selector.rs: TimelineSelector::select"]}
