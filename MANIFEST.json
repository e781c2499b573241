{
 "claims": [
  {
   "property": "C01",
   "status": "proved",
   "theorems": [
    "Hudi.C01_instant_name_roundtrip",
    "Hudi.C01_instant_names_injective"
   ],
   "note": ""
  },
  {
   "property": "C02",
   "status": "partial",
   "theorems": [
    "Hudi.C02_false",
    "Hudi.C02_instant_designates_its_file_partial"
   ],
   "note": "False in general: a name with a trailing dot ('ts.commit.') is accepted but designates another file (C02_false). Proved for every name with a canonical suffix."
  },
  {
   "property": "C03",
   "status": "partial",
   "theorems": [
    "Hudi.C03_false",
    "Hudi.C03_load_never_crashes_partial"
   ],
   "note": "False in general: 'abc.commit' panics on the slice [..14] (C03_false). Proved: loading panics exactly when such a name is present."
  },
  {
   "property": "C04",
   "status": "partial",
   "theorems": [
    "Hudi.C04_false",
    "Hudi.C04_earlier_time_is_earlier_text_partial",
    "Hudi.C04_same_width_partial"
   ],
   "note": "False in general: timestamps of different width, or with a leap second, can order differently as text and as time (C04_false). Proved for every pair of writer timestamps of the same width."
  },
  {
   "property": "C05",
   "status": "proved",
   "theorems": [
    "Hudi.C05_loaded_timeline",
    "Hudi.C05_completed_of_action"
   ],
   "note": ""
  },
  {
   "property": "C06",
   "status": "proved",
   "theorems": [
    "Hudi.C06_listing_order_irrelevant",
    "Hudi.C06_failure_order_irrelevant"
   ],
   "note": ""
  },
  {
   "property": "C07",
   "status": "proved",
   "theorems": [
    "Hudi.C07_select_is_half_open_interval"
   ],
   "note": ""
  },
  {
   "property": "C08",
   "status": "proved",
   "theorems": [
    "Hudi.C08_adjacent_ranges_partition"
   ],
   "note": ""
  },
  {
   "property": "C09",
   "status": "partial",
   "theorems": [
    "Hudi.C09_false",
    "Hudi.C09_range_membership_partial",
    "Hudi.C09_answer_exists_partial",
    "Hudi.C09_unparsable_is_never_answered_partial",
    "Hudi.C09_named_ranges_partial"
   ],
   "note": "False in general: a timestamp shorter than 14 bytes panics instead of being reported (C09_false). Proved for every timestamp the parser does not panic on. C09_named_ranges_partial covers the named constructors of ranges."
  },
  {
   "property": "C10",
   "status": "proved",
   "theorems": [
    "Hudi.C10_latest_commit_is_latest"
   ],
   "note": ""
  },
  {
   "property": "C11",
   "status": "proved",
   "theorems": [
    "Hudi.C11_clustering_commits"
   ],
   "note": ""
  },
  {
   "property": "C12",
   "status": "partial",
   "theorems": [
    "Hudi.C12_false",
    "Hudi.C12_base_file_name_regenerated_partial",
    "Hudi.C12_base_file_recovered_partial",
    "Hudi.C12_accepted_exactly_partial"
   ],
   "note": "False in general: a name with more than three underscore-separated parts is accepted but designates another file (C12_false). Proved for names with exactly three parts."
  },
  {
   "property": "C13",
   "status": "proved",
   "theorems": [
    "Hudi.C13_log_file_name_regenerated",
    "Hudi.C13_log_file_recovered",
    "Hudi.C13_accepted_exactly"
   ],
   "note": ""
  },
  {
   "property": "C14",
   "status": "partial",
   "theorems": [
    "Hudi.C14_false",
    "Hudi.C14_log_files_in_version_order_partial"
   ],
   "note": "False in general: log versions are compared as text, so version 10 is visited before version 2 (C14_false). Proved: strictly increasing textual order, hence numeric order for versions of equal width."
  },
  {
   "property": "C15",
   "status": "proved",
   "theorems": [
    "Hudi.C15_no_log_file_dropped",
    "Hudi.C15_adding_again_changes_nothing",
    "Hudi.C15_order_of_adding_irrelevant"
   ],
   "note": ""
  },
  {
   "property": "C16",
   "status": "proved",
   "theorems": [
    "Hudi.C16_as_of_is_closest",
    "Hudi.C16_none_iff_all_later",
    "Hudi.C16_monotone"
   ],
   "note": ""
  },
  {
   "property": "C17",
   "status": "proved",
   "theorems": [
    "Hudi.C17_slices_well_formed",
    "Hudi.C17_slices_never_lost",
    "Hudi.C17_base_file_addition",
    "Hudi.C17_log_file_addition"
   ],
   "note": ""
  },
  {
   "property": "C18",
   "status": "proved",
   "theorems": [
    "Hudi.C18_merge_succeeds_iff",
    "Hudi.C18_merge_is_union",
    "Hudi.C18_merge_commutes",
    "Hudi.C18_merge_idempotent",
    "Hudi.C18_merge_associative"
   ],
   "note": ""
  },
  {
   "property": "C19",
   "status": "partial",
   "theorems": [
    "Hudi.C19_every_write_shows_up_partial",
    "Hudi.C19_first_write_shows_up",
    "Hudi.C19_false"
   ],
   "note": "False in general: of several write stats for one file group in one commit only the first is kept (C19_false). C19_every_write_shows_up_partial: when no two write stats of a commit are for one file group. C19_first_write_shows_up: for any commit, exactly the first write of each file group."
  },
  {
   "property": "C20",
   "status": "proved",
   "theorems": [
    "Hudi.C20_malformed_metadata_reported"
   ],
   "note": ""
  },
  {
   "property": "C21",
   "status": "proved",
   "theorems": [
    "Hudi.C21_replaced_file_groups",
    "Hudi.C21_hidden_set_grows"
   ],
   "note": ""
  },
  {
   "property": "C22",
   "status": "partial",
   "theorems": [
    "Hudi.C22_changed_file_groups_partial",
    "Hudi.C22_first_writes_show_up",
    "Hudi.C22_false"
   ],
   "note": "False in general for the same reason as C19 (C22_false). C22_changed_file_groups_partial: an equivalence with success, when no two write stats of one commit are for one file group. C22_first_writes_show_up: for any commits, exactly the first write of each commit to each file group."
  },
  {
   "property": "C23",
   "status": "partial",
   "theorems": [
    "Hudi.C23_listing_partial",
    "Hudi.C23_listing_order_irrelevant",
    "Hudi.C23_metadata_files_never_appear",
    "Hudi.C23_false"
   ],
   "note": "Proved: the listing is exact for every file group that has a base file, does not depend on the listing order, and never shows metadata files (C23_listing_partial ...). C23_false: log files of a file group that has no base file yet are silently dropped."
  },
  {
   "property": "C24",
   "status": "proved",
   "theorems": [
    "Hudi.C24_partitions_are_the_leaf_directories"
   ],
   "note": ""
  },
  {
   "property": "C25",
   "status": "proved",
   "theorems": [
    "Hudi.C25_snapshot_as_of",
    "Hudi.C25_latest_snapshot"
   ],
   "note": ""
  },
  {
   "property": "C26",
   "status": "partial",
   "theorems": [
    "Hudi.C26_earlier_queries_do_not_matter_partial",
    "Hudi.C26_latest_query_partial",
    "Hudi.C26_false"
   ],
   "note": "C26_false: a partition directory removed between two queries is still answered from the cache. Proved for every history of queries and stores in which no partition disappears where an earlier query had found a base file up to the time asked for."
  },
  {
   "property": "C27",
   "status": "partial",
   "theorems": [
    "Hudi.C27_false",
    "Hudi.C27_nothing_after_the_latest_commit_partial",
    "Hudi.C27_only_committed_if_cleaned_partial"
   ],
   "note": "C27_false: a base file left by a write that never completed is returned once a later instant has completed. Proved: nothing later than the latest completed instant is visible, and only committed files are when failed writes were cleaned up."
  },
  {
   "property": "C28",
   "status": "partial",
   "theorems": [
    "Hudi.C28_false",
    "Hudi.C28_time_travel_partial",
    "Hudi.C28_rows_unchanged_partial"
   ],
   "note": "C28_time_travel_partial: file slices keep their base files, log files only grow. C28_rows_unchanged_partial: the rows read as of T are the same up to order, whatever later commits, files and log blocks are added, if the later query has an answer, for tables that merge by latest version, append-only tables and reads limited to base files. C28_false: it has none after a partition deletion (see C49)."
  },
  {
   "property": "C29",
   "status": "proved",
   "theorems": [
    "Hudi.C29_only_nonmatching_partitions_are_skipped",
    "Hudi.C29_pruning_is_exact",
    "Hudi.C29_style_of_the_table"
   ],
   "note": ""
  },
  {
   "property": "C30",
   "status": "partial",
   "theorems": [
    "Hudi.C30_partition_path_round_trip_partial",
    "Hudi.C30_false",
    "Hudi.C30_order_false"
   ],
   "note": "False in general: a url-encoded value containing '/' cannot be read back (C30_false); plain paths are matched in column order, not partition field order (C30_order_false). Proved otherwise, for every value, style, encoding set."
  },
  {
   "property": "C31",
   "status": "proved",
   "theorems": [
    "Hudi.C31_operators_mean_what_they_say",
    "Hudi.C31_negation_keeps_the_others",
    "Hudi.C31_tokens",
    "Hudi.C31_filter_by_the_text_of_a_value"
   ],
   "note": ""
  },
  {
   "property": "C32",
   "status": "proved",
   "theorems": [
    "Hudi.C32_splits_as_of",
    "Hudi.C32_splits"
   ],
   "note": ""
  },
  {
   "property": "C33",
   "status": "partial",
   "theorems": [
    "Hudi.C33_rows_in_range",
    "Hudi.C33_all_rows",
    "Hudi.C33_no_commit_time_is_an_error",
    "Hudi.C33_rows_in_time_range_partial",
    "Hudi.C33_false"
   ],
   "note": "False as stated (C33_false): commit times are compared as text, so a 14-digit start excludes less than it should. Proved: selection exactly by textual order; by time for timestamps of equal width."
  },
  {
   "property": "C34",
   "status": "partial",
   "theorems": [
    "Hudi.C34_false",
    "Hudi.C34_blocks_are_read_back_partial",
    "Hudi.C34_unsupported_blocks_are_reported",
    "Hudi.C34_other_record_formats_are_reported",
    "Hudi.C34_other_versions_are_reported"
   ],
   "note": "C34_blocks_are_read_back_partial covers every sequence of well-formed avro data, parquet data and command blocks; C34_unsupported_blocks_are_reported says that a delete, hfile, cdc or corrupted block makes the read fail with an error; C34_other_record_formats_are_reported and C34_other_versions_are_reported say the same of data blocks in another version of the record format and of blocks of any other version; C34_false exhibits a well-formed file with a delete block that cannot be read, so the unrestricted claim does not hold of the code. It holds for any record formats (Codec); Avro is modelled in full (C56, C57), parquet is a parameter."
  },
  {
   "property": "C35",
   "status": "partial",
   "theorems": [
    "Hudi.C35_torn_file_partial",
    "Hudi.C35_false"
   ],
   "note": "If a prefix of a well-formed file reads successfully, the blocks returned are those of the whole blocks at its start and at most five stray bytes follow them; otherwise the read is an error. Covers version 1 blocks of any content, and in the other versions (no trailer) command blocks and parquet blocks, given that no proper prefix of a parquet file is a parquet file. C35_false: an Avro block without a trailer that is cut inside its last string is returned with a null in place of the string, because apache_avro decodes a string cut by the end of the stream as null."
  },
  {
   "property": "C36",
   "status": "proved",
   "theorems": [
    "Hudi.C36_scan_is_the_surviving_blocks"
   ],
   "note": "The scan returns exactly the batches of the blocks in range that no rollback in range names, in file and block order."
  },
  {
   "property": "C37",
   "status": "partial",
   "theorems": [
    "Hudi.C37_rolled_back_blocks_contribute_nothing_partial",
    "Hudi.C37_false"
   ],
   "note": "Proved when the rollback block's own instant is in the range of the read; C37_false exhibits a rollback block outside the range whose target is still read."
  },
  {
   "property": "C38",
   "status": "partial",
   "theorems": [
    "Hudi.C38_latest_version_of_every_record_partial",
    "Hudi.C38_append_only",
    "Hudi.C38_by_position",
    "Hudi.C38_misfits_are_refused",
    "Hudi.C38_false"
   ],
   "note": "False as stated: batches are concatenated by column position (C38_false). C38_latest_version_of_every_record_partial and C38_append_only: batches that have the columns asked for. C38_by_position says what happens with any other batches that fit by position, C38_misfits_are_refused that nothing is returned otherwise."
  },
  {
   "property": "C39",
   "status": "proved",
   "theorems": [
    "Hudi.C39_merge_order_irrelevant"
   ],
   "note": ""
  },
  {
   "property": "C40",
   "status": "partial",
   "theorems": [
    "Hudi.C40_false",
    "Hudi.C40_base_file_only",
    "Hudi.C40_latest_versions_partial",
    "Hudi.C40_append_only_partial",
    "Hudi.C40_read_snapshot_as_of_partial",
    "Hudi.C40_read_snapshot_partial",
    "Hudi.C40_empty_table"
   ],
   "note": "One file slice and whole tables (read_snapshot, as of a timestamp): whenever the slices can be listed and their files are readable, the read succeeds and returns the base rows merged with the surviving log records. Partial: log records must have the columns of the base file (C40_false: a log block with the columns in another order loses its record), log blocks must be of the supported types (C34_false)."
  },
  {
   "property": "C41",
   "status": "proved",
   "theorems": [
    "Hudi.C41_precedence"
   ],
   "note": "Keys are compared exactly as given: a storage option given in upper case does not suppress the environment variable of that name (example in Props/OpenDemo)."
  },
  {
   "property": "C42",
   "status": "proved",
   "theorems": [
    "Hudi.C42_properties_text",
    "Hudi.C42_properties_file"
   ],
   "note": ""
  },
  {
   "property": "C43",
   "status": "proved",
   "theorems": [
    "Hudi.C43_split",
    "Hudi.C43_nothing_lost"
   ],
   "note": ""
  },
  {
   "property": "C44",
   "status": "proved",
   "theorems": [
    "Hudi.C44_given",
    "Hudi.C44_default",
    "Hudi.C44_opening"
   ],
   "note": ""
  },
  {
   "property": "C45",
   "status": "proved",
   "theorems": [
    "Hudi.C45_only_supported_tables_open",
    "Hudi.C45_supported_tables_open"
   ],
   "note": "Both directions: only supported tables open, and every supported table with well-formed options does. Rejection is a panic, not an error value."
  },
  {
   "property": "C46",
   "status": "partial",
   "theorems": [
    "Hudi.C46_no_matching_row_lost_partial",
    "Hudi.C46_only_comparisons_filter",
    "Hudi.C46_never_exact",
    "Hudi.C46_handed_exactly",
    "Hudi.C46_false"
   ],
   "note": "Proved for every list of predicates whose inequalities have the column on the left, every partition path and row: a partition holding a row that satisfies all predicates is not pruned; what does not translate imposes nothing; the engine is never told that a filter is exact. C46_false: `literal < column` is translated without turning the operator round. C46_handed_exactly: the conditions handed to the table are exactly the translations of the translatable predicates."
  },
  {
   "property": "C47",
   "status": "partial",
   "theorems": [
    "Hudi.C47_false",
    "Hudi.C47_each_base_file_once_partial"
   ],
   "note": "Proved for names without percent-encoded characters: each base file once, under its storage name, in at most the asked number of groups. C47_false: with a space in a partition name the scan's path is encoded twice and names no file."
  },
  {
   "property": "C48",
   "status": "partial",
   "theorems": [
    "Hudi.C48_names_order_nullability_partial",
    "Hudi.C48_schema_converted_partial",
    "Hudi.C48_false"
   ],
   "note": "C48_schema_converted_partial: every record schema made of types with an Arrow counterpart is converted field by field at every depth. C48_names_order_nullability_partial: whenever a conversion succeeds, names and order are kept and top-level nullability is right. C48_false: a field of type null is not nullable, a nested union of null with two other types is not nullable, local timestamps panic."
  },
  {
   "property": "C49",
   "status": "partial",
   "theorems": [
    "Hudi.C49_answered_exactly",
    "Hudi.C49_healthy_table_answers_partial",
    "Hudi.C49_healthy_latest_partial",
    "Hudi.C49_copy_on_write_reads",
    "Hudi.C49_snapshot_reads_partial",
    "Hudi.C49_no_writes_no_answer",
    "Hudi.C49_false"
   ],
   "note": "C49_answered_exactly gives the exact conditions under which a query has an answer. C49_false: after a partition deletion (a replacecommit that writes no file) every query on the healthy table fails, because the schema is taken from the first file written by the latest instant; C49_no_writes_no_answer shows this for every such table. The partial theorems cover healthy tables whose latest instant wrote a file."
  },
  {
   "property": "C50",
   "status": "partial",
   "theorems": [
    "Hudi.C50_slices_as_of_partial",
    "Hudi.C50_copy_on_write",
    "Hudi.C50_latest_slices",
    "Hudi.C50_answered_partial",
    "Hudi.C50_false"
   ],
   "note": "The model of a table is Spec/History.lean: a list of commits that write base files, append to log files or replace file groups, and a fold over it. Exact for the latest snapshot (C50_latest_slices), and as of any time when no later commit appends to log files (C50_copy_on_write). C50_false: as of an earlier time a slice also has the log files appended to later, because their names do not say when they were written; C50_slices_as_of_partial says exactly which."
  },
  {
   "property": "C51",
   "status": "partial",
   "theorems": [
    "Hudi.C51_false",
    "Hudi.C51_incremental_rows_partial",
    "Hudi.C51_open_end"
   ],
   "note": "Partial for the reasons of C33 and C40. C51_false: a start without milliseconds returns the row committed at the start, because commit times are compared as text."
  },
  {
   "property": "C52",
   "status": "proved",
   "theorems": [
    "Hudi.C52_accessors"
   ],
   "note": ""
  },
  {
   "property": "C53",
   "status": "partial",
   "theorems": [
    "Hudi.C53_false",
    "Hudi.C53_engine_reads_what_the_reader_returns_partial"
   ],
   "note": "Proved for slices without log files, and for all slices of a table read in read-optimized mode. C53_false: of a merge-on-read table the scan reads base files only."
  },
  {
   "property": "C54",
   "status": "partial",
   "theorems": [
    "Hudi.C54_files_are_looked_up_under_their_names_partial",
    "Hudi.C54_false"
   ],
   "note": "Proved for names without ASCII control characters (C54_files_are_looked_up_under_their_names_partial). C54_false: a tab in a name is dropped on the way to the URL, so reading looks up, and returns, the file whose name lacks the tab; other control characters make the look-up an error. The url and object_store crates are modelled (Model/DataFusion.lean)."
  },
  {
   "property": "C55",
   "status": "proved",
   "theorems": [
    "Hudi.C55_command_options_win"
   ],
   "note": ""
  },
  {
   "property": "C56",
   "status": "proved",
   "theorems": [
    "Hudi.C56_avro_values_decode",
    "Hudi.C56_references_refused"
   ],
   "note": "The decoder of apache_avro 0.17 is modelled, including what it does at the end of a stream; arrays and maps may be split into blocks in any way, with or without block sizes. References to named types (recursive schemas) are refused by panicking before anything is decoded (C56_references_refused: wherever they occur in the schema). Not in the model: the text of UUIDs and the inside of big decimals."
  },
  {
   "property": "C57",
   "status": "partial",
   "theorems": [
    "Hudi.C57_avro_rows_are_the_records_partial",
    "Hudi.C57_batch_holds_the_values_partial",
    "Hudi.C57_false"
   ],
   "note": "Proved for the schemas described by FaithfulRecord (records, optional values and lists nested to any depth, without the combinations listed there). C57_false shows three of the excluded combinations going wrong: an optional list of booleans is read as all false, an optional list of optional records is shifted after a missing list, an optional list of records panics on a missing list."
  },
  {
   "property": "C58",
   "status": "partial",
   "theorems": [
    "Hudi.C58_slices_between_partial",
    "Hudi.C58_first_writes_show_up",
    "Hudi.C58_no_commits",
    "Hudi.C58_false"
   ],
   "note": "Slices are described by the writes the commits in the range recorded. C58_slices_between_partial excludes commits with several write stats for one file group (C58_false: the log files of the second are missing). C58_first_writes_show_up covers all commits: exactly the first write of each commit to each file group counts."
  },
  {
   "property": "C59",
   "status": "partial",
   "theorems": [
    "Hudi.C59_records_and_pending",
    "Hudi.C59_records_as_of_partial",
    "Hudi.C59_latest_and_pending",
    "Hudi.C59_latest_records_partial",
    "Hudi.C59_false"
   ],
   "note": "Record-level refinement of whole-table reads to commit histories (Spec/Records.lean): exact for time travel even though the slices are not (C50_false). C59_records_and_pending and C59_latest_and_pending say exactly what is read whatever the log files hold: the records of the completed commits, and those in log blocks of writes that neither completed nor were rolled back by T. C59_records_as_of_partial, C59_latest_records_partial: the claim, when there are no such blocks; C59_false: the records of a write still in flight are returned once a later commit completes. One schema for all files here, any columns in C80; base files with one row per key; tables that merge by latest version."
  },
  {
   "property": "C60",
   "status": "partial",
   "theorems": [
    "Hudi.C60_changed_slices",
    "Hudi.C60_changes_and_pending",
    "Hudi.C60_changed_records_partial",
    "Hudi.C60_false",
    "Hudi.C60_slices_to_latest",
    "Hudi.C60_records_to_latest_partial",
    "Hudi.C60_to_latest_and_pending"
   ],
   "note": "Refinement of incremental reads to commit histories (Spec/Changes.lean). C60_changed_slices: the slices, for every history. C60_changes_and_pending: exactly the records read, whatever the log files hold: those committed in the span, and those in log blocks dated in the span of writes that neither completed nor were rolled back in the span. C60_changed_records_partial: the claim, when there are no such blocks; C60_false: the records of a write still in flight are returned. C60_slices_to_latest, C60_to_latest_and_pending and C60_records_to_latest_partial: without an end, up to the last commit. File groups have a base file; timestamps of one width; one schema (any columns: C80); tables with meta fields that merge by latest version."
  },
  {
   "property": "C61",
   "status": "proved",
   "theorems": [
    "Hudi.C61_timestamp_denotes_its_time",
    "Hudi.C61_local_time",
    "Hudi.C61_no_such_time_is_refused",
    "Hudi.C61_instant_time"
   ],
   "note": "Dates are counted day by day (Spec/Calendar.lean), with no arithmetic on years; the digits are read by place value. Second 60 is accepted (a leap second). The lenient spellings that chrono also accepts (spaces, signs) are covered by C03 and C09 only as far as crashes and range answers go."
  },
  {
   "property": "C62",
   "status": "partial",
   "theorems": [
    "Hudi.C62_read_back",
    "Hudi.C62_read_back_between",
    "Hudi.C62_sizes_partial",
    "Hudi.C62_false"
   ],
   "note": "Paths and reading: every slice query after any earlier queries, every later store and reader (C62_read_back, C62_read_back_between). Sizes: snapshot queries, when no partition has disappeared where an earlier query had found a base file up to the time asked for. C62_false: slices changed between two times are described with size 0 and no records."
  },
  {
   "property": "C63",
   "status": "partial",
   "theorems": [
    "Hudi.C63_same_answers",
    "Hudi.C63_cache_left_behind",
    "Hudi.C63_no_endless_run",
    "Hudi.C63_all_return_partial",
    "Hudi.C63_false"
   ],
   "note": "Every schedule, any number of queries, on a store that does not change meanwhile: answers (C63_same_answers), cache (C63_cache_left_behind), no endless run (C63_no_endless_run), and no deadlock when every query has its own thread (C63_all_return_partial). C63_false: the lock of a cache shard is held while waiting for the storage, so two queries that share a thread (futures joined in one task, a single-threaded runtime) can deadlock."
  },
  {
   "property": "C64",
   "status": "partial",
   "theorems": [
    "Hudi.C64_avro_schema",
    "Hudi.C64_schema_partial",
    "Hudi.C64_provider_schema",
    "Hudi.C64_partition_schema",
    "Hudi.C64_batches_have_base_columns",
    "Hudi.C64_rows_have_the_schema_partial",
    "Hudi.C64_false",
    "Hudi.C64_embedded_false"
   ],
   "note": "Exact conditions for all three schemas, without crashes (C64_avro_schema, C64_schema_partial, C64_partition_schema); batches have the columns of their slice's base file (C64_batches_have_base_columns), hence the reported ones when all files have the same columns and the Arrow schema embedded in them adds nothing (C64_rows_have_the_schema_partial). C64_false: after a delta commit that adds a column, the reported schema is the old one and reading drops the values of the new column. C64_embedded_false: the reported types come from the parquet types alone, while rows have the types of the embedded Arrow schema."
  },
  {
   "property": "C65",
   "status": "partial",
   "theorems": [
    "Hudi.C65_isolated_partial",
    "Hudi.C65_latest_isolated_partial",
    "Hudi.C65_nobody_writes",
    "Hudi.C65_false"
   ],
   "note": "Every request of the read is answered by a store of its own (Model/Racing.lean). C65_isolated_partial, C65_latest_isolated_partial: the rows are those of an undisturbed read, when all that writers add is later than the time read (new base files, partitions, log files, blocks appended to log files), cleaners remove only files that the snapshot does not show, and the read returns (see C67). Tables that merge by latest version, append-only tables and reads limited to base files alike. C65_nobody_writes ties the model to that of the other properties. C65_false: a commit still in flight that was requested before the latest completed one shows, and shows in part."
  },
  {
   "property": "C66",
   "status": "partial",
   "theorems": [
    "Hudi.C66_documented_fields_false",
    "Hudi.C66_avro_records_as_of_partial",
    "Hudi.C66_avro_records_latest_partial",
    "Hudi.C66_avro_changes_partial",
    "Hudi.C66_false",
    "Hudi.C66_avro_changes_to_latest_partial"
   ],
   "note": "From the bytes of log files to the rows of the table, with Avro decoded as in the model of C56 and C57: C66_avro_records_as_of_partial, C66_avro_records_latest_partial, C66_avro_changes_partial. All record schemas that are read faithfully (C57) and have Arrow columns (C48). Missing: other schemas (C57_false), what C59 and C60 lack, and records with the table's columns in another order (C66_false: they are read with their values in the wrong columns, the record key included), and schemas in which a field inside a record is documented while the base files' columns carry no documentation (C66_documented_fields_false: the documentation becomes part of the Arrow type and the read reports an error). C66_avro_changes_to_latest_partial: changes without an end."
  },
  {
   "property": "C67",
   "status": "partial",
   "theorems": [
    "Hudi.C67_read_returns_partial",
    "Hudi.C67_latest_read_returns_partial",
    "Hudi.C67_false"
   ],
   "note": "On the model of C65. C67_read_returns_partial, C67_latest_read_returns_partial: the read returns, with the rows of an undisturbed read, whenever all that writers add is later than the time read, blocks are appended whole, directories are listable whenever they are listed, and files of the snapshot that have been listed are still there when they are read (cleaners may remove all others); of log files nothing is asked when the read is limited to base files. C67_false: while a block is being appended the read fails, although the block is later than the time read."
  },
  {
   "property": "C68",
   "status": "partial",
   "theorems": [
    "Hudi.C68_changes_isolated_partial",
    "Hudi.C68_nobody_writes",
    "Hudi.C68_false"
   ],
   "note": "On the model of C65, extended to read_incremental_records. C68_changes_isolated_partial: exactly the same batches, for any table and range, when the metadata of the handle's instants and the base files of the slices that have changed stay as they were and whole blocks appended to log files are later than the end of the range; nothing is asked of any other file. C68_nobody_writes ties the model to that of C51 and C60. C68_false: the block of a delta commit still in flight that was requested before the end of the range shows."
  },
  {
   "property": "C69",
   "status": "proved",
   "theorems": [
    "Hudi.C69_filters_select_partitions",
    "Hudi.C69_latest",
    "Hudi.C69_other_filters_are_refused"
   ],
   "note": "C69_filters_select_partitions (as of a time) and C69_latest: for every table and every list of filters on partition columns, the filtered read returns, and returns (up to order) the batches of the unfiltered read in the partitions kept. C69_other_filters_are_refused: the rest is refused."
  },
  {
   "property": "C70",
   "status": "partial",
   "theorems": [
    "Hudi.C70_query_returns_the_matching_rows_partial",
    "Hudi.C70_answered_exactly",
    "Hudi.C70_false",
    "Hudi.C70_false_other_columns",
    "Hudi.C70_false_column_order"
   ],
   "note": "C70_query_returns_the_matching_rows_partial: the files that the scan tells the engine to read hold the same rows satisfying the query, with the same multiplicities, as the snapshot. C70_answered_exactly says which queries are answered. C70_false: a literal on the left of an inequality loses rows. C70_false_column_order: so do partition columns that are not in the order of the partition fields. C70_false_other_columns: a predicate on a column that is no partition column makes the query fail. The engine's own evaluation of the predicates is the specification's eval."
  },
  {
   "property": "C71",
   "status": "partial",
   "theorems": [
    "Hudi.C71_opens_exactly",
    "Hudi.C71_opened_table_reads_partial",
    "Hudi.C71_opened_table_as_of_partial",
    "Hudi.C71_false",
    "Hudi.C71_opened_changes_to_latest",
    "Hudi.C71_opened_table_and_pending",
    "Hudi.C71_opened_changes",
    "Hudi.C71_opened_every_record"
   ],
   "note": "From the base path to the rows, with hypotheses on the storage and the sources of options only: C71_opens_exactly says exactly when a table opens and with which options; C71_opened_table_reads_partial and C71_opened_table_as_of_partial compose it with C59; C71_opened_table_and_pending and C71_opened_changes say exactly what snapshots and incremental reads return, writes in flight included; C71_opened_every_record: tables that keep every record (C76). C71_false: what C59_false shows, in a table opened by its path. C71_opened_changes_to_latest: changes without an end."
  },
  {
   "property": "C72",
   "status": "partial",
   "theorems": [
    "Hudi.C72_failures_are_reported",
    "Hudi.C72_answers_are_right",
    "Hudi.C72_failed_calls_leave_no_trace_partial",
    "Hudi.C72_opening_partial",
    "Hudi.C72_false",
    "Hudi.C72_false_provider_schema"
   ],
   "note": "On a model (Model/Faults) in which every request of a call may fail. C72_failures_are_reported and C72_answers_are_right hold in full, for all calls on a handle and all sets of failing requests. C72_failed_calls_leave_no_trace_partial: after any calls with any failures a handle answers as a fresh one, if no partition was removed from the storage in between where an earlier call had found a base file up to the time asked for (C26_false). C72_opening_partial: opening a table, unless the request for an existing global configuration file fails. C72_false: if that request fails, the table opens without the configuration and reads return other rows. C72_false_provider_schema: the DataFusion provider reports no columns."
  },
  {
   "property": "C73",
   "status": "partial",
   "theorems": [
    "Hudi.C73_readers",
    "Hudi.C73_as_of_partial",
    "Hudi.C73_latest_partial",
    "Hudi.C73_changes_partial",
    "Hudi.C73_opened",
    "Hudi.C73_false"
   ],
   "note": "C73_as_of_partial, C73_latest_partial, C73_changes_partial: the same batches, in the same order, and the read of the table succeeds exactly if planning and every piece do, for every reader that is given the table's options and the query's time (or range). C73_readers: such readers exist, by both constructors, and all agree. C73_opened: the hypotheses hold of every table opened by its base path. C73_false: a reader that the table creates without the time shows rollbacks after it, and one made from the base path alone does not know the table's properties and returns several versions of a record."
  },
  {
   "property": "C74",
   "status": "partial",
   "theorems": [
    "Hudi.C74_opening_partial",
    "Hudi.C74_any_order_partial",
    "Hudi.C74_python_partial",
    "Hudi.C74_answers",
    "Hudi.C74_false"
   ],
   "note": "C74_opening_partial: calls that give each option the same value last open handles with the same options and instants, or fail with the same error. C74_any_order_partial: for a map of options, in any order of its entries. C74_python_partial: the Python builder, in any order of its dictionaries, opens what the Rust builder opens. C74_answers: handles with the same options and instants answer every call alike, in full. Missing: the storage library is assumed to read its options by their names; C74_false: it has two names for some options, and when both are given with different values, the order of the entries decides."
  },
  {
   "property": "C75",
   "status": "proved",
   "theorems": [
    "Hudi.C75_base_files_as_of",
    "Hudi.C75_latest_base_files",
    "Hudi.C75_changed_base_files"
   ],
   "note": "C75_base_files_as_of, C75_latest_base_files (with filters on partitions) and C75_changed_base_files, each in full: the query succeeds and returns these rows, whatever the log files hold."
  },
  {
   "property": "C76",
   "status": "partial",
   "theorems": [
    "Hudi.C76_every_record_and_pending",
    "Hudi.C76_every_record_as_of_partial",
    "Hudi.C76_latest_and_pending",
    "Hudi.C76_every_record_partial",
    "Hudi.C76_every_change_and_pending",
    "Hudi.C76_every_change_partial",
    "Hudi.C76_false",
    "Hudi.C76_to_latest_and_pending"
   ],
   "note": "C76_every_record_and_pending, C76_latest_and_pending and C76_every_change_and_pending: the read succeeds and returns exactly these records and those of pending log blocks (of writes that neither completed nor were rolled back), counted with their multiplicity, up to order within a file group. C76_every_record_as_of_partial, C76_every_record_partial (latest) and C76_every_change_partial: the claim, when there are no pending blocks; C76_false: the records of a delta commit still in flight are returned. C76_to_latest_and_pending: changes without an end, up to the last commit."
  },
  {
   "property": "C77",
   "status": "partial",
   "theorems": [
    "Hudi.C77_crashes_partial",
    "Hudi.C77_flat_records",
    "Hudi.C77_false_nanoseconds",
    "Hudi.C77_false",
    "Hudi.C77_false_log_time",
    "Hudi.C77_false_columns"
   ],
   "note": "C77_crashes_partial: for every opened table, storage, call, cache and set of failing requests, a call crashes only for a time too short to be a timestamp (given, in the options, or in a block of a log file that is read), for options that do not say how partition paths are written, or for records in log files that the decoder crashes on or that have fewer columns than the base file. Missing: those cases, which do crash (C77_false: missing options; C77_false_log_time; C77_false_columns; C09_false: short times), and a listing parallelism of zero, with which listing never ends. C77_flat_records: with the Avro decoder of the code, no bytes make it crash on records without nested fields; C77_false_nanoseconds: a field with a timestamp in nanoseconds does. Outside the model: precombine columns of a type that the row format refuses, and allocations of absurd lengths read from damaged log files."
  },
  {
   "property": "C78",
   "status": "proved",
   "theorems": [
    "Hudi.C78_metadata_text"
   ],
   "note": ""
  },
  {
   "property": "C79",
   "status": "partial",
   "theorems": [
    "Hudi.C79_file_slices_partial",
    "Hudi.C79_latest_slices_partial",
    "Hudi.C79_rows_as_of_partial",
    "Hudi.C79_latest_rows_partial",
    "Hudi.C79_cleaned_records_partial",
    "Hudi.C79_changes_partial",
    "Hudi.C79_false",
    "Hudi.C79_false_replaced",
    "Hudi.C79_false_changes"
   ],
   "note": "For cleaning that takes log files away together with their base file and archiving that follows it (Spec/Tidied.lean): C79_file_slices_partial, C79_latest_slices_partial, C79_rows_as_of_partial and C79_latest_rows_partial: same slices and rows from the retained time on, whatever the files hold; C79_cleaned_records_partial: the records of the history (C59) read from the cleaned storage; C79_changes_partial: incremental reads, when the instants in the range stay and their slices too. C79_false: with a superseded base file gone and its log file still there every snapshot read of the table fails; C79_false_replaced: when a replacement is archived before the replaced files are removed their rows come back; C79_false_changes: incremental reads over archived instants silently miss changes."
  },
  {
   "property": "C80",
   "status": "partial",
   "theorems": [
    "Hudi.C80_records_as_of_partial",
    "Hudi.C80_latest_records_partial",
    "Hudi.C80_changes_partial",
    "Hudi.C80_every_record_as_of_partial",
    "Hudi.C80_every_change_partial",
    "Hudi.C80_false",
    "Hudi.C80_changes_to_latest_partial",
    "Hudi.C80_every_change_to_latest_partial"
   ],
   "note": "C59, C60 and C76 with columns that differ between base files (Spec/Evolving.lean), writes in flight included: C80_records_as_of_partial, C80_latest_records_partial, C80_changes_partial, and for append-only tables C80_every_record_as_of_partial and C80_every_change_partial. Missing: records appended with other columns than those of the base file; C80_false: the value of a record in a column that its base file does not have is dropped. C80_changes_to_latest_partial and C80_every_change_to_latest_partial: changes without an end, up to the last commit."
  },
  {
   "property": "C81",
   "status": "partial",
   "theorems": [
    "Hudi.C81_slices_as_of",
    "Hudi.C81_records_and_unsettled",
    "Hudi.C81_completed_records_partial",
    "Hudi.C81_false"
   ],
   "note": "C81_slices_as_of: with any base files and completed instants dated later than the time read, and any log files, beside those of completed commits, the file slices as of that time are those of the completed commits, with all log files against their base files, whoever wrote them. C81_records_and_unsettled: the read succeeds and returns exactly the records of the completed commits and those of unsettled blocks (of writes that by that time neither completed nor were rolled back). C81_completed_records_partial: the claim, when there are no unsettled blocks. Missing: base files of unfinished writes dated before the time read (C27_false shows that they are read). C81_false: the records of a write that failed are returned as of times before its rollback, also after the rollback."
  },
  {
   "property": "C82",
   "status": "proved",
   "theorems": [
    "Hudi.C82_reads_as_of",
    "Hudi.C82_reads_latest",
    "Hudi.C82_write_in_progress_unseen",
    "Hudi.C82_opened_as_of",
    "Hudi.C82_opened_latest"
   ],
   "note": "A transition system of writers on an object store (Spec/Writer.lean: writes, completion, failure at any point, repeated rollbacks, files that readers ignore) in which every reachable state, and every later one, is shown to be read exactly: C82_reads_as_of (any completed commit), C82_reads_latest, C82_write_in_progress_unseen (while a write is at work or being rolled back the table reads as before it). The protocol of the writers is a specification (Hudi's writers are not in this repository): requests are atomic, writes under way at the same time are on different file groups, complete in the order of their timestamps after earlier failed ones have been rolled back, and are rolled back, if they appended to log files, while no later one is under way (readers go by timestamps: C27_false, C37_false and C88_false show what they see otherwise); no cleaning (C79 and C90 have that). Each read is against one state of the storage; reads during which the writers go on are C83. C82_opened_as_of and C82_opened_latest: the same from the path of the table, whatever the writers have done so far (Spec/WriterOpened.lean: the properties file is in place and its options are supported)."
  },
  {
   "property": "C83",
   "status": "proved",
   "theorems": [
    "Hudi.C83_reads_as_of",
    "Hudi.C83_reads_latest",
    "Hudi.C83_opened_as_of",
    "Hudi.C83_opened_latest"
   ],
   "note": "C83_reads_as_of and C83_reads_latest: the writers of C82 and the reads of C65 and C67 (Model/Racing.lean: every request answered by a storage of its own) together. Nothing is assumed of the storage but that it is what writers following the protocol of Spec/Writer.lean leave, at any moment, and that files are read after the directory that lists them. The recursion bound of the model's directory walk must exceed the depth of partitions. C83_opened_as_of and C83_opened_latest: the same from the path."
  },
  {
   "property": "C84",
   "status": "partial",
   "theorems": [
    "Hudi.C84_changes_and_failed",
    "Hudi.C84_changes_partial",
    "Hudi.C84_latest_changes_partial",
    "Hudi.C84_changes_later_partial",
    "Hudi.C84_false",
    "Hudi.C84_opened_and_failed",
    "Hudi.C84_opened_changes_partial"
   ],
   "note": "C84_changes_and_failed: exactly what is read, wherever rollbacks leave their blocks. C84_changes_partial, C84_latest_changes_partial and C84_changes_later_partial: the writers of C82, whose commit documents list the files they write and whose records carry their commit time (AllDocumented), and the incremental reads of C60 and C68 together. Missing: rollbacks that leave their block in another log file than that of the failed write; C84_false shows that a read of changes then returns records of the failed write, because it opens only the log files that commits of the span name. C84_opened_and_failed and C84_opened_changes_partial: the same from the path."
  },
  {
   "property": "C85",
   "status": "proved",
   "theorems": [
    "Hudi.C85_kept_like_fresh",
    "Hudi.C85_kept_as_of",
    "Hudi.C85_kept_or_error",
    "Hudi.C85_kept_latest",
    "Hudi.C85_opened_and_kept"
   ],
   "note": "The writers of C82 and the calls with failing requests of C72 together. C85_kept_like_fresh: every call about a commit known to the handle, or about no time, answers as through a fresh handle; C85_kept_as_of, C85_kept_latest: the records read; C85_kept_or_error: with failing requests in the read itself; C85_opened_and_kept: from the path. Each call sees the storage of one moment (C83 is about reads whose requests are answered at different moments, through a fresh handle)."
  },
  {
   "property": "C86",
   "status": "proved",
   "theorems": [
    "Hudi.C86_failures_are_reported",
    "Hudi.C86_as_of",
    "Hudi.C86_latest",
    "Hudi.C86_changes_and_failed",
    "Hudi.C86_opened",
    "Hudi.C86_nobody_writes"
   ],
   "note": "C72, C83, C84 and C85 together, over one model in which every request of every call may fail and is otherwise answered by a storage of its own (Model/RacingFaults.lean). C86_failures_are_reported: every call, any storages, any cache; C86_as_of, C86_latest, C86_changes_and_failed: the records read, or an error; C86_opened: from the path; C86_nobody_writes: with one storage for all requests the calls are those of C72. Reads of changes return, as in C84, also pending blocks of failed writes that are rolled back in another log file; that is part of the statement."
  },
  {
   "property": "C87",
   "status": "proved",
   "theorems": [
    "Hudi.C87_as_of",
    "Hudi.C87_latest",
    "Hudi.C87_no_endless_run",
    "Hudi.C87_all_return",
    "Hudi.C87_opened"
   ],
   "note": "C63 and C86 together: the steps of C63's queries, with the storage that answers each request taken from a run of the writers of C82, and failing requests (Model/RacingConcurrent.lean, Spec/RacingConcurrent.lean). C87_as_of and C87_latest: what a query has returned; C87_opened: the same from the path of the table; C87_no_endless_run: only finitely many steps of queries, whatever the storage holds at each; C87_all_return: some query can take a step as long as one has not returned, if no two share a thread (with shared threads they can block each other for ever: C63_false). Earlier calls on the handle are queries of the same run."
  },
  {
   "property": "C88",
   "status": "partial",
   "theorems": [
    "Hudi.C88_nothing_missed_partial",
    "Hudi.C88_nothing_twice_partial",
    "Hudi.C88_visits_succeed_partial",
    "Hudi.C88_false"
   ],
   "note": "A consumer over the writers of C82 and the reads of C84 (Spec/Tail.lean: Follows). C88_nothing_missed_partial: each visit received what the history, as it is at any later moment, has for its span; each completed write falls in exactly one visit; later ones in later visits. C88_nothing_twice_partial: no commit's rows in two visits. C88_visits_succeed_partial: every visit succeeds. Missing: writers that complete in another order than that of their timestamps, for which it is false (C88_false: the write that completes late is in no answer), and rollbacks as in C84_false."
  },
  {
   "property": "C89",
   "status": "partial",
   "theorems": [
    "Hudi.C89_copy_partial",
    "Hudi.C89_same_rows_partial",
    "Hudi.C89_false"
   ],
   "note": "C83 and C84 together (Spec/Mirror.lean: Mirrors). C89_copy_partial: after each visit the copy is the latest version of each record of a read of the whole table then; C89_same_rows_partial: it has exactly the rows of that read, if no record is in two file groups. Required of writers: they delete no records, new versions carry the commit time of their write, all files have the same columns, and versions of a record do not tie. Missing: deletes, which incremental reads do not report (C89_false), and what is missing in C88."
  },
  {
   "property": "C90",
   "status": "partial",
   "theorems": [
    "Hudi.C90_reads_as_of_partial",
    "Hudi.C90_reads_latest_partial",
    "Hudi.C90_false"
   ],
   "note": "The writers of C82 with a cleaner (Spec/Cleaner.lean: CleanStep), and the reads of C83. C90_reads_as_of_partial, C90_reads_latest_partial: reads as of commits from the cleaner's horizon on, with every request answered at a moment of its own. Required: the cleaner deletes log files of a version before its base file, and the latest write names a current base file in its document. C90_false: if the base file goes first, nothing of the table can be read; and a handle older than the horizon misses the rows of the file group without an error."
  },
  {
   "property": "C91",
   "status": "partial",
   "theorems": [
    "Hudi.C91_as_of_partial",
    "Hudi.C91_latest_partial",
    "Hudi.C91_false",
    "Hudi.C91_opened_partial"
   ],
   "note": "C86 with the cleaner of C90. C91_as_of_partial, C91_latest_partial: a handle kept through any calls (Spec/CleanerKept.lean: KeptCleaned), with what it has cached deleted since, whole partitions included; requests fail or are answered at any moments. Required as for C90. C91_false: once the cleaner goes beyond what the handle knows, the same read through the same handle loses the rows of a file group without an error. C91_opened_partial: the same, from the path of the table."
  },
  {
   "property": "C92",
   "status": "partial",
   "theorems": [
    "Hudi.C92_changes_and_failed",
    "Hudi.C92_changes_partial",
    "Hudi.C92_latest_changes_partial",
    "Hudi.C92_false",
    "Hudi.C92_changes_or_error_partial",
    "Hudi.C92_opened_partial"
   ],
   "note": "C84 with the cleaner of C90. C92_changes_and_failed: exactly what a read of changes returns, for any start and any end from the cleaner's horizon on, with every request answered at a moment of its own; C92_changes_partial, C92_latest_changes_partial: it is what completed writes have written, if rollbacks leave their blocks where those of the failed write are. No order of deletions is required. Missing: spans that end before the horizon, and handles older than it: the read fails (C92_false). C92_changes_or_error_partial: the same with requests that fail; C92_opened_partial: from the path of the table."
  },
  {
   "property": "C93",
   "status": "partial",
   "theorems": [
    "Hudi.C93_nothing_missed_partial",
    "Hudi.C93_nothing_twice_partial",
    "Hudi.C93_visits_succeed_partial",
    "Hudi.C93_false"
   ],
   "note": "C88 with the cleaner of C90, whose horizon moves on (Spec/CleanerTail.lean: FollowsCleaned). C93_nothing_missed_partial, C93_nothing_twice_partial, C93_visits_succeed_partial. Missing: as in C88, and a cleaner that goes, during a visit, beyond the latest commit at its beginning: C93_false, the visit fails."
  },
  {
   "property": "C94",
   "status": "partial",
   "theorems": [
    "Hudi.C94_copy_partial",
    "Hudi.C94_latest_partial",
    "Hudi.C94_same_rows_partial",
    "Hudi.C94_false"
   ],
   "note": "C89 with the cleaner of C90, whose horizon moves on (Spec/CleanerTail.lean: MirrorsCleaned). C94_latest_partial: the copy has exactly the latest version of each record of the table; C94_copy_partial, C94_same_rows_partial: it is what a read of the whole table then returns. Missing: as in C89, C90 and C93. C94_false: a record deleted, and its file cleaned away, stays in the copy."
  },
  {
   "property": "C95",
   "status": "proved",
   "theorems": [
    "Hudi.C95_file_slices",
    "Hudi.C95_file_slices_as_of",
    "Hudi.C95_splits",
    "Hudi.C95_splits_as_of",
    "Hudi.C95_snapshot",
    "Hudi.C95_snapshot_as_of",
    "Hudi.C95_changed_slices",
    "Hudi.C95_changes",
    "Hudi.C95_inserted"
   ],
   "note": "The functions of the table again, with every iteration over a hash map or set, and the completion of partition listings, in an arbitrary order (Model/Orders.lean); C95_inserted: with the order of insertion they are the functions all other properties are about. C95_file_slices(_as_of), C95_splits(_as_of), C95_snapshot(_as_of), C95_changed_slices, C95_changes. Which of several errors is returned, and which split a slice falls in, may depend on the order."
  },
  {
   "property": "C96",
   "status": "partial",
   "theorems": [
    "Hudi.C96_again_partial",
    "Hudi.C96_false"
   ],
   "note": "TableBuilder.afterBuild is what build(&mut self) leaves in the builder. C96_again_partial: after any earlier attempts, failed ones included, if the environment variables are the same, the properties file still has the options it had (with any values) and the global configuration still gives what it gave. Missing: options given to the builder after an attempt, and options removed from the properties file; C96_false shows both: the later with_option is ignored, the removed option stays."
  },
  {
   "property": "C97",
   "status": "partial",
   "theorems": [
    "Hudi.C97_file_slices_partial",
    "Hudi.C97_file_slices_as_of_partial",
    "Hudi.C97_splits_partial",
    "Hudi.C97_splits_as_of_partial",
    "Hudi.C97_snapshot_partial",
    "Hudi.C97_snapshot_as_of_partial",
    "Hudi.C97_changed_slices",
    "Hudi.C97_changes",
    "Hudi.C97_schemas",
    "Hudi.C97_opened_partial",
    "Hudi.C97_false"
   ],
   "note": "Spec/Relisted.lean: Relisted, the same tree with the entries of every directory in another order. C97_file_slices(_as_of)_partial, C97_splits(_as_of)_partial, C97_snapshot(_as_of)_partial, C97_changed_slices, C97_changes, C97_schemas, C97_opened_partial, each for arbitrary orders of hash maps as in C95. Missing: directories with two log files whose names differ only in the extension, and timelines with two actions completed at the same time; C97_false: then the log file listed first is read and the other is not, and the action listed last gives the schema."
  },
  {
   "property": "C98",
   "status": "partial",
   "theorems": [
    "Hudi.C98_planned_scan_partial",
    "Hudi.C98_planned_query_partial",
    "Hudi.C98_planned_scan_cleaned_partial",
    "Hudi.C98_planned_query_cleaned_partial",
    "Hudi.C98_planned_scan_archived_partial",
    "Hudi.C98_planned_query_archived_partial",
    "Hudi.C98_false",
    "Hudi.C98_opened_partial"
   ],
   "note": "Over the writer machine of C82 and the cleaner of C90. C98_planned_scan_partial: the files of the plan, opened at any later moments, are the base files of the table at the time the handle was opened, once each, with the sizes told; C98_planned_query_partial: the rows that satisfy all predicates. C98_planned_scan_cleaned_partial and C98_planned_query_cleaned_partial: the same when the cleaner also works before the handle is opened and before the plan is made (the latest commit naming a current file first, as in C90). C98_planned_scan_archived_partial and C98_planned_query_archived_partial: the same beside the archiver of C102, which may delete timeline files before the handle is opened, before the plan is made and while it is executed; C98_opened_partial: from the path of the table. Missing: a cleaner whose horizon has passed the handle's latest commit (C98_false), log files (C53_false), percent-encoded names (C47_false), predicates as in C70."
  },
  {
   "property": "C99",
   "status": "partial",
   "theorems": [
    "Hudi.C99_same_rows",
    "Hudi.C99_same_rows_cleaned_partial",
    "Hudi.C99_no_changes_partial",
    "Hudi.C99_no_changes_cleaned_partial",
    "Hudi.C99_same_rows_archived_partial",
    "Hudi.C99_no_changes_archived_partial",
    "Hudi.C99_opened_partial",
    "Hudi.C99_false"
   ],
   "note": "Over the writer machine of C82. Spec/Service.lean: Rewrites, a write whose new base files hold exactly the latest versions of the records of the file groups it rewrites or replaces. C99_same_rows: reads through handles opened before and after any number of such writes, each request answered at a moment of its own, return the same rows with the same columns; C99_same_rows_cleaned_partial: also while the cleaner of C90 works; C99_same_rows_archived_partial: and the archiver of C102; C99_opened_partial: tables opened by their paths. C99_no_changes_partial, C99_no_changes_cleaned_partial and C99_no_changes_archived_partial: a read of the changes returns no rows (rollbacks and documents as in C84). Missing: versions that tie, where the service and the reader may choose differently, and writers that append to log files of a compaction that is still pending: C99_false, the table cannot be read until its base file is there."
  },
  {
   "property": "C100",
   "status": "partial",
   "theorems": [
    "Hudi.C100_opened_partial",
    "Hudi.C100_one_after_the_other_partial",
    "Hudi.C100_as_of_partial",
    "Hudi.C100_latest_partial",
    "Hudi.C100_changes_partial",
    "Hudi.C100_cleaned_one_after_the_other_partial",
    "Hudi.C100_cleaned_as_of_partial",
    "Hudi.C100_cleaned_latest_partial",
    "Hudi.C100_cleaned_changes_partial",
    "Hudi.C100_archived_one_after_the_other_partial",
    "Hudi.C100_archived_as_of_partial",
    "Hudi.C100_archived_latest_partial",
    "Hudi.C100_archived_changes_partial",
    "Hudi.C100_archived_opened_partial",
    "Hudi.C100_false"
   ],
   "note": "Over the writer machine of C82, in which several writes are under way at a time. Spec/Serial.lean: oneByOne, the table on which one writer has made the writes one after the other, each request once and in order. C100_one_after_the_other_partial: that table can be made by the machine itself, from the completed writes of any reachable state; C100_as_of_partial, C100_latest_partial and C100_changes_partial: reads of both tables return the same rows with the same columns (of versions of a record none tie). C100_cleaned_*: the same when a cleaner (C90) works beside the writers; the other table is never cleaned; C100_opened_partial: both tables opened by their paths; C100_archived_*: the same when an archiver (C102) works as well, also opened by their paths. Missing: writes that complete in another order than that of their timestamps, and writes that appended and are rolled back while later ones are under way; for both C100_false shows that readers get rows of a write that has not completed, in the second case for good; for changes also the rollbacks of C84_false."
  },
  {
   "property": "C101",
   "status": "partial",
   "theorems": [
    "Hudi.C101_as_of_partial",
    "Hudi.C101_latest_partial",
    "Hudi.C101_racing_as_of_partial",
    "Hudi.C101_racing_latest_partial",
    "Hudi.C101_cleaned_as_of_partial",
    "Hudi.C101_cleaned_latest_partial",
    "Hudi.C101_archived_as_of_partial",
    "Hudi.C101_archived_latest_partial",
    "Hudi.C101_archived_changes_partial",
    "Hudi.C101_archived_latest_changes_partial",
    "Hudi.C101_archived_kept_as_of_partial",
    "Hudi.C101_archived_kept_latest_partial",
    "Hudi.C101_archived_changes_or_error_partial",
    "Hudi.C101_archived_opened_partial",
    "Hudi.C101_archived_opened_changes_partial",
    "Hudi.C101_changes_partial",
    "Hudi.C101_latest_changes_partial",
    "Hudi.C101_cleaned_changes_partial",
    "Hudi.C101_false",
    "Hudi.C101_kept_as_of_partial",
    "Hudi.C101_kept_latest_partial",
    "Hudi.C101_changes_or_error_partial",
    "Hudi.C101_opened_partial",
    "Hudi.C101_opened_changes_partial"
   ],
   "note": "Over the writer machine of C82, for a table whose options keep every record (AppendingReader). Spec/Counted.lean: ReadsAll compares the rows of each file group with the records written to it as bags; Counts says that the blocks a write wants to append hold each row as often as it is to be appended. C101_as_of_partial and C101_latest_partial: reads at any later moment; C101_racing_as_of_partial and C101_racing_latest_partial: reads whose requests are answered at moments of their own; C101_changes_partial and C101_latest_changes_partial: reads of what changed, likewise, when rollbacks leave their blocks where those of the failed write are; C101_cleaned_as_of_partial, C101_cleaned_latest_partial and C101_cleaned_changes_partial: the same while a cleaner deletes superseded versions, from the time on up to which it works; C101_kept_as_of_partial, C101_kept_latest_partial and C101_changes_or_error_partial: handles that are kept and used for any calls, when requests fail; C101_opened_partial and C101_opened_changes_partial: the same for tables opened by their path. Missing: writers that repeat a request to append which had been carried out, before the handle is opened (C101_false: the row is then read twice; the reader does not recognise a block that was appended twice). Repetitions after the handle was opened are covered. C101_archived_as_of_partial, C101_archived_latest_partial, C101_archived_changes_partial and C101_archived_latest_changes_partial: the same beside the cleaner and the archiver of C102, which may have archived commits before the handle is opened. The C101_archived_kept_*, C101_archived_opened_* and C101_archived_changes_or_error theorems: kept handles, tables opened by their path and failing requests beside the archiver."
  },
  {
   "property": "C102",
   "status": "partial",
   "theorems": [
    "Hudi.C102_reads_as_of_partial",
    "Hudi.C102_reads_latest_partial",
    "Hudi.C102_changes_and_failed",
    "Hudi.C102_changes_partial",
    "Hudi.C102_latest_changes_partial",
    "Hudi.C102_false_changes",
    "Hudi.C102_false",
    "Hudi.C102_kept_as_of_partial",
    "Hudi.C102_kept_latest_partial",
    "Hudi.C102_opened_partial",
    "Hudi.C102_opened_and_kept_partial",
    "Hudi.C102_changes_or_error_partial",
    "Hudi.C102_opened_changes_partial"
   ],
   "note": "Spec/Archiver.lean extends the machine of writers and a cleaner of C90 by an archiver that deletes timeline files of completed commits before a time q, other than replacecommits; the cleaner's time r is another. C102_reads_as_of_partial and C102_reads_latest_partial: handles opened at any moment, reads whose requests are answered at moments of their own; C102_changes_and_failed, C102_changes_partial and C102_latest_changes_partial: reads of what changed since a time from q on, likewise; C102_changes_or_error_partial: the same when requests fail; C102_kept_as_of_partial and C102_kept_latest_partial: handles that are kept and used for any calls, when requests fail; C102_opened_partial, C102_opened_and_kept_partial and C102_opened_changes_partial: tables opened by their path. Missing: reads as of times before r, changes since times before q (C102_false_changes: the changes of archived commits are left out without an error), cleaners that delete in another order, and archivers that delete replacecommits (C102_false: a handle opened before then fails, and one opened after shows the records of the replaced file group a second time)."
  },
  {
   "property": "C103",
   "status": "partial",
   "theorems": [
    "Hudi.C103_nothing_missed_partial",
    "Hudi.C103_nothing_twice_partial",
    "Hudi.C103_visits_succeed_partial",
    "Hudi.C103_copy_partial",
    "Hudi.C103_latest_partial",
    "Hudi.C103_false",
    "Hudi.C103_by_path_nothing_missed_partial",
    "Hudi.C103_by_path_nothing_twice_partial",
    "Hudi.C103_by_path_visits_partial",
    "Hudi.C103_by_path_latest_partial",
    "Hudi.C103_by_path_copy_partial"
   ],
   "note": "Spec/ArchiverTail.lean: consumers as in C93 and C94 beside the archiver of C102, whose time moves on but stays no later than the consumer's last visit. C103_nothing_missed_partial, C103_nothing_twice_partial, C103_visits_succeed_partial: following changes; C103_copy_partial and C103_latest_partial: a copy kept up to date from them. C103_by_path_nothing_missed_partial, C103_by_path_nothing_twice_partial, C103_by_path_visits_partial, C103_by_path_latest_partial and C103_by_path_copy_partial (Spec/ConsumerVisits.lean): the same for consumers that open the table by its path at each visit, of whose requests any may fail, and who come again when a visit fails. Missing: an archiver that goes beyond the last visit (C103_false: the visit succeeds without what archived commits had changed), and what is missing in C93, C94 and C102."
  }
 ]
}