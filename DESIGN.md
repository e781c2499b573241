# A Lean 4 model of apache/hudi-rs (read path) and proofs about it

## 1. Layout

| Directory | Contents |
|---|---|
| `lean/Verif/Base/` | strings as lists of characters, the result type with an explicit `panic`, ordered-map and ordered-set containers |
| `lean/Verif/Model/` | the model, one file per source module; every definition cites the file and lines it models |
| `lean/Verif/Spec/` | small specifications, independent of the model's helpers |
| `lean/Verif/Lemmas/` | helper lemmas |
| `lean/Verif/Props/` | the property theorems, one file per group of properties, each with a non-vacuity `example` |

## 2. Modelling conventions

* A Rust `String`/`&str` is `Str := List Char`. Byte lengths and byte slices are computed from the
  UTF-8 size of each character, so a slice at a non-boundary is a panic as in Rust. Rust compares
  strings bytewise; for UTF-8 this is the lexicographic order of the code points, which is the
  order used on `List Char`.
* `Result` becomes `Res`: `ok`, `err kind` or `panic`. A panic in the code (slice out of range,
  `unwrap`, `expect`, `todo!`) is the value `panic` and propagates.
* A function taking `&mut` returns the new value. `async` is dropped where the code only awaits
  storage calls in sequence; concurrency is modelled where the code introduces it (the shared
  partition cache, `buffer_unordered`) by quantifying over orders/histories.
* `BTreeMap`/`BTreeSet` are sorted lists with the same insert/lookup behaviour, including the fact
  that equality is decided by the *ordering*. `HashMap`/`HashSet`/`DashMap` are lists without
  duplicate keys; their iteration order is unspecified, so theorems about them are stated up to
  permutation or membership.
* External crates are modelled by the contract this code uses: chrono's `%Y%m%d%H%M%S` parser,
  serde_json values, the object store (directory listing and file reads), parquet files (a table of
  rows), the local time zone (an arbitrary partial function). The Avro decoder (`apache_avro` 0.17) and
  the Arrow arrays that are built from Avro values (`arrow` 54.1) are modelled in full.

## 3. Per property: what is modelled and how it is proved

| Id | Model | Proof plan |
|---|---|---|
| C01 | `Instant` name printer and parser, timestamp parser | round trip: split lemmas on the separator, timestamps contain no `.` |
| C02 | same | counterexamples (`ts.commit.`, `ts.commit.inflight`) show it false in general; partial: true for every name with canonical suffix |
| C03 | `try_create_instant`, `load_instants` | counterexample `abc.commit` panics; partial: no panic iff characterised |
| C04 | chrono parse to days/seconds/millis | same-width timestamps: lexicographic = numeric = chronological via monotone calendar arithmetic; mixed widths: counterexample |
| C05 C06 | `load_instants` over an arbitrary listing | permutation + sortedness of the sort; uniqueness of sorted permutations for distinct times |
| C07 C08 | `partition_point` as the binary search of the standard library, `select` | filter characterisation; append law |
| C09 | `InstantRange.is_in_range` | case analysis against an interval spec |
| C10 C11 | latest timestamp, clustering filter | from sortedness; induction over instants |
| C12 C13 | base/log file name parsers and printers | split/join lemmas; counterexample for extra `_` parts |
| C14 C15 | `LogFile` order, `BTreeSet` insertion | sortedness and permutation-invariance of ordered-set insertion; counterexample `10 < 2` |
| C16 C17 C18 | `FileGroup`, `FileSlice` operations | invariants by induction over an op list; algebraic laws by extensionality of lookups |
| C19 C20 | `build_file_groups` over JSON values | induction over stats; counterexample with two stats for one group |
| C21 C22 | replaced groups / groups between | fold over selected instants, set characterisation |
| C23 | `list_file_groups_for_partition` | grouping invariants, permutation invariance |
| C24 | directory tree, `get_leaf_dirs` | structural induction over trees |
| C25 C26 C27 | `FileSystemView` with its cache as state; `Table` queries | state machine over query/storage-change histories; counterexamples for stale cache and uncommitted files |
| C28 | the same, and reads of rows as of a time | the same slices up to later log files; the same rows up to order, because later blocks are out of range; counterexample after a partition deletion |
| C29 C30 C31 | pruner, percent decoding, filters, typed values | decision logic; round trip with an encoder spec; counterexamples |
| C32 | `chunks` | induction |
| C33 | commit-time mask | filter characterisation |
| C34 C35 | byte-level log file reader | encode/decode round trip; every proper prefix |
| C36 C37 | scanner | filter characterisation over all block lists |
| C38 C39 C40 | record merger, slice reader | sort + first occurrence; permutation invariance |
| C41 C42 C43 C44 C45 | option maps, properties parser, typed look-ups, validation | decision logic, fold/last-wins lemmas |
| C46 C47 | DataFusion expression translation and scan | counterexample for literal-on-the-left; partial for column-on-the-left |
| C48 | Avro schema conversion | structural induction |
| C49 | every step of a query (`Model/Table.lean`) | exact conditions for an answer, both directions (`C49_answered_exactly`); healthy tables whose latest commit wrote a file meet them; counterexample: a partition deletion |
| C50 | commit histories (`Spec/History.lean`): commits that write base files, append to log files and replace file groups; `Stores` relates a history to the files on storage | refinement: the snapshot of C25 equals the fold over the history, by induction on histories; false for time travel before a delta commit (`C50_false`) |
| C51 | `read_incremental_records` | composition of C22, C33, C36, C38 |
| C52 | `TableBuilder.build` and the accessors | from the validation theorems |
| C53 | DataFusion scan and `read_snapshot` | composition of C25, C40, C47, also for read-optimized reads; counterexample with log files |
| C54 | object-store paths and URLs | encode/decode round trip on path segments; counterexample with a tab in a name |
| C55 | option maps of the table factory | last-wins lemmas |
| C56 | the Avro decoder of `apache_avro`; references are refused by the schema conversion | induction over the schema, against an encoding relation |
| C57 | the Arrow array builders for Avro values | mutual induction over the schema, with a look-up invariant for field paths |
| C58 | `Table::get_file_slices_between` over `Timeline::get_file_groups_between` (C22) | the slices are the latest of the groups of C22, by the order of slices in a group |
| C59 | `Table::read_snapshot`, `read_snapshot_as_of` over everything below them, against histories with rows (`Spec/Records.lean`) | listing succeeds and shows the table (C50), each slice's base file and surviving blocks are shown to hold the records of the history (C40, C36, C37), times by C04; what is read while writes are in flight, exactly (`PendingRow`); counterexample |
| C60 | `Table::get_file_slices_between`, `read_incremental_records` over everything below them, against histories with rows and with the metadata documents of every commit (`Spec/Changes.lean`) | the writes recorded by the documents of the span are those of the history, so C58 gives the slices; each slice's filtered base file and surviving blocks are shown to hold the versions committed in the span (C51, C36, C37), times by C04; what is read while writes are in flight, exactly (`PendingChange`); without an end, up to the last commit (`Props/ChangesLatest`, `Props/OpenedLatest`; C66, C76 and C80 so too, `Props/MoreLatest`); counterexample |
| C61 | `Instant::parse_datetime` with chrono's `%Y%m%d%H%M%S`, `Instant::try_from_file_name_and_timezone` | `Spec/Calendar.lean` counts days one at a time from 1970-01-01; the day numbers of the parser satisfy the same recurrence (induction on the count, both directions), and the fields of a digit string are read by place value |
| C62 | python/src/internal.rs: `HudiFileSlice`, `HudiFileGroupReader::read_file_slice`; the core's parsers of file names | Every file in a file group came from a name the parsers accept (invariant of listing, of the cache under any sequence of queries, and of commit metadata), so printing its parts and parsing them again gives the same file (C12, C13); the rebuilt slice differs from the original in metadata that reading does not look at |
| C63 | `Model/Concurrent.lean`: `FileSystemView` queries as tasks that take one step at a time between awaits, the `DashMap` as shards with locks, threads that block on a lock but not on an await | invariant over all interleavings (what a query has collected is what it would collect alone from the listing it made, whatever the others did to the cache); termination by a rank on tasks; absence of deadlock from the order in which shards are locked; counterexample with a shared thread |
| C64 | `Timeline::get_latest_avro_schema`, `get_latest_schema`, `Table::get_partition_schema`; the columns of batches through `read_file_slice` and `merge_record_batches` | case analysis of the look-ups against the metadata document; the schema of a batch followed through filtering, concatenation and merging; counterexample with a column added by a delta commit |
| C65 | the whole path of `read_snapshot` and `read_snapshot_as_of` with a store of its own for every request (`Model/Racing.lean`) | the listing of the partitions, of each partition and of the metadata compared with those of the undisturbed table; the files of a slice, read at different moments, gathered into one store, so that the argument of C28 applies; counterexample with a commit in flight |
| C66 | the composition of `Log`, `Avro`, `AvroArrow`, `Reader`, `Merge` and `Table` | C59 and C60 at the codec of C57; values of an Avro type are values of the Arrow type that C48 gives it, so that batches of blocks fit the columns of the base files; counterexample with the columns in another order |
| C67 | the same path as C65 | discovery of partitions ends because directories are not nested deeper than a bound; each request succeeds at its own store; then the argument of C65; counterexample with a block of which twenty bytes are there |
| C68 | `read_incremental_records` with a store of its own for every request (`Model/Racing.lean`) | the file slices are those of the undisturbed read because the metadata is; each log file is scanned from its own store, and what was appended is out of range; counterexample with the block of a commit in flight |
| C69 | `read_snapshot`, `read_snapshot_as_of` with filters | what is listed with a pruner is the unfiltered listing restricted to the partitions it includes, and so are the slices and the batches; C29 says which partitions these are |
| C70 | DataFusion scan with predicates, and `read_snapshot` | composition of C69, C46, C47, C53: a file in a skipped partition has no row that satisfies the predicates; counterexamples |
| C71 | `TableBuilder::build` and then `read_snapshot`, `read_snapshot_as_of`, `read_incremental_records` | options of all sources resolved (C41), validated (C44, C45), timeline loaded (C03, C05), then C59, C60 or C76; hypotheses on storage and sources only |
| C72 | all calls on a handle and opening a table, with the requests they make numbered and each of them failing or not (`Model/Faults`) | each computation relates to the one without failures (same if no request fails, error if one does), compositionally; an invariant on the cache for sequences of calls |
| C73 | the constructors of `FileGroupReader`, `create_file_group_reader_with_options`, and reading by a slice's description (`Model/Distributed`) | the options of a reader, by either constructor, have the same values as those of the table's own read, and reading depends on values only; the slices a handle returns read back by their description (C62) |
| C74 | `TableBuilder`, `Table::new_with_options`, the Python builder and `build_hudi_table` (`Model/TableBuilder`, `Model/PythonBuilder`) | a relation between maps with the same values is kept by every step of opening a table; every call on a handle reads options by their names |
| C75 | the readers of base files and `FileGroupReader::read_file_slice` in read-optimized mode (`Model/Reader`, `Model/Table`) | the slices of a listable table (C50, C60) name the base files that the history's last writes wrote; reading a slice is reading its base file |
| C76 | `RecordMerger::merge_record_batches` without merging, log scanning and the reads of tables (`Model/Merge`, `Model/Scan`, `Model/Reader`, `Model/Table`) | the surviving blocks of a slice, sorted by the commit that wrote them, are the blocks of the commits of the range; the rest are the pending ones; both sides are permutations of each other |
| C77 | every call on a table with any subset of its requests failing (`Model/Faults`), the log reader and scanner (`Model/Log`), the merger (`Model/Merge`); a panic is an outcome of its own | case analysis through the whole call, using C72 for failing requests; the reader of log files by induction, with what was read recovered from the bytes |
| C78 | `Timeline::get_instant_metadata_in_json` (`Model/Log`, which has the bytes of files), UTF-8 (`Base/Utf8`) | the instants given out are of files with the names their paths have (C02, C05); UTF-8 is decoded to what encodes to the same bytes |
| C79 | `Spec.Tidied` relates the storage and timeline before and after cleaning and archiving; the file-system view of both trees is compared group by group (`tidied_internal`), then reads slice by slice; incremental reads through equal instant ranges | partial; `C79_false` (half-done cleaning), `C79_false_replaced` (early archiving), `C79_false_changes` (archived range) |
| C80 | histories in which every base file has its own columns (`Spec.StoresEvolving`, `Spec.AppendsEvolving`); the proofs of C59, C60 and C76 done once for these (`evolving_as_of`, `evolving_changes`, `evolving_every_as_of`, `evolving_every_change`), the one-schema theorems being instances | partial; `C80_false`: a column only in the log records |
| C81 | storage described only as far as a read as of a time goes (`Spec/Remains.lean`): later base files and instants, log files and blocks of any writes | the slices from C25 and C49 (`shows_upTo`), the surviving blocks of a slice against the history (`slice_rows_upTo`), the rest as for C80; counterexample |
| C82 | writers as a transition system on an object store (`Spec/Writer.lean`): several writes at a time on different file groups, requests in any order, a stop after any of them, rollbacks, completion | invariant over all runs (`Lemmas/Writer.lean`: each stored object is of a completed write, of one that is under way or of a rolled back one), from it the hypotheses of C81 for the state when the handle was opened and the one when it reads; from the path (`C82_opened_*`, likewise C83 and C84): C71's opening, and the runs of writers depend on the options only through their values |
| C83 | the reads of C65 with their requests answered at different moments of a run of the writers of C82 (`Spec/RacingWriter.lean`) | log files only grow, by blocks later than the completed writes (induction over the run); the objects that may go are left out of the state at opening, which keeps the invariant of C82; from that the hypotheses of C67, composed with C82 |
| C84 | the incremental reads of C60 and C68 with their requests answered at different moments of a run of the writers of C82 (`Spec/WriterChanges.lean`: documents of commits, commit times of records) | invariants over the run: where the files that commits name are, and that rollbacks are later than what they roll back; from them the hypotheses of C60 for the state at opening without what may go, and those of C68 for every later one |
| C85 | handles with their cache, after any calls with any failing requests (C72) at moments of a run of the writers of C82 (`Spec/Kept.lean`) | what is cached comes from base files listed at earlier moments (an invariant over calls); a base file up to a commit known to the handle is that of a completed write, so its partition stays; other cached slices are later and not picked |
| C86 | calls on a handle with its cache, where every request fails or is answered by a storage of its own (`Model/RacingFaults.lean`), at moments of a run of the writers of C82 | each call is an error if a request fails and otherwise the call of C83/C84 through the same cache; cached slices come from base files listed at earlier moments where a partition can be, so that those not listed again are later than the commit asked for and are not picked |
| C87 | the steps of C63 with the storage of each request taken from a run of the writers of C82, and failing requests (`Model/RacingConcurrent.lean`) | an invariant of the run: what is cached of a partition is one listing made at some moment of the run, with metadata loaded that is the same at all moments for slices up to the commit; a shard's lock is held by one query, so all groups of a partition that a query looks at come from one listing; so what it has picked is what one read of C83 picks whose listings were answered at those moments; ranks as in C63 for termination |
| C88 | a consumer that visits the table repeatedly, over the writers of C82 and the reads of C84 (`Spec/Tail.lean`) | induction on the visits: the position is always the latest commit completed at the last visit, so spans follow each other without gap; writes complete in the order of their timestamps, so none falls into a span already read; the history up to a time is not changed by later commits; a counterexample with two writers that complete in the other order |
| C89 | a consumer that reads the table once and then only changes, keeping the latest version of each record (`Spec/Mirror.lean`) | induction on the visits, with the records of C83 and C84: what is new in the table since the last visit is in a file group that commits of the span changed and is dated in the span; merging latest versions of parts is the latest version of all, as the order of versions is transitive; a counterexample with a delete |
| C90 | a cleaner beside the writers of C82 (`Spec/Cleaner.lean`), and the reads of C83 | simulation: what writers and cleaner do, writers alone could have done, but for files of superseded versions, which writers never touch again; what is left can be listed as log files go before base files; the base files that a snapshot shows are not superseded, so C67 applies; counterexamples with a base file deleted first, and with a handle older than the cleaner's horizon |
| C91 | C90 with a kept handle: calls made before have filled its cache, requests fail | invariant: every cached slice is of a base file of its file group that was there at some moment since; a cached partition that is gone holds only file groups that were replaced, or no slice up to the time asked for, so that what is collected is what a fresh handle collects (C90); counterexample with a handle older than the cleaner's horizon |
| C92 | C84 with the cleaner of C90, for any start and any end from the cleaner's horizon on | the slices of a span are of versions that were current at its end, hence not superseded by the horizon; all other files may go (C68, relaxed to the files of these slices); counterexamples with an end before the horizon and with an older handle |
| C93 | C88 with the cleaner of C90, with a horizon that moves on between visits | the induction of C88, with C92 for each visit; the cleaner of an earlier horizon is one of a later horizon; counterexample with a cleaner that overtakes a visit |
| C94 | C89 with the cleaner of C90, with a horizon that moves on between visits | the induction of C89, with C90 for the first read and C92 for each visit; counterexample with a deleted record |
| C95 | the functions of listing, cache, timeline and table with every iteration over a hash map, and the completion of partition listings, in an arbitrary order (`Model/Orders.lean`) | a relation between the outcomes of two runs (same file groups per partition, up to order), shown to be kept by every function; folds over sets commute because equality of groups is by id |
| C96 | what `TableBuilder::build` leaves in the builder (`TableBuilder.afterBuild`) | an invariant of the attempts relating each option of the used builder to that of a new one; counterexamples |
| C97 | the stored tree with the entries of every directory in any other order (`Relisted`) | induction on the reordering: contents of files, subdirectories and partitions stay; then C23, C06 and C95; counterexamples |
| C98 | the scan of the query engine over the writer machine and the cleaner; files of the plan opened at arbitrary later moments | slices as in C81 at the moment of planning, C47, C62 for sizes; base files of current versions are not touched (C82, C90); beside an archiver by the timelines that reads cannot tell apart (C102); counterexample |
| C99 | writes of the writer machine that only rewrite: compaction and clustering | what a read returns (C83) determines a bag of rows with their partitions and columns; each rewriting write keeps it; changes by C84; with a cleaner C90 and C92, with an archiver C102; counterexample for pending compactions |
| C100 | the writer machine with several writes at a time, and one writer that makes the completed writes one after the other (`Spec/Serial.lean`) | the invariant of C82 makes every completed write admissible after the earlier ones, so the table of one writer is a run of the same machine; C83 and C84 (C90 and C92 with a cleaner, C102 with an archiver) determine what both reads return up to the order; counterexample for completions out of order and for late rollbacks |
| C101 | the writer machine of C82 with options that keep every record; writers that make each request to append once (`WorksOnce` in `Spec/Counted.lean`) | an invariant of the machine: of the blocks of a write, each log file holds exactly those it has requested; reads by C81's slices and C76's count of surviving blocks; racing reads by C67, reads of changes by C76's and C68, reads beside a cleaner by C90's and C92's reduction to writers alone, beside an archiver by C102's, kept handles and tables opened by their path by C91's and C71; counterexample for a repeated request |
| C102 | the writers and cleaner of C90 and an archiver that deletes timeline files of completed commits before a time of its own, other than replacecommits (`Spec/Archiver.lean`) | a state of this machine is one of writers alone with files taken away; C67 for a handle whose timeline lacks everything that may be archived, and a proof that reads cannot tell its timeline from the handle's own or the whole one; changes likewise by C68; kept handles as in C91; from the path by C71; counterexamples for an archived replacecommit and for changes since an archived commit |
| C103 | the consumers of C93 and C94 beside the archiver of C102, whose time is no later than the consumer's last visit (`Spec/ArchiverTail.lean`) | each visit by C102; the bookkeeping over visits is that of C88 and C89; counterexample for an archiver that goes beyond the last visit; consumers that open the table by its path at each visit, and whose visits fail, by C86 and C102 |

Nothing in the list is outside the reach of an executable model; where a runtime (object store
failures, floating point comparison) matters, the property is marked partial. Thread scheduling is
modelled for the one place where queries share state (C63).

## 4. What is modelled, file by file

"All" means every function that is not a test, a constructor that only stores its arguments, a
`Display`/`Debug` implementation or a one-line accessor.

| Source file | Model | Modelled | Not modelled |
|---|---|---|---|
| core/src/timeline/instant.rs | `Time`, `Instant` | all; chrono's `%Y%m%d%H%M%S%.3f` parser and date arithmetic | years beyond chrono's range |
| core/src/timeline/selector.rs | `Selector` | all, `partition_point` as the binary search of `core::slice` | |
| core/src/timeline/mod.rs | `Timeline` | all | |
| core/src/file_group/{base_file,file_slice,mod,builder}.rs | `Files`, `Builder` | all | `Hash` |
| core/src/file_group/log_file/mod.rs | `Files` | all | |
| core/src/file_group/log_file/{reader,log_block,log_format,content,avro,scanner}.rs | `Log` | all that a read uses | names of block types as text (unused by reads); allocation of absurd lengths |
| core/src/file_group/reader.rs | `Reader`, `Distributed` | all | |
| core/src/table/{mod,fs_view,listing,partition}.rs | `Table`, `FsView`, `Listing`, `Partition`, `Concurrent`, `RacingConcurrent` (interleaved queries on the shared cache), `Racing` (reads during writes), `Faults` (failing requests), `Orders` (orders of hash maps) | all; `buffer_unordered` by quantifying over orders | `register_storage` (registers an object store with DataFusion) |
| core/src/table/builder.rs | `TableBuilder` | all; environment variables, files and storages are the `World` | environment variables that are not Unicode (a panic) |
| core/src/config/*.rs | `Config` | all | parsing of the base path as a URL beyond what C54 needs |
| core/src/expr/*.rs, util/arrow.rs, datafusion/src/util/expr.rs | `Expr`, `Data`, `DataFusion` | all | arrow's comparison and cast of types other than booleans, integers and strings (parameters `Arrow.cmpOther`, `Arrow.castOther`) |
| core/src/merge/*.rs | `Merge` | all; the row format by the order it defines | types the row format refuses, `u32` row counts overflowing |
| core/src/avro_to_arrow/*.rs | `AvroArrow` | schema conversion with the documentation of fields inside records, arrays of every type the conversion produces | metadata of top-level fields (documentation, aliases: nothing compares or shows it), dictionary arrays (maps: always an error) |
| apache_avro 0.17 decoder | `Avro` | all types | text of UUIDs, inside of big decimals |
| core/src/storage/*.rs | `Store`, `Listing`, `DataFusion` (URLs and object paths) | path joining, encoding, listing, reads | partial failures of one request (`Faults` lets each request fail as a whole) |
| datafusion/src/lib.rs | `DataFusion` | scan, schema, filters, factory options | DataFusion's own planning and execution |
| python/src/internal.rs | `Python` | the description of file slices and the reader that takes one; `build_hudi_table` (`PythonBuilder`) | the remaining wrappers, which call the functions above and convert results |
| python/hudi/table/builder.py | `PythonBuilder` | all | |

Parameters of the model, about which nothing is assumed unless a theorem names the hypothesis:

* `Env`: the machine's time zone and the sorting procedure. The order in which a directory is listed is
  that of the `Tree`, over which theorems quantify; hash maps are gone through in the order of insertion,
  which C95 shows to be without effect beyond the order of results (`HashOrder`).
* `LocalTz`: the machine's time zone, a partial function from local to universal times.
* `Arrow`: comparison, cast and display of the values the model does not know.
* `MergeEnv`: the order in which a hash map gives up the rows kept by the record merger.
* `Codec`: how the content of a log block turns into record batches. `Formats.codec` is the instance
  with the modelled Avro decoder, in which only parquet is left open; the theorems about log files
  hold for every codec.

Where a theorem needs something of these it is a hypothesis in its statement. External crates are
described from knowledge of the versions named in `Cargo.toml` (`apache-avro` 0.17, `arrow` 54.1,
`datafusion` 45, `chrono` 0.4, `object_store`, `url` 2), not from their source, which is not in the
sandbox.

## 5. Where the code does not do what the property says

For each of these a theorem `Cnn_false` exhibits a concrete table, file or call.

* C02: `ts.commit.` is read as the instant of the file `ts.commit`.
* C03: `abc.commit` in the timeline directory panics; so does a short timestamp given to any query (C09).
* C04: a timestamp without milliseconds and one with them order differently as text and as time.
* C12: a base file name with more than three parts is accepted and names another file.
* C14: log versions are compared as text: version 10 before version 2.
* C19, C22, C58: of several write stats for one file group in one commit only the first is used.
* C23: log files of a file group without a base file are silently left out.
* C26: a partition that was removed is still answered from the cache, if it held base files up to the time asked for.
  Partitions that writers add and roll back are not a problem (C85).
* C27: a base file of a write that never completed is returned once a later instant completes.
* C28, C49: after a partition deletion, or any commit that writes no file, every query fails.
* C30: partition values with `/` cannot be read back when url-encoded; plain paths are matched in
  column order instead of the order of the partition fields.
* C33, C51: a start without milliseconds returns the rows committed in that second.
* C34: delete, hfile and cdc blocks make the whole log file unreadable. The content of a command
  block is not skipped, and bytes that remain after the records of an Avro block are not skipped.
* C35: an Avro block cut inside its last string is returned with a null.
* C37: a rollback block outside the range of the read is ignored.
* C38, C40: batches are concatenated by column position, not by name.
* C46: `literal < column` is pushed down as `column < literal`.
* C47: a path with an encoded character is encoded twice by the DataFusion scan.
* C48: fields of type null, and nested unions with more than one type, are not nullable; local
  timestamps and references panic.
* C50: the file slices as of a time have the log files that were written later.
* C53: the DataFusion scan of a merge-on-read table reads base files only.
* C57: optional lists of booleans read as all false; a missing list shifts the later ones, or panics;
  lists of lists of records lose their fields.
* C59, C60: the records of a delta commit in flight are returned once a later commit completes,
  because reads do not check that a log block's instant completed.
* C62: file slices changed between two times are described with size 0 and no records.
* C63: `collect_file_slices_as_of` keeps the write lock of a cache shard (the guard of `iter_mut`)
  while it awaits the storage. Queries that share a thread deadlock when another one then inserts
  into that shard: the insertion blocks the thread that would have to resume the first query.
* C54: `Url::join` of the segments drops tabs and line feeds, so a file whose name contains one is
  looked up under the name without it; if there is such a file, its content is returned. Other control
  characters in a name are an error (`C54_false`).
* C64: when the latest commit only appended to log files, `get_schema` reports the columns of a base
  file. If the commit added a column, the reported schema lacks it, and reading silently drops the
  values of that column (`concat_batches` with the base file's schema takes columns by position).
* C64, again: `get_schema` converts the parquet types of a base file without the Arrow schema that its
  writer embedded, reading uses that schema. A column written as large strings is reported as strings
  and read as large strings (`C64_embedded_false`).
* C65: base files of a commit in flight that was requested before the latest completed commit are
  seen (C27), and a read that lists some partitions before and some after they appear sees a part of
  that commit, which the table held at no moment.
* C66: Avro records in log files whose schema has the table's columns in another order are read with
  their values in the wrong columns when types agree; with the record key among them, an update becomes
  a new record and the old version stays.  (Writers that evolve a schema by name may produce such
  blocks.)
  The documentation of a field inside a record (a column comment) becomes metadata of the Arrow field and
  thereby part of the column's type. Base files have no such metadata, so that merging log records with such
  a schema fails (`C66_documented_fields_false`). Top-level documentation has no effect.
* C67: while a block is being appended to a log file, reads of that file fail, also reads as of an earlier
  time, for which the block is of no consequence (blocks outside the range are decoded, and then dropped).
* C68: a block appended by a delta commit in flight that was requested before the end of the range is part of
  an incremental read, which may so return a different answer each time it is repeated.
* C70: a query loses rows because of C46 or of the order of partition columns (C30). A query with a
  predicate on a column that is no partition column fails: the table asks for every comparison with a
  literal on any of its columns, and then refuses filters on columns that are no partition columns.
* C71: what is true of C59 only in part is true of an opened table only in part. A properties file that
  holds `hoodie.base.path` sends the timeline and the listing to another place than the one opened.
* C72: two failures are swallowed. If the request for the global configuration file fails, for whatever reason,
  the table opens as if there were no such file (`imbue_global_hudi_configs_if_absent`), so that a passing failure of
  the storage changes what all later reads through the handle return (`C72_false`). The DataFusion provider's
  `schema` replaces any error by a schema without columns (`C72_false_provider_schema`). Everything else is reported.
* C73: `create_file_group_reader_with_options()` without options and `FileGroupReader` from a base URI (README, "Create
  a Hudi file group reader instance") do not read a slice as the table does. The first is not limited to the time of the
  query, so that blocks and rollbacks of later commits apply to slices as of an earlier time; the second does not load
  `hoodie.properties`, so that it appends log records instead of merging them (`C73_false`).
* C74: `Storage::new` hands the storage options to `object_store`'s `parse_url_opts` in the order in which a hash map
  yields them. That library accepts several names for one option (`access_key_id` and `aws_access_key_id`) and the
  last one wins. When both are given with different values, for instance one by the caller and one by the
  environment variable `AWS_ACCESS_KEY_ID`, which of them is used differs between runs (`C74_false`, for a storage
  that reads its options this way; the library itself is not in /repo).
* C76: as C59 and C60: a block of a delta commit that is still in flight is read as soon as a later commit to the
  same log file completes (`C76_false`), also without merging.
* C77: a table whose `hoodie.properties` lacks `hoodie.datasource.write.hive_style_partitioning` or
  `hoodie.datasource.write.partitionpath.urlencode` opens (neither option is required), but every lookup of its files
  and every snapshot panics: the options have no default (config/table.rs:153-168) and `PartitionPruner::new` asks for
  them with `get_or_default` (table/partition.rs:72-80), for unpartitioned tables too. A log block with an instant time
  shorter than 14 bytes panics (as C03, C09), and so do log records with fewer columns than the base file.
  A log block with a field of Avro's `timestamp-nanos` crashes the reader (`unreachable!()` in
  arrow_array_reader.rs:966, `C77_false_nanoseconds`), although the schema conversion accepts the type. Outside the
  model: `RowConverter::new(..).unwrap()` (util/arrow.rs:60) panics if the precombine column has a type that the row
  format refuses, and a damaged log file may ask for an allocation of absurd length.
* C79: cleaning is not atomic for this reader. A log file whose base file has already been removed makes
  every snapshot query of the whole table fail (`C79_false`): `add_log_file` demands a file slice for it. When a
  replacecommit is archived before the files it replaced are removed, their rows are returned again
  (`C79_false_replaced`), since only the active timeline is read. Incremental reads over a range whose instants
  were archived return fewer changes without any error (`C79_false_changes`).
* C80: a delta commit that adds a column loses its values for readers until the file group is compacted
  (`C80_false`): the merged batch always has the columns of the base file, and the columns of the log records
  are matched with those by position.
* C81: a rollback hides the blocks of a failed write only from reads as of its own time or later; a read as of a
  commit that completed between the failed write and its rollback returns the failed write's records for ever.
* C84: an incremental read opens only the log files named by the commits of its span. When the rollback of a failed
  write leaves its block in a new log file (the writer may roll over to the next log version), the read does not see the
  rollback and returns the records of the failed write, for good; a snapshot read lists all log files and does see it
  (`C84_false`).
* C88: the span of an incremental read is chosen by the timestamps with which writes began, not by when they completed.
  When two writers work at the same time and the one with the later timestamp completes first, a consumer that reads
  "since the latest commit" on each visit never receives what the other one wrote (`C88_false`); an as-of read up to
  the same commit also changes afterwards.
* C89: a delete that rewrites a base file without the record leaves no trace in incremental reads: a copy kept up to date
  from them keeps the record (`C89_false`).
* C90: a base file that is deleted before the log files written against it makes every listing of its partition fail, so that
  no snapshot of the table can be read until the log files are gone, although those versions are superseded. And a handle
  opened before a file group got the base file that the cleaner keeps finds no version of the group up to its latest commit:
  it reads the table without the group's rows, and reports no error.
* C91: a handle that is kept is not safer: a read that returned the rows of a file group before returns, through the same
  handle and without an error, none of them once the cleaner has deleted the version it had read (`C91_false`).
* C92: changes up to a commit before the cleaner's horizon, or read through a handle that does not know the commit that has
  superseded them, are not lost silently: the read fails (`C92_false`), unlike that of a snapshot (C90).
* C93: a cleaner that goes, while a consumer reads changes, beyond the latest commit when it opened the table, makes the
  visit fail, even if it keeps what the latest commit needs (`C93_false`).
* C94: as in C89, a deleted record stays in a copy kept up to date from changes, also when no file has it any more
  (`C94_false`).
* C95: holds; but the assignment of file slices to splits, the order of batches, and which of several errors is
  returned change from run to run with the seeds of the hash maps.
* C96: `build` keeps what it has resolved in the builder. An option given with `with_option` after a first `build` is
  ignored if it had a value then, although the documentation says that later calls overwrite earlier values; and an
  option removed from the properties file stays (`C96_false`). The Python builder, which makes a new Rust builder for
  every `build`, is not affected.
* C97: log files are kept in a set ordered by base commit, version and write token. Of two log files of a file slice
  whose names differ only in the extension the one listed first is kept and the other is never read (Hudi's writers
  use the one extension `log`). Instants of the same time stay in the order of the listing, so that the latest one, and
  with it the schema, depends on it (`C97_false`).
* C98: a plan holds nothing in the table. When a cleaner has deleted a file that the plan names, because its horizon
  has passed the latest commit the handle knows, the query fails on execution (`C98_false`).
* C99: while a compaction is pending, writers append to log files that are named after its instant, for a base file that
  does not exist yet. `FileGroup::add_log_file` reports a log file without a base file as an error, and every listing of
  the partition goes through it, so that no snapshot of the table, not even an old one, can be read until the compaction
  has written its base file (`C99_false`).
* C100: two writes are under way on different file groups. If the later one completes first, readers get the log blocks
  of the earlier one, which has not completed. If the earlier one fails and is rolled back while the later one is under
  way, readers of the later commit get these blocks for good, because the rollback is later than that commit
  (`C100_false`).
* C101: on a table that keeps every record, a block that a writer has appended twice, because it did not hear that the
  first request had succeeded, is read twice. The scanner of log files does not compare blocks with those it has seen
  (`C101_false`); with a merge strategy that overwrites, the repetition does not show (C82).
* C102: the reader never looks into the archived timeline. When the file of a replacecommit is archived while the
  replaced file groups still exist, a handle that has loaded it fails to read, and handles opened later show the
  replaced file groups again, so that their records appear twice (`C102_false`). Reads of the changes since an archived
  commit leave out what archived commits had changed, without an error (`C102_false_changes`).
* C103: a consumer that stays away until commits since its last visit have been archived misses what they had changed,
  and is not told: the visit succeeds with the latest commit as its new position (`C103_false`).

Other behaviour found while modelling, not the subject of a property:

* Options: `hoodie.properties` overrides options given explicitly (C41); malformed values of optional
  options are silently replaced by defaults; an upper-case storage option does not suppress the
  environment variable of that name; building from one builder twice keeps global options as if given.
* Opening an unsupported table panics instead of returning an error (C45).
* A listing parallelism of 0 never finishes. `get_file_slices_as_of` on a table without commits is an
  error, `get_file_slices` is not.
* One `.parquet` file with another name pattern in a partition makes the listing fail, and so does a
  log file whose base instant has no base file.
* Partition directories called `metadata` or `_delta_log` at the top level are hidden.
* A table whose partition fields are the empty string lists no partition and reads as empty.
* Null record keys are merged into one record.
* A replaced file group stays hidden if its id is written again.
* The DataFusion provider's `schema()` hides errors and returns an empty schema.
* A file whose name contains a control character makes the listing of its directory fail (object_store
  refuses the name), and the local object store hides files whose names end in `#` and digits. Both are
  outside the model: trees have normal names only (`TreeWF`).

## 6. Trusted base

* Lean's kernel (4.33.0), and no axioms but Lean's own `propext`, `Classical.choice` and
  `Quot.sound`; no `sorry`, `native_decide` or `bv_decide`. Evaluations of concrete cases use
  `decide` and `decide +kernel`, which the kernel runs.
* The reading of the source recorded in the comments of `Verif/Model`.
* The contracts of external crates listed in sections 2 and 4.

Axioms of the theorems of the manifest (`#print axioms`):

* `propext`: `C04_false`, `C09_false`, `C12_false`, `C12_base_file_recovered_partial`, `C13_log_file_recovered`, `C48_false`, `C54_false`, `C72_false_provider_schema`.
* `propext`, `Quot.sound`: `C09_answer_exists_partial`, `C12_base_file_name_regenerated_partial`, `C12_accepted_exactly_partial`, `C13_log_file_name_regenerated`, `C13_accepted_exactly`, `C14_false`, `C19_false`, `C29_style_of_the_table`, `C30_false`, `C31_negation_keeps_the_others`, `C31_tokens`, `C35_false`, `C42_properties_text`, `C43_split`, `C44_given`, `C44_default`, `C46_only_comparisons_filter`, `C46_never_exact`, `C48_names_order_nullability_partial`, `C48_schema_converted_partial`, `C54_files_are_looked_up_under_their_names_partial`, `C55_command_options_win`, `C56_references_refused`, `C64_partition_schema`, `C77_false_nanoseconds`.
* `propext`, `Classical.choice`, `Quot.sound`: the other 410.
