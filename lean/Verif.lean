import Verif.Base.HMap
import Verif.Base.Res
import Verif.Base.Sorted
import Verif.Base.Str
import Verif.Base.Utf8
import Verif.Lemmas.Answers
import Verif.Lemmas.Appended
import Verif.Lemmas.Archiver
import Verif.Lemmas.ArchiverChanges
import Verif.Lemmas.ArchiverTimeline
import Verif.Lemmas.AvroArrow
import Verif.Lemmas.AvroBatch
import Verif.Lemmas.AvroDecode
import Verif.Lemmas.AvroDrain
import Verif.Lemmas.AvroLog
import Verif.Lemmas.AvroPaths
import Verif.Lemmas.Builder
import Verif.Lemmas.Cached
import Verif.Lemmas.Calendar
import Verif.Lemmas.Changes
import Verif.Lemmas.Cleaner
import Verif.Lemmas.CleanerChanges
import Verif.Lemmas.CleanerKept
import Verif.Lemmas.Concurrent
import Verif.Lemmas.Config
import Verif.Lemmas.Counted
import Verif.Lemmas.CountedChanges
import Verif.Lemmas.CountedWriter
import Verif.Lemmas.Crash
import Verif.Lemmas.Decode
import Verif.Lemmas.Faults
import Verif.Lemmas.Files
import Verif.Lemmas.FsView
import Verif.Lemmas.HMap
import Verif.Lemmas.Handout
import Verif.Lemmas.History
import Verif.Lemmas.Instant
import Verif.Lemmas.LeafDirs
import Verif.Lemmas.Listing
import Verif.Lemmas.Lists
import Verif.Lemmas.Log
import Verif.Lemmas.Merge
import Verif.Lemmas.Mirror
import Verif.Lemmas.Objects
import Verif.Lemmas.Order
import Verif.Lemmas.Orders
import Verif.Lemmas.Partition
import Verif.Lemmas.Properties
import Verif.Lemmas.Racing
import Verif.Lemmas.RacingConcurrent
import Verif.Lemmas.RacingConcurrentRun
import Verif.Lemmas.RacingFaults
import Verif.Lemmas.RacingWriter
import Verif.Lemmas.Records
import Verif.Lemmas.Relisted
import Verif.Lemmas.Remains
import Verif.Lemmas.Schema
import Verif.Lemmas.Serial
import Verif.Lemmas.Service
import Verif.Lemmas.Snapshot
import Verif.Lemmas.Sorted
import Verif.Lemmas.Store
import Verif.Lemmas.Stored
import Verif.Lemmas.Str
import Verif.Lemmas.Tail
import Verif.Lemmas.Time
import Verif.Lemmas.Timeline
import Verif.Lemmas.Torn
import Verif.Lemmas.Url
import Verif.Lemmas.Utf8
import Verif.Lemmas.Writer
import Verif.Lemmas.WriterChanges
import Verif.Lemmas.WriterOpened
import Verif.Lemmas.WriterPaths
import Verif.Lemmas.WriterTree
import Verif.Model.Avro
import Verif.Model.AvroArrow
import Verif.Model.Builder
import Verif.Model.Concurrent
import Verif.Model.Config
import Verif.Model.Data
import Verif.Model.DataFusion
import Verif.Model.Distributed
import Verif.Model.Expr
import Verif.Model.Faults
import Verif.Model.Files
import Verif.Model.FsView
import Verif.Model.Instant
import Verif.Model.Listing
import Verif.Model.Log
import Verif.Model.Merge
import Verif.Model.Orders
import Verif.Model.Partition
import Verif.Model.Python
import Verif.Model.PythonBuilder
import Verif.Model.Racing
import Verif.Model.RacingConcurrent
import Verif.Model.RacingFaults
import Verif.Model.Reader
import Verif.Model.Selector
import Verif.Model.Store
import Verif.Model.Table
import Verif.Model.TableBuilder
import Verif.Model.Time
import Verif.Model.Timeline
import Verif.Props.Answers
import Verif.Props.Appended
import Verif.Props.AppendedDemo
import Verif.Props.Archiver
import Verif.Props.ArchiverChanges
import Verif.Props.ArchiverChangesDemo
import Verif.Props.ArchiverDemo
import Verif.Props.ArchiverKept
import Verif.Props.ArchiverOpened
import Verif.Props.ArchiverOpenedDemo
import Verif.Props.ArchiverTail
import Verif.Props.ArchiverTailDemo
import Verif.Props.Available
import Verif.Props.AvailableDemo
import Verif.Props.Avro
import Verif.Props.AvroDemo
import Verif.Props.AvroDocsDemo
import Verif.Props.AvroTable
import Verif.Props.AvroTableDemo
import Verif.Props.BuilderAgain
import Verif.Props.Calendar
import Verif.Props.Changes
import Verif.Props.ChangesDemo
import Verif.Props.ChangesLatest
import Verif.Props.Cleaner
import Verif.Props.CleanerChanges
import Verif.Props.CleanerChangesDemo
import Verif.Props.CleanerDemo
import Verif.Props.CleanerKept
import Verif.Props.CleanerKeptDemo
import Verif.Props.CleanerMirror
import Verif.Props.CleanerMirrorDemo
import Verif.Props.CleanerOpened
import Verif.Props.CleanerOpenedDemo
import Verif.Props.CleanerTail
import Verif.Props.CleanerTailDemo
import Verif.Props.Commits
import Verif.Props.Concurrent
import Verif.Props.ConsumerVisits
import Verif.Props.ConsumerVisitsDemo
import Verif.Props.Counted
import Verif.Props.CountedArchived
import Verif.Props.CountedArchivedDemo
import Verif.Props.CountedArchivedOpened
import Verif.Props.CountedArchivedOpenedDemo
import Verif.Props.CountedChanges
import Verif.Props.CountedChangesDemo
import Verif.Props.CountedDemo
import Verif.Props.CountedOpened
import Verif.Props.CountedOpenedDemo
import Verif.Props.Crash
import Verif.Props.CrashAvro
import Verif.Props.CrashDemo
import Verif.Props.Deletion
import Verif.Props.Distributed
import Verif.Props.DistributedDemo
import Verif.Props.Evolving
import Verif.Props.EvolvingDemo
import Verif.Props.Faults
import Verif.Props.FaultsDemo
import Verif.Props.FileGroups
import Verif.Props.FileNames
import Verif.Props.FilteredRead
import Verif.Props.Filters
import Verif.Props.Handout
import Verif.Props.History
import Verif.Props.Incremental
import Verif.Props.Instants
import Verif.Props.Kept
import Verif.Props.KeptDemo
import Verif.Props.Listing
import Verif.Props.LogDemo
import Verif.Props.LogFiles
import Verif.Props.Merge
import Verif.Props.MetadataText
import Verif.Props.Mirror
import Verif.Props.MirrorDemo
import Verif.Props.MoreLatest
import Verif.Props.OpenDemo
import Verif.Props.Opened
import Verif.Props.OpenedDemo
import Verif.Props.OpenedLatest
import Verif.Props.OpenedMore
import Verif.Props.OpenedMoreDemo
import Verif.Props.Opening
import Verif.Props.Optimized
import Verif.Props.OptimizedDemo
import Verif.Props.Options
import Verif.Props.Order
import Verif.Props.Orders
import Verif.Props.Partitions
import Verif.Props.Planned
import Verif.Props.PlannedArchived
import Verif.Props.PlannedArchivedDemo
import Verif.Props.PlannedDemo
import Verif.Props.PlannedOpened
import Verif.Props.PlannedOpenedDemo
import Verif.Props.Predicates
import Verif.Props.QueryDemo
import Verif.Props.QueryRows
import Verif.Props.QueryRowsDemo
import Verif.Props.QueryScan
import Verif.Props.Racing
import Verif.Props.RacingChanges
import Verif.Props.RacingChangesDemo
import Verif.Props.RacingConcurrent
import Verif.Props.RacingConcurrentDemo
import Verif.Props.RacingConcurrentOpened
import Verif.Props.RacingConcurrentOpenedDemo
import Verif.Props.RacingDemo
import Verif.Props.RacingFaults
import Verif.Props.RacingFaultsDemo
import Verif.Props.RacingWriter
import Verif.Props.RacingWriterDemo
import Verif.Props.Range
import Verif.Props.ReadDemo
import Verif.Props.ReadFalse
import Verif.Props.Reader
import Verif.Props.Records
import Verif.Props.RecordsDemo
import Verif.Props.Relisted
import Verif.Props.RelistedDemo
import Verif.Props.Remains
import Verif.Props.RemainsDemo
import Verif.Props.SameOptions
import Verif.Props.SameOptionsDemo
import Verif.Props.Scan
import Verif.Props.Schema
import Verif.Props.Serial
import Verif.Props.SerialArchived
import Verif.Props.SerialArchivedDemo
import Verif.Props.SerialDemo
import Verif.Props.Service
import Verif.Props.ServiceArchived
import Verif.Props.ServiceArchivedDemo
import Verif.Props.ServiceDemo
import Verif.Props.Slices
import Verif.Props.Snapshot
import Verif.Props.Splits
import Verif.Props.TableReads
import Verif.Props.Tail
import Verif.Props.TailDemo
import Verif.Props.Tidied
import Verif.Props.TidiedDemo
import Verif.Props.TimeTravel
import Verif.Props.Timeline
import Verif.Props.TravelDemo
import Verif.Props.Writer
import Verif.Props.WriterChanges
import Verif.Props.WriterChangesDemo
import Verif.Props.WriterDemo
import Verif.Props.WriterOpened
import Verif.Props.WriterOpenedDemo
import Verif.Spec.Appended
import Verif.Spec.Archiver
import Verif.Spec.ArchiverKept
import Verif.Spec.ArchiverTail
import Verif.Spec.Avro
import Verif.Spec.AvroLog
import Verif.Spec.BuilderAgain
import Verif.Spec.Calendar
import Verif.Spec.Changes
import Verif.Spec.Cleaner
import Verif.Spec.CleanerKept
import Verif.Spec.CleanerTail
import Verif.Spec.Commit
import Verif.Spec.Concurrent
import Verif.Spec.Config
import Verif.Spec.ConsumerVisits
import Verif.Spec.Counted
import Verif.Spec.CountedArchived
import Verif.Spec.Crash
import Verif.Spec.CrashAvro
import Verif.Spec.DataFusion
import Verif.Spec.Demo
import Verif.Spec.Distributed
import Verif.Spec.Evolving
import Verif.Spec.Faults
import Verif.Spec.Filter
import Verif.Spec.Group
import Verif.Spec.Handout
import Verif.Spec.Healthy
import Verif.Spec.History
import Verif.Spec.Kept
import Verif.Spec.Listing
import Verif.Spec.Log
import Verif.Spec.Merge
import Verif.Spec.Mirror
import Verif.Spec.Objects
import Verif.Spec.Opened
import Verif.Spec.Optimized
import Verif.Spec.Options
import Verif.Spec.Orders
import Verif.Spec.Planned
import Verif.Spec.Query
import Verif.Spec.Racing
import Verif.Spec.RacingConcurrent
import Verif.Spec.RacingFaults
import Verif.Spec.RacingWriter
import Verif.Spec.Range
import Verif.Spec.Reader
import Verif.Spec.Records
import Verif.Spec.Relisted
import Verif.Spec.Remains
import Verif.Spec.SameOptions
import Verif.Spec.Scan
import Verif.Spec.Schema
import Verif.Spec.Serial
import Verif.Spec.Service
import Verif.Spec.Snapshot
import Verif.Spec.Store
import Verif.Spec.Tail
import Verif.Spec.Tidied
import Verif.Spec.TimeTravel
import Verif.Spec.Timeline
import Verif.Spec.Timestamp
import Verif.Spec.Writer
import Verif.Spec.WriterChanges
import Verif.Spec.WriterOpened
