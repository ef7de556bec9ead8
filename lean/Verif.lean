import Verif.Lemmas.Api
import Verif.Lemmas.Float
import Verif.Lemmas.HistOk
import Verif.Lemmas.History
import Verif.Lemmas.Life
import Verif.Lemmas.ListLemmas
import Verif.Lemmas.Live
import Verif.Lemmas.LiveSys
import Verif.Lemmas.Pg
import Verif.Lemmas.PgLiveSys
import Verif.Lemmas.PgNetOnTime
import Verif.Lemmas.PgRow
import Verif.Lemmas.PgStream
import Verif.Lemmas.PgSys
import Verif.Lemmas.Stream
import Verif.Lemmas.System
import Verif.Lemmas.Track
import Verif.Model.Api
import Verif.Model.AssertEnqueued
import Verif.Model.Backoff
import Verif.Model.Builder
import Verif.Model.Clocks
import Verif.Model.Concurrent
import Verif.Model.Criteria
import Verif.Model.Cron
import Verif.Model.CronClock
import Verif.Model.Float
import Verif.Model.Fx
import Verif.Model.GlobalBackend
import Verif.Model.Instance
import Verif.Model.Live
import Verif.Model.Locks
import Verif.Model.Manage
import Verif.Model.Memory
import Verif.Model.Migrate
import Verif.Model.Pg
import Verif.Model.PgConc
import Verif.Model.PgLive
import Verif.Model.PgQuery
import Verif.Model.PgStream
import Verif.Model.PgSys
import Verif.Model.PgText
import Verif.Model.PgTypes
import Verif.Model.Poison
import Verif.Model.PoisonStream
import Verif.Model.Pruner
import Verif.Model.Queryable
import Verif.Model.Ranges
import Verif.Model.Runner
import Verif.Model.Stream
import Verif.Model.StreamClock
import Verif.Model.System
import Verif.Model.Timeout
import Verif.Model.Typed
import Verif.Model.Types
import Verif.Props.Agree
import Verif.Props.AgreeRest
import Verif.Props.AgreeUnique
import Verif.Props.AlonePgLive
import Verif.Props.AssertEnqueued
import Verif.Props.Backoff
import Verif.Props.Builder
import Verif.Props.ClockSafe
import Verif.Props.Clocks
import Verif.Props.Commute
import Verif.Props.Criteria
import Verif.Props.Cron
import Verif.Props.CronBegun
import Verif.Props.CronClock
import Verif.Props.CronStop
import Verif.Props.CronStored
import Verif.Props.Dispatch
import Verif.Props.Failed
import Verif.Props.Fits
import Verif.Props.GlobalBackend
import Verif.Props.Ids
import Verif.Props.Instance
import Verif.Props.Interference
import Verif.Props.Isolation
import Verif.Props.KeepFew
import Verif.Props.Known
import Verif.Props.Lifecycle
import Verif.Props.Limits
import Verif.Props.Live
import Verif.Props.LiveRuns
import Verif.Props.LiveShutdown
import Verif.Props.LiveToTheEnd
import Verif.Props.Locks
import Verif.Props.Looks
import Verif.Props.Manage
import Verif.Props.Migrate
import Verif.Props.NeverStuck
import Verif.Props.NeverStuckLive
import Verif.Props.NeverStuckPgLive
import Verif.Props.NoSpin
import Verif.Props.OnTime
import Verif.Props.OneAtATime
import Verif.Props.Outcome
import Verif.Props.OwnJobs
import Verif.Props.PgDispatch
import Verif.Props.PgEnqueue
import Verif.Props.PgExecuted
import Verif.Props.PgFate
import Verif.Props.PgInterference
import Verif.Props.PgIsolation
import Verif.Props.PgLifecycle
import Verif.Props.PgLinear
import Verif.Props.PgLiveOnTime
import Verif.Props.PgLiveRuns
import Verif.Props.PgLiveToTheEnd
import Verif.Props.PgNoDeadlock
import Verif.Props.PgNul
import Verif.Props.PgOnTime
import Verif.Props.PgProgress
import Verif.Props.PgPrune
import Verif.Props.PgQuery
import Verif.Props.PgReceive
import Verif.Props.PgRecords
import Verif.Props.PgSpacing
import Verif.Props.PgStream
import Verif.Props.PgStreamProgress
import Verif.Props.PgText
import Verif.Props.PgToTheEnd
import Verif.Props.PgUnique
import Verif.Props.PgUniqueConc
import Verif.Props.Poison
import Verif.Props.PoisonStream
import Verif.Props.Poll
import Verif.Props.Progress
import Verif.Props.PruneAgain
import Verif.Props.Pruner
import Verif.Props.Query
import Verif.Props.Ranges
import Verif.Props.RecordIsHistory
import Verif.Props.Records
import Verif.Props.Retention
import Verif.Props.RetentionFinish
import Verif.Props.Rush
import Verif.Props.Sequential
import Verif.Props.Served
import Verif.Props.Skew
import Verif.Props.Spacing
import Verif.Props.Stays
import Verif.Props.StaysRun
import Verif.Props.Store
import Verif.Props.Stream
import Verif.Props.StreamClock
import Verif.Props.StreamProgress
import Verif.Props.Timeout
import Verif.Props.ToTheEnd
import Verif.Props.Unique
import Verif.Props.UniqueConc
import Verif.Props.Unreadable
import Verif.Spec.Agree
import Verif.Spec.History
import Verif.Spec.Pg
import Verif.Spec.PgHistory
import Verif.Spec.PgQuery
import Verif.Spec.PgStream
import Verif.Spec.PgSys
import Verif.Spec.Prune
import Verif.Spec.Query
import Verif.Spec.Range
import Verif.Spec.Samples
import Verif.Spec.Store
import Verif.Spec.Stream
import Verif.Spec.System
import Verif.Spec.Unique
import Verif.Tests.Conformance
import Verif.Tests.Units
