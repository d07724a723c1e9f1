import Verif.Props.Keys
import Verif.Props.Store
import Verif.Props.File
import Verif.Props.Tree
import Verif.Props.Walk
import Verif.Props.Checkout
import Verif.Props.Cache
import Verif.Props.Commit
import Verif.Example
import Verif.Props.Simplify
import Verif.Props.Patch
import Verif.Model.Cli
import Verif.Props.Stat
import Verif.Props.Cli
import Verif.Props.Find
import Verif.Props.Commands
import Verif.Props.Closed
import Verif.Props.Acyclic
import Verif.Props.Log
import Verif.Props.History
import Verif.Props.Clean
import Verif.Props.Restore
import Verif.ExampleCli
import Verif.Props.SameKey
import Verif.Props.Show
import Verif.ExampleShow
import Verif.Props.Effects
import Verif.Props.Status
import Verif.Props.Progress
import Verif.Props.Apply
import Verif.Props.Concurrent
import Verif.Props.Retrieve
import Verif.Lemmas.Sim
import Verif.Props.Collect
import Verif.Props.Chunks
import Verif.ExampleEffects
import Verif.ExampleStatus
import Verif.ExampleProgress
import Verif.ExampleConcurrent
import Verif.ExampleRetrieve
import Verif.ExampleCollect
import Verif.Lemmas.Bound
import Verif.Props.Ends
import Verif.ExampleEnds
import Verif.Lemmas.StepsPut
import Verif.Lemmas.Sane
import Verif.Props.Types
import Verif.Props.Whole
import Verif.ExampleWhole
import Verif.Lemmas.Panics
import Verif.Props.Panic
import Verif.ExamplePanic
import Verif.Props.PanicShow
import Verif.ExamplePanicShow
import Verif.Props.PanicWork
import Verif.ExamplePanicWork
import Verif.Props.PanicCheckout
import Verif.ExamplePanicCheckout
import Verif.Model.Text
import Verif.Props.Text
import Verif.Props.TextDiff
import Verif.Props.TextLog
import Verif.ExampleText
import Verif.Model.Store
import Verif.Props.Stores
import Verif.ExampleStores
import Verif.Props.Blobs
import Verif.ExampleBlobs
import Verif.Props.Settle
import Verif.ExampleSettle
import Verif.Props.Ready
import Verif.ExampleReady
import Verif.Props.Fatal
import Verif.ExampleFatal
import Verif.Props.Fetchable
import Verif.ExampleFetchable
import Verif.Props.WalkCmd
import Verif.ExampleWalkCmd
import Verif.Props.Incremental
import Verif.ExampleIncremental
import Verif.Props.Failing
import Verif.ExampleFailing
import Verif.Props.Genuine
import Verif.ExampleGenuine
import Verif.Props.Live
import Verif.ExampleLive
import Verif.Props.Links
import Verif.ExampleLinks
import Verif.Props.LiveHash
import Verif.ExampleLiveHash
import Verif.Props.LinkWrite
import Verif.Props.LinkPlain
import Verif.ExampleLinkWrite
import Verif.Model.LinkCompare
import Verif.Props.LinkCompare
import Verif.ExampleLinkCompare
import Verif.Model.Flaky
import Verif.Lemmas.Flaky
import Verif.Props.Flaky
import Verif.ExampleFlaky
import Verif.Props.Torn
import Verif.ExampleTorn
import Verif.Props.TextList
import Verif.ExampleTextList
import Verif.Props.LinkMain
import Verif.ExampleLinkMain
import Verif.Props.Start
import Verif.ExampleStart
import Verif.Props.RoundTrip
import Verif.ExampleRoundTrip
import Verif.Props.Ordeal
import Verif.ExampleOrdeal
import Verif.ExampleChecks
import Verif.ExampleSerde
import Verif.Model.CacheSched
import Verif.Props.CacheShare
import Verif.ExampleCacheShare
import Verif.Model.BothSched
import Verif.Props.BothShare
import Verif.ExampleBothShare
import Verif.Props.Transparent
import Verif.ExampleTransparent
import Verif.Props.Named
import Verif.ExampleNamed
import Verif.Props.LinkStore
import Verif.ExampleLinkStore
import Verif.Props.LinkFiles
import Verif.ExampleLinkFiles
import Verif.Props.LinkStatus
import Verif.ExampleLinkStatus
import Verif.Props.LinkWalk
import Verif.ExampleLinkWalk
import Verif.Props.LinkLoop
import Verif.ExampleLinkLoop
import Verif.Props.LinkReport
import Verif.ExampleLinkReport
import Verif.Props.Sharp
