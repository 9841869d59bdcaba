import Verif.Props.Net
import Verif.Props.Build
import Verif.Props.Edges
import Verif.Props.Fold
import Verif.Props.Errs
import Verif.Props.Kill
import Verif.Props.Pack
import Verif.Props.Infer
import Verif.Props.Sig
import Verif.Props.Table
import Verif.Props.Queue
import Verif.Props.Entry
import Verif.Proofs.Walk
import Verif.Props.Count
import Verif.Props.Built
import Verif.Props.MapReduce
import Verif.Props.Classes
import Verif.Proofs.Trav
import Verif.Props.Classify
import Verif.Props.Partition
import Verif.Props.Merge
import Verif.Proofs.Demo
import Verif.Props.Compose
import Verif.Proofs.Rover
import Verif.Props.Postpone
import Verif.Model.Duplex
import Verif.Spec.Duplex
import Verif.Proofs.Quiet
import Verif.Proofs.Duplex
import Verif.Props.Duplex
import Verif.Model.Spawn
import Verif.Model.Fab
import Verif.Model.Cross
import Verif.Spec.Spawn
import Verif.Spec.Fab
import Verif.Spec.Cross
import Verif.Proofs.Spawn
import Verif.Props.Fab
import Verif.Props.Cross
import Verif.Model.Split
import Verif.Spec.Split
import Verif.Proofs.Split
import Verif.Proofs.SplitEnd
import Verif.Proofs.SplitKill
import Verif.Proofs.TravKill
import Verif.Proofs.Rush
import Verif.Props.Split
import Verif.Props.SplitRace
import Verif.Spec.Sched
import Verif.Proofs.Fair
import Verif.Proofs.FairDone
import Verif.Model.Induce
import Verif.Spec.Induce
import Verif.Proofs.Induce
import Verif.Proofs.InduceEnd
import Verif.Proofs.Deduce
import Verif.Props.Induce
import Verif.Model.Mutate
import Verif.Spec.Mutate
import Verif.Proofs.Mutate
import Verif.Proofs.MutateRun
import Verif.Proofs.MutateGood
import Verif.Proofs.MutateOrder
import Verif.Proofs.MutateBound
import Verif.Proofs.MutateEnd
import Verif.Proofs.MutateSpec
import Verif.Props.Mutate
import Verif.Model.Filter
import Verif.Spec.Filter
import Verif.Proofs.FilterEdges
import Verif.Proofs.Filter
import Verif.Proofs.FilterEnd
import Verif.Props.Filter
import Verif.Model.Dedup
import Verif.Spec.Dedup
import Verif.Proofs.Dedup
import Verif.Proofs.DedupEnd
import Verif.Props.Dedup
import Verif.Model.Stretch
import Verif.Spec.Stretch
import Verif.Proofs.Stretch
import Verif.Proofs.StretchStore
import Verif.Proofs.StretchGraft
import Verif.Proofs.StretchOver
import Verif.Proofs.StretchStep
import Verif.Proofs.StretchFull
import Verif.Proofs.StretchEnd
import Verif.Proofs.StretchEqual
import Verif.Props.Stretch
import Verif.Model.Spread
import Verif.Spec.Spread
import Verif.Proofs.SpreadPre
import Verif.Proofs.SpreadInv
import Verif.Proofs.SpreadStep
import Verif.Proofs.SpreadEnd
import Verif.Proofs.SpreadTerm
import Verif.Props.Spread
import Verif.Model.Free
import Verif.Spec.Free
import Verif.Proofs.Free
import Verif.Proofs.FreeBag
import Verif.Proofs.FreeEnd
import Verif.Props.Free
import Verif.Model.Locate
import Verif.Spec.Locate
import Verif.Proofs.Locate
import Verif.Props.Locate
import Verif.Props.MutateFull
import Verif.Model.Coverage
import Verif.Props.Coverage
import Verif.Model.History
import Verif.Spec.History
import Verif.Props.History
import Verif.Model.Local
import Verif.Spec.Local
import Verif.Proofs.Local
import Verif.Props.Local
import Verif.Model.Reclaim
import Verif.Proofs.Reclaim
import Verif.Props.Reclaim
import Verif.Proofs.Spurious
import Verif.Props.Spurious
import Verif.Model.Cull
import Verif.Model.MergeKill
import Verif.Proofs.Cull
import Verif.Props.MergeKill
import Verif.Model.MergeAcc
import Verif.Spec.MergeAcc
import Verif.Proofs.MergeAcc
import Verif.Props.MergeAcc
import Verif.Model.Request
import Verif.Spec.Request
import Verif.Proofs.Request
import Verif.Props.Request
import Verif.Model.SpawnAcc
import Verif.Spec.SpawnAcc
import Verif.Proofs.SpawnAcc
import Verif.Props.SpawnAcc
import Verif.Model.SplitAcc
import Verif.Spec.SplitAcc
import Verif.Proofs.SplitAcc
import Verif.Proofs.SplitAccInv
import Verif.Props.SplitAcc
import Verif.Model.Wrap
import Verif.Spec.Wrap
import Verif.Proofs.Wrap
import Verif.Props.Wrap
import Verif.Model.DedupAcc
import Verif.Spec.DedupAcc
import Verif.Proofs.DedupAcc
import Verif.Model.PostponeAcc
import Verif.Spec.PostponeAcc
import Verif.Proofs.PostponeAcc
import Verif.Props.PostponeAcc
import Verif.Model.MutateAcc
import Verif.Spec.MutateAcc
import Verif.Proofs.MutateAcc
import Verif.Proofs.MutateBack
import Verif.Proofs.MutateDone
import Verif.Props.MutateAcc
import Verif.Model.Gather
import Verif.Spec.Gather
import Verif.Proofs.Gather
import Verif.Proofs.GatherBag
import Verif.Proofs.GatherEnd
import Verif.Props.Gather
import Verif.Model.ComposeAcc
import Verif.Spec.ComposeAcc
import Verif.Proofs.ComposeAcc
import Verif.Proofs.ComposeAccEnd
import Verif.Proofs.ComposeAccPass
import Verif.Props.ComposeAcc
import Verif.Model.Launch
import Verif.Spec.Launch
import Verif.Proofs.Launch
import Verif.Proofs.LaunchEnd
import Verif.Props.Launch
import Verif.Model.Crew
import Verif.Proofs.Crew
import Verif.Props.Crew
import Verif.Model.Startup
import Verif.Proofs.Startup
import Verif.Props.Startup
import Verif.Model.Sweep
import Verif.Spec.Sweep
import Verif.Proofs.Sweep
import Verif.Props.Sweep
import Verif.Model.Pad
import Verif.Props.Pad
import Verif.Model.BuildAcc
import Verif.Spec.BuildAcc
import Verif.Proofs.BuildAcc
import Verif.Props.BuildAcc
import Verif.Model.StretchAcc
import Verif.Spec.StretchAcc
import Verif.Proofs.StretchAcc
import Verif.Props.StretchAcc
import Verif.Model.Resource
import Verif.Spec.Resource
import Verif.Proofs.Resource
import Verif.Props.Resource
import Verif.Spec.Says
import Verif.Proofs.Says
import Verif.Proofs.SaysSplit
import Verif.Proofs.SaysMove
import Verif.Props.Says
import Verif.Model.Pool
import Verif.Model.PoolMutate
import Verif.Spec.Pool
import Verif.Proofs.Pool
import Verif.Props.Pool
import Verif.Spec.PoolMutate
import Verif.Proofs.PoolMutate
import Verif.Proofs.PoolMutateInv
import Verif.Props.PoolMutate
import Verif.Model.Links
import Verif.Spec.Links
import Verif.Props.Links
import Verif.Model.Mail
import Verif.Spec.Mail
import Verif.Proofs.Mail
import Verif.Proofs.MailInv
import Verif.Proofs.MailStep
import Verif.Props.Mail
import Verif.Model.PoolInduce
import Verif.Proofs.PoolInduce
import Verif.Props.PoolInduce
import Verif.Model.PoolClasses
import Verif.Spec.PoolClasses
import Verif.Proofs.PoolClasses
import Verif.Props.PoolClasses
import Verif.Model.Orders
import Verif.Spec.Orders
import Verif.Proofs.Orders
import Verif.Props.Orders
import Verif.Spec.Codes
import Verif.Proofs.Codes
import Verif.Props.Codes
import Verif.Model.Abort
import Verif.Proofs.Abort
import Verif.Props.Abort
import Verif.Model.Calls
import Verif.Spec.Calls
import Verif.Proofs.Calls
import Verif.Props.Calls
import Verif.Model.Classless
import Verif.Proofs.Classless
import Verif.Props.Classless
import Verif.Model.Repl
import Verif.Spec.Repl
import Verif.Proofs.Repl
import Verif.Props.Repl
import Verif.Model.SetProps
import Verif.Spec.SetProps
import Verif.Props.SetProps
import Verif.Model.MergeBy
import Verif.Props.MergeBy
import Verif.Model.Closure
import Verif.Props.Closure
import Verif.Model.Product
import Verif.Spec.Words
import Verif.Props.Words
import Verif.Model.Delay
import Verif.Props.Delay
import Verif.Model.Thin
import Verif.Props.Thin
import Verif.Props.Tally
import Verif.Props.Dialect
import Verif.Proofs.SaysMerge
import Verif.Props.SaysMerge
import Verif.Props.Sift
import Verif.Props.MapSeq
import Verif.Props.Named
import Verif.Model.Cleave
import Verif.Props.Cleave
import Verif.Props.Forge
import Verif.Props.Idiom
import Verif.Props.Walk
import Verif.Props.Homonym
import Verif.Props.Grammar
import Verif.Props.Joint
import Verif.Spec.Trail
import Verif.Props.Trail
import Verif.Props.Shortcut
import Verif.Props.Fission
import Verif.Model.Lanes
import Verif.Props.Lanes
