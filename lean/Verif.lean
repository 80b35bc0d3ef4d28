import Verif.Model.Api
import Verif.Spec.Map
import Verif.Lemmas.Refine
import Verif.Lemmas.BigValue
import Verif.Props.Map
import Verif.Props.Proofs
import Verif.Props.Commit
import Verif.Props.Snapshots
import Verif.Lemmas.Crash
import Verif.Lemmas.Faults
import Verif.Props.Durable
import Verif.Props.Recovery
import Verif.Props.Open
import Verif.Props.Failed
import Verif.Props.Whole
import Verif.Lemmas.Grew
import Verif.Lemmas.Iter
import Verif.Lemmas.Order
import Verif.Props.Iter
import Verif.Props.Codec
import Verif.Model.Util
import Verif.Props.Util
import Verif.Spec.Buffer
import Verif.Lemmas.Buffer
import Verif.Props.Buffer
import Verif.Model.FileMap
import Verif.Props.Handles
import Verif.Model.Readers
import Verif.Props.Readers
import Verif.Model.Locks
import Verif.Lemmas.Locks
import Verif.Props.Locks
import Verif.Model.LockFile
import Verif.Props.LockFile
import Verif.Spec.Blake2b
import Verif.Model.Blake2b
import Verif.Props.Blake2b
import Verif.Model.Io
import Verif.Props.Io
import Verif.Model.Scan
import Verif.Props.Scan
import Verif.Spec.Path
import Verif.Model.Path
import Verif.Props.Path
import Verif.Spec.Power
import Verif.Lemmas.Trace
import Verif.Lemmas.Power
import Verif.Props.Power
import Verif.Model.Interrupt
import Verif.Spec.Histories
import Verif.Lemmas.Interrupt
import Verif.Props.Histories
import Verif.Model.Destroy
import Verif.Spec.Destroy
import Verif.Lemmas.Destroy
import Verif.Props.Destroy
import Verif.Model.Conc
import Verif.Spec.Conc
import Verif.Lemmas.Conc
import Verif.Spec.ConcApi
import Verif.Lemmas.ConcApi
import Verif.Lemmas.Footprint
import Verif.Lemmas.ConcCanon
import Verif.Lemmas.ConcProg
import Verif.Props.Conc
import Verif.Props.OneShot
import Verif.Model.Cli
import Verif.Spec.Cli
import Verif.Props.Cli
import Verif.Props.CliRun
import Verif.Model.Heap
import Verif.Lemmas.Sep
import Verif.Lemmas.Heap
import Verif.Lemmas.NoErr
import Verif.Lemmas.HeapTree
import Verif.Lemmas.HeapWrite
import Verif.Lemmas.FlatState
import Verif.Lemmas.HeapTx
import Verif.Spec.Heap
import Verif.Lemmas.HeapSys
import Verif.Lemmas.HeapVerify
import Verif.Props.Memory
import Verif.Lemmas.FlushBound
import Verif.Props.WriteBuf
import Verif.Model.Khash
import Verif.Lemmas.Khash
import Verif.Lemmas.KhashMap
import Verif.Lemmas.KhashGrow
import Verif.Lemmas.KhashPut
import Verif.Spec.Cache
import Verif.Props.Cache
import Verif.Model.HeapIter
import Verif.Lemmas.HeapIter
import Verif.Spec.HeapIter
import Verif.Lemmas.HeapIterUse
import Verif.Props.IterMemory
import Verif.Model.Resource
import Verif.Spec.Resource
import Verif.Lemmas.Resource
import Verif.Lemmas.ResourceStore
import Verif.Props.Resource
import Verif.Spec.Damage
import Verif.Lemmas.Damage
import Verif.Props.Damage
import Verif.Spec.Walk
import Verif.Lemmas.Walk
import Verif.Props.Walk
import Verif.Spec.Search
import Verif.Lemmas.Search
import Verif.Props.Search
import Verif.Spec.Quiet
import Verif.Lemmas.Quiet
import Verif.Props.Quiet
import Verif.Spec.Answers
import Verif.Lemmas.Answers
import Verif.Props.Answers
import Verif.Spec.Keep
import Verif.Lemmas.Keep
import Verif.Lemmas.KeepState
import Verif.Lemmas.KeepLook
import Verif.Lemmas.KeepTotal
import Verif.Props.Keep
import Verif.Spec.ConcCrash
import Verif.Lemmas.ConcCrash
import Verif.Props.ConcCrash
import Verif.Lemmas.Tail
import Verif.Props.Tail
import Verif.Model.Corrupt
import Verif.Props.Corrupt
import Verif.Spec.Cost
import Verif.Lemmas.Cost
import Verif.Props.Cost
import Verif.Spec.Local
import Verif.Lemmas.Local
import Verif.Props.Local
import Verif.Spec.Boundary
import Verif.Lemmas.Boundary
import Verif.Props.Boundary
import Verif.Props.BoundaryThreads
import Verif.Model.Procs
import Verif.Spec.Procs
import Verif.Props.Procs
import Verif.Model.Win
import Verif.Model.WinLock
import Verif.Model.WinLockFile
import Verif.Spec.WinLock
import Verif.Props.Win
import Verif.Props.WinLock
import Verif.Props.WinLockFile
import Verif.Model.Nested
import Verif.Spec.Nested
import Verif.Lemmas.Nested
import Verif.Lemmas.NestedAlone
import Verif.Props.Nested
import Verif.Spec.ConcIter
import Verif.Lemmas.ConcIter
import Verif.Props.ConcIter
import Verif.Model.Words
import Verif.Spec.Words
import Verif.Lemmas.Words
import Verif.Props.Words
import Verif.Spec.Format
import Verif.Lemmas.Format
import Verif.Lemmas.HistLen
import Verif.Lemmas.Layout
import Verif.Props.Format
import Verif.Spec.ProofFormat
import Verif.Lemmas.ProofFormat
import Verif.Props.ProofFormat
import Verif.Props.Readme
import Verif.Model.Errno
import Verif.Spec.Errno
import Verif.Lemmas.Errno
import Verif.Props.Errno
import Verif.Spec.Reason
import Verif.Props.Reason
import Verif.Spec.Killed
import Verif.Props.Killed
import Verif.Spec.Work
import Verif.Lemmas.Work
import Verif.Props.Work
import Verif.Model.Life
import Verif.Spec.Life
import Verif.Props.Life
import Verif.Spec.Mortal
import Verif.Props.Mortal
import Verif.Model.DestroyCut
import Verif.Spec.DestroyCut
import Verif.Props.DestroyCut
import Verif.Model.Modes
import Verif.Spec.Modes
import Verif.Props.Modes
import Verif.Model.Wasi
import Verif.Props.Wasi
import Verif.Props.ConcFinish
import Verif.Spec.Again
import Verif.Lemmas.Again
import Verif.Props.Again
