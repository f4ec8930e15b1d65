import Verif.Props.Lookup
import Verif.Props.Prefix
import Verif.Props.Combine
import Verif.Props.Shape
import Verif.Props.Blob
import Verif.Proofs.Record
import Verif.Proofs.ReadIter
import Verif.Proofs.UpdateMain
import Verif.Proofs.UpdateApi
import Verif.Proofs.Fuel
import Verif.Proofs.Fail
import Verif.Proofs.Touched
import Verif.Proofs.ConvFuel
import Verif.Props.Mem
import Verif.Props.StoredRead
import Verif.Props.Persist
import Verif.Props.StoredUpdate
import Verif.Proofs.CombineFuel
import Verif.Props.Detached
import Verif.Props.StoredCombine
import Verif.Props.StoredInPlace
import Verif.Props.Paged
import Verif.Props.PagedTree
import Verif.Props.Browser
import Verif.Props.BrowserLength
import Verif.Props.BrowserTree
import Verif.Props.BrowserPaging
import Verif.Heap.Model
import Verif.Proofs.HeapCells
import Verif.Proofs.HeapBase
import Verif.Proofs.HeapNode
import Verif.Proofs.HeapCombine
import Verif.Proofs.HeapInPlace
import Verif.Heap.Api
import Verif.Proofs.HeapApi
import Verif.Proofs.HeapIter
import Verif.Proofs.HeapNew
import Verif.Heap.Session
import Verif.Proofs.HeapSession
import Verif.Spec.Session
import Verif.Proofs.SessionMap
import Verif.Props.Heap
import Verif.Heap.Threads
import Verif.Spec.Threads
import Verif.Proofs.HeapThreads
import Verif.Props.Threads
import Verif.Browser.Fs
import Verif.Spec.Fs
import Verif.Proofs.BrowserFs
import Verif.Proofs.BrowserFsSim
import Verif.Props.BrowserFs
import Verif.Stored.Cost
import Verif.Proofs.Cost
import Verif.Proofs.Edited
import Verif.Proofs.Local
import Verif.Props.Cost
import Verif.Proofs.Fits
import Verif.Proofs.FitsStores
import Verif.Props.Saves
import Verif.Props.Same
import Verif.Props.PagedView
import Verif.Props.Shared
import Verif.Props.Depth
import Verif.Heap.Attached
import Verif.Proofs.AttachedNode
import Verif.Proofs.AttachedCombine
import Verif.Proofs.AttachedLoop
import Verif.Proofs.AttachedOps
import Verif.Heap.AttRead
import Verif.Heap.AttIter
import Verif.Proofs.AttachedRead
import Verif.Heap.AttCombine
import Verif.Proofs.AttachedNew
import Verif.Heap.AttSession
import Verif.Proofs.AttachedSession
import Verif.Spec.AttSession
import Verif.Proofs.AttachedIter
import Verif.Proofs.AttachedFrame
import Verif.Props.Attached
import Verif.Spec.AttMaps
import Verif.Proofs.AttMaps
import Verif.Proofs.AttMapsCalls
import Verif.Proofs.AttMapsReads
import Verif.Proofs.AttMapsStep
import Verif.Props.AttMaps
import Verif.Spec.AttSafe
import Verif.Proofs.AttMapsFuel
import Verif.Proofs.AttMapsEnds
import Verif.Props.AttSafe
import Verif.Spec.Format
import Verif.Proofs.Format
import Verif.Props.Format
import Verif.Spec.Lives
import Verif.Proofs.Lives
import Verif.Proofs.LivesStores
import Verif.Props.Lives
import Verif.Browser.Vfs
import Verif.Spec.Vfs
import Verif.Proofs.Vfs
import Verif.Proofs.VfsServed
import Verif.Props.Vfs
import Verif.Stored.Caught
import Verif.Heap.Caught
import Verif.Spec.Caught
import Verif.Proofs.Caught
import Verif.Proofs.CaughtIter
import Verif.Props.Caught
import Verif.Heap.AttThreads
import Verif.Spec.AttThreads
import Verif.Proofs.AttThreads
import Verif.Props.AttThreads
import Verif.Spec.ThreadMaps
import Verif.Proofs.ThreadMaps
import Verif.Props.ThreadMaps
import Verif.Blobs.Memory
import Verif.Blobs.Stores
import Verif.Spec.Blobs
import Verif.Proofs.BlobMemory
import Verif.Proofs.BlobClient
import Verif.Proofs.BlobLogic
import Verif.Proofs.BlobPaged
import Verif.Proofs.BlobPagedStore
import Verif.Proofs.BlobPagedCalls
import Verif.Proofs.BlobPaging
import Verif.Proofs.BlobStable
import Verif.Proofs.BlobStart
import Verif.Props.Blobs
import Verif.Stored.Lazy
import Verif.Proofs.Lazy
import Verif.Props.Lazy
import Verif.Spec.Stops
import Verif.Proofs.NoSplit
import Verif.Props.NoPanic
import Verif.Proofs.NoSplitOuter
import Verif.Proofs.NoSplitWith
import Verif.Props.NoPanicWith
import Verif.Browser.Recover
import Verif.Spec.Recover
import Verif.Proofs.BrowserRecover
import Verif.Props.Recover
import Verif.Stored.SelfWritten
import Verif.Proofs.SelfWritten
import Verif.Stored.Changed
import Verif.Proofs.CostDocs
import Verif.Props.FormatExact
import Verif.Props.BrowserCut
import Verif.Conform
