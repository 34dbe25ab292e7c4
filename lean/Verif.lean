import Verif.Model.Word
import Verif.Model.Util
import Verif.Model.Store
import Verif.Model.Scale
import Verif.Model.Key
import Verif.Model.Filter
import Verif.Spec.Key
import Verif.Proof.Bits
import Verif.Proof.Count
import Verif.Proof.Mem
import Verif.Proof.Order
import Verif.Proof.Layout
import Verif.Proof.StoreQuery
import Verif.Proof.Status
import Verif.Proof.Ins
import Verif.Proof.StoreInsert
import Verif.Proof.Config
import Verif.Proof.StoreList
import Verif.Proof.StoreLoad
import Verif.Proof.StoreLoad2
import Verif.Proof.Region
import Verif.Proof.Key
import Verif.Proof.Shared
import Verif.Proof.Frame
import Verif.Proof.Item
import Verif.Proof.Tree
import Verif.Proof.Query
import Verif.Proof.Local
import Verif.Proof.InsertSimple
import Verif.Proof.Level
import Verif.Proof.Rewrite
import Verif.Proof.Rewrite2
import Verif.Proof.SepSearch
import Verif.Proof.Cut
import Verif.Proof.Plan
import Verif.Proof.Split
import Verif.Proof.Insert
import Verif.Proof.Bulk
import Verif.Proof.Loaded
import Verif.Props.Words
import Verif.Model.WhInt
import Verif.Spec.Level
import Verif.Spec.Cap
import Verif.Spec.Fits
import Verif.Spec.History
import Verif.Proof.Reach
import Verif.Proof.Reach2
import Verif.Proof.IntPath
import Verif.Proof.WhInt
import Verif.Proof.LoadVar
import Verif.Props.Sample
import Verif.Spec.Cell
import Verif.Proof.Cell
import Verif.Proof.Answers
import Verif.Proof.Rewrite3
import Verif.Proof.SplitTotal
import Verif.Proof.Small
import Verif.Proof.Defined
import Verif.Props.Queries
import Verif.Props.Inserts
import Verif.Props.Defined
import Verif.Props.Bulk
import Verif.Spec.Region
import Verif.Proof.Outside
import Verif.Proof.RegionRun
import Verif.Props.Frames
import Verif.Props.Regions
import Verif.Proof.StreamLost
import Verif.Model.Select
import Verif.Proof.Select64
import Verif.Model.Serial
import Verif.Model.Access
import Verif.Proof.Serial
import Verif.Props.Serial
import Verif.Props.Access
import Verif.Model.Shrink
import Verif.Proof.Shrink
import Verif.Props.Shrink
import Verif.Proof.Del
import Verif.Proof.StoreDelete
import Verif.Proof.StoreDelete2
import Verif.Proof.StoreDelete3
import Verif.Proof.RegionDelete
import Verif.Proof.FilterDelete
import Verif.Model.Delete
import Verif.Proof.DeleteItem
import Verif.Props.SampleDel
import Verif.Props.Delete
import Verif.Proof.MergeItem
import Verif.Proof.MergeNest
import Verif.Proof.MergeOrder
import Verif.Proof.Merge
import Verif.Proof.Serve
import Verif.Spec.Tame
import Verif.Proof.Hold
import Verif.Proof.SplitServe
import Verif.Proof.TameOps
import Verif.Props.SampleTame
import Verif.Props.Tame
import Verif.Proof.MergeTotal
import Verif.Proof.Ends
import Verif.Spec.Plain
import Verif.Spec.States
import Verif.Proof.States
import Verif.Proof.SelfRange
import Verif.Proof.Plain
import Verif.Model.Own
import Verif.Spec.Own
import Verif.Proof.Own
import Verif.Proof.OwnRun
import Verif.Props.Own
import Verif.Proof.Scale
import Verif.Props.LoadFactor
import Verif.Proof.Clean
import Verif.Proof.Canon
import Verif.Model.Rng
import Verif.Proof.Restore
import Verif.Props.Restore
import Verif.Proof.Commute
import Verif.Props.Order
import Verif.Proof.Undo
import Verif.Props.Undo
import Verif.Spec.Grow
import Verif.Proof.Exact
import Verif.Proof.Exact2
import Verif.Props.Exact
import Verif.Model.WhTree
import Verif.Spec.WhTree
import Verif.Proof.WhLeaf
import Verif.Proof.WhLeafOps
import Verif.Proof.WhSplit
import Verif.Proof.WhTree
import Verif.Proof.WhIter
import Verif.Proof.WhFilter
import Verif.Proof.WhBulk
import Verif.Spec.IntStates
import Verif.Proof.IntStates
import Verif.Props.SampleInt
import Verif.Props.IntTree
import Verif.Spec.Rate
import Verif.Proof.Fpr
import Verif.Props.Rate
import Verif.Model.WhMeta
import Verif.Model.WhFull
import Verif.Spec.WhIndex
import Verif.Proof.WhBits
import Verif.Proof.WhLookup
import Verif.Proof.WhTouch
import Verif.Proof.WhDrop
import Verif.Proof.WhFull
import Verif.Proof.IxFilter
import Verif.Props.Index
import Verif.Model.WhHash
import Verif.Spec.WhHash
import Verif.Proof.WhHash
import Verif.Proof.WhHashSet
import Verif.Proof.WhHashLoop
import Verif.Props.Hash
import Verif.Model.WhStr
import Verif.Model.WhStrFilter
import Verif.Model.WhStrScan
import Verif.Model.WhStrFull
import Verif.Spec.StrTree
import Verif.Spec.StrStates
import Verif.Spec.StrClient
import Verif.Proof.WhStrHs
import Verif.Proof.WhStrIns
import Verif.Proof.WhStrLeaf
import Verif.Proof.WhStrOps
import Verif.Proof.WhStrTree
import Verif.Proof.WhStrIter
import Verif.Proof.WhStrFilter
import Verif.Proof.WhStrMap
import Verif.Proof.WhStrScan
import Verif.Proof.StrStates
import Verif.Proof.WhStrFull
import Verif.Proof.StrClient
import Verif.Proof.StrShort
import Verif.Proof.StrOverflow
import Verif.Proof.StrCrowd
import Verif.Props.StrTree
import Verif.Props.StrIndex
import Verif.Model.WhTab
import Verif.Spec.StrTab
import Verif.Proof.WhTab
import Verif.Proof.WhTabStr
import Verif.Props.StrTab
import Verif.Model.WhScan
import Verif.Spec.IntRuns
import Verif.Proof.WhScan
import Verif.Proof.WhFresh
import Verif.Proof.WhStream
import Verif.Proof.IntRuns
import Verif.Proof.StreamTwice
import Verif.Props.IntRuns
import Verif.Model.WhLock
import Verif.Spec.Lock
import Verif.Proof.WhLock
import Verif.Proof.LockFilter
import Verif.Props.Lock
import Verif.Model.WhIntClient
import Verif.Model.WhIntLock
import Verif.Spec.IntClient
import Verif.Proof.IntClient
import Verif.Proof.WhIntLock
import Verif.Props.IntLock
import Verif.Model.WhIntTab
import Verif.Spec.IntTab
import Verif.Proof.WhIntTab
import Verif.Proof.IntTabRuns
import Verif.Proof.IntBare
import Verif.Props.IntTab
import Verif.Proof.Crowd
import Verif.Props.Crowd
import Verif.Model.WhMem
import Verif.Spec.WhMem
import Verif.Proof.WhMem
import Verif.Proof.WhMemStr
import Verif.Props.Mem
import Verif.Spec.Shrunk
import Verif.Spec.Present
import Verif.Proof.ShrinkState
import Verif.Props.Present
import Verif.Props.Dup
