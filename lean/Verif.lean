import Verif.Arena.Lemmas
import Verif.Arena.Model
import Verif.Arena.Panic
import Verif.Arena.Props
import Verif.Avl.Balance
import Verif.Avl.Decay
import Verif.Avl.Lawless
import Verif.Avl.Lemmas
import Verif.Avl.Model
import Verif.Avl.Panic
import Verif.Avl.Props
import Verif.Avl.Ranked
import Verif.Bp.Bytes
import Verif.Bp.Crash
import Verif.Bp.CrashExact
import Verif.Bp.Exact
import Verif.Bp.FaultProps
import Verif.Bp.FaultReopen
import Verif.Bp.Faults
import Verif.Bp.Insert
import Verif.Bp.Model
import Verif.Bp.Node
import Verif.Bp.NodeLemmas
import Verif.Bp.Props
import Verif.Bp.Reads
import Verif.Bp.Remove
import Verif.Bp.Reopen
import Verif.Bp.Sim
import Verif.Bp.Space
import Verif.Bp.Tree
import Verif.Bp.UserPanic
import Verif.Bp.Violations
import Verif.Bst.IterMut
import Verif.Bst.Lawless
import Verif.Bst.Lemmas
import Verif.Bst.Model
import Verif.Bst.Panic
import Verif.Bst.Props
import Verif.Bst.Ranked
import Verif.Drop.Calls
import Verif.Drop.Nesting
import Verif.Drop.SetCalls
import Verif.Lib.Coins
import Verif.Lib.HB
import Verif.Lib.PanicSim
import Verif.Lib.Perms
import Verif.Lib.SortedList
import Verif.Lsm.Buckets
import Verif.Lsm.Bytes
import Verif.Lsm.Crash
import Verif.Lsm.Cut
import Verif.Lsm.Durable
import Verif.Lsm.FaultProps
import Verif.Lsm.Faults
import Verif.Lsm.Fine
import Verif.Lsm.FineInv
import Verif.Lsm.FineMinMax
import Verif.Lsm.FineProps
import Verif.Lsm.IdleCalls
import Verif.Lsm.Iter
import Verif.Lsm.IterMain
import Verif.Lsm.IterProps
import Verif.Lsm.IterSys
import Verif.Lsm.Leveled
import Verif.Lsm.LeveledCost
import Verif.Lsm.LeveledEnds
import Verif.Lsm.LeveledLaws
import Verif.Lsm.LeveledLimits
import Verif.Lsm.LeveledOverflow
import Verif.Lsm.LeveledWrap
import Verif.Lsm.Litter
import Verif.Lsm.LookupBound
import Verif.Lsm.Merge
import Verif.Lsm.MetaBytes
import Verif.Lsm.Panic
import Verif.Lsm.Props
import Verif.Lsm.ReadErr
import Verif.Lsm.Removals
import Verif.Lsm.RemovalsTiered
import Verif.Lsm.Revive
import Verif.Lsm.SizeTiered
import Verif.Lsm.Store
import Verif.Lsm.StoreInv
import Verif.Lsm.StoreRun
import Verif.Lsm.StoreStep
import Verif.Lsm.Swap
import Verif.Lsm.Table
import Verif.Lsm.TableCount
import Verif.Lsm.TableRounds
import Verif.Lsm.UserPanic
import Verif.Panic.Destructors
import Verif.Panic.Props
import Verif.Radix.Cost
import Verif.Radix.IterMut
import Verif.Radix.Lemmas
import Verif.Radix.Model
import Verif.Radix.Prefix
import Verif.Radix.Props
import Verif.Radix.Sim
import Verif.RedBlack.Lawless
import Verif.RedBlack.Lemmas
import Verif.RedBlack.Model
import Verif.RedBlack.Panic
import Verif.RedBlack.Props
import Verif.RedBlack.Ranked
import Verif.Sets.Model
import Verif.Sets.Props
import Verif.Skip.DropPanic
import Verif.Skip.DropPanicProps
import Verif.Skip.Heap
import Verif.Skip.IntoIter
import Verif.Skip.Layout
import Verif.Skip.ListAppend
import Verif.Skip.ListCost
import Verif.Skip.ListExpected
import Verif.Skip.ListLemmas
import Verif.Skip.ListLevels
import Verif.Skip.ListModel
import Verif.Skip.ListProps
import Verif.Skip.ListRemove
import Verif.Skip.ListSim
import Verif.Skip.MapAlgebra
import Verif.Skip.MapBorrow
import Verif.Skip.MapCost
import Verif.Skip.MapExpected
import Verif.Skip.MapInter
import Verif.Skip.MapLawless
import Verif.Skip.MapLawlessLoop
import Verif.Skip.MapLawlessProps
import Verif.Skip.MapLawlessSim
import Verif.Skip.MapLemmas
import Verif.Skip.MapMerge
import Verif.Skip.MapModel
import Verif.Skip.MapPanic
import Verif.Skip.MapPanicSim
import Verif.Skip.MapProps
import Verif.Skip.MapRanked
import Verif.Skip.MapRankedSets
import Verif.Skip.MapSetOps
import Verif.Skip.MapSetOpsDrop
import Verif.Skip.MapSetOpsProps
import Verif.Skip.MapSetOpsSim
import Verif.Skip.MapSim
import Verif.Skip.Tower
import Verif.Skip.Web
import Verif.Skip.WebBody
import Verif.Skip.WebClean
import Verif.Skip.WebFit
import Verif.Skip.WebFrame
import Verif.Skip.WebInto
import Verif.Skip.WebLevels
import Verif.Skip.WebOuter
import Verif.Skip.WebProps
import Verif.Skip.WebRead
import Verif.Skip.WebSets
import Verif.Skip.WebSetsProps
import Verif.Skip.WebSim
import Verif.Skip.WebWrite
import Verif.Spec.Align
import Verif.Spec.Borrow
import Verif.Spec.Destructors
import Verif.Spec.HappensBefore
import Verif.Spec.Heap
import Verif.Spec.Kv
import Verif.Spec.KvFault
import Verif.Spec.Lawless
import Verif.Spec.LawlessTree
import Verif.Spec.Linearizable
import Verif.Spec.OrdMap
import Verif.Spec.OrdSet
import Verif.Spec.Panic
import Verif.Spec.Ranked
import Verif.Spec.RankedLemmas
import Verif.Spec.Scattered
import Verif.Spec.Seq
import Verif.Spec.SetOps
import Verif.Spec.SetOpsDrop
import Verif.Spec.TreeShape
import Verif.Splay.Cost
import Verif.Splay.Lawless
import Verif.Splay.Lemmas
import Verif.Splay.Model
import Verif.Splay.Panic
import Verif.Splay.Props
import Verif.Splay.Ranked
import Verif.Stack.Drop
import Verif.Stack.Lemmas
import Verif.Stack.Model
import Verif.Stack.Progress
import Verif.Stack.Props
import Verif.Stack.Sim
import Verif.Stack.WeakInv
import Verif.Stack.WeakLin
import Verif.Stack.WeakModel
import Verif.Stack.WeakProgress
import Verif.Stack.WeakProps
import Verif.Stack.WeakStep
import Verif.Treap.Height
import Verif.Treap.Lawless
import Verif.Treap.LawlessSets
import Verif.Treap.Lemmas
import Verif.Treap.ListHeight
import Verif.Treap.ListModel
import Verif.Treap.ListProps
import Verif.Treap.Model
import Verif.Treap.Panic
import Verif.Treap.Props
import Verif.Treap.Ranked
import Verif.Treap.RankedSets
