import Verif.Props.Components
import Verif.Props.Leaf
import Verif.Props.AtomicStack
import Verif.Props.EpochGC
import Verif.Props.ThreadLocal
import Verif.Props.Alloc
import Verif.Props.NodeId
import Verif.Props.IterHandle
import Verif.Props.Inner
import Verif.Props.FreeChain
import Verif.Props.Tree
import Verif.Props.TreeWitness
import Verif.Props.TreeMem
import Verif.Props.TreeLeak
import Verif.Props.TreeDestroy
import Verif.Props.TreeSeq
import Verif.Props.SeqTotal
import Verif.Props.SeqIter
import Verif.Props.SeqDestroy
import Verif.Props.Iterator
import Verif.Props.TreeUse
import Verif.Props.SeqBack
import Verif.Props.Stuck
import Verif.Props.SplitRace
import Verif.Props.OldEpoch
import Verif.Props.TreeDepth
import Verif.Props.Unfinished
import Verif.Props.UseAfterFree
import Verif.Props.SeqUse
import Verif.Props.SeqCollect
import Verif.Props.SeqCollectDestroy
import Verif.Props.SeqIterCollect
import Verif.Props.TreeGC
import Verif.Proofs.Reclaim
import Verif.Proofs.TreeReclaim
import Verif.Proofs.Toggle
import Verif.Props.Reclaim
import Verif.Props.TreeUpdate
import Verif.Props.BackLate
import Verif.Model.GarbageList
import Verif.Spec.GarbageList
import Verif.Proofs.GarbageList
import Verif.Proofs.GarbageSim
import Verif.Proofs.GarbageLife
import Verif.Props.GarbageList
import Verif.Props.Registration
import Verif.Model.KeyRef
import Verif.Model.FreeOrder
import Verif.Props.KeyRef
import Verif.Props.FreeOrder
import Verif.Props.FreeMerge
import Verif.Props.FreeDestroy
import Verif.Props.FreeSeq
import Verif.Props.ChunkLive
import Verif.Props.Align
import Verif.Props.Peloton
import Verif.Props.PelotonEntry
import Verif.Props.TreeCond
import Verif.Props.PelotonTree
import Verif.Props.TreeFresh
import Verif.Props.CondLin
import Verif.Props.SpinLock
import Verif.Props.EpochTSO
import Verif.Props.TreeTSO
