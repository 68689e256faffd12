import Verif.Base
import Verif.Adl.Props
import Verif.Algorithm.Props
import Verif.Atomic.Props
import Verif.Atomic.PropsKinds
import Verif.Atomic.PropsOrder
import Verif.Atomic.PropsRange
import Verif.AtomicBitset.Props
import Verif.AtomicBitset.PropsOrder
import Verif.AtomicBitset.PropsSingle
import Verif.BitMask.Props
import Verif.BitOps.PropsCount
import Verif.BitOps.PropsRot
import Verif.Bitset.Props
import Verif.Bitset.PropsLive
import Verif.Bitset.PropsTypes
import Verif.Bitset.PropsVisit
import Verif.Byterator.Props
import Verif.Byterator.PropsBlocks
import Verif.Byterator.PropsConst
import Verif.Byterator.PropsHistory
import Verif.Byterator.PropsSigned
import Verif.Cached.Props
import Verif.Cached.PropsCopies
import Verif.Cached.PropsInit
import Verif.Cached.PropsMoves
import Verif.Cached.PropsReenter
import Verif.Cached.PropsThreads
import Verif.Capacity.Props
import Verif.Caught.Props
import Verif.Caught.PropsList
import Verif.Caught.PropsRepair
import Verif.Caught.PropsRepairList
import Verif.Channel.PropsChannel
import Verif.Channel.PropsTurns
import Verif.Concepts.Props
import Verif.CtFormat.Props
import Verif.CtFormat.PropsArgs
import Verif.CtFormat.PropsEsc
import Verif.CtFormat.PropsMisc
import Verif.CtFormat.PropsTuple
import Verif.CtString.Props
import Verif.CtString.PropsExpr
import Verif.CxMap.Props
import Verif.CxMap.PropsEquiv
import Verif.CxMultimap.Props
import Verif.CxQueue.Props
import Verif.CxSet.Props
import Verif.CxSet.PropsEquiv
import Verif.CxVector.Props
import Verif.CxVector.PropsAccess
import Verif.Deduce.Props
import Verif.Depend.Props
import Verif.Detect.Props
import Verif.Endian.Props
import Verif.Env.Props
import Verif.Equal.Props
import Verif.FList.Props
import Verif.FList.PropsCopy
import Verif.FList.PropsFrame
import Verif.FList.PropsIterate
import Verif.FlagLock.Props
import Verif.Fmt.Props
import Verif.Functional.Props
import Verif.IList.Props
import Verif.IList.PropsCopy
import Verif.IList.PropsForeign
import Verif.IList.PropsFrameTail
import Verif.IList.PropsIterate
import Verif.IList.PropsIterateTail
import Verif.IList.PropsTail
import Verif.Ids.Props
import Verif.InitOnce.Props
import Verif.Iter.Props
import Verif.Iter.PropsObject
import Verif.Judge.Props
import Verif.Judge.PropsMultimap
import Verif.Judge.PropsOther
import Verif.Latch.Props
import Verif.Loops.Props
import Verif.Lru.Props
import Verif.Macro.Props
import Verif.Macro.PropsCxValue
import Verif.Message.Props
import Verif.Meta.Props
import Verif.Meta.PropsShrink
import Verif.Need.Props
import Verif.Optional.Props
import Verif.Optional.PropsConstruct
import Verif.Optional.PropsMoves
import Verif.Optional.PropsResult
import Verif.Optional.PropsTraits
import Verif.OverloadSet.PropsOverload
import Verif.PPMap.Props
import Verif.Peterson.Props
import Verif.Policy.PropsPolicy
import Verif.Priority.Props
import Verif.Ready.Props
import Verif.Refs.Props
import Verif.Reverse.Props
import Verif.Ring.PropsProgram
import Verif.Ring.PropsRing
import Verif.Rollover.Props
import Verif.Rollover.PropsTypes
import Verif.Saturate.Props
import Verif.Search.Props
import Verif.SeqCst.Props
import Verif.Seqlock.Props
import Verif.Shared.Props
import Verif.Signals.Props
import Verif.Span.Props
import Verif.Span.PropsConvert
import Verif.Sync.Props
import Verif.Sync.PropsAtomic
import Verif.Sync.PropsMany
import Verif.Sync.PropsTicket
import Verif.Sync.PropsTurns
import Verif.Sync.PropsTurnsProgram
import Verif.Throw.Props
import Verif.Timers.Props
import Verif.Traits.Props
import Verif.Tuple.Props
import Verif.Tuple.PropsAccess
import Verif.Tuple.PropsBuild
import Verif.Tuple.PropsCallee
import Verif.Tuple.PropsCat
import Verif.Tuple.PropsChunk
import Verif.Tuple.PropsCompare
import Verif.Tuple.PropsFold
import Verif.Tuple.PropsLike
import Verif.Tuple.PropsSets
import Verif.TypeBitset.Props
import Verif.TypeBitset.PropsGen
import Verif.TypeName.Props
import Verif.Udl.Props
import Verif.Unwind.Props
import Verif.Unwind.PropsBitset
import Verif.Unwind.PropsTuple
import Verif.Util.Props
import Verif.Util.PropsBind
import Verif.Util.PropsSizes
import Verif.Views.Props
