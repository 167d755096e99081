import Verif.Jax
import Verif.StackModel
import Verif.StackProps
import Verif.QueueModel
import Verif.QueueProps
import Verif.KeyOrd
import Verif.MergeModel
import Verif.MergeLemmas
import Verif.MergeProps
import Verif.MergeKV
import Verif.BgpqModel
import Verif.BgpqLemmas
import Verif.BgpqInsert
import Verif.BgpqInsertTop
import Verif.BgpqDelete
import Verif.BgpqDeleteTop
import Verif.BgpqProps
import Verif.BgpqOrder
import Verif.Capacity
import Verif.SortGroup
import Verif.DedupeModel
import Verif.DedupeLemmas
import Verif.DedupeProps
import Verif.HashTableModel
import Verif.ProbePath
import Verif.HTLookup
import Verif.HTExt
import Verif.HTLanes
import Verif.HTPlace
import Verif.HTBatch
import Verif.HTParallel
import Verif.HTProps
import Verif.HTRoom
import Verif.HTRetry
import Verif.BackendModel
import Verif.HTReserve
import Verif.TritonProps
import Verif.PallasProps
import Verif.HTKernels
import Verif.HTConfluence
import Verif.HashModel
import Verif.HashProps
import Verif.HashWords
import Verif.BitpackModel
import Verif.BitpackLemmas
import Verif.BitpackBytes
import Verif.BitpackProps
import Verif.BitpackAccess
import Verif.BitpackKernels
import Verif.AggModel
import Verif.AggLemmas
import Verif.AggProps
import Verif.UniqueModel
import Verif.UniqueProps
import Verif.UniqueInverse
import Verif.UniqueExact
import Verif.UniqueCollide
import Verif.UpdateModel
import Verif.UpdateProps
import Verif.NArr
import Verif.SoATree
import Verif.JnpModel
import Verif.SoAModel
import Verif.SoAConf
import Verif.SoAShape
import Verif.SoAIndex
import Verif.SoASet
import Verif.SoABatch
import Verif.SoASplit
import Verif.SoAPad
import Verif.SoAWhere
import Verif.SoAExtra
import Verif.SoAReshape
import Verif.SoAEq
import Verif.SoAAxisModel
import Verif.SoAAxis
import Verif.SoAMove
import Verif.SoAAxisOps
import Verif.SoAAxisOps2
import Verif.SoAAxisOps3
import Verif.IoModel
import Verif.IoProps
import Verif.PytreeModel
import Verif.PytreeProps
import Verif.DescModel
import Verif.DescProps
import Verif.DescDefault
import Verif.DescPolicy
import Verif.DescRandom
import Verif.CacheModel
import Verif.CacheProps
import Verif.SoALaws
import Verif.SoALaws2
import Verif.SoALaws3
import Verif.SoAStr
import Verif.BgpqPad
import Verif.SoAScalar
import Verif.SoAScalarOps
import Verif.SoAAtleast
import Verif.SoAPadMode
import Verif.SoABlock
import Verif.UniqueLegacy
import Verif.BgpqNegInf
import Verif.HTBucket256
import Verif.HTScan
import Verif.HashFloat
import Verif.BitpackKwargs
import Verif.XnpModel
import Verif.XnpProps
import Verif.ClsModel
import Verif.ClsProps
import Verif.BgpqUnstable
import Verif.HTScalar
import Verif.TypeOpsModel
import Verif.TypeOpsProps
import Verif.BgpqNaN
import Verif.HashBytes
import Verif.BgpqWith
import Verif.BgpqConfigModel
import Verif.BgpqConfig
import Verif.DedupeSort
import Verif.HTConfigModel
import Verif.HTConfig
import Verif.DedupeKeyModel
import Verif.DedupeKey
import Verif.DedupeInt
import Verif.HTKey
import Verif.HashConfigModel
import Verif.HashConfig
import Verif.HashConfigEx
import Verif.SoAMask
import Verif.AggSchemaModel
import Verif.AggSchema
import Verif.UniqueArgsModel
import Verif.UniqueArgs
import Verif.UniqueArgsProps
import Verif.UniqueArgsCases
import Verif.UniqueArgsWord
import Verif.RecordModel
import Verif.Records
import Verif.RecordTableModel
import Verif.RecordTable
import Verif.BgpqNatural
import Verif.TakeModeModel
import Verif.TakeMode
import Verif.IoCrashModel
import Verif.IoCrash
import Verif.IoEvolve
import Verif.BgpqBlocks
import Verif.BgpqDtypeModel
import Verif.BgpqDtype
import Verif.Underflow
import Verif.Search
import Verif.SearchCost
import Verif.DescSpellModel
import Verif.DescSpell
import Verif.Methods
import Verif.BgpqCacheModel
import Verif.BgpqCache
import Verif.HTCache
import Verif.StoreTypes
import Verif.StoreContainers
import Verif.StoreHeap
import Verif.Pipeline
import Verif.MixedTable
import Verif.MixedItems
import Verif.UnusedHelpers
