import Verif.Champ.Sparse
import Verif.Champ.Bits
import Verif.Champ.Model
import Verif.Champ.Api
import Verif.Champ.Spec
import Verif.Champ.Inv
import Verif.Champ.Ops
import Verif.Champ.MapInv
import Verif.Champ.Props
import Verif.Champ.Equals
import Verif.Champ.EqProps
import Verif.Champ.Iter
import Verif.Champ.IterProofs
import Verif.Champ.IterProps
import Verif.Champ.Diff
import Verif.Champ.DiffProps
import Verif.Rrb.Pos
import Verif.Rrb.Inv
import Verif.Rrb.PosLemmas
import Verif.Rrb.PosSpec
import Verif.Rrb.Visit
import Verif.Rrb.VisitSpec
import Verif.Rrb.PushSpec
import Verif.Rrb.SliceSpec
import Verif.Rrb.ChunkSpec
import Verif.Rrb.Vec
import Verif.Rrb.VecSpec
import Verif.Rrb.VecEq
import Verif.Rrb.SeqSpec
import Verif.Rrb.Algo
import Verif.Rrb.VecProps
import Verif.Rrb.Concat
import Verif.Rrb.Flex
import Verif.Rrb.PlanSpec
import Verif.Rrb.MergeSpec
import Verif.Rrb.Strict
import Verif.Rrb.ConcatSpec
import Verif.Rrb.ConcatTrees
import Verif.Rrb.FlexSpec
import Verif.Rrb.FlexRead
import Verif.Rrb.Facade
import Verif.Rrb.FlexProps
import Verif.Rrb.FlexEq
import Verif.Rrb.FlexEqProps
import Verif.Conc.Spinlock
import Verif.Conc.Refcount
import Verif.Conc.AtomSpec
import Verif.Conc.Atom
import Verif.Conc.AtomGc
import Verif.Box
import Verif.Heap.Adaptors
import Verif.Heap.History
import Verif.Conc.FreeList
import Verif.Array.Main
import Verif.Array.GcMain
import Verif.Mem.Reach
import Verif.ChampHeap.Sys
import Verif.ChampHeap.Build
import Verif.ChampHeap.Copy
import Verif.ChampHeap.Coll
import Verif.ChampHeap.Release
import Verif.ChampHeap.Value
import Verif.ChampHeap.Persist
import Verif.ChampHeap.Calm
import Verif.ChampHeap.Move
import Verif.ChampHeap.Like
import Verif.ChampHeap.PutMut
import Verif.ChampHeap.SubMut
import Verif.ChampHeap.Api
import Verif.ChampHeap.ChOps
import Verif.ChampHeap.Obs
import Verif.ChampHeap.Spec
import Verif.ChampHeap.Sound
import Verif.ChampHeap.World
import Verif.ChampHeap.Props
import Verif.ChampHeap.Examples
import Verif.Mem.Shared
import Verif.Mem.Lists
import Verif.VecHeap.Model
import Verif.VecHeap.Sys
import Verif.VecHeap.Shapes
import Verif.VecHeap.Release
import Verif.VecHeap.Build
import Verif.VecHeap.Steps
import Verif.VecHeap.Persist
import Verif.VecHeap.Slice
import Verif.VecHeap.Mut
import Verif.VecHeap.SliceMut
import Verif.VecHeap.Ops
import Verif.VecHeap.Ops2
import Verif.VecHeap.Api
import Verif.VecHeap.Spec
import Verif.VecHeap.Calm
import Verif.VecHeap.Sound
import Verif.VecHeap.World
import Verif.VecHeap.Vector
import Verif.VecHeap.Progs
import Verif.VecHeap.Props
import Verif.VecHeap.Examples
import Verif.FlexHeap.Model
import Verif.FlexHeap.Api
import Verif.FlexHeap.Fails
import Verif.FlexHeap.Shapes
import Verif.FlexHeap.Release
import Verif.FlexHeap.Build
import Verif.FlexHeap.Persist
import Verif.FlexHeap.Slice
import Verif.FlexHeap.Left
import Verif.FlexHeap.Calm
import Verif.FlexHeap.Mut
import Verif.FlexHeap.SliceMut
import Verif.FlexHeap.LeftMut
import Verif.FlexHeap.Ops
import Verif.FlexHeap.Ops2
import Verif.FlexHeap.Flex
import Verif.FlexHeap.Props
import Verif.FlexHeap.Examples
import Verif.FlexHeap.Concat
import Verif.FlexHeap.ConcatMut
import Verif.FlexHeap.ConcatFails
import Verif.FlexHeap.CalmConcat
import Verif.FlexHeap.Merge
import Verif.FlexHeap.MergeLeaf
import Verif.FlexHeap.MergeInner
import Verif.Mem.Claim
import Verif.FlexHeap.Subs
import Verif.FlexHeap.Center
import Verif.FlexHeap.ConcatInners
import Verif.FlexHeap.ConcatRoot
import Verif.FlexHeap.ConcatTail
import Verif.FlexHeap.ConcatOps
import Verif.FlexHeap.ConcatMutL
import Verif.FlexHeap.Bin
import Verif.FlexHeap.Programs
import Verif.FlexHeap.ProgramsEx
import Verif.FlexHeap.ConcatGc
import Verif.FlexHeap.Insert
import Verif.FlexHeap.Keep
import Verif.FlexHeap.InsertOk
import Verif.FlexHeap.InsertEx
import Verif.FlexHeap.Frame
import Verif.FlexHeap.FrameGc
import Verif.FlexHeap.GcOthers
import Verif.FlexHeap.GcOthersEx
import Verif.FlexHeap.GcSequences
import Verif.FlexHeap.GcSequencesEx
import Verif.FlexHeap.FramePlus
import Verif.FlexHeap.GrownPlus
import Verif.FlexHeap.OwnedPlus
import Verif.FlexHeap.GcPlusEx
import Verif.FlexHeap.CostGc
import Verif.FlexHeap.CostTables
import Verif.FlexHeap.CostGcEx
import Verif.Threads.Prog
import Verif.Threads.Model
import Verif.Threads.Logic
import Verif.Threads.Nodes
import Verif.Threads.Visit
import Verif.Threads.Ops
import Verif.Threads.Sound
import Verif.Threads.Spec
import Verif.Threads.Machine
import Verif.Threads.Order
import Verif.Threads.Recent
import Verif.Threads.World
import Verif.Threads.Run
import Verif.Threads.Exec
import Verif.Threads.Props
import Verif.Mem.Cost
import Verif.Mem.Keep
import Verif.VecHeap.Cost
import Verif.VecHeap.CostWorld
import Verif.VecHeap.CostProps
import Verif.VecHeap.InPlace
import Verif.FlexHeap.Cost
import Verif.FlexHeap.CostCopies
import Verif.FlexHeap.CostProps
import Verif.FlexHeap.InPlace
import Verif.ChampHeap.CostProps
import Verif.FlexHeap.CostConcat
import Verif.FlexHeap.CostConcatProps
import Verif.Dv.Model
import Verif.Dv.Base
import Verif.Dv.Moves
import Verif.Dv.Fresh
import Verif.Dv.Ops
import Verif.Dv.Iters
import Verif.Dv.Loses
import Verif.Dv.Spec
import Verif.Dv.Props
import Verif.FlexHeap.Depth
import Verif.FlexHeap.DepthConcat
import Verif.FlexHeap.CostInsert
import Verif.FlexHeap.CostInsertEx
import Verif.VecHeap.Tokens
import Verif.FlexHeap.TokenReuse
import Verif.ChampHeap.Tokens
import Verif.Array.GcTokens
import Verif.Array.GcFrame
import Verif.Rrb.AllOf
