import Verif.StringLit.Props
import Verif.BitUtils.Props
import Verif.BitVector.Props
import Verif.EnumSet.Props
import Verif.Lcs.Props
import Verif.Cfa.Props
import Verif.Reducer.Props
import Verif.Binary.Props
import Verif.Binary.Example
import Verif.Binary.Pattern
import Verif.CompactIds.Props
import Verif.NextId.Props
import Verif.Flags.Props
import Verif.PassManager.Props
import Verif.TargetEnv.Props
import Verif.SmallVector.Props
import Verif.IList.Props
import Verif.Fold.Props
import Verif.ParseNumber.Props
import Verif.SpecConst.Props
import Verif.NameMapper.Props
import Verif.Asm.Props
import Verif.Link.Props
import Verif.EquivRel.Props
import Verif.Strength.Props
import Verif.DomTree.Props
import Verif.DefUse.Props
import Verif.DeadConst.Props
import Verif.DeadFunc.Props
import Verif.DataFlow.Props
import Verif.Adjacency.Props
import Verif.Layout.Props
import Verif.IdCheck.Props
import Verif.DomCheck.Props
import Verif.Propagator.Props
import Verif.Loader.Props
import Verif.Rules.Props
import Verif.HexFloat.Props
import Verif.ScalarEvo.Props
import Verif.Disasm.Example
import Verif.Unroll.Example
import Verif.Ssa.Example
import Verif.Vn.Example
import Verif.BlockLayout.Example
import Verif.LoopDep.Example
import Verif.Robust.Example
import Verif.Ccp.Props
import Verif.VectorDce.Props
import Verif.LocalElim.Props
import Verif.SingleStore.Props
import Verif.Adce.Props
import Verif.Flatten.Props
import Verif.PrivLocal.Props
import Verif.Locations.Props
import Verif.IfConv.Props
import Verif.CodeSink.Props
import Verif.Licm.Props
import Verif.BlockMerge.Props
import Verif.DeadBranch.Props
import Verif.CombineAccess.Props
import Verif.ControlDep.Props
import Verif.Divergence.Order
import Verif.Bindings.Props
import Verif.DeadMembers.Props
import Verif.Packing.Props
import Verif.UnifyConst.Props
