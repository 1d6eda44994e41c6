import Verif.McCell.Props
import Verif.Boundary.Ortho
import Verif.Boundary.Mono
import Verif.Boundary.IO
import Verif.Boundary.Geo
import Verif.McCellList.Props
import Verif.McPairList.Props
import Verif.DdAtomMap.Props
import Verif.DdAtomStorage.Props
import Verif.DdGroup.Props
import Verif.DdChem.Props
import Verif.DdBuffer.Props
import Verif.DdDomain.Props
import Verif.DdExchange.Props
import Verif.DdDistribute.Props
import Verif.DdCellList.Wrong
import Verif.Bond.Props
import Verif.Angle.Random
import Verif.Dihedral.Sharing
import Verif.Species.Structure
import Verif.McMem.Active
import Verif.McPool.Props
import Verif.McLink.Props
import Verif.Cluster.Cells
import Verif.McMoves.Props
import Verif.Crystal.Grid
import Verif.Replica.Props
import Verif.Integrate.Props
import Verif.Integrate.HybridProps
import Verif.McConfig.Cases
import Verif.McConfig.FormatCases
import Verif.External.Props
import Verif.Restart.Props
import Verif.Cfb.Props
import Verif.Cfb.Demo
import Verif.Cfb.Wrong
import Verif.Cfb.Lengths
import Verif.Cfb.Bonds
import Verif.DdExchange.GroupProps
import Verif.DdExchange.GroupImage
import Verif.DdExchange.GroupExample
import Verif.DdRun.Props
import Verif.DdRun.Example
import Verif.Thermo.Props
import Verif.Thermo.Dpd
import Verif.Restart.IntegratorProps
import Verif.Restart.Continue
import Verif.Nph.Example
import Verif.Nph.List
import Verif.Nph.HybridExample
import Verif.Cfb.ReptEnergy
import Verif.Cfb.ReptFlow
import Verif.Cfb.ReptProps
import Verif.Cfb.ReptWrong
import Verif.Generate.Wrong
import Verif.Ewald.Witness
import Verif.Spme.Witness
import Verif.Rebridge.Witness
import Verif.Analyze.Witness
import Verif.Post.Witness
import Verif.PpStore.Witness
import Verif.FreeEnergy.Witness
import Verif.Schedule.Witness
import Verif.Select.Witness
import Verif.Scatter.Witness
import Verif.McRun.Witness
import Verif.Bridge.Witness
import Verif.Double.Witness
import Verif.Traj.Witness
import Verif.Hoomd.Witness
import Verif.Dcd.Witness
import Verif.PpConf.Witness
