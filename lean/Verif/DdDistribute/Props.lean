import Verif.DdDistribute.AtomProps
import Verif.DdDistribute.CollectProps
import Verif.DdDistribute.GroupProps

/-! Distribution and collection: theorems for C19, C20 and C50. -/
