import Verif.DdExchange.AtomProps
import Verif.DdExchange.GhostProps
import Verif.DdExchange.Async
