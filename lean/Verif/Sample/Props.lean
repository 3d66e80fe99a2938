import Verif.Sample.Penalty
import Verif.Sample.Filter
import Verif.Sample.Batch
import Verif.Sample.ChainProps
