import Verif.Ops.Elewise
import Verif.Ops.Mask
import Verif.Ops.Gather
import Verif.Ops.TopK
import Verif.Ops.Pad
import Verif.Ops.Scatter
import Verif.Ops.Index
import Verif.Ops.Copy
