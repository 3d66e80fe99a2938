import Verif.Tensor.ViewProps
import Verif.Tensor.SliceProps
import Verif.Tensor.PermuteProps
import Verif.Tensor.ContigProps
import Verif.Tensor.JoinProps
