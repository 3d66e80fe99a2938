import Verif.Quant.PropsErr
import Verif.Quant.PropsDot
import Verif.Quant.PropsDot6
import Verif.Quant.PropsLinear
