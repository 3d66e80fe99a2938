import Verif.Marlin.PropsStripe
import Verif.Marlin.PropsHost
import Verif.Marlin.PropsRepack
import Verif.Marlin.PropsPipe
import Verif.Marlin.PropsColScale
import Verif.Marlin.PropsGemm
