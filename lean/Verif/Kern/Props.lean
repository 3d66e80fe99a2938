import Verif.Kern.PropsMatMul
import Verif.Kern.PropsSoftmax
import Verif.Kern.PropsNorm
import Verif.Kern.PropsReduce
import Verif.Kern.PropsAct
import Verif.Kern.PropsConv2
import Verif.Kern.PropsPool
import Verif.Kern.PropsInterp
