import Verif.Cuda.PropsStore
import Verif.Cuda.PropsReduce
import Verif.Cuda.PropsDecode
import Verif.Cuda.PropsVec
