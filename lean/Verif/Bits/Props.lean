import Verif.Bits.PropsCodec
import Verif.Bits.PropsPack
import Verif.Bits.PropsGemm
import Verif.Bits.PropsQuantize
