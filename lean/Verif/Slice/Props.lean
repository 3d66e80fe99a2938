import Verif.Slice.PropsImage
import Verif.Slice.PropsText
