import Verif.Vl.Patch
import Verif.Vl.Resize
import Verif.Vl.Pos
import Verif.Vl.Window
import Verif.Vl.RopeMath
