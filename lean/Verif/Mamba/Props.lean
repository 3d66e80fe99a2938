import Verif.Mamba.PropsTree
import Verif.Mamba.PropsLru
import Verif.Mamba.PropsState
import Verif.Mamba.PropsKept
import Verif.Mamba.PropsBad
import Verif.Mamba.PropsBranch
