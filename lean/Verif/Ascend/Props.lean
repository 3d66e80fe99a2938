import Verif.Ascend.PropsPool
import Verif.Ascend.PropsAlloc
import Verif.Ascend.PropsBugs
