import Verif.Aot.PropsRun
import Verif.Aot.PropsCache
import Verif.Aot.PropsBugs
