import Verif.Shard.PropsLayout
import Verif.Shard.PropsMlp
import Verif.Shard.PropsMerged
import Verif.Shard.PropsLoadBugs
