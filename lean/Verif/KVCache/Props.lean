import Verif.KVCache.Static
import Verif.KVCache.Dynamic
