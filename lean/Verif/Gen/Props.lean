import Verif.Gen.Loops
import Verif.Gen.Samplers
