import Verif.Radix.Props
import Verif.ZenFS.Props
import Verif.Evict.Props
import Verif.Buddy.Props
import Verif.ParamFile.Props
import Verif.Tensor.Props
import Verif.KVCache.Props
import Verif.Token.Props
import Verif.SymExpr.Props
import Verif.Pool.Props
import Verif.Service.Props
import Verif.Compile.Bugs
import Verif.Ptr.Props
import Verif.Args.Props
import Verif.PyRadix.Props
import Verif.PyPool.Props
import Verif.Runner.Props
import Verif.Sched.Props
import Verif.Deliver.Props
import Verif.Parse.Props
import Verif.Gen.Props
import Verif.Sample.Props
import Verif.Ops.Props
import Verif.Attn.Props
import Verif.Ipc.Props
import Verif.Serve.Props
import Verif.Gdn.Props
import Verif.Hybrid.Props
import Verif.Graph.Props
import Verif.Flash.Props
import Verif.Vl.Props
import Verif.Kern.Props
import Verif.Quant.Props
import Verif.Mamba.Props
import Verif.Shard.Props
import Verif.Ascend.Props
import Verif.Aot.Props
import Verif.Stream.Props
import Verif.Marlin.Props
import Verif.Slice.Props
import Verif.Bits.Props
import Verif.Ocr.Props
import Verif.Fft.Props
import Verif.Fft.PropsStft
import Verif.Fft.PropsMel
import Verif.Codec.PropsSampler
import Verif.Codec.PropsAudio
import Verif.Codec.PropsClips
import Verif.Lazy.Props
import Verif.Fill.Props
import Verif.Fsq.PropsDecode
import Verif.Mrope.Props
import Verif.Vpos.Props
import Verif.Vit.Props
import Verif.Cuda.Props
import Verif.Mmc.Props
import Verif.LongRope.Props
