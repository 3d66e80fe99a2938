import Verif.Serve.Front
import Verif.Serve.Batch
import Verif.Serve.Options
import Verif.Serve.HttpProps
import Verif.Serve.Chat
import Verif.Serve.Loop

/-! # The serving front end: all properties (C88-C97) -/
