import Verif.Ocr.PropsImage
import Verif.Ocr.PropsTiles
import Verif.Ocr.PropsPrompt
import Verif.Ocr.PropsConv
