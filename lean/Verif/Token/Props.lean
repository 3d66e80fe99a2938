import Verif.Token.Unicode
import Verif.Token.BPE
import Verif.Token.TrieProps
import Verif.Token.Qwen
import Verif.Token.WordPiece
import Verif.Token.Basic
import Verif.Token.Bert
