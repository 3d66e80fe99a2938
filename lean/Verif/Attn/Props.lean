import Verif.Attn.Paged
