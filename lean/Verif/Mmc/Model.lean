import Verif.PyRadix.Props
import Verif.Vpos.Model

/-!
# Images and the prefix cache (`pymllm/orchestrator/model_runner_process.py`)

The keys and values of a position depend on everything the prompt contains up to there: words, and the pixels behind
image placeholders.  The cache only sees token ids.
-/

namespace Verif.Mmc

open Verif.PyRadix

/-- What stands at a position of a prompt: a word, or a piece of an image.  `ι` identifies the pixels. -/
inductive Content (ι : Type)
  | word (id : ℤ)
  | piece (pixels : ι) (j : ℕ)

/-- The token id the tokenizer puts there: every piece of every image is the same placeholder
(tokenizer_process.py L377-395 takes the ids from the processor; MP L684 and L679-L686 build the key from them). -/
def Content.token {ι : Type} (image : ℤ) : Content ι → ℤ
  | .word id => id
  | .piece _ _ => image

/-- The key of a prompt: `RadixKey(input_ids)`, without `extra_key` (MP L556, L686, L1059, L1077). -/
def key {ι : Type} (image : ℤ) (c : List (Content ι)) : Key := c.map (Content.token image)

/-- One prompt the server has computed, and the slots its keys and values are in. -/
abbrev Done (ι : Type) := List (Content ι) × Slots

/-- A history of cache calls in which everything inserted is a computed prompt (MP L541-L557, L1040-L1078). -/
def Served {ι : Type} (image : ℤ) (hist : List (Done ι)) (ops : List Op) : Prop :=
  ∀ now e k val, Op.insert now e k val ∈ ops → ∃ d ∈ hist, e = none ∧ k = key image d.1 ∧ val = d.2

/-- The slots an extend step reuses for a new prompt (MP L684-L726): the match, cut so that two tokens remain. -/
def reused {ι : Type} (now : ℕ) (image : ℤ) (c : Cache) (prompt : List (Content ι)) : Slots :=
  let m := (matchPrefix 1 now c none (key image prompt)).1.1
  m.take (Verif.Vpos.usedPrefix prompt.length m.length)

end Verif.Mmc
