import Verif.Prelude
import Verif.Token.WordPiece

/-!
# Streaming generation of MiniCPM-o (text and speech)

`mllm/models/minicpm_o2_6/llm_chunk_generation.hpp` (the language model's text in chunks),
`streaming_generation.{hpp,cpp}` (text chunks into the speech model, audio out) and the streaming mask of
`modeling_chattts.hpp`.

The neural networks are arbitrary: the tokens the language model samples are an arbitrary sequence `nx` (whatever the
model and the sampler produce), the speech model stops or does not stop in each call as it likes, and the decoded
waveforms are arbitrary.  A string is a list of bytes.  `none` stands for undefined behaviour (reading or writing
outside a buffer).
-/
namespace Verif.Stream

abbrev Str := List Nat

/-! ### ChunkGenerator -/

/-- `ChunkGenerationConfig` (llm_chunk_generation.hpp L29-38), without the sampling parameters. -/
structure CCfg where
  maxNew : Nat
  chunk : Nat
  eos : List Int

/-- `ChunkGenerationOutput` (L20-24); `count = none`: the field `tokens_generated` has no initialiser. -/
structure COut where
  text : Str
  finished : Bool
  count : Option Nat
  deriving DecidableEq, Repr

/-- The generation state (L325-331); the hidden states are not modelled.  `count` is also the number of forward
passes made. -/
structure Gen where
  left : List Int
  count : Nat
  first : Bool
  fin : Bool
  deriving DecidableEq, Repr

/-- `initialize` (L98-109). -/
def Gen.init : Gen := ⟨[], 0, true, false⟩

/-- `decodeTokens` (L166-173); `d` is `detokenize` followed by the conversion to UTF-8. -/
def decodeTokens (d : Int → Str) (ids : List Int) : Str := ids.flatMap d

/-- The test of the `while` in `check_incomplete_tokens` (L193-196). -/
def endsRepl (s : Str) : Bool := [0xEF, 0xBF, 0xBD].isSuffixOf s

/-- `check_incomplete_tokens` (L184-205); the argument is `end`. -/
def checkInc (d : Int → Str) (ids : List Int) : Nat → Nat
  | 0 => 0
  | n + 1 => if endsRepl (decodeTokens d (ids.take (n + 1))) then checkInc d ids n else n + 1

/-- The sampling loop (L249-285): `n` iterations left, `k` tokens sampled before.  The flag is `eos_encountered`. -/
def sample (nx : Nat → Int) (eos : List Int) : Nat → Nat → List Int × Bool
  | 0, _ => ([], false)
  | n + 1, k =>
    if nx k ∈ eos then ([nx k], true)
    else (nx k :: (sample nx eos n (k + 1)).1, (sample nx eos n (k + 1)).2)

/-- The chunk size (L238-241). -/
def chunkSize (c : CCfg) (g : Gen) : Nat := min (if g.first then min c.chunk 3 else c.chunk) (c.maxNew - g.count)

/-- `generate_next_chunk` (L220-318): the new state, the new output and the return value. -/
def nextChunk (c : CCfg) (nx : Nat → Int) (d : Int → Str) (g : Gen) (o : COut) : Gen × COut × Bool :=
  if g.fin then (g, { o with finished := true }, false)
  else if c.maxNew ≤ g.count then
    ({ g with fin := true }, { o with finished := true, text := if g.left ≠ [] then decodeTokens d g.left else o.text }, false)
  else
    let r := sample nx c.eos (chunkSize c g) g.count
    let comb := g.left ++ r.1
    let ve := checkInc d comb comb.length
    let left := comb.drop ve
    let cnt := g.count + r.1.length
    let text := if 0 < ve then decodeTokens d (comb.take ve) else []
    let fin := r.2 || decide (c.maxNew ≤ cnt)
    (⟨left, cnt, g.first && decide (r.1.length ≤ 1) && r.2 || g.first && decide (r.1 = []), g.fin || fin⟩,
     ⟨if fin && decide (left ≠ []) && !r.2 then text ++ decodeTokens d left else text, fin, some cnt⟩, true)

/-- `ChunkGenerator::Iterator` (L114-155) together with the generator it points to. -/
structure It where
  gen : Gen
  isEnd : Bool
  out : COut
  deriving DecidableEq, Repr

/-- `begin()` (L124-126, L157): nothing is generated yet; the output is value-initialised. -/
def It.begin : It := ⟨Gen.init, false, ⟨[], false, none⟩⟩

/-- `operator++` / `advance` (L131-134, L145-150). -/
def It.advance (c : CCfg) (nx : Nat → Int) (d : Int → Str) (i : It) : It :=
  if i.isEnd then i
  else
    let r := nextChunk c nx d i.gen i.out
    ⟨r.1, !r.2.2 || r.2.1.finished, r.2.1⟩

/-- A range-based `for` loop over an iterator: `*it` is visited while `it != end()`, then `++it`.  `none`: still
running after `fuel` visits. -/
def visits {σ β : Type} (adv : σ → σ) (isEnd : σ → Bool) (cur : σ → β) : Nat → σ → Option (List β)
  | 0, s => if isEnd s then some [] else none
  | n + 1, s => if isEnd s then some [] else (visits adv isEnd cur n (adv s)).map (cur s :: ·)

/-! ### StreamingGenerator -/

def str (s : String) : Str := s.toList.map Char.toNat

/-- Everything outside the code of the generator: the language model's tokens and their texts, the EOS ids, the speech
tokenizer, where (if at all) the speech model samples its EOS within the 25 tokens of each call, and the waveform
decoded after each call. -/
structure Env (α : Type) where
  nx : Nat → Int
  d : Int → Str
  eos : List Int
  enc : Str → List Int
  dec : List Int → Str
  stop : Nat → Option (Fin 25)
  wav : Nat → List α

/-- `StreamingGenerationConfig` (streaming_generation.hpp L52-71): the fields a caller sets to control length and
kind of the output. -/
structure SCfg where
  maxNew : Nat
  genAudio : Bool

/-- `OmniOutput` (L42-47); `none`: a nil tensor. -/
structure Out (α : Type) where
  text : Str
  wav : Option (List α)
  finished : Bool

/-- The generator's state (streaming_generation.hpp L229-254).  `gen_text_` and `gen_text_raw_` always receive the same
text and are one field here.  `cache` is the text token whose keys and values the speech model's cache holds at a
position, `audio` the number of audio tokens fed so far. -/
structure SSt (α : Type) where
  it : It
  spk : Bool
  raw : Str
  prevLen : Nat
  chunkIdx : Nat
  llmFin : Bool
  fin : Bool
  prev : Option (List α)
  newLen : Nat
  audio : Nat
  cache : Nat → Option Int

/-- The constructor (streaming_generation.hpp L88-132): the chunk generator gets `max_new_tokens = 10` and
`chunk_size = 5` whatever the caller's configuration. -/
def chunkCfg {α : Type} (e : Env α) (_c : SCfg) : CCfg := ⟨10, 5, e.eos⟩

def SSt.init {α : Type} : SSt α := ⟨It.begin, false, [], 0, 0, false, false, none, 0, 0, fun _ => none⟩

/-- `text.rfind(w)`: the last occurrence. -/
def findLast (w s : Str) : Option Nat := (Token.findSub w.reverse s.reverse).map fun i => s.length - i - w.length

def ttsEos : Str := str "<|tts_eos|>"

/-- `substr(0, pos)` where found (streaming_generation.cpp L36-39). -/
def cutLast (s : Str) : Str := match findLast ttsEos s with | some p => s.take p | none => s

/-- `prepare_tts_text` (streaming_generation.cpp L167-204) with `streaming_text_reserved_len_ = 300`. -/
def prepare {α : Type} (e : Env α) (text : Str) : Str × Nat :=
  let n := (e.enc text).length
  if n < 300 then
    (str "[Stts]" ++ str "[spk_emb]" ++ text ++ (str "[Etts]" ++ (List.replicate (300 - n - 1) (str "[PAD]")).flatten) ++ str "[Ptts]", n)
  else
    (str "[Stts]" ++ str "[spk_emb]" ++ e.dec ((e.enc text).take 300) ++ [] ++ str "[Ptts]", 300)

/-- `begin` and `end` (L71-82) with `streaming_text_chunk_size_ = 10`, `tts_start_token_len_ = 2`. -/
def sliceBounds (k : Nat) (llmFin : Bool) (len : Nat) : Nat × Nat :=
  let b := if k = 0 then 0 else k * 10 + 2
  let e := if k = 0 then 10 + 2 else min ((k + 1) * 10 + 2) 302
  (b, if llmFin then len + 2 + 1 else e)

/-- The text prefill (L84-105): the slice `[begin, end)` of the token ids goes to the positions `begin..end-1` of the
cache; `none`: the slice leaves the id tensor. -/
def prefillText (ids : List Int) (b e : Nat) (cache : Nat → Option Int) : Option (Nat → Option Int) :=
  if b < e then
    if e ≤ ids.length then some (fun p => if b ≤ p ∧ p < e then ids[p]? else cache p) else none
  else some cache

/-- `linear_overlap_add` (L222-277) for one batch row: the output and the rest. -/
def overlapAdd {α : Type} [Field α] (prev cur : List α) (overlap : Nat) : List α × List α :=
  let o := min (min overlap prev.length) cur.length
  let den : α := if 1 < o then ((o - 1 : Nat) : α) else 1
  (prev.take (prev.length - o) ++
    (List.range o).map (fun i : Nat => (1 - (i : α) / den) * prev.getD (prev.length - o + i) 0 + (i : α) / den * cur.getD i 0),
   cur.drop o)

/-- The text part of `generate_next` (L31-60): the first call fetches two chunks. -/
def fetch {α : Type} (e : Env α) (c : SCfg) (s : SSt α) : SSt α :=
  let i1 := s.it.advance (chunkCfg e c) e.nx e.d
  let s1 := if s.spk then s else { s with spk := true, it := i1, raw := s.raw ++ cutLast i1.out.text }
  if s1.it.out.finished then s1
  else
    let i2 := s1.it.advance (chunkCfg e c) e.nx e.d
    match Token.findSub ttsEos i2.out.text with
    | some p => { s1 with it := i2, llmFin := true, raw := s1.raw ++ i2.out.text.take p }
    | none => { s1 with it := i2, llmFin := i2.out.finished, raw := s1.raw ++ i2.out.text }

/-- Audio tokens sampled in call `k` (modeling_chattts.hpp L312-426 with `max_new_token = 25`). -/
def steps {α : Type} (e : Env α) (k : Nat) : Nat := match e.stop k with | none => 25 | some j => j.val + 1

/-- The audio part (L71-149).  Each audio token takes a position of the speech model's cache, which has 1024
positions, the first audio token at 302 (streaming_generation.hpp L116-121; `StaticCache::updateKVCache` does not
check). -/
def audioPart {α : Type} [Field α] (e : Env α) (s : SSt α) : Option (SSt α × Out α) :=
  let pt := prepare e s.raw
  let be := sliceBounds s.chunkIdx s.llmFin pt.2
  (prefillText (e.enc pt.1) be.1 be.2 s.cache).bind fun cache =>
  let audio := s.audio + steps e s.chunkIdx
  if 302 + audio ≤ 1024 then
    let done := (e.stop s.chunkIdx).isSome
    let newLen := if done then audio - 1 else audio
    let w := e.wav s.chunkIdx
    let o : Option (List α) × List α :=
      match s.prev with
      | some p => (some (overlapAdd p w 2048).1, (overlapAdd p w 2048).2)
      | none => (none, w)
    some ({ s with cache := cache, chunkIdx := s.chunkIdx + 1, audio := audio, newLen := newLen, prev := some o.2,
                   prevLen := s.raw.length, fin := done || decide (1024 < newLen) },
          ⟨s.raw.drop s.prevLen, o.1, false⟩)
  else none

/-- `generate_next` (L16-154). -/
def next {α : Type} [Field α] (e : Env α) (c : SCfg) (s : SSt α) : Option (SSt α × Out α) :=
  if s.fin then some ({ s with prev := none }, ⟨[], s.prev, true⟩)
  else
    let s1 := fetch e c s
    if c.genAudio then audioPart e s1
    else if s1.llmFin then some ({ s1 with fin := true }, ⟨[], none, true⟩)
    else some (s1, ⟨[], none, false⟩)

/-- `StreamingGenerator::Iterator` (streaming_generation.hpp L137-167): state, `is_end_`, output.  `none` once an
undefined operation has happened. -/
abbrev SIt (α : Type) := Option (SSt α × Bool × Out α)

/-- `advance` (L157-162). -/
def sAdvance {α : Type} [Field α] (e : Env α) (c : SCfg) : SIt α → SIt α
  | none => none
  | some (s, true, o) => some (s, true, o)
  | some (s, false, _) => (next e c s).map fun r => (r.1, r.2.finished, r.2)

/-- `begin()` (L139-142, L169): the constructor of the iterator generates the first output. -/
def sBegin {α : Type} [Field α] (e : Env α) (c : SCfg) : SIt α := sAdvance e c (some (SSt.init, false, ⟨[], none, false⟩))

/-! ### The streaming mask -/

/-- `build_streaming_mask` (streaming_generation.cpp L206-220): is the entry 1? -/
def textMask (len i : Nat) : Bool := decide (i < min (1 + 1 + len + 1) 303) || decide (i = 302)

/-- `makeStreamingChunkMask` (modeling_chattts.hpp L528-588): may the audio token fed at position `past` look at
position `i`?  `A` is `streaming_audio_chunk_size`; reserved length 300, text chunk size 10, one speaker embedding,
one token at a time. -/
def chunkMask (A past len i : Nat) : Bool :=
  let chunk := (past - 300 + A - 1) / A
  let start := min (chunk * 10) 300 + 1 + 1
  let stop := 300 + 1 + 1 + 1
  decide (i < past + 1) && !(decide (start ≤ i) && decide (i < stop)) && !(decide (i < 303) && !textMask len i)

end Verif.Stream
