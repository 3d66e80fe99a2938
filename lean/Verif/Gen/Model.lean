import Verif.Prelude

/-!
# Autoregressive generation: `generate`, `streamGenerate` and the `chat` iterator

Source: `mllm/models/ARGeneration.cpp` and `mllm/models/ARGeneration.hpp`.

What is abstracted.  The model's `forward` (a virtual function of the user's class, which owns a
KV cache and may keep any state), the random number source and the four samplers are oracles
threading a state `σ`; a tensor is an element of an arbitrary type `T`.  Everything the three
loops themselves do is modelled: which option wins, when they stop, what is fed to the next
`forward`, what is handed to the caller.  Timing calls are not modelled, except for the counters
`ar_steps_` and `ar_prefill_tokens_` (the former is kept as `steps`).
Device moves (`.to(kCPU)`, `.to(device)`) are the identity.
-/

namespace Verif.Gen

/-- `ARGenerationOutputPast` (ARGeneration.hpp L17): a map from names to tensors. -/
abbrev Past (T : Type) := String → Option T

/-- `past[k] = v` on the map. -/
def Past.set {T : Type} (p : Past T) (k : String) (v : T) : Past T :=
  fun k' => if k' = k then some v else p k'

/-- `ARGenerationArgs` (ARGeneration.hpp L18), the keys the loops read.
Absent keys are `none`.  `float` values are rationals. -/
structure Args where
  temperature : Option ℚ := none
  topK : Option Int := none
  topP : Option ℚ := none
  maxLength : Option Int := none
  eos : Option Int := none
  doSample : Option Bool := none

/-- The user's `ARGeneration` object together with the oracles (see the header). -/
structure Engine (σ T : Type) where
  /-- `virtual forward` (ARGeneration.hpp L92); `args` are fixed during one generation. -/
  forward : σ → Past T → σ × Past T
  /-- `sampleGreedy` (ARGeneration.cpp L335-L348). -/
  greedy : σ → T → σ × Int
  /-- `sampleTopK` (L370-L406). -/
  sampleTopK : Int → ℚ → σ → T → σ × Int
  /-- `sampleTopP` (L410-L441). -/
  sampleTopP : ℚ → ℚ → σ → T → σ × Int
  /-- `sampleTemperature` (L351-L367). -/
  sampleTemp : ℚ → σ → T → σ × Int
  /-- The `{1,1}` int64 tensor holding one token (L121-L123, L180-L181, L255-L257). -/
  tok : Int → T
  /-- The rank-1 int64 tensor of all tokens (L190-L192). -/
  seqOf : List Int → T
  /-- `Tensor::nil()`, also what `output["sequence"]` creates when the key is missing. -/
  nil : T
  /-- Members `max_length_`, `eos_token_id_`, `do_sample_` (ARGeneration.hpp L130-L132). -/
  maxLengthD : Int
  eosD : Int
  doSampleD : Bool

variable {σ T : Type}

/-- `args.count(k) ? args.at(k) : default`. -/
def orD {α : Type} (o : Option α) (d : α) : α := match o with | some x => x | none => d

/-! ### `generate` -/

/-- Choice of the sampler in `generate` (L135-L143 and L161-L172). -/
def genPick (E : Engine σ T) (a : Args) (s : σ) (logits : T) : σ × Int :=
  let temperature := orD a.temperature 1
  let topK := orD a.topK 0
  let topP := orD a.topP 0
  let doSample := orD a.doSample E.doSampleD
  let useSampling := doSample || (temperature ≠ 1) || (topK > 0) || (topP > 0)
  if useSampling then
    if topK > 0 then E.sampleTopK topK temperature s logits
    else if topP > 0 then E.sampleTopP topP temperature s logits
    else E.sampleTemp temperature s logits
  else E.greedy s logits

/-- What the loop of `generate` leaves behind. -/
structure GenOut (σ T : Type) where
  st : σ
  past : Past T
  tokens : List Int
  steps : Nat

/-- The `for` loop of `generate` (L145-L184); the fuel is the number of iterations left,
`max_length - i`. -/
def genLoop (E : Engine σ T) (a : Args) (eos : Int) :
    Nat → σ → Past T → List Int → Nat → GenOut σ T
  | 0, s, past, acc, steps => ⟨s, past, acc, steps⟩
  | n + 1, s, past, acc, steps =>
    let (s1, output) := E.forward s past
    let logits := orD (output "sequence") E.nil
    let (s2, next) := genPick E a s1 logits
    let acc' := acc ++ [next]
    if next = eos then ⟨s2, past, acc', steps⟩
    else genLoop E a eos n s2 (output.set "sequence" (E.tok next)) acc' (steps + 1)

/-- `ARGeneration::generate` (L131-L199): the final oracle state, the returned map, the tokens
in it and the increase of `ar_steps_`. -/
def generate (E : Engine σ T) (a : Args) (s : σ) (input : Past T) : GenOut σ T :=
  let maxLength := orD a.maxLength E.maxLengthD
  let eos := orD a.eos E.eosD
  let r := genLoop E a eos maxLength.toNat s input [] 0
  let p1 := r.past.set "logits" E.nil
  let p2 := p1.set "input_ids" E.nil
  let p3 := p2.set "generated_sequence" (E.seqOf r.tokens)
  ⟨r.st, p3, r.tokens, r.steps⟩

/-! ### `streamGenerate` -/

/-- Choice of the sampler in `streamGenerate` (L206-L214 and L236-L247). -/
def streamPick (E : Engine σ T) (a : Args) (s : σ) (logits : T) : σ × Int :=
  let temperature := orD a.temperature 1
  let topK := orD a.topK 0
  let topP := orD a.topP 0
  let doSample := orD a.doSample E.doSampleD
  let useSampling := doSample || (temperature ≠ 1) || (topK > 0) || (topP > 0)
  if useSampling then
    if topK > 0 then E.sampleTopK topK temperature s logits
    else if topP > 0 then E.sampleTopP topP temperature s logits
    else E.sampleTemp temperature s logits
  else E.greedy s logits

/-- The `for` loop of `streamGenerate` (L216-L260).  The callback is a state transformer `cb`
on the caller's own state `γ`. -/
def streamLoop {γ : Type} (E : Engine σ T) (a : Args) (eos : Int) (cb : γ → Int → γ) :
    Nat → σ → Past T → γ → Nat → σ × γ × Nat
  | 0, s, _, g, steps => (s, g, steps)
  | n + 1, s, past, g, steps =>
    let (s1, output) := E.forward s past
    let logits := orD (output "sequence") E.nil
    let (s2, next) := streamPick E a s1 logits
    let g' := cb g next
    if next = eos then (s2, g', steps)
    else streamLoop E a eos cb n s2 (output.set "sequence" (E.tok next)) g' (steps + 1)

/-- `ARGeneration::streamGenerate` (L202-L264). -/
def streamGenerate {γ : Type} (E : Engine σ T) (a : Args) (cb : γ → Int → γ) (s : σ)
    (input : Past T) (g : γ) : σ × γ × Nat :=
  streamLoop E a (orD a.eos E.eosD) cb (orD a.maxLength E.maxLengthD).toNat s input g 0

/-! ### The `chat` iterator -/

/-- `ARGenerationChatIterator` (ARGeneration.hpp L31-L73).  The generator object behind `gen_`
is the oracle state `st`; `gen_ == nullptr` is `hasGen = false`. -/
structure Iter (σ T : Type) where
  hasGen : Bool
  st : σ
  input : Past T
  curStep : Int
  curTok : Int
  finished : Bool
  count : Int
  temperature : ℚ
  topK : Int
  topP : ℚ
  maxLength : Int
  eos : Int
  doSample : Bool
  steps : Nat

/-- The sampler choice inside `step` (L77 and L96-L107). -/
def Iter.pick (E : Engine σ T) (it : Iter σ T) (s1 : σ) (logits : T) : σ × Int :=
  let useSampling := it.doSample || (it.temperature ≠ 1) || (it.topK > 0) || (it.topP > 0)
  if useSampling then
    if it.topK > 0 then E.sampleTopK it.topK it.temperature s1 logits
    else if it.topP > 0 then E.sampleTopP it.topP it.temperature s1 logits
    else E.sampleTemp it.temperature s1 logits
  else E.greedy s1 logits

/-- `ARGenerationChatIterator::step` (L65-L127). -/
def Iter.step (E : Engine σ T) (it : Iter σ T) : Iter σ T :=
  if it.finished || !it.hasGen then it
  else if it.count ≥ it.maxLength then { it with finished := true }
  else
    let (s1, output) := E.forward it.st it.input
    let logits := orD (output "sequence") E.nil
    let (s2, next) := it.pick E s1 logits
    { it with
      st := s2
      curStep := it.count
      curTok := next
      finished := if next = it.eos then true else it.finished
      input := output.set "sequence" (E.tok next)
      count := it.count + 1
      steps := it.steps + 1 }

/-- The constructor behind `begin()` (L23, L27-L38), which already performs the first step. -/
def Iter.begin (E : Engine σ T) (a : Args) (s : σ) (input : Past T) : Iter σ T :=
  Iter.step E
    { hasGen := true, st := s, input := input, curStep := -1, curTok := 0, finished := false,
      count := 0,
      temperature := orD a.temperature 1, topK := orD a.topK 0, topP := orD a.topP 0,
      maxLength := orD a.maxLength E.maxLengthD, eos := orD a.eos E.eosD,
      doSample := orD a.doSample E.doSampleD, steps := 0 }

/-- `operator==` against `end()` (L25, L40, L55-L62): `end()` is finished and has no generator. -/
def Iter.isEnd (it : Iter σ T) : Bool :=
  if it.finished && true then true
  else if it.finished || true then false
  else true

/-- `operator++` (L46-L53). -/
def Iter.next (E : Engine σ T) (it : Iter σ T) : Iter σ T :=
  if it.finished || !it.hasGen then it else it.step E

/-- `for (auto& step : ctx) body(step)`: the body is a state transformer on `γ` that sees
`current_step` and `cur_token_id`.  `none` when the fuel runs out before `end()`. -/
def rangeFor {γ : Type} (E : Engine σ T) (body : γ → Int × Int → γ) :
    Nat → Iter σ T → γ → Option (Iter σ T × γ)
  | 0, _, _ => none
  | n + 1, it, g =>
    if it.isEnd then some (it, g)
    else rangeFor E body n (it.next E) (body g (it.curStep, it.curTok))

/-- `for (auto& step : gen.chat(input, args)) body(step)` (L445-L447). -/
def chat {γ : Type} (E : Engine σ T) (a : Args) (body : γ → Int × Int → γ) (fuel : Nat) (s : σ)
    (input : Past T) (g : γ) : Option (Iter σ T × γ) :=
  rangeFor E body fuel (Iter.begin E a s input) g

end Verif.Gen
