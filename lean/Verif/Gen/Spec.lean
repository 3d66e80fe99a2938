import Verif.Gen.Model

/-!
# What "autoregressive generation" means, independently of the three loops

Run the model for ever: feed the input, sample a token from the logits, feed the model's own
output with the sampled token as the next sequence, and so on.  `tokAt i` is the token of step
`i`.  The generation must be the beginning of that endless run, cut at the first end-of-sequence
token or at `max_length`, whichever is first.
-/

namespace Verif.Gen

variable {σ T : Type}

/-- One step of the endless run, with a given sampler. -/
def specStep (E : Engine σ T) (draw : σ → T → σ × Int) (c : σ × Past T) : (σ × Past T) × Int :=
  let f := E.forward c.1 c.2
  let d := draw f.1 (orD (f.2 "sequence") E.nil)
  ((d.1, f.2.set "sequence" (E.tok d.2)), d.2)

/-- Oracle state and model input before step `i`. -/
def cfg (E : Engine σ T) (draw : σ → T → σ × Int) (s : σ) (input : Past T) : Nat → σ × Past T
  | 0 => (s, input)
  | i + 1 => (specStep E draw (cfg E draw s input i)).1

/-- The token sampled in step `i`. -/
def tokAt (E : Engine σ T) (draw : σ → T → σ × Int) (s : σ) (input : Past T) (i : Nat) : Int :=
  (specStep E draw (cfg E draw s input i)).2

/-- The documented precedence of the sampling options: top-k over top-p over temperature, greedy
when nothing asks for sampling. -/
def Sampler (E : Engine σ T) (a : Args) : σ → T → σ × Int :=
  let t := a.temperature.getD 1
  if 0 < a.topK.getD 0 then E.sampleTopK (a.topK.getD 0) t
  else if 0 < a.topP.getD 0 then E.sampleTopP (a.topP.getD 0) t
  else if a.doSample.getD E.doSampleD = true ∨ t ≠ 1 then E.sampleTemp t
  else E.greedy

/-- `n` is where a run must stop: not beyond the budget, not beyond an end-of-sequence token,
and not earlier than one of the two. -/
structure StopsAt (tok : Nat → Int) (eos : Int) (maxLength : Int) (n : Nat) : Prop where
  le_max : (n : Int) ≤ max maxLength 0
  no_eos_before : ∀ i, i + 1 < n → tok i ≠ eos
  reason : (n : Int) = max maxLength 0 ∨ ∃ m, n = m + 1 ∧ tok m = eos

end Verif.Gen
