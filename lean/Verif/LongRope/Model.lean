import Mathlib.Analysis.SpecialFunctions.Trigonometric.Basic
import Mathlib.Analysis.SpecialFunctions.Pow.Real
import Mathlib.Analysis.SpecialFunctions.Log.Basic

/-!
# MiniCPM4: rotary embedding with LongRoPE factors

`M` is mllm/models/minicpm4/modeling_minicpm4.hpp, `F` is mllm/models/minicpm4/configuration_minicpm4.hpp, `R` is
mllm/backends/cpu/ops/RoPEOp.cpp.  Floats are reals; one request (batch 1), as generation makes it.
-/

namespace Verif.LongRope

/-- The fields used, F L22, L50-57, L70, L89-92; `half` is half of the head dimension. -/
structure Cfg where
  half : ℕ
  theta : ℝ
  short : List ℝ
  long : List ℝ
  orig : ℕ
  maxPos : ℕ
  longrope : Bool

/-- `makeRoPEInvFreqWithLongRoPE`, M L16-30.  A read past the end of a factor list is 0 here. -/
noncomputable def invFreq (c : Cfg) (seqLen i : ℕ) : ℝ :=
  let f := 1 / c.theta ^ ((2 : ℝ) * i / (2 * c.half : ℕ))
  if c.short ≠ [] then f / (if seqLen > c.orig then c.long else c.short).getD i 0 else f

/-- `computeLongRoPEScalingFactor`, M L32-36. -/
noncomputable def scaling (c : Cfg) : ℝ :=
  if c.longrope then Real.sqrt (1 + Real.log (c.maxPos / c.orig) / Real.log c.orig) else 1

/-- The position ids of a forward pass, M L331-349: those handed in, one more than the last of them when the pass has one
token, or `0 … seqLen-1` when there are none. -/
def positions (seqLen : ℕ) : Option (List ℕ) → List ℕ
  | none => List.range seqLen
  | some l => if seqLen = 1 then [l.getLastD 0 + 1] else l

/-- Entry `d` of the sine row of a position, M L57-60, L68-79: both halves get the same values. -/
noncomputable def sinRow (c : Cfg) (seqLen pos d : ℕ) : ℝ :=
  let i := if d < c.half then d else d - c.half
  Real.sin (pos * invFreq c seqLen i) * scaling c

/-- The same for the cosine. -/
noncomputable def cosRow (c : Cfg) (seqLen pos d : ℕ) : ℝ :=
  let i := if d < c.half then d else d - c.half
  Real.cos (pos * invFreq c seqLen i) * scaling c

/-- `CPURoPEOp`, R L60-73: entry `d` and entry `d + half` are rotated together. -/
noncomputable def rope (c : Cfg) (seqLen pos : ℕ) (x : ℕ → ℝ) (d : ℕ) : ℝ :=
  if d < c.half then x d * cosRow c seqLen pos d - x (d + c.half) * sinRow c seqLen pos d
  else x (d - c.half) * sinRow c seqLen pos (d - c.half) + x d * cosRow c seqLen pos (d - c.half)

/-- Pass `m` of a generation with a prompt of `n` tokens: its token count and position ids, M L318-382; pass 0 is the prompt,
every other pass is the one token sampled last, with the position ids the last pass returned
(mllm/models/ARGeneration.cpp L114-123, L175-181). -/
def pass (n : ℕ) : ℕ → ℕ × List ℕ
  | 0 => (n, positions n none)
  | m + 1 => (1, positions 1 (some (pass n m).2))

/-- What attention multiplies: the rotated query of a token and the cached, rotated key of another.  A token is a pass and a
position in it. -/
noncomputable def score (c : Cfg) (n : ℕ) (mq pq mk pk : ℕ) (q k : ℕ → ℝ) : ℝ :=
  ∑ d ∈ Finset.range (2 * c.half),
    rope c (pass n mq).1 ((pass n mq).2.getD pq 0) q d * rope c (pass n mk).1 ((pass n mk).2.getD pk 0) k d

end Verif.LongRope
