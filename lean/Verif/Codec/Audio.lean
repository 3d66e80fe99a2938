import Verif.Prelude
import Mathlib.Analysis.SpecialFunctions.Trigonometric.Basic
import Mathlib.Algebra.BigOperators.Group.Finset.Basic
import Mathlib.Algebra.Order.Floor.Ring
import Mathlib.Data.Rat.Floor

/-!
# Reading audio files

Models of mllm/preprocessor/audio/Audio.cpp (`AU`): channels, resampling, clips.  Samples are real numbers (the code
computes in `float`), `int` results outside 32 bits are an error (undefined behaviour in C++).
-/

namespace Verif.Codec

open Finset

/-- Stores of `val a` at `key a` for the elements of a list, one after the other. -/
def scatter {α κ : Type} [DecidableEq κ] (l : List α) (key : α → κ) (val : α → ℝ) (m : κ → ℝ) : κ → ℝ :=
  l.foldl (fun m a => Function.update m (key a) (val a)) m

/-- `get_wav_data` (AU L355-L362) and the splitting of resampled data (AU L514-L519): interleaved to planar. -/
def planar (data : Nat → ℝ) (size channels : Nat) : Nat × Nat → ℝ :=
  scatter (List.range size) (fun i => (i % channels, i / channels)) data (fun _ => 0)

/-- `toMono` (AU L425-L438). -/
noncomputable def toMono (wav : Nat × Nat → ℝ) (channels n : Nat) : ℝ :=
  if channels = 1 then wav (0, n) else ((List.range channels).foldl (fun s c => s + wav (c, n)) 0) / channels

/-- `base_freq` (AU L192-L193). -/
noncomputable def baseFreq (orig new : Nat) : ℝ := (min orig new : ℕ) * (99 / 100)

/-- `width` (AU L195). -/
noncomputable def width (orig new : Nat) : Nat := ⌈6 * (orig : ℝ) / baseFreq orig new⌉₊

/-- The kernel (AU L197-L239) of output phase `i` at tap `j`. -/
noncomputable def kernelAt (orig new i j : Nat) : ℝ :=
  let idx : ℝ := (-(width orig new : ℝ) + j) / orig
  let t : ℝ := (-(i : ℝ) / new + idx) * baseFreq orig new
  let t := max (-6) (min t 6)
  let window := Real.cos (t * Real.pi / 6 / 2) ^ 2
  let t := t * Real.pi
  let k := if t = 0 then 1 else Real.sin t / t
  k * window * (baseFreq orig new / orig)

/-- `wav_pad` (AU L241-L251) of one channel. -/
def wavPad (x : Nat → ℝ) (len left : Nat) (q : Nat) : ℝ := if q < left then 0 else if q < left + len then x (q - left) else 0

/-- `output_dim` (AU L294). -/
def outDim (inputDim ksize stride : Nat) : Nat := (inputDim - ksize) / stride + 1

/-- `conv1d_and_trans_and_viw` (AU L286-L317) of one channel. -/
noncomputable def convView (x : Nat → ℝ) (inputDim ksize stride phases : Nat) (k : Nat → Nat → ℝ) : Nat → ℝ :=
  let n := outDim inputDim ksize stride
  scatter ((List.range phases).flatMap fun oc => (List.range n).map fun i => (oc, i)) (fun a => a.2 * phases + a.1)
    (fun a => (List.range ksize).foldl (fun s j => s + x (a.2 * stride + j) * k a.1 j) 0) (fun _ => 0)

/-- The length of the resampled signal per channel (AU L336). -/
def targetLen (orig new len : Nat) : Nat := (new * len + orig - 1) / orig

/-- `resample` (AU L327-L353), interleaved as `cut_and_trans` (AU L318-L326) leaves it: the value at `i`.  `orig` and
`new` are the rates divided by their greatest common divisor. -/
noncomputable def resampled (wav : Nat × Nat → ℝ) (channels len orig new : Nat) (i : Nat) : ℝ :=
  let w := width orig new
  let padded := fun c => wavPad (fun n => wav (c, n)) len w
  let ksize := orig + 2 * w
  let conv := fun c => convView (padded c) (len + w + (w + orig)) ksize orig new (kernelAt orig new)
  conv (i % channels) (i / channels)

/-- `readWAV` (AU L489-L524) on the interleaved data of a file: the length of the result and its samples. -/
noncomputable def readWav (data : Nat → ℝ) (samples channels rate fileRate : Nat) : Nat × (Nat → ℝ) :=
  let wav := planar data (samples * channels) channels
  let g := Nat.gcd rate fileRate
  let size := if fileRate = rate then 0 else targetLen (fileRate / g) (rate / g) samples * channels
  if size = 0 then (samples, toMono wav channels)
  else
    let r := resampled wav channels samples (fileRate / g) (rate / g)
    (size / channels, toMono (planar r size channels) channels)

/-! ## Clips -/

/-- `Fraction` (AU L18-L22). -/
structure Fr where
  num : Int
  den : Int
  deriving DecidableEq, Repr

/-- An `int` result. -/
def int32 (x : Int) : Option Int := if -2 ^ 31 ≤ x ∧ x < 2 ^ 31 then some x else none

/-- The constructor with `simplify` (AU L26-L54); `none` is the exception for a zero denominator. -/
def mkFr (n d : Int) : Option Fr :=
  if d = 0 then none
  else if n = 0 then some ⟨0, 1⟩
  else
    let g : Int := Int.gcd n d
    let n' := Int.tdiv n g
    let d' := Int.tdiv d g
    some (if d' < 0 then ⟨-n', -d'⟩ else ⟨n', d'⟩)

/-- `operator+` (AU L57-L61). -/
def Fr.add (a b : Fr) : Option Fr := do
  let x ← int32 (a.num * b.den)
  let y ← int32 (b.num * a.den)
  mkFr (← int32 (x + y)) (← int32 (a.den * b.den))

/-- `operator-` (AU L64-L68). -/
def Fr.sub (a b : Fr) : Option Fr := do
  let x ← int32 (a.num * b.den)
  let y ← int32 (b.num * a.den)
  mkFr (← int32 (x - y)) (← int32 (a.den * b.den))

/-- `operator*` (AU L71-L75). -/
def Fr.mul (a b : Fr) : Option Fr := do mkFr (← int32 (a.num * b.num)) (← int32 (a.den * b.den))

/-- `operator/` (AU L78-L83). -/
def Fr.div (a b : Fr) : Option Fr := do
  if b.num = 0 then none else mkFr (← int32 (a.num * b.den)) (← int32 (a.den * b.num))

/-- The value. -/
def Fr.val (a : Fr) : ℚ := (a.num : ℚ) / a.den

/-- `Fraction::max` (AU L107-L115); quotients are compared exactly (the code compares doubles). -/
def Fr.max (a b : Fr) : Fr := if b.val ≤ a.val then a else b

/-- The global state of the sampler (AU L364-L366). -/
structure Clips where
  aug : Nat
  clip : Nat
  last : Bool

/-- `clip_sampler` (AU L368-L394). -/
def clipSampler (s : Clips) (duration clip perVideo : Fr) : Option (Fr × Clips) := do
  let m := Fr.max ⟨0, 1⟩ (← duration.sub clip)
  let uniform ← m.div (Fr.max (← perVideo.sub ⟨1, 1⟩) ⟨1, 1⟩)
  let start ← uniform.mul ⟨s.clip, 1⟩
  let s := { s with aug := s.aug + 1 }
  let s := if 1 ≤ s.aug then { s with clip := s.clip + 1, aug := 0 } else s
  let next ← uniform.mul ⟨s.clip, 1⟩
  let s := if perVideo.val ≤ (s.clip : ℚ) ∨ m.val < next.val then { s with clip := 0, last := true } else s
  let s := if s.last then { s with clip := 0 } else s
  pure (start, s)

/-- `get_clip_timepoints` (AU L396-L407): the first clip and the loop; `fuel` bounds the iterations. -/
def timepoints (fuel : Nat) (s : Clips) (clip perVideo duration : Fr) : Option (List (Fr × Fr)) :=
  match fuel with
  | 0 => none
  | fuel + 1 => do
    let (start, s) ← clipSampler s duration clip perVideo
    let stop ← start.add clip
    if s.last then pure [(start, stop)] else pure ((start, stop) :: (← timepoints fuel s clip perVideo duration))

/-- `get_clip_timepoints` (AU L408-L422) with the numbers of `processWAV` (AU L447-L448, L462-L463): positions in
samples; the conversions to `float` and `int` truncate the exact value. -/
def clips (samples rate : Nat) : Option (List (Int × Int)) := do
  let duration ← Fr.div ⟨samples, 1⟩ ⟨rate, 1⟩
  let ts ← timepoints 4 ⟨0, 0, false⟩ ⟨2, 1⟩ ⟨3, 1⟩ duration
  ts.mapM fun p => do
    let a ← p.1.mul ⟨rate, 1⟩
    let b ← p.2.mul ⟨rate, 1⟩
    pure (Int.tdiv a.num a.den, Int.tdiv b.num b.den)

/-- The positions of interleaved data `waveClip` reads (AU L120-L129). -/
def clipReads (start stop : Int) (channels : Nat) : List Int :=
  ((List.range (stop - start).toNat).map fun k : Nat => start + k).filter fun i => i % channels = 0

end Verif.Codec
