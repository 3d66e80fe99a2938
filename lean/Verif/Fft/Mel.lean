import Verif.Fft.Stft
import Mathlib.Analysis.SpecialFunctions.Log.Basic

/-!
# Mel features

Models of mllm/models/minicpm_o2_6/audio_preprocessor_minicpmo.hpp (`AP`).  Numbers are real (the code computes in
`float`).
-/

namespace Verif.Fft

/-- `hertz_to_mel_slaney` (AP L18-L28). -/
noncomputable def hertzToMel (f : ℝ) : ℝ :=
  if f < 1000 then 3 * f / 200 else 15 + Real.log (f / 1000) * (27 / Real.log (64 / 10))

/-- `mel_to_hertz_slaney` (AP L31-L41). -/
noncomputable def melToHertz (m : ℝ) : ℝ :=
  if m < 15 then 200 * m / 3 else 1000 * Real.exp (Real.log (64 / 10) / 27 * (m - 15))

/-- `create_hann_window` (AP L44-L58) at `i`. -/
noncomputable def hannWindow (n : Nat) (periodic : Bool) (i : Nat) : ℝ :=
  let length : ℝ := if periodic then (n : ℝ) + 1 else n
  let den : ℝ := if periodic then length else length - 1
  1 / 2 - 1 / 2 * Real.cos (2 * Real.pi * i / den)

/-- `fft_freqs` (AP L64-L67). -/
noncomputable def fftFreq (bins : Nat) (rate : ℝ) (i : Nat) : ℝ := i * (rate / 2) / ((bins : ℝ) - 1)

/-- `filter_freqs` (AP L70-L81): equal steps on the mel scale. -/
noncomputable def filterFreq (mels : Nat) (lo hi : ℝ) (i : Nat) : ℝ :=
  melToHertz (hertzToMel lo + i * (hertzToMel hi - hertzToMel lo) / ((mels : ℝ) + 1))

/-- The triangle (AP L96-L108). -/
noncomputable def triangle (l c r f : ℝ) : ℝ :=
  if l ≤ f ∧ f ≤ c ∧ c ≠ l then (f - l) / (c - l)
  else if c ≤ f ∧ f ≤ r ∧ r ≠ c then (r - f) / (r - c) else 0

/-- `create_mel_filterbank` (AP L61-L122): every entry is written once and multiplied once. -/
noncomputable def filterbank (bins mels : Nat) (lo hi rate : ℝ) (k m : Nat) : ℝ :=
  triangle (filterFreq mels lo hi m) (filterFreq mels lo hi (m + 1)) (filterFreq mels lo hi (m + 2)) (fftFreq bins rate k) *
    (2 / (filterFreq mels lo hi (m + 2) - filterFreq mels lo hi m))

/-- `clip` (AP L193, L202). -/
noncomputable def clip (lo hi x : ℝ) : ℝ := min (max x lo) hi

/-- The largest value of the tensor (AP L200). -/
noncomputable def largest (xs : List ℝ) : ℝ := xs.tail.foldl max (xs.headD 0)

/-- The logarithmic compression (AP L191-L205) of all values of the mel spectrogram; `big` is the largest float. -/
noncomputable def compress (big : ℝ) (xs : List ℝ) : List ℝ :=
  let logs := xs.map fun x => Real.log (clip (1 / 10 ^ 10) big x) / Real.log 10
  let threshold := largest logs - 8
  logs.map fun v => (clip threshold big v + 4) / 4

/-- One entry of the mel spectrogram (AP L177-L189): `power` is one or two. -/
noncomputable def melValue (s : Nat → ℂ) (fb : Nat → Nat → ℝ) (bins power m : Nat) : ℝ :=
  ((List.range bins).map fun k => (if power = 2 then ‖s k‖ * ‖s k‖ else ‖s k‖) * fb k m).sum

/-- The samples given to the extractor (AP L276-L289, L306-L319): cut or filled with zeros; `buf` is the fresh
buffer. -/
def fit (n : Nat) (audio buf : Nat → ℝ) (len : Nat) : Nat → ℝ :=
  if len ≤ n then fun i => if i < len then audio i else if i < n then 0 else buf i
  else fun i => if i < n then audio i else buf i

end Verif.Fft
