import Verif.Fft.Bluestein

/-!
# Short-time transform and its inverse

Models of mllm/backends/cpu/ops/STFTOp.cpp (`ST`), mllm/core/aops/STFTOp.cpp (`AS`) and mllm/core/aops/ISTFTOp.cpp
(`AI`).  Samples are real numbers, spectra complex numbers (the code computes in `float`); buffers are functions of
the index.
-/

namespace Verif.Fft

/-- The options both operators share after the checks of `reshape` (AS L27-L46, AI L27-L47). -/
structure Opts where
  nfft : Nat
  hop : Nat
  win : Nat
  center : Bool
  mode : String
  deriving DecidableEq

/-- The defaulting and clipping of the options (AS L28-L37, L41-L45; AI L28-L37, L42-L46): zero means unset. -/
def Opts.fix (o : Opts) : Opts :=
  { o with
    hop := if o.hop = 0 then o.nfft / 4 else o.hop
    win := if o.win = 0 then o.nfft else if o.nfft < o.win then o.nfft else o.win
    mode := if o.center ∧ o.mode ≠ "reflect" ∧ o.mode ≠ "constant" then "reflect" else o.mode }

/-- `n_frames` of `STFTOp::reshape` (AS L54-L63); C++ division rounds towards zero. -/
def frames (o : Opts) (len : Nat) : Int :=
  let l : Int := if o.center then (len : Int) + 2 * (o.nfft / 2 : Nat) else len
  1 + Int.tdiv (l - o.win) o.hop

/-- The length of the padded signal (ST L287-L289, L311). -/
def paddedLen (o : Opts) (len : Nat) : Nat := if o.center then len + 2 * (o.nfft / 2) else len

/-- The input positions `padSignal` reads (ST L279-L314). -/
def padReads (o : Opts) (len : Nat) : List Int :=
  (List.range len).map (fun i : Nat => (i : Int)) ++
  if o.center ∧ o.mode = "reflect" then
    (List.range (o.nfft / 2)).flatMap fun i : Nat => [((o.nfft / 2 : Nat) : Int) - i, (len : Int) - 2 - i]
  else []

/-- `padSignal` (ST L279-L314): `input` is the whole input buffer; the loops write into a zeroed vector. -/
def padSignal (input : Int → ℝ) (len : Nat) (o : Opts) : Nat → ℝ :=
  if o.center then
    let pad := o.nfft / 2
    let copied : Nat → ℝ := (List.range len).foldl (fun p i => Function.update p (pad + i) (input i)) (fun _ => 0)
    (List.range pad).foldl (fun p i =>
      if o.mode = "reflect" then
        Function.update (Function.update p i (input ((pad : Int) - i))) (pad + len + i) (input ((len : Int) - 2 - i))
      else Function.update (Function.update p i 0) (pad + len + i) 0) copied
  else (List.range len).foldl (fun p i => Function.update p i (input i)) (fun _ => 0)

/-- `windowed_input` of a frame (ST L352-L361): only the first `win_length` places are ever written, the others keep
the zero they were created with. -/
def windowed (p : Nat → ℝ) (plen : Nat) (w : Nat → ℝ) (win start i : Nat) : ℝ :=
  if i < win then (if start + i < plen then p (start + i) * w i else 0) else 0

/-- The transform of one frame (ST L364-L368). -/
noncomputable def frameFft (x : Nat → ℝ) (n : Nat) : Nat → ℂ :=
  if isPow2 n then fftRadix2 x n n (fun _ => 0) false else fftBluestein (fun i => (x i : ℂ)) n n false

/-- `CPUSTFTOp::forward` (ST L316-L385): the value at batch `b`, frequency `k`, frame `f`; `input` is the whole
buffer of all rows. -/
noncomputable def stft (input : Int → ℝ) (len : Nat) (w : Nat → ℝ) (o : Opts) (_b k f : Nat) : ℂ :=
  frameFft (windowed (padSignal input len o) (paddedLen o len) w o.win (f * o.hop)) o.nfft k

/-- Rebuilding the two-sided spectrum (ST L451-L456, L512-L517). -/
noncomputable def twoSided (s : Nat → ℂ) (bins n : Nat) : Nat → ℂ :=
  (List.range' bins (n - bins)).foldl (fun d q => Function.update d q ((starRingEnd ℂ) (d (n - q)))) (fun k => if k < bins then s k else 0)

/-- The real signal of one frame (ST L459-L470, L520-L531). -/
noncomputable def frameInv (s : Nat → ℂ) (bins n : Nat) (normalized : Bool) (i : Nat) : ℝ :=
  let d := twoSided s bins n
  let y := (if isPow2 n then fftRadix2Complex d n true else fftBluestein d n n true) i
  if normalized then y.re / n else y.re

/-- Overlap-add of the frames into a buffer of `len` samples, with the sum of the squared windows
(ST L438-L481, L499-L542). -/
noncomputable def overlap (y : Nat → Nat → ℝ) (w : Nat → ℝ) (hop win len F : Nat) : (Nat → ℝ) × (Nat → ℝ) :=
  (List.range F).foldl (fun st f =>
    (List.range win).foldl (fun (st : (Nat → ℝ) × (Nat → ℝ)) i =>
      let q := f * hop + i
      if q < len then
        (Function.update st.1 q (st.1 q + y f i * w i), Function.update st.2 q (st.2 q + w i * w i))
      else st) st) ((fun _ => 0), (fun _ => 0))

/-- Division by the envelope where it is not tiny (ST L484-L486, L544-L546). -/
noncomputable def normalised (a : (Nat → ℝ) × (Nat → ℝ)) (q : Nat) : ℝ :=
  if (1 / 10 ^ 10 : ℝ) < a.2 q then a.1 q / a.2 q else a.1 q

/-- The number of samples of a row of the output (AI L64-L73). -/
def outLen (o : Opts) (F : Nat) : Int :=
  let l : Int := ((F : Int) - 1) * o.hop + o.nfft
  if o.center then l - 2 * (o.nfft / 2 : Nat)
  else if o.mode = "same" then l - 2 * Int.tdiv ((o.win : Int) - o.hop) 2 else l

/-- How an inverse can fail. -/
inductive Bad
  /-- The length assertion (ST L430). -/
  | length
  /-- The copy reads outside the temporary buffer (ST L492). -/
  | source
  /-- The copy writes past the end of the row (ST L492). -/
  | target
  deriving DecidableEq

/-- `CPUISTFTOp::forward` (ST L387-L549) for one row: the samples it stores; `none` is a sample that is not
written.  `s f k` is the spectrum with `bins` frequencies, `F` frames. -/
noncomputable def istft (s : Nat → Nat → ℂ) (bins : Nat) (w : Nat → ℝ) (o : Opts) (normalized : Bool) (F : Nat) :
    Except Bad (Nat → Option ℝ) :=
  let y := fun f => frameInv (s f) bins o.nfft normalized
  let len := outLen o F
  if o.mode = "same" ∧ ¬ o.center then
    let pad := Int.tdiv ((o.win : Int) - o.hop) 2
    let final : Int := F * o.hop
    let full : Int := ((F : Int) - 1) * o.hop + o.win
    if 1 < |len - final| then .error .length
    else if ¬ (0 ≤ pad ∧ pad + final ≤ full) then .error .source
    else if len < final then .error .target
    else
      let a := overlap y w o.hop o.win full.toNat F
      .ok fun t => if (t : Int) < final then some (normalised a (pad.toNat + t)) else none
  else
    let a := overlap y w o.hop o.win len.toNat F
    .ok fun t => if (t : Int) < len then some (normalised a t) else none

end Verif.Fft
