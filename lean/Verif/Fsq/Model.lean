import Verif.Prelude
import Mathlib.Algebra.Order.Floor.Ring
import Mathlib.Data.Rat.Floor
import Mathlib.Algebra.BigOperators.Group.List.Basic

/-!
# Finite scalar quantization

Models of mllm/models/minicpm_o2_6/modeling_vector_quantize.hpp (`VQ`) and `GFSQ::embed` of modeling_dvae.hpp (`DV`).  Numbers are
exact; a tensor is a function of the element's position in memory.  `NYI` and `MLLM_ERROR` only print.
-/

namespace Verif.Fsq

/-- Conversion of a number to an integer: toward zero. -/
def trunc (q : ℚ) : Int := if 0 ≤ q then ⌊q⌋ else ⌈q⌉

/-- `std::round`: to the nearest integer, halves away from zero. -/
def round (q : ℚ) : Int := if 0 ≤ q then ⌊q + 1 / 2⌋ else ⌈q - 1 / 2⌉

/-- The cumulative product (VQ L48). -/
def cum (a : Nat) : List Nat → List Nat
  | [] => []
  | b :: bs => a * b :: cum (a * b) bs

/-- `create_basis_tensor` (VQ L43-L54). -/
def basis (levels : List Nat) : List Nat := cum 1 (1 :: levels.dropLast)

/-- `indicesToLevelIndices` (VQ L251-L274): element `i * D + d`. -/
def levelIndex (levels : List Nat) (ind : Nat → Nat) (k : Nat) : Nat :=
  let i := k / levels.length
  let d := k % levels.length
  ind i / (basis levels).getD d 0 % levels.getD d 0

/-- `scaleAndShiftInverse` (VQ L232-L246). -/
def unscale (levels : List Nat) (z : Nat → ℚ) (k : Nat) : ℚ :=
  let h : Nat := levels.getD (k % levels.length) 0 / 2
  (z k - h) / h

/-- `scaleAndShift` (VQ L213-L227). -/
def scale (levels : List Nat) (z : Nat → ℚ) (k : Nat) : ℚ :=
  let h : Nat := levels.getD (k % levels.length) 0 / 2
  z k * h + h

/-- `indicesToCodes` (VQ L279-L282). -/
def toCodes (levels : List Nat) (ind : Nat → Nat) : Nat → ℚ := unscale levels fun k => (levelIndex levels ind k : ℚ)

/-- `codesToIndices` (VQ L287-L313). -/
def toIndices (levels : List Nat) (z : Nat → ℚ) (i : Nat) : Int :=
  ((List.range levels.length).map fun d => trunc (scale levels z (i * levels.length + d) * ((basis levels).getD d 0 : Nat))).sum

/-- `bound` (VQ L162-L183), with `eps` 0.001. -/
def bound (levels : List Nat) (z : Nat → ℚ) (k : Nat) : ℚ :=
  let l := levels.getD (k % levels.length) 0
  let half : ℚ := ((l : ℚ) - 1) * (1 + 1 / 1000) / 2
  let offset : ℚ := if l % 2 = 0 then 1 / 2 else 0
  max (-half + offset) (min (half + offset) (z k))

/-- `quantize` (VQ L191-L208). -/
def quantize (levels : List Nat) (z : Nat → ℚ) (k : Nat) : ℚ :=
  (round (bound levels z k) : ℚ) / ((levels.getD (k % levels.length) 0 : ℚ) / 2)

/-- `codebook_size_` (VQ L139-L140). -/
def size (levels : List Nat) : Nat := levels.prod

/-- `createImplicitCodebook` (VQ L151-L154): element `d` of codeword `i`. -/
def codebook (levels : List Nat) (i d : Nat) : ℚ := toCodes levels (fun i => i) (i * levels.length + d)

/-- The indices after the view and the padding of `getCodesFromIndices` (VQ L559-L590): rows and the element `row * Q + q`.  `rows` and `Qd` are
the numbers of rows (of all batches) and of quantizers of the input; `none`: the view is impossible. -/
def padded (Q rows Qd : Nat) (ind : Nat → Int) : Option (Nat × (Nat → Int)) :=
  if rows * Qd % Q ≠ 0 then none
  else
    let rows' := rows * Qd / Q
    some (rows', fun k => if Qd < Q then (if k < rows' * Qd then ind k else -1) else ind k)

/-- The gather (VQ L592-L639): codeword element of quantizer `q`, row `r` (of all batches), dimension `d`, before the scales.  An index
that is zero is taken for a masked one. -/
def gathered (levels : List Nat) (Q : Nat) (ind : Nat → Int) (q r d : Nat) : ℚ :=
  let i := ind (r * Q + q)
  let i := if i = -1 then 0 else i
  let c := max 0 (min i ((size levels : Int) - 1))
  if i = 0 then 0 else codebook levels c.toNat d

/-- The scales (VQ L525-L535). -/
def scales (levels : List Nat) (q d : Nat) : ℚ := (((levels.getD d 0 : ℚ) - 1) ^ q)⁻¹

/-- `getCodesFromIndices` and the sum over the quantizers (VQ L559-L662), before the projection: the number of rows and their elements. -/
def decode (levels : List Nat) (Q rows Qd : Nat) (ind : Nat → Int) : Option (Nat × (Nat → Nat → ℚ)) :=
  (padded Q rows Qd ind).map fun p =>
    (p.1, fun r d => ((List.range Q).map fun q => gathered levels Q p.2 q r d * scales levels q d).sum)

/-- `GFSQ::embed` (DV L147-L161) with `GroupedResidualFSQ::getOutputFromIndices` (VQ L838-L849): `x` the tokens by batch, channel and time, of
`B` batches, `G * R` channels, `T` times; `proj g` the projection of group `g` to `w` channels.  The group dimension is made the first and
is taken for the batch dimension; the result has one batch.  Result: the shape and the element by batch, channel and time. -/
def embed (levels : List Nat) (B G R T w : Nat) (proj : Nat → (Nat → ℚ) → Nat → ℚ) (x : Nat → Nat → Nat → Int) :
    Option ((Nat × Nat × Nat) × (Nat → Nat → Nat → ℚ)) :=
  let feats := fun g => decode levels R (B * T) R fun k => x (k / R / T) (g * R + k % R) (k / R % T)
  if ∀ g < G, feats g ≠ none then
    some ((1, G * w, B * T), fun _ c t => match feats (c / w) with
      | some p => proj (c / w) (p.2 t) (c % w)
      | none => 0)
  else none

/-- The loop of `ResidualFSQ::forward` (VQ L727-L760): quantized output and residual of one element after all the quantizers, `quant q` being the quantizer
of the `q`-th layer and `s q` the scale. -/
def residual (quant : Nat → ℚ → ℚ) (s : Nat → ℚ) (Q : Nat) (x : ℚ) : ℚ × ℚ :=
  (List.range Q).foldl (fun (p : ℚ × ℚ) q =>
    let v := quant q (p.2 / s q) * s q
    (p.1 + v, p.2 - v)) (0, x)

end Verif.Fsq
