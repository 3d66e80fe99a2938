import Verif.Kern.ConvLemmas
import Mathlib.Analysis.SpecialFunctions.Exp
import Mathlib.Algebra.Order.Floor.Ring

/-!
Resizing: `core/aops/InterpolateOp.cpp`, `backends/cpu/ops/InterpolateOp.cpp`, for `float32`.

Real arithmetic: rounding is not modelled (it can move a nearest-neighbour choice across a tie).  The `int` casts of floored
and rounded positions do not overflow.
-/

namespace Verif.Kern

open Verif.Tensor (numel)

/-- `InterpolateOpMode`, `core/aops/InterpolateOp.hpp` L11-17. -/
inductive IMode where
  | nearest
  | linear
  | bilinear
  | bicubic
  | trilinear
deriving DecidableEq, Repr

/-- `compute_scale_factors`, `ops/InterpolateOp.cpp` L14-26, for one axis. -/
noncomputable def scaleOf (align : Bool) (i o : Nat) : ℝ :=
  if o = 1 then 0 else if align then ((i : ℝ) - 1) / ((o : ℝ) - 1) else (i : ℝ) / o

/-- The source position, L48-49 and the same lines in the other functions. -/
noncomputable def srcPos (align : Bool) (scale : ℝ) (o : Nat) : ℝ :=
  if align then o * scale else ((o : ℝ) + 1 / 2) * scale - 1 / 2

/-- `std::max(0, std::min(k, n - 1))`. -/
def clampIdx (k : Int) (n : Nat) : Nat := (max 0 (min k ((n : Int) - 1))).toNat

/-- `std::round`: halves away from zero. -/
noncomputable def cRound (x : ℝ) : Int := if 0 ≤ x then ⌊x + 1 / 2⌋ else -⌊-x + 1 / 2⌋

/-- L48-57, one axis. -/
noncomputable def nearIdx (align : Bool) (i o t : Nat) : Nat := clampIdx (cRound (srcPos align (scaleOf align i o) t)) i

/-- L89-101, L136-155, L272-303, one axis: the two neighbours and their weights applied to `f`. -/
noncomputable def lerp (align : Bool) (i o t : Nat) (f : Nat → ℝ) : ℝ :=
  let s := srcPos align (scaleOf align i o) t
  let w := s - (⌊s⌋ : ℝ)
  (1 - w) * f (clampIdx ⌊s⌋ i) + w * f (clampIdx (⌊s⌋ + 1) i)

/-- `cubic_interp1d`, L176-183. -/
noncomputable def cubic (x0 x1 x2 x3 t : ℝ) : ℝ :=
  let a := -0.5 * x0 + 1.5 * x1 - 1.5 * x2 + 0.5 * x3
  let b := x0 - 2.5 * x1 + 2.0 * x2 - 0.5 * x3
  let c := -0.5 * x0 + 0.5 * x2
  ((a * t + b) * t + c) * t + x1

/-- L214-243, one axis: four neighbours, indices clamped. -/
noncomputable def cubicAxis (align : Bool) (i o t : Nat) (f : Nat → ℝ) : ℝ :=
  let s := srcPos align (scaleOf align i o) t
  cubic (f (clampIdx (⌊s⌋ - 1) i)) (f (clampIdx ⌊s⌋ i)) (f (clampIdx (⌊s⌋ + 1) i)) (f (clampIdx (⌊s⌋ + 2) i)) (s - (⌊s⌋ : ℝ))

/-- The loops over an `N C L` output, L84-112. -/
def loop3 (N C L : Nat) (v : Nat → Nat → Nat → ℝ) : List (Upd ℝ) :=
  (List.range N).flatMap fun n => (List.range C).flatMap fun c => (List.range L).map fun l =>
    Upd.put ((n * C + c) * L + l) (v n c l)

/-- The loops over an `N C H W` output, L43-68, L131-172, L207-250. -/
def loop4 (N C H W : Nat) (v : Nat → Nat → Nat → Nat → ℝ) : List (Upd ℝ) :=
  (List.range N).flatMap fun n => (List.range C).flatMap fun c => (List.range H).flatMap fun h => (List.range W).map fun w =>
    Upd.put (((n * C + c) * H + h) * W + w) (v n c h w)

/-- The loops over an `N C D H W` output, L267-341. -/
def loop5 (N C D H W : Nat) (v : Nat → Nat → Nat → Nat → Nat → ℝ) : List (Upd ℝ) :=
  (List.range N).flatMap fun n => (List.range C).flatMap fun c => (List.range D).flatMap fun d => (List.range H).flatMap fun h =>
    (List.range W).map fun w => Upd.put ((((n * C + c) * D + d) * H + h) * W + w) (v n c d h w)

/-- `nearest_interpolate_2d`, L29-69; input and output start at `x0` and `c0`. -/
noncomputable def nearest2d (align : Bool) (N C H W OH OW : Nat) (x : Nat → ℝ) (x0 : Nat) : List (Upd ℝ) :=
  loop4 N C OH OW fun n c h w => x (x0 + (((n * C + c) * H + nearIdx align H OH h) * W + nearIdx align W OW w))

/-- `linear_interpolate_1d`, L72-113. -/
noncomputable def linear1d (align : Bool) (N C L OL : Nat) (x : Nat → ℝ) : List (Upd ℝ) :=
  loop3 N C OL fun n c l => lerp align L OL l fun i => x ((n * C + c) * L + i)

/-- `bilinear_interpolate_2d`, L116-173.  The four products are grouped by row. -/
noncomputable def bilinear2d (align : Bool) (N C H W OH OW : Nat) (x : Nat → ℝ) : List (Upd ℝ) :=
  loop4 N C OH OW fun n c h w => lerp align H OH h fun i => lerp align W OW w fun j => x (((n * C + c) * H + i) * W + j)

/-- `bicubic_interpolate_2d`, L186-251: along the rows, then along the column. -/
noncomputable def bicubic2d (align : Bool) (N C H W OH OW : Nat) (x : Nat → ℝ) : List (Upd ℝ) :=
  loop4 N C OH OW fun n c h w => cubicAxis align H OH h fun i => cubicAxis align W OW w fun j => x (((n * C + c) * H + i) * W + j)

/-- `trilinear_interpolate_3d`, L254-343.  The eight products are grouped by plane and row. -/
noncomputable def trilinear3d (align : Bool) (N C D H W OD OH OW : Nat) (x : Nat → ℝ) : List (Upd ℝ) :=
  loop5 N C OD OH OW fun n c d h w => lerp align D OD d fun k => lerp align H OH h fun i => lerp align W OW w fun j =>
    x ((((n * C + c) * D + k) * H + i) * W + j)

/-- Nearest neighbour on `N C D H W`, L420-447: one slice at a time, output depth outermost. -/
noncomputable def nearest3d (align : Bool) (N C D H W OD OH OW : Nat) (x : Nat → ℝ) : List (Upd ℝ) :=
  (List.range OD).flatMap fun od => (List.range N).flatMap fun n => (List.range C).flatMap fun c =>
    (nearest2d align 1 1 H W OH OW x (((n * C + c) * D + nearIdx align D OD od) * H * W)).map
      fun u => ⟨((n * C + c) * OD + od) * OH * OW + u.addr, u.fn⟩

/-- One tap of the Gaussian before normalisation, L369-373: `k` counts from `-radius`. -/
noncomputable def gauss (radius : Nat) (sigma : ℝ) (k : Nat) : ℝ :=
  Real.exp (-((((k : Int) - radius : Int) : ℝ) * (((k : Int) - radius : Int) : ℝ)) / (2 * sigma * sigma))

/-- The normalised kernel, L367-374. -/
noncomputable def gaussW (radius : Nat) (sigma : ℝ) (k : Nat) : ℝ :=
  gauss radius sigma k / each (2 * radius + 1) (fun k s => s + gauss radius sigma k) 0

/-- One pass along an axis of `n` samples, L386-393, L403-410. -/
noncomputable def blurAxis (radius : Nat) (sigma : ℝ) (n t : Nat) (f : Nat → ℝ) : ℝ :=
  each (2 * radius + 1) (fun k s => s + gaussW radius sigma k * f (clampIdx ((t : Int) + ((k : Int) - radius)) n)) 0

/-- `max(1, ceil(3 * sigma))`, L366. -/
noncomputable def radiusOf (sigma : ℝ) : Nat := max 1 ⌈3 * sigma⌉.toNat

/-- `gaussian_blur_nchw`, L365-415: element `i` of the result, as a function of the flat index. -/
noncomputable def blur (H W : Nat) (sigma : ℝ) (x : Nat → ℝ) (i : Nat) : ℝ :=
  let r := radiusOf sigma
  blurAxis r sigma H (i / W % H) fun y => blurAxis r sigma W (i % W) fun z => x ((i / (H * W) * H + y) * W + z)

/-- L453-466, L472-485: what the two-dimensional modes read. -/
noncomputable def antialiased (align antialias : Bool) (H W OH OW : Nat) (x : Nat → ℝ) : Nat → ℝ :=
  let hs := scaleOf align H OH
  let ws := scaleOf align W OW
  if antialias = true ∧ (1 < hs ∨ 1 < ws) then blur H W (0.5 * max hs ws) x else x

/-- `reshape`, `core/aops/InterpolateOp.cpp` L40-47: the given sizes replace the last dimensions; `none`: the assertion. -/
def sizeShape (shape size : List Nat) : Option (List Nat) :=
  if size.length ≤ shape.length then some (shape.take (shape.length - size.length) ++ size) else none

/-- `core/aops/InterpolateOp.cpp` L48-58: scale factors, truncated. -/
noncomputable def scaleShape (shape : List Nat) (factor : List ℝ) : Option (List Nat) :=
  if factor.length ≤ shape.length then
    some (shape.take (shape.length - factor.length) ++
      List.zipWith (fun (d : Nat) f => ⌊(d : ℝ) * f⌋.toNat) (shape.drop (shape.length - factor.length)) factor)
  else none

/-- `forward`, `ops/InterpolateOp.cpp` L345-516, for matching ranks; `none`: a mode and rank without a kernel. -/
noncomputable def interpForward (mode : IMode) (align antialias : Bool) (x : Nat → ℝ) :
    List Nat → List Nat → Option (List (Upd ℝ))
  | [N, C, L], [_, _, OL] => match mode with
    | .nearest => some (nearest2d align N C 1 L 1 OL x 0)
    | .linear => some (linear1d align N C L OL x)
    | _ => none
  | [N, C, H, W], [_, _, OH, OW] => match mode with
    | .nearest => some (nearest2d align N C H W OH OW x 0)
    | .bilinear => some (bilinear2d align N C H W OH OW (antialiased align antialias H W OH OW x))
    | .bicubic => some (bicubic2d align N C H W OH OW (antialiased align antialias H W OH OW x))
    | _ => none
  | [N, C, D, H, W], [_, _, OD, OH, OW] => match mode with
    | .nearest => some (nearest3d align N C D H W OD OH OW x)
    | .trilinear => some (trilinear3d align N C D H W OD OH OW x)
    | _ => none
  | _, _ => none

/-- `interpolateBySize`, `nn/Functional.cpp` L165-173: output shape and stores. -/
noncomputable def interpBySize (x : Ten ℝ) (size : List Nat) (mode : IMode) (align antialias : Bool) :
    Option (List Nat × List (Upd ℝ)) := do
  let sh ← sizeShape x.shape size
  let us ← interpForward mode align antialias x.data x.shape sh
  pure (sh, us)

/-- `interpolateByScale`, `nn/Functional.cpp` L175-183. -/
noncomputable def interpByScale (x : Ten ℝ) (factor : List ℝ) (mode : IMode) (align antialias : Bool) :
    Option (List Nat × List (Upd ℝ)) := do
  let sh ← scaleShape x.shape factor
  let us ← interpForward mode align antialias x.data x.shape sh
  pure (sh, us)

end Verif.Kern
