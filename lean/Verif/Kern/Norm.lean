import Verif.Kern.Softmax

/-!
Normalisation layers: `backends/cpu/ops/{RMSNormOp,LayerNormOp}.cpp`, `backends/cpu/kernels/arm/{rmsnorm,layernorm}.cpp`,
`backends/cpu/kernels/x86/rmsnorm.cpp`, `vsquare_mean_fp32` of `backends/cpu/kernels/{arm,x86}/math.hpp`.
Real arithmetic; `float32`.
-/

namespace Verif.Kern

open Verif.Tensor (numel)

/-- `w` or `w + 1`. -/
noncomputable def unit (off : Bool) (w : ℝ) : ℝ := if off then w + 1 else w

/-- `1 / sqrt(mean of squares + epsilon)` from the sum of squares. -/
noncomputable def rmsOf (sum : ℝ) (D : Nat) (eps : ℝ) : ℝ := 1 / Real.sqrt (sum / D + eps)

/-- Why a row kernel stopped. -/
inductive NFail where
  | misaligned
  | assertion
deriving DecidableEq, Repr

/-- x86 `vsquare_mean_fp32`, x86 `math.hpp` L74-91: `hn::Load` needs an address aligned to the vector; `at` is the first
element, counted from an aligned address. -/
noncomputable def x86Squares (lanes : Nat) (pos D : Nat) (X : Nat → ℝ) : Except NFail ℝ :=
  if 0 < D / lanes ∧ pos % lanes ≠ 0 then .error .misaligned else .ok (laneSum lanes D fun i => X i * X i)

/-- arm `rmsnorm_fp32`, arm `rmsnorm.cpp` L13-55: the vector loop advances by one element, so vectors overlap; the tail loop
starts where it stopped. -/
noncomputable def armRmsRow (off : Bool) (eps : ℝ) (D : Nat) (X W : Nat → ℝ) (c : Nat) : List (Upd ℝ) :=
  let rms := rmsOf (laneSum 4 D fun i => X i * X i) D eps
  ((List.range (D - 3)).flatMap fun d => (List.range 4).map fun v =>
    Upd.put (c + (d + v)) (X (d + v) * (unit off (W (d + v)) * rms))) ++
  (List.range' (D - 3) (D - (D - 3))).map fun d => Upd.put (c + d) (X d * rms * unit off (W d))

/-- x86 `rmsnorm_fp32`, x86 `rmsnorm.cpp` L16-49. -/
noncomputable def x86RmsRow (lanes : Nat) (off : Bool) (eps : ℝ) (D : Nat) (X W : Nat → ℝ) (pos c : Nat) :
    Except NFail (List (Upd ℝ)) := do
  let sum ← x86Squares lanes pos D X
  let rms := rmsOf sum D eps
  .ok ((List.range D).map fun i => ⟨c + i, fun _ =>
    if i < D / lanes * lanes then X i * (unit off (W i) * rms) else X i * rms * unit off (W i)⟩)

/-- arm `rmsnorm_fp32_inplace`, arm `rmsnorm.cpp` L57-101, on the cells themselves; the sum of squares adds up each vector
at once.  `m` is the memory before: the row is read before it is stored to, and no other body stores to it. -/
noncomputable def armRmsInplace (off : Bool) (eps : ℝ) (D : Nat) (W : Nat → ℝ) (c : Nat) (m : Nat → ℝ) : List (Upd ℝ) :=
  let sq (i : Nat) := m (c + i) * m (c + i)
  let sum := accum (accum 0 (D / 4) fun t => accum 0 4 fun v => sq (4 * t + v)) (D - 4 * (D / 4)) fun i => sq (4 * (D / 4) + i)
  let rms := rmsOf sum D eps
  ((List.range D).map fun i => (⟨c + i, fun y => y * rms⟩ : Upd ℝ)) ++
  (List.range D).map fun i => (⟨c + i, fun y => y * unit off (W i)⟩ : Upd ℝ)

/-- The same call on x86 uses the ordinary kernel with equal input and output. -/
noncomputable def x86RmsInplace (lanes : Nat) (off : Bool) (eps : ℝ) (D : Nat) (W : Nat → ℝ) (pos c : Nat) (m : Nat → ℝ) :
    Except NFail (List (Upd ℝ)) := do
  let sum ← x86Squares lanes pos D fun i => m (c + i)
  let rms := rmsOf sum D eps
  .ok ((List.range D).map fun i => ⟨c + i, fun y =>
    if i < D / lanes * lanes then y * (unit off (W i) * rms) else y * rms * unit off (W i)⟩)

/-- `CPURMSNormOp::forward`, `RMSNormOp.cpp` L14-90, `float32`, not in place.  `base` is the position of the first element
of the input, counted from an aligned address. -/
noncomputable def rmsForward (s : Simd) (off : Bool) (eps : ℝ) (x : Ten ℝ) (W : Nat → ℝ) (base : Nat) :
    Except NFail (List (List (List (Upd ℝ)))) :=
  let D := back x.shape 1
  let rows := numel (x.shape.take (x.shape.length - 1))
  match s with
  | .arm => .ok [(List.range rows).map fun r => armRmsRow off eps D (fun i => x.data (r * D + i)) W (r * D)]
  | .x86 lanes => do
    let bodies ← (List.range rows).mapM fun r =>
      x86RmsRow lanes off eps D (fun i => x.data (r * D + i)) W (base + r * D) (r * D)
    .ok [bodies]

/-- The same with the in-place option: `m` is the storage of the tensor. -/
noncomputable def rmsForwardInplace (s : Simd) (off : Bool) (eps : ℝ) (shape : List Nat) (W : Nat → ℝ) (base : Nat)
    (m : Nat → ℝ) : Except NFail (List (List (List (Upd ℝ)))) :=
  let D := back shape 1
  let rows := numel (shape.take (shape.length - 1))
  match s with
  | .arm => .ok [(List.range rows).map fun r => armRmsInplace off eps D W (r * D) m]
  | .x86 lanes => do
    let bodies ← (List.range rows).mapM fun r => x86RmsInplace lanes off eps D W (base + r * D) (r * D) m
    .ok [bodies]

/-- `layernorm_N_fp32`, arm `layernorm.cpp` L12-107: two passes for mean and variance, then the affine map; the vector loops
and the tail store the same expression up to the order of the factors. -/
noncomputable def layerNormRow (eps : ℝ) (N : Nat) (X : Nat → ℝ) (γ β : Option (Nat → ℝ)) (c : Nat) : List (Upd ℝ) :=
  let mean := laneSum 4 N X / N
  let var := laneSum 4 N (fun i => (X i - mean) * (X i - mean)) / N
  let std := 1 / Real.sqrt (var + eps)
  (List.range N).map fun i =>
    let norm := (X i - mean) * std
    let norm := match γ with | some g => norm * g i | none => norm
    Upd.put (c + i) (match β with | some b => norm + b i | none => norm)

/-- `CPULayerNormOp::forward`, `LayerNormOp.cpp` L14-59, `float32`; on x86 the body of the loop is empty. -/
noncomputable def layerNormForward (s : Simd) (ns : List Nat) (eps : ℝ) (x : Ten ℝ) (γ β : Option (Nat → ℝ)) :
    Except NFail (List (List (List (Upd ℝ)))) :=
  if x.stride ≠ rowStr x.shape then .error .assertion else
  let N := numel ns
  if N = 0 then .error .assertion else
  if numel x.shape % N ≠ 0 then .error .assertion else
  match s with
  | .arm => .ok [(List.range (numel x.shape / N)).map fun l => layerNormRow eps N (fun i => x.data (l * N + i)) γ β (l * N)]
  | .x86 _ => .ok [(List.range (numel x.shape / N)).map fun _ => []]

end Verif.Kern
