import Verif.Tensor.PermuteLemmas
/-
`concat`, `stack`, `split`, `repeat` (C41).
Sources: mllm/core/aops/{ConcatOp,StackOp,SplitOp,RepeatOp}.cpp (shapes),
mllm/backends/cpu/ops/{ConcatOp,StackOp,RepeatOp}.cpp (data). The fp32 and fp16 cases are the same code;
other data types only print a message. Arithmetic stays inside `int32_t`.
-/
namespace Verif.Tensor
variable {α : Type}

/-- An ordered list of element writes `(address, value)`: contents of a fresh buffer afterwards. -/
def bufV (ws : List (Nat × Option α)) (k : Nat) : Option α :=
  match ws.reverse.find? (fun w => w.1 = k) with
  | some w => w.2
  | none => none

/-- Normalised dimension: `if (dim < 0) dim += n;`. -/
def normDim (n : Nat) (d : Int) : Int := if d < 0 then d + n else d

/-- Sum of the sizes at the concatenation dimension. -/
def catSize (dim : Nat) (ts : List (Tens α)) : Nat := (ts.map fun t => t.shape.getD dim 0).sum

/-- All-contiguous branch of `CPUConcatOp::forward`, backends/cpu/ops/ConcatOp.cpp L24-56:
`off` is `current_offset`. A `memcpy` of `chunk_size` elements is the copies `e = 0 … chunk_size-1`. -/
def catWritesC (num base total dim : Nat) : Nat → List (Tens α) → List (Nat × Option α)
  | _, [] => []
  | off, t :: ts =>
    let n := t.shape.getD dim 0
    ((List.range num).flatMap fun s => (List.range (n * base)).map fun e =>
      (s * (total * base) + off * base + e, t.raw (s * (n * base) + e))) ++
    catWritesC num base total dim (off + n) ts

/-- Element-by-element branch, L74-104. -/
def catWritesS (outShape : List Nat) (dim : Nat) : Nat → List (Tens α) → List (Nat × Option α)
  | _, [] => []
  | off, t :: ts =>
    ((List.range (numel t.shape)).map fun j =>
      let idx := coords t.shape j
      (lin outShape (idx.set dim (off + idx.getD dim 0)), t.elem idx)) ++
    catWritesS outShape dim (off + t.shape.getD dim 0) ts

/-- `functional::concat(ts, dim)`: shape checks of aops/ConcatOp.cpp L28-57, then the kernel.
A negative dimension below `-rank` indexes out of the shape vector: `none`. -/
def concat (ts : List (Tens α)) (d : Int) : Option (Tens α) :=
  match ts with
  | [] => none
  | t0 :: _ =>
    let n := t0.shape.length
    let dd := normDim n d
    if dd < 0 ∨ (n : Int) ≤ dd then none
    else
      let dim := dd.toNat
      if ts.all (fun t => (List.range n).all fun k => k == dim || t.shape.getD k 0 == t0.shape.getD k 0)
          && ts.all (fun t => t.shape.length == n) then
        let outShape := t0.shape.set dim (catSize dim ts)
        some (fresh outShape (bufV
          (if ts.all (fun t => (isContiguous t.shape t.stride).isSome) then
            catWritesC (numel (t0.shape.take dim)) (numel (t0.shape.drop (dim + 1))) (catSize dim ts) dim
              0 ts
          else catWritesS outShape dim 0 ts)))
      else none

/-- All-contiguous branch of `CPUStackOp::forward`, backends/cpu/ops/StackOp.cpp L23-55. -/
def stackWritesC (num inner total : Nat) : Nat → List (Tens α) → List (Nat × Option α)
  | _, [] => []
  | k, t :: ts =>
    ((List.range num).flatMap fun s => (List.range inner).map fun e =>
      ((s * total + k) * inner + e, t.raw (s * inner + e))) ++
    stackWritesC num inner total (k + 1) ts

/-- Element-by-element branch, StackOp.cpp L60-83. -/
def stackWritesS (outShape : List Nat) (dim : Nat) : Nat → List (Tens α) → List (Nat × Option α)
  | _, [] => []
  | k, t :: ts =>
    ((List.range (numel t.shape)).map fun j =>
      let idx := coords t.shape j
      (lin outShape (idx.take dim ++ k :: idx.drop dim), t.elem idx)) ++
    stackWritesS outShape dim (k + 1) ts

/-- `functional::stack(ts, dim)`: aops/StackOp.cpp L28-61 and the kernel. -/
def stack (ts : List (Tens α)) (d : Int) : Option (Tens α) :=
  match ts with
  | [] => none
  | t0 :: _ =>
    let n := t0.shape.length
    let dd := normDim (n + 1) d
    if dd < 0 ∨ (n : Int) < dd then none
    else if ts.all (fun t => t.shape == t0.shape) then
      let dim := dd.toNat
      let outShape := t0.shape.take dim ++ ts.length :: t0.shape.drop dim
      some (fresh outShape (bufV
        (if ts.all (fun t => (isContiguous t.shape t.stride).isSome) then
          stackWritesC (numel (t0.shape.take dim)) (numel (t0.shape.drop dim)) ts.length 0 ts
        else stackWritesS outShape dim 0 ts)))
    else none

/-- Section sizes, aops/SplitOp.cpp L32-45; a split size of 0 divides by zero (`none`). -/
def splitSections (n : Nat) : List Nat → Option (List Nat)
  | [k] => if k = 0 then none else if n % k ≠ 0 then none else some (List.replicate (n / k) k)
  | l => if l.sum = n then some l else none

/-- The views, aops/SplitOp.cpp L53-63. -/
def splitViews (t : Tens α) (dim : Nat) : Nat → List Nat → List (Tens α)
  | _, [] => []
  | sum, k :: ks =>
    ⟨t.off + sum * t.stride.getD dim 0, t.shape.set dim k, t.stride, t.mem⟩ ::
      splitViews t dim (sum + k) ks

/-- `Tensor::split` / `functional::split`. -/
def split (t : Tens α) (sizes : List Nat) (d : Int) : Option (List (Tens α)) :=
  let dd := normDim t.shape.length d
  if dd < 0 ∨ (t.shape.length : Int) ≤ dd then none
  else (splitSections (t.shape.getD dd.toNat 0) sizes).map (splitViews t dd.toNat 0)

/-- `CPURepeatOp::forward`, backends/cpu/ops/RepeatOp.cpp L21-52, with the output shape of
aops/RepeatOp.cpp L30-32. A negative dimension throws. -/
def repeatOp (t : Tens α) (mult : Nat) (d : Int) : Option (Tens α) :=
  if d < 0 ∨ (t.shape.length : Int) ≤ d then none
  else
    let dim := d.toNat
    let outer := numel (t.shape.take dim)
    let sz := t.shape.getD dim 0
    let inner := numel (t.shape.drop (dim + 1))
    some (fresh (t.shape.set dim (sz * mult)) (bufV
      ((List.range outer).flatMap fun o => (List.range sz).flatMap fun x =>
        (List.range mult).flatMap fun m => (List.range inner).map fun e =>
          (o * (sz * mult * inner) + x * mult * inner + m * inner + e,
            t.raw (o * (sz * inner) + x * inner + e)))))

end Verif.Tensor
