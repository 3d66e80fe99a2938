import Verif.Prelude
import Mathlib.Data.List.Sort
/-
Model of decode steps with CUDA graphs (C105-C107).
Source: pymllm/executor/cuda_graph_runner.py (below "L…"), pymllm/executor/model_runner.py (`forward`),
pymllm/layers/attention/{flashinfer_backend,gdn_backend,hybrid_backend}.py (what a decode pass reads and writes).

Simplifications (all definitions below):
* A captured graph, replayed, does what the captured pass does on the current contents of the static buffers.
* The network is arbitrary, but its lanes meet only in memory: a lane's computation uses its own hidden state, what
  it reads through its row of the request table, and the recurrent state of its row. Attention writes the new key
  and value first and then reads (flashinfer_backend.py `forward_decode`); recurrent layers gather all states, compute, and
  scatter (gdn_backend.py L383-470; the fused kernel, which works in place, is not modelled).
* A scatter with the same index twice (`buf[idx] = new`) leaves one of the written values, whichever.
* Buffers are functions of the lane; C107 shows that no lane outside them is used.
-/
namespace Verif.Graph

/-! ### Batch sizes -/

/-- Python `range(start, stop, step)` for a positive step. -/
def pyRange (start stop step : Nat) : List Nat := (List.range ((stop - start + step - 1) / step)).map fun i => start + i * step

/-- `_default_capture_batch_sizes`, L213-232. -/
def captureSizes (maxBs : Nat) : List Nat :=
  let all := [1, 2, 4, 8, 12] ++ pyRange 16 257 8 ++ pyRange 272 512 16 ++ pyRange 512 (maxBs + 1) 32
  let l := (all.filter (· ≤ maxBs)).dedup.insertionSort (· ≤ ·)
  if l.isEmpty then [1] else l

/-- `max(self.capture_bs)`, L281. -/
def maxOf (l : List Nat) : Nat := l.foldl max 0

/-- `bisect.bisect_left` on a sorted list. -/
def bisectLeft (l : List Nat) (x : Nat) : Nat := (l.takeWhile (· < x)).length

/-- L492-493. `none`: IndexError. -/
def paddedSize (l : List Nat) (n : Nat) : Option Nat := l[bisectLeft l n]?

/-- `can_run`, L330-333, for a decode batch. -/
def canRun (l : List Nat) (n : Nat) : Bool := decide (n ≤ maxOf l)

/-! ### Input buffers -/

/-- What one request contributes to a decode batch (`ForwardBatch`). -/
structure Lane where
  tok : Int
  row : Nat
  len : Nat
  loc : Nat
  pos : Int
  delta : Int
  deriving DecidableEq, Repr, Inhabited

/-- A decode batch. `deltas = false`: `mrope_position_deltas is None`. `cpu`: `seq_lens_cpu`. -/
structure Batch where
  lanes : List Lane
  deltas : Bool
  cpu : Option (List Nat)
  deriving DecidableEq, Repr

/-- `prepare_forward_batch_decode`, model_runner.py L1212-1246: positions, and the lengths on the CPU. -/
def prepare (toks : List (Int × Nat × Nat × Nat)) (deltas : Option (List Int)) : Batch where
  lanes := toks.zipIdx.map fun p =>
    { tok := p.1.1, row := p.1.2.1, len := p.1.2.2.1, loc := p.1.2.2.2, pos := (p.1.2.2.1 : Int) - 1,
      delta := match deltas with
        | some d => d.getD p.2 0
        | none => 0 }
  deltas := deltas.isSome
  cpu := some (toks.map fun p => p.2.2.1)

/-- `_InputBuffers`, L115-129. -/
structure Buf where
  tok : Nat → Int
  row : Nat → Nat
  len : Nat → Nat
  cpu : Nat → Nat
  loc : Nat → Nat
  pos : Nat → Int
  delta : Nat → Int

/-- `seq_len_fill_value`, flashinfer_backend.py L525. -/
def fillLen : Nat := 1

/-- `create`, L131-168. -/
def Buf.create : Buf where
  tok _ := 0
  row _ := 0
  len _ := fillLen
  cpu _ := fillLen
  loc _ := 0
  pos _ := 0
  delta _ := 0

/-- `buf[:n].copy_(xs)`. -/
def copyIn {α : Type} [Inhabited α] (buf : Nat → α) (xs : List α) : Nat → α := fun i => if i < xs.length then xs.getD i default else buf i

/-- `populate`, L170-212. -/
def Buf.populate (b : Buf) (x : Batch) (padded : Nat) : Buf :=
  let real := x.lanes.length
  let b1 := if padded ≠ real then { b with len := fun _ => fillLen, loc := fun _ => 0, delta := fun _ => 0 } else b
  let b2 := { b1 with
    tok := copyIn b1.tok (x.lanes.map (·.tok))
    row := copyIn b1.row (x.lanes.map (·.row))
    len := copyIn b1.len (x.lanes.map (·.len))
    loc := copyIn b1.loc (x.lanes.map (·.loc))
    pos := copyIn b1.pos (x.lanes.map (·.pos))
    delta := if x.deltas then copyIn b1.delta (x.lanes.map (·.delta)) else copyIn b1.delta (x.lanes.map fun _ => 0) }
  match x.cpu with
  | some c => { b2 with cpu := copyIn (if padded ≠ real then fun _ => fillLen else b2.cpu) c }
  | none => b2

/-- The lane of the captured pass, L411-441. -/
def Buf.lane (b : Buf) (i : Nat) : Lane := ⟨b.tok i, b.row i, b.len i, b.loc i, b.pos i, b.delta i⟩

/-- The lane of the eager pass. -/
def Batch.lane (x : Batch) (i : Nat) : Lane := x.lanes.getD i default

/-! ### A decode pass -/

/-- A layer. Attention: the value written for the new token, the first position that is read (0, or later with a sliding
window), and the output for what is read. Recurrent: the new state and the output. -/
inductive Layer (H V S : Type) where
  | attn (write : H → Int → V) (start : Nat → Nat) (out : H → Int → List V → H)
  | gdn (step : S → H → S) (out : S → H → H)

structure Net (H V S O : Type) where
  embed : Int → H
  layers : List (Layer H V S)
  head : H → O

/-- Key/value slots and recurrent states of all layers. -/
structure Mem (V S : Type) where
  kv : Nat → Nat → V
  st : Nat → Nat → S

/-- `buf[idx] = new`. -/
def Scatter {α : Type} (f : Nat → α) (ws : List (Nat × α)) (f' : Nat → α) : Prop :=
  ∀ i, (i ∉ ws.map (·.1) → f' i = f i) ∧ (i ∈ ws.map (·.1) → (i, f' i) ∈ ws)

variable {H V S O : Type}

/-- The position with the M-RoPE delta. -/
def Lane.at (l : Lane) : Int := l.pos + l.delta

/-- What lane `l` reads: positions `start (len) .. len` of its row (`create_kv_indices`, C108). -/
def reads (table : Nat → Nat → Nat) (kv : Nat → V) (start : Nat → Nat) (l : Lane) : List V :=
  (List.range' (start l.len) (l.len - start l.len)).map fun p => kv (table l.row p)

/-- The layers from number `k` on, for the lanes `0 .. n`; `hs i` is the hidden state of lane `i`. -/
inductive Layers (table : Nat → Nat → Nat) (lane : Nat → Lane) (n : Nat) :
    Nat → List (Layer H V S) → Mem V S → (Nat → H) → Mem V S → (Nat → H) → Prop where
  | nil {k m hs} : Layers table lane n k [] m hs m hs
  | attn {k write start out ls m hs m' hs'} (kv : Nat → V) :
      Scatter (m.kv k) ((List.range n).map fun i => ((lane i).loc, write (hs i) (lane i).at)) kv →
      Layers table lane n (k + 1) ls { m with kv := Function.update m.kv k kv }
        (fun i => out (hs i) (lane i).at (reads table kv start (lane i))) m' hs' →
      Layers table lane n k (.attn write start out :: ls) m hs m' hs'
  | gdn {k step out ls m hs m' hs'} (st : Nat → S) :
      Scatter (m.st k) ((List.range n).map fun i => ((lane i).row, step (m.st k (lane i).row) (hs i))) st →
      Layers table lane n (k + 1) ls { m with st := Function.update m.st k st }
        (fun i => out (step (m.st k (lane i).row) (hs i)) (hs i)) m' hs' →
      Layers table lane n k (.gdn step out :: ls) m hs m' hs'

/-- `model.forward` on the lanes `0 .. n`: the answers and the memory afterwards. -/
def Pass (net : Net H V S O) (table : Nat → Nat → Nat) (lane : Nat → Lane) (n : Nat) (m : Mem V S) (m' : Mem V S) (out : List O) : Prop :=
  ∃ hs, Layers table lane n 0 net.layers m (fun i => net.embed (lane i).tok) m' hs ∧ out = (List.range n).map fun i => net.head (hs i)

/-- `forward_decode`, model_runner.py: the eager pass. -/
def Eager (net : Net H V S O) (table : Nat → Nat → Nat) (x : Batch) (m m' : Mem V S) (out : List O) : Prop :=
  Pass net table x.lane x.lanes.length m m' out

/-- `replay`, L470-545: padding, buffers, the captured pass, and the answers of the real lanes. -/
def Replay (sizes : List Nat) (net : Net H V S O) (table : Nat → Nat → Nat) (b : Buf) (x : Batch) (m m' : Mem V S) (out : List O) (b' : Buf) : Prop :=
  ∃ padded out', paddedSize sizes x.lanes.length = some padded ∧ b' = b.populate x padded ∧
    Pass net table b'.lane padded m m' out' ∧ out = out'.take x.lanes.length

/-- The buffers after replaying some batches (most recent first), from their creation on. -/
def Buf.after (sizes : List Nat) : List Batch → Buf
  | [] => .create
  | x :: xs => (Buf.after sizes xs).populate x ((paddedSize sizes x.lanes.length).getD 0)

/-- `seq_lens_sum` passed to the attention backend, L502-506, with `forward_batch.seq_lens_sum` the sum of the lengths. -/
def lensSum (x : Batch) (padded : Nat) : Nat := (x.lanes.map (·.len)).sum + (padded - x.lanes.length) * fillLen

end Verif.Graph
