import Mathlib.Analysis.SpecialFunctions.Trigonometric.Basic
import Mathlib.Data.List.Range
import Mathlib.Tactic.Ring
import Mathlib.Tactic.Linarith
import Mathlib.Tactic.LinearCombination

/-!
# Multi-dimensional rotary embedding

Models of pymllm/layers/rope.py (`RP`) L314-L608 and pymllm/models/qwen3_vl.py (`QV`) L561-L577.  The sequence of numbers along the
last dimension is a list, device memory is a function of the address (in elements), numbers are exact.
-/

namespace Verif.Mrope

variable {R : Type} [CommRing R]

/-- `x[..., a:b:3] = y[..., a:b:3]` along the last dimension (RP L378-L381): the slice is clipped to the length. -/
def assignStep3 (x y : List R) (a b : Nat) : List R :=
  (List.range x.length).map fun j => if a ≤ j ∧ j < b ∧ (j - a) % 3 = 0 then y.getD j 0 else x.getD j 0

/-- Merging the three rows of cosines (or sines) of one token (RP L370-L392); `sec = (s_t, s_h, s_w)`.  `none`: `split` raises
because the sections do not add up to the length. -/
def merge (inter : Bool) (sec : Nat × Nat × Nat) (row : Nat → List R) : Option (List R) :=
  if inter then
    let x := assignStep3 (row 0) (row 1) 1 (sec.2.1 * 3)
    some (assignStep3 x (row 2) 2 (sec.2.2 * 3))
  else if sec.1 + sec.2.1 + sec.2.2 = (row 0).length then
    some ((row 0).take sec.1 ++ ((row 1).drop sec.1).take sec.2.1 ++ ((row 2).drop (sec.1 + sec.2.1)).take sec.2.2)
  else none

/-- `_rotate_half` (RP L314-L317). -/
def rotateHalf (x : List R) : List R := (x.drop (x.length / 2)).map (fun v => -v) ++ x.take (x.length / 2)

/-- The element-wise products and the sum of RP L400-L401; `none`: the lengths do not match. -/
def rotate (x c s : List R) : Option (List R) :=
  if x.length = c.length ∧ x.length = s.length then
    some ((List.range x.length).map fun d => x.getD d 0 * c.getD d 0 + (rotateHalf x).getD d 0 * s.getD d 0)
  else none

/-- `apply_mrope` (RP L320-L413) for one head of one token: `x` holds its numbers, `cache p` is row `p` of the cache (of `rd`
numbers), `pos c` the token's position in dimension `c`.  Heads and tokens are computed independently. -/
def applyMrope (inter : Bool) (sec : Nat × Nat × Nat) (rd : Nat) (cache : Nat → List R) (pos : Nat → Nat) (x : List R) : Option (List R) := do
  let half := rd / 2
  let c ← merge inter sec fun i => (cache (pos i)).take half
  let s ← merge inter sec fun i => (cache (pos i)).drop half
  let r ← rotate (x.take rd) (c ++ c) (s ++ s)
  some (if rd < x.length then r ++ x.drop rd else r)

/-! ## The fused kernel -/

/-- The constants the kernel is compiled with (RP L427-L437, L576-L606): heads, padded heads, head size, padded head size, rotary
size, sections, layout. -/
structure Cfg where
  n : Nat
  padN : Nat
  hd : Nat
  padHd : Nat
  rd : Nat
  st : Nat
  sh : Nat
  sw : Nat
  inter : Bool

/-- `h_mask` (RP L456-L458, L466). -/
def hMask (c : Cfg) (j : Nat) : Bool := if c.inter then j % 3 = 1 && j ≤ 3 * c.sh else c.st ≤ j && j < c.st + c.sh
/-- `w_mask` (RP L459-L461, L467). -/
def wMask (c : Cfg) (j : Nat) : Bool := if c.inter then j % 3 = 2 && j ≤ 3 * c.sw else c.st + c.sh ≤ j && j < c.rd / 2
/-- `t_mask` (RP L462, L465). -/
def tMask (c : Cfg) (j : Nat) : Bool := if c.inter then !(hMask c j || wMask c j) else j < c.st

/-- The masked load. -/
def ld (mask : Bool) (m : Nat → R) (a : Nat) : R := if mask then m a else 0

/-- `positions[c, pid]` (RP L443-L445): `ps` is the stride between the dimensions. -/
def posAt (P : Nat → Nat) (ps c pid : Nat) : Nat := P (c * ps + pid)

/-- `cos_row` (RP L447-L475). -/
def cosRow (c : Cfg) (cache : Nat → R) (P : Nat → Nat) (ps pid j : Nat) : R :=
  ld (tMask c j) cache (posAt P ps 0 pid * c.rd + j) + ld (hMask c j) cache (posAt P ps 1 pid * c.rd + j)
    + ld (wMask c j) cache (posAt P ps 2 pid * c.rd + j)

/-- `sin_row`. -/
def sinRow (c : Cfg) (cache : Nat → R) (P : Nat → Nat) (ps pid j : Nat) : R :=
  ld (tMask c j) cache (posAt P ps 0 pid * c.rd + c.rd / 2 + j) + ld (hMask c j) cache (posAt P ps 1 pid * c.rd + c.rd / 2 + j)
    + ld (wMask c j) cache (posAt P ps 2 pid * c.rd + c.rd / 2 + j)

/-- The addresses of the cache that the program `pid` reads (RP L469-L474). -/
def cacheReads (c : Cfg) (P : Nat → Nat) (ps pid : Nat) : List Nat :=
  (List.range (c.padHd / 2)).flatMap fun j =>
    (if tMask c j then [posAt P ps 0 pid * c.rd + j, posAt P ps 0 pid * c.rd + c.rd / 2 + j] else [])
      ++ (if hMask c j then [posAt P ps 1 pid * c.rd + j, posAt P ps 1 pid * c.rd + c.rd / 2 + j] else [])
      ++ (if wMask c j then [posAt P ps 2 pid * c.rd + j, posAt P ps 2 pid * c.rd + c.rd / 2 + j] else [])

/-- The lanes of the two-dimensional tile that the mask lets through (RP L478-L482). -/
def lanes (c : Cfg) : List (Nat × Nat) :=
  ((List.range c.padN).flatMap fun h => (List.range (c.padHd / 2)).map fun d => (h, d)).filter fun l => l.1 < c.n && l.2 < c.rd / 2

/-- Storing a list of values at addresses, one after another. -/
def stores (m : Nat → R) (ws : List (Nat × R)) : Nat → R := ws.foldl (fun m w => Function.update m w.1 w.2) m

/-- One program of the kernel on one of the two tensors (RP L440-L496): everything is loaded before anything is stored. -/
def program (c : Cfg) (cache : Nat → R) (P : Nat → Nat) (ps stride : Nat) (m : Nat → R) (pid : Nat) : Nat → R :=
  let b := pid * stride
  let m1 := stores m ((lanes c).map fun l =>
    (b + (l.1 * c.hd + l.2), m (b + (l.1 * c.hd + l.2)) * cosRow c cache P ps pid l.2
      - m (b + (l.1 * c.hd + l.2 + c.rd / 2)) * sinRow c cache P ps pid l.2))
  stores m1 ((lanes c).map fun l =>
    (b + (l.1 * c.hd + l.2 + c.rd / 2), m (b + (l.1 * c.hd + l.2 + c.rd / 2)) * cosRow c cache P ps pid l.2
      + m (b + (l.1 * c.hd + l.2)) * sinRow c cache P ps pid l.2))

/-- `triton.next_power_of_2`. -/
def nextPow2 (n : Nat) : Nat := 2 ^ Nat.clog 2 n

/-- The constants that `apply_mrope_fused_` passes (RP L577-L607). -/
def cfgOf (n hd rd : Nat) (sec : Nat × Nat × Nat) (inter : Bool) : Cfg :=
  { n := n, padN := nextPow2 n, hd := hd, padHd := nextPow2 hd, rd := rd, st := sec.1, sh := sec.2.1, sw := sec.2.2, inter := inter }

/-- The launch (RP L588): the programs run in the order `pids`. -/
def launch (c : Cfg) (cache : Nat → R) (P : Nat → Nat) (ps : Nat) (m : Nat → R) (pids : List Nat) : Nat → R :=
  pids.foldl (program c cache P ps (c.n * c.hd)) m

/-- `_build_cos_sin_cache` (QV L561-L577): row `p`, with `freq j` the inverse frequencies (any numbers). -/
noncomputable def buildRow (half : Nat) (freq : Nat → ℝ) (p : Nat) : List ℝ :=
  ((List.range half).map fun j => Real.cos (p * freq j)) ++ (List.range half).map fun j => Real.sin (p * freq j)

end Verif.Mrope
