import Verif.Vpos.Lemmas
import Mathlib.Data.Rat.Floor

/-!
# The order of patches and the position embeddings of the Qwen3-VL vision encoder

Models of pymllm/models/qwen3_vl.py (`QV`) L342-L505 and L548-L558.  A tensor is the list of its elements (or of its rows) in row-major
order; numbers are exact.
-/

namespace Verif.Vit

open Verif.Vpos (Grid repeatInterleave repeatL)

/-- `x.reshape(H, m, W, m).permute(0, 2, 1, 3).flatten()` (QV L381-L385): element `(a, c, b, d)` of the permuted tensor is element
`(a, b, c, d)` of the reshaped one. -/
def permute4 {α : Type} (x : List α) (d0 : α) (H W m : Nat) : List α :=
  (List.range (H * (W * (m * m)))).map fun k =>
    let a := k / (W * (m * m))
    let c := k / (m * m) % W
    let b := k / m % m
    let d := k % m
    x.getD (((a * m + b) * W + c) * m + d) d0

/-- `_rot_pos_ids` (QV L365-L387): the pairs of row and column.  `none`: `reshape` raises (or the division by `merge = 0`). -/
def rotPosIds (h w m : Nat) : Option (List (Nat × Nat)) :=
  if m = 0 then none
  else if h * w = h / m * m * (w / m) * m then
    let hs := (List.range (h * w)).map fun k => k / w
    let ws := (List.range (h * w)).map fun k => k % w
    some ((permute4 hs 0 (h / m) (w / m) m).zip (permute4 ws 0 (h / m) (w / m) m))
  else none

/-- `rot_pos_emb` (QV L389-L402), up to looking up the cosines and sines of the pairs. -/
def rotPos (m : Nat) (gs : List Grid) : Option (List (Nat × Nat)) :=
  (gs.mapM fun (g : Grid) => (rotPosIds g.h g.w m).map fun base => if g.t = 1 then base else (List.replicate g.t base).flatten).map List.flatten

/-- `_get_interpolation_indices` (QV L406-L412): `np.linspace(0, side - 1, n)`. -/
def linspace (side n : Nat) : List ℚ := (List.range n).map fun (k : Nat) => if n ≤ 1 then 0 else ((k : ℚ) * ((side : ℚ) - 1)) / ((n : ℚ) - 1)

/-- `h_f`, `h_c`, `dh` of one index (QV L419-L424). -/
def floorIdx (x : ℚ) : Int := ⌊x⌋
def ceilIdx (side : Nat) (x : ℚ) : Int := max 0 (min (⌊x⌋ + 1) ((side : Int) - 1))
def frac (x : ℚ) : ℚ := x - ⌊x⌋

/-- The four indices and weights of the patch of indices `x` (row) and `y` (column) (QV L426-L437). -/
def corners (side : Nat) (x y : ℚ) : List (Int × ℚ) :=
  [(floorIdx x * side + floorIdx y, (1 - frac x) * (1 - frac y)), (floorIdx x * side + ceilIdx side y, (1 - frac x) * frac y),
   (ceilIdx side x * side + floorIdx y, frac x * (1 - frac y)), (ceilIdx side x * side + ceilIdx side y, frac x * frac y)]

/-- One component of the embedding of one patch (QV L485-L487); `E` is the table, `none` the error of an index outside it. -/
def patchEmb (side : Nat) (E : Nat → ℚ) (x y : ℚ) : Option ℚ :=
  if ∀ c ∈ corners side x y, 0 ≤ c.1 ∧ c.1 < (side * side : Nat) then some (((corners side x y).map fun c => E c.1.toNat * c.2).sum) else none

/-- The embeddings of the patches of an `h` by `w` image, row by row (QV L466-L489; the outer products `[:, None]` flattened). -/
def imageEmb (side : Nat) (E : Nat → ℚ) (h w : Nat) : Option (List ℚ) :=
  (List.range (h * w)).mapM fun k => patchEmb side E ((linspace side h).getD (k / w) 0) ((linspace side w).getD (k % w) 0)

/-- Repeating for the frames, `view(t, H, m, W, m, -1)`, `permute(0, 1, 3, 2, 4, 5)`, `flatten(0, 4)` (QV L450-L456); sizes that do not
divide make `view` or the sum with the patches raise. -/
def tile (x : List ℚ) (t h w m : Nat) : Option (List ℚ) :=
  if m = 0 then none
  else if t * (h * w) = t * (h / m * m * (w / m) * m) then
    let r := repeatL' x t
    some ((List.range (t * (h / m * (w / m * (m * m))))).map fun k =>
      let f := k / (h / m * (w / m * (m * m)))
      let a := k / (w / m * (m * m)) % (h / m)
      let c := k / (m * m) % (w / m)
      let b := k / m % m
      let d := k % m
      r.getD ((((f * (h / m) + a) * m + b) * (w / m) + c) * m + d) 0)
  else none
where
  /-- `x.repeat(t, 1)`. -/
  repeatL' (x : List ℚ) (t : Nat) : List ℚ := (List.range (x.length * t)).map fun i => x.getD (i % x.length) 0

/-- `fast_pos_embed_interpolate` (QV L460-L493), one component. -/
def posEmb (side : Nat) (E : Nat → ℚ) (m : Nat) (gs : List Grid) : Option (List ℚ) :=
  (gs.mapM fun (g : Grid) => do let x ← imageEmb side E g.h g.w; tile x g.t g.h g.w m).map List.flatten

/-- `_compute_cu_seqlens_from_grid` (QV L548-L558): `np.repeat` and the running sums after a 0. -/
def cuSeqlens (gs : List Grid) : List Nat :=
  let lens := gs.flatMap fun (g : Grid) => List.replicate g.t (g.h * g.w)
  0 :: (List.range lens.length).map fun i => (lens.take (i + 1)).sum

/-- The patch mergers' `view(-1, hidden * m * m)`: the tokens in groups of `m * m`. -/
def groups {α : Type} (m : Nat) (x : List α) : List (List α) :=
  (List.range (x.length / (m * m))).map fun k => (x.drop (k * (m * m))).take (m * m)

end Verif.Vit
