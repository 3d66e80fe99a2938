import Verif.Vit.Model

/-! # The order of patches, and interpolation of a table

Read this with `Props.lean`. -/

namespace Verif.Vit

open Verif.Vpos (Grid)

/-- The patches of a block of `m` by `m`: rows and columns of the image. -/
def block (m a c : Nat) : List (Nat × Nat) := (List.range m).flatMap fun b => (List.range m).map fun d => (a * m + b, c * m + d)

/-- The blocks of an image, frame after frame, row after row: frame, row, column. -/
def blocks (m t h w : Nat) : List (Nat × Nat × Nat) :=
  (List.range t).flatMap fun f => (List.range (h / m)).flatMap fun a => (List.range (w / m)).map fun c => (f, a, c)

/-- The order of the patches of an image: block after block. -/
def order (m : Nat) (g : Grid) : List (Nat × Nat × Nat) := (blocks m g.t g.h g.w).flatMap fun q => (block m q.2.1 q.2.2).map fun p => (q.1, p)

/-- The place in the table of side `side` of patch `i` of `n`: 0 for the first, `side - 1` for the last. -/
def place (side n i : Nat) : ℚ := if n ≤ 1 then 0 else i * ((side : ℚ) - 1) / ((n : ℚ) - 1)

/-- Bilinear interpolation of the table `E` at `(x, y)`: first along the columns, then along the rows. -/
def bilinear (side : Nat) (E : Nat → ℚ) (x y : ℚ) : ℚ :=
  let cell (i j : Nat) : ℚ := E (min i (side - 1) * side + min j (side - 1))
  let row (i : Nat) : ℚ := cell i ⌊y⌋.toNat + (y - ⌊y⌋) * (cell i (⌊y⌋.toNat + 1) - cell i ⌊y⌋.toNat)
  row ⌊x⌋.toNat + (x - ⌊x⌋) * (row (⌊x⌋.toNat + 1) - row ⌊x⌋.toNat)

end Verif.Vit
