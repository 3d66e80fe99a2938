import Verif.Prelude
import Verif.Aot.Model

/-!
# MiniCPM-o: image slices

`mllm/models/minicpm_o2_6/image_preprocessor_minicpmo.hpp` (cited as IP) and `convertToTensors` of
`tokenization_minicpmo.hpp` (cited as TK).

Simplifications: `int` arithmetic does not overflow; `Image::resize(w, h)` returns an image of exactly that
size; every intermediate result of floating point (areas, logarithms, square roots, roundings) is an
arbitrary number, so that the theorems hold whatever they are; the normalisation of a channel value is an
arbitrary function `norm`; a PNG file that is written and read back holds the same pixels.
-/

namespace Verif.Slice

open Verif.Aot (Mem copy)

/-- An image in memory: three bytes per pixel, row by row (Image.hpp). -/
structure Img (β : Type) where
  w : Nat
  h : Nat
  data : Mem β

/-- The value of channel `c` of a pixel. -/
def Img.px {β : Type} (im : Img β) (x y c : Nat) : β := im.data ((y * im.w + x) * 3 + c)

/-! ## Choosing the grid -/

/-- `candidate_nums` (IP L81-84). -/
def candNums (maxSlices multiple : Nat) : List Nat :=
  [multiple - 1, multiple, multiple + 1].filter fun i => decide (i > 1 ∧ i ≤ maxSlices)

/-- `candidate_grids` (IP L86-91). -/
def candGrids (maxSlices multiple : Nat) : List (Nat × Nat) :=
  (candNums maxSlices multiple).flatMap fun s =>
    ((List.range s).map (· + 1)).filterMap fun m => if s % m = 0 then some (m, s / m) else none

/-- The loop over the candidates (IP L93-101); `none` is `INFINITY`. -/
def pickGrid (err : Nat × Nat → Int) : List (Nat × Nat) → (Nat × Nat) × Option Int → (Nat × Nat) × Option Int
  | [], s => s
  | g :: gs, s =>
    if s.2.all (fun e => decide (err g < e)) then pickGrid err gs (g, some (err g))
    else pickGrid err gs s

/-- `get_sliced_grid` (IP L76-104); `area` is the rounded-up quotient of the areas, `err` the error of a
grid on a scale that keeps the order of floats.  `none`: no slices. -/
def slicedGrid (maxSlices area : Nat) (err : Nat × Nat → Int) (neverSplit : Bool) : Option (Nat × Nat) :=
  let multiple := min area maxSlices
  if multiple ≤ 1 ∨ neverSplit then none
  else some (pickGrid err (candGrids maxSlices multiple) ((1, 1), none)).1

/-- `ensure_divide` (IP L119-121); `q` is the rounded quotient. -/
def ensureDivide (q : Int) (divisor : Nat) : Nat := max (q * divisor).toNat divisor

/-- What floating point makes of the sizes: the two rounded quotients of each call. -/
structure Rounds where
  srcW : Int
  srcH : Int
  sliceW : Int
  sliceH : Int

/-- `find_best_resize` of the whole image (IP L106-117): the size before `ensure_divide` enters only
through the rounded quotients. -/
def sourceSize (ps : Nat) (r : Rounds) : Nat × Nat := (ensureDivide r.srcW ps, ensureDivide r.srcH ps)

/-- `get_refine_size` (IP L123-132). -/
def refineSize (ps : Nat) (r : Rounds) (g : Nat × Nat) : Nat × Nat :=
  (ensureDivide r.sliceW ps * g.1, ensureDivide r.sliceH ps * g.2)

/-! ## Cutting -/

/-- A list of `memcpy`s of `n` elements, in order; `none`: one of them leaves its buffer. -/
def copies {α : Type} (capD capS : Nat) (src : Mem α) (n : Nat) : List (Nat × Nat) → Mem α → Option (Mem α)
  | [], m => some m
  | j :: js, m => (copy m capD j.1 src capS j.2 n).bind (copies capD capS src n js)

/-- `crop_image` (IP L135-170) up to the temporary file (see C162). -/
def crop {β : Type} (im : Img β) (fresh : Mem β) (x y cw ch : Nat) : Option (Img β) :=
  let x := min x (im.w - 1)
  let y := min y (im.h - 1)
  let cw := min cw (im.w - x)
  let ch := min ch (im.h - y)
  (copies (cw * ch * 3) (im.w * im.h * 3) im.data (cw * 3)
    ((List.range ch).map fun row => (row * cw * 3, ((y + row) * im.w + x) * 3)) fresh).map fun d => ⟨cw, ch, d⟩

/-- `for (int i = i0; i < limit; i += step)`: the values of `i` (with a step of 0 the loop would not end). -/
def upto (limit step : Nat) : Nat → Nat → List Nat
  | 0, _ => []
  | fuel + 1, i => if i < limit then i :: upto limit step fuel (i + step) else []

/-- `split_to_patches` (IP L52-74), row by row. -/
def splitPatches {β : Type} (im : Img β) (fresh : Mem β) (g : Nat × Nat) : Option (List (List (Img β))) :=
  let gx := im.w / g.1
  let gy := im.h / g.2
  (upto im.h gy im.h 0).mapM fun i => (upto im.w gx im.w 0).mapM fun j =>
    crop im fresh j i (min gx (im.w - j)) (min gy (im.h - i))

/-- `slice_image` and the list `slice_images` of `process` (IP L28-50, L253-264); `resize w h` is the
image resized. -/
def sliceImages {β : Type} (maxSlices ps area : Nat) (err : Nat × Nat → Int) (r : Rounds)
    (resize : Nat → Nat → Mem β) (fresh : Mem β) : Option (List (Img β) × Option (Nat × Nat)) :=
  let (sw, sh) := sourceSize ps r
  let source : Img β := ⟨sw, sh, resize sw sh⟩
  match slicedGrid maxSlices area err false with
  | none => some ([source], none)
  | some g =>
    let (rw, rh) := refineSize ps r g
    (splitPatches ⟨rw, rh, resize rw rh⟩ fresh g).map fun rows => (source :: rows.flatten, some g)

/-! ## Tensors -/

/-- `tensor()`, `permute({2, 0, 1})`, scaling and `normalize_tensor` (IP L268-272, L286-303): channel by
channel. -/
def chw {β F : Type} (norm : Nat → β → F) (im : Img β) : Mem F := fun i =>
  norm (i / (im.h * im.w)) (im.px (i % (im.h * im.w) % im.w) (i % (im.h * im.w) / im.w) (i / (im.h * im.w)))

/-- `reshape_by_patch` (IP L305-349): the copies. -/
def patchJobs (ps h w : Nat) : List (Nat × Nat) :=
  let nh := h / ps
  let nw := w / ps
  (List.range 3).flatMap fun c => (List.range nh).flatMap fun ph => (List.range nw).flatMap fun pw =>
    (List.range ps).map fun kh =>
      (c * (ps * (nh * nw) * ps) + kh * (nh * nw * ps) + (ph * nw + pw) * ps,
        c * (h * w) + (ph * ps + kh) * w + pw * ps)

/-- An image as one tensor `[3, ps, patches * ps]` (IP L305-349). -/
def patchTensor {β F : Type} (ps : Nat) (norm : Nat → β → F) (fresh : Mem F) (im : Img β) : Option (Mem F) :=
  copies (3 * ps * (im.h / ps * (im.w / ps) * ps)) (3 * im.h * im.w) (chw norm im) ps
    (patchJobs ps im.h im.w) fresh

/-- The last dimension of the tensor of an image. -/
def hwOf {β : Type} (ps : Nat) (im : Img β) : Nat := im.h / ps * (im.w / ps) * ps

/-- `tgt_sizes` (IP L277-279). -/
def tgtSize {β : Type} (ps : Nat) (im : Img β) : Nat × Nat := (im.h / ps, im.w / ps)

/-- `HW_patch_size` (TK L439-444). -/
def maxHw (l : List Nat) : Nat := l.foldl (fun a b => if b > a then b else a) (l.headD 0)

/-- The copies of `convertToTensors` for image `b` (TK L461-468). -/
def padJobs (ps HW hw b : Nat) : List (Nat × Nat) :=
  (List.range 3).flatMap fun c => (List.range ps).map fun p =>
    (b * 3 * ps * HW + c * ps * HW + p * HW, c * ps * hw + p * hw)

/-- The loop over the images (TK L457-470); `hws`, `ts`: last dimension and contents of each tensor. -/
def padLoop {F : Type} (ps HW B : Nat) : List (Nat × Mem F) → Nat → Mem F → Option (Mem F)
  | [], _, m => some m
  | (hw, t) :: ts, b, m =>
    (copies (B * 3 * ps * HW) (3 * ps * hw) t hw (padJobs ps HW hw b) m).bind (padLoop ps HW B ts (b + 1))

/-- `pixel_values` (TK L437-473): zeros, then the copies. -/
def pixelValues {F : Type} (zero : F) (ps : Nat) (ts : List (Nat × Mem F)) : Option (Mem F) :=
  padLoop ps (maxHw (ts.map (·.1))) ts.length ts 0 (fun _ => zero)

end Verif.Slice
