import Verif.Bits.Quantize
import Verif.Tensor.PermuteProps

/-!
# Images

`mllm/preprocessor/visual/Image.cpp` (IM), `mllm/preprocessor/visual/ImageTransform.cpp` (IT) and the tiling of
`mllm/models/deepseek_ocr/conversation_preprocess.hpp` (CP).  Pixel interpolation (`stbir_resize…`) is an arbitrary
function; sizes are computed in exact arithmetic; `int` does not overflow.
-/

namespace Verif.Ocr

open Verif.Bits (applyW cround)

variable {α : Type}

/-- `Image` (Image.hpp L26-58): `px` is the buffer behind `image_ptr_`. -/
structure Img (α : Type) where
  w : Nat
  h : Nat
  c : Nat
  px : Nat → α

/-- Channel `k` of the pixel at column `x` of row `y`. -/
def Img.pix (im : Img α) (x y k : Nat) : α := im.px ((y * im.w + x) * im.c + k)

/-- The three stores to one pixel (IM L135-143). -/
def put3 (cw x y : Nat) (v : Nat → α) : List (Nat × α) := (List.range 3).map fun k => ((y * cw + x) * 3 + k, v k)

/-- The source pixel of a crop, or zeros (IM L134-143). -/
def cropSrc (im : Img α) (zero : α) (sx sy : Int) (k : Nat) : α :=
  if 0 ≤ sx ∧ sx < im.w ∧ 0 ≤ sy ∧ sy < im.h then im.px ((sy.toNat * im.w + sx.toNat) * im.c + k) else zero

/-- `Image::crop` (IM L107-152); `none`: the assertion on the box; `fresh`: what `malloc` returns. -/
def crop (im : Img α) (zero : α) (fresh : Nat → α) (left upper right lower : Int) : Option (Img α) :=
  if right > left ∧ lower > upper then
    let cw := (right - left).toNat
    let ch := (lower - upper).toNat
    some ⟨cw, ch, 3, applyW fresh ((List.range ch).flatMap fun (y : Nat) => (List.range cw).flatMap fun (x : Nat) =>
      put3 cw x y (cropSrc im zero (left + x) (upper + y)))⟩
  else none

/-- `new_w` and `new_h` of `Image::pad` (IM L163-171). -/
def padSize (w h tw th : Nat) : Nat × Nat :=
  let scale : ℚ := min ((tw : ℚ) / w) ((th : ℚ) / h)
  ((max 1 (cround (w * scale))).toNat, (max 1 (cround (h * scale))).toNat)

/-- The fill and the blit of `Image::pad` (IM L184-214) for a resized image `r`; offsets truncate. -/
def padW (r : Img α) (tw th : Nat) (col : Nat → α) : List (Nat × α) :=
  let ox := ((tw : Int) - r.w).tdiv 2
  let oy := ((th : Int) - r.h).tdiv 2
  ((List.range th).flatMap fun y => (List.range tw).flatMap fun x => put3 tw x y col)
  ++ (List.range r.h).flatMap fun (y : Nat) =>
      if oy + y < 0 ∨ oy + y ≥ th then [] else
        (List.range r.w).flatMap fun (x : Nat) =>
          if ox + x < 0 ∨ ox + x ≥ tw then [] else
            put3 tw (ox + x).toNat (oy + y).toNat fun k => r.px ((y * r.w + x) * 3 + k)

/-- `Image::pad` (IM L157-217); `rs nw nh` are the pixels `resize` computes. -/
def pad (im : Img α) (rs : Nat → Nat → Nat → α) (fresh : Nat → α) (tw th : Nat) (col : Nat → α) : Option (Img α) :=
  if im.c = 3 ∧ 0 < tw ∧ 0 < th then
    let n := padSize im.w im.h tw th
    some ⟨tw, th, 3, applyW fresh (padW ⟨n.1, n.2, 3, rs n.1 n.2⟩ tw th col)⟩
  else none

/-- The size `Resize` asks for, as (w, h), when constructed with one number (IT L39-49). -/
def shorterSize (w h t : Nat) : Nat × Nat :=
  let scale : ℚ := (t : ℚ) / (min h w : Nat)
  ((cround (w * scale)).toNat, (cround (h * scale)).toNat)

/-- `CenterCrop::apply` (IT L56-69). -/
def centerCrop (im : Img α) (zero : α) (fresh : Nat → α) (ch cw : Nat) : Option (Img α) :=
  let left := ((im.w : Int) - cw).tdiv 2
  let upper := ((im.h : Int) - ch).tdiv 2
  crop im zero fresh left upper (left + cw) (upper + ch)

/-! ## To a tensor -/

/-- `ToTensor::apply` (IT L72-84) with `Image::tensor` (IM L84-95): the buffer of the resulting `{3, h, w}` tensor;
`thr` chooses the permute kernel (Verif.Tensor.Model). -/
def toTensor {F : Type} (thr : Option Nat) (im : Img α) (cvt : α → F) (div255 : F → F) (i : Nat) : Option F :=
  (Verif.Tensor.bufOf (Verif.Tensor.permuteCopies thr [im.h, im.w, 3] [2, 0, 1]) (fun j => some (cvt (im.px j))) i).map div255

/-- `Normalize::apply` (IT L91-114) on the memory of the tensor, from `ptr` on: every value is read and overwritten
in place. -/
def normalize {F : Type} (sub div : F → F → F) (mean std : Nat → F) (c plane ptr : Nat) (mem : Nat → F) : Nat → F :=
  ((List.range c).flatMap fun ch => (List.range plane).map fun i => (ch, ptr + (ch * plane + i))).foldl
    (fun m a => Function.update m a.2 (div (sub (m a.2) (mean a.1)) (std a.1))) mem

/-! ## Tiles -/

/-- `ratio_diff` of `findClosestAspectRatio` (CP L353-354). -/
def ratioDiff (asp : ℚ) (r : Nat × Nat) : ℚ := |asp - (r.1 : ℚ) / (r.2 : ℚ)|

/-- The comparison of areas (CP L360-361). -/
def covers (w h S : Nat) (r : Nat × Nat) : Prop := (w : ℚ) * h > 1 / 2 * S * S * r.1 * r.2

instance (w h S : Nat) (r : Nat × Nat) : Decidable (covers w h S r) := inferInstanceAs (Decidable (_ > _))

/-- One step of the loop (CP L352-366); `none` is the infinite `best_ratio_diff`. -/
def closestStep (asp : ℚ) (w h S : Nat) (b : Option ℚ × (Nat × Nat)) (r : Nat × Nat) : Option ℚ × (Nat × Nat) :=
  match b.1 with
  | none => (some (ratioDiff asp r), r)
  | some d =>
    if ratioDiff asp r < d then (some (ratioDiff asp r), r)
    else if ratioDiff asp r = d ∧ covers w h S r then (some d, r) else b

/-- `findClosestAspectRatio` (CP L346-369). -/
def findClosest (asp : ℚ) (w h S : Nat) (rs : List (Nat × Nat)) : Nat × Nat :=
  (rs.foldl (closestStep asp w h S) (none, (1, 1))).2

/-- `ratio_set` (CP L411-419): the pairs inserted, in the order of the loops. -/
def ratioPairs (lo hi : Nat) : List (Nat × Nat) :=
  (List.range' lo (hi + 1 - lo)).flatMap fun n => (List.range' 1 n).flatMap fun i => (List.range' 1 n).filterMap fun j =>
    if lo ≤ i * j ∧ i * j ≤ hi then some (i, j) else none

/-- `target_ratios` (CP L420-422): the elements of the set, once each, in an order sorted by the number of cells;
`std::sort` may order grids with equally many cells in any way. -/
structure Sorted (lo hi : Nat) (rs : List (Nat × Nat)) : Prop where
  nodup : rs.Nodup
  mem : ∀ r, r ∈ rs ↔ r ∈ ratioPairs lo hi
  sorted : rs.Pairwise fun a b => a.1 * a.2 ≤ b.1 * b.2

/-- The tiles of the resized image (CP L430-442). -/
def tiles (im : Img α) (zero : α) (fresh : Nat → α) (S : Nat) (g : Nat × Nat) : Option (List (Img α)) :=
  (List.range (g.1 * g.2)).mapM fun i =>
    let cols := S * g.1 / S
    let x0 := i % cols * S
    let y0 := i / cols * S
    crop im zero fresh x0 y0 (x0 + S : Nat) (y0 + S : Nat)

/-- `dynamicPreprocess` (CP L400-451) with the sorted candidates `rs`; `res nw nh` are the pixels `resize` computes. -/
def dynamicPreprocess (im : Img α) (zero : α) (fresh : Nat → α) (res : Nat → Nat → Nat → α) (S : Nat) (thumb : Bool)
    (rs : List (Nat × Nat)) : Option (List (Img α) × (Nat × Nat)) :=
  if im.w = 0 ∨ im.h = 0 then some ([], (1, 1)) else
    let g := findClosest ((im.w : ℚ) / im.h) im.w im.h S rs
    (tiles ⟨S * g.1, S * g.2, 3, res (S * g.1) (S * g.2)⟩ zero fresh S g).map fun ts =>
      (if thumb ∧ ts.length ≠ 1 then ts ++ [⟨S, S, 3, res S S⟩] else ts, g)

end Verif.Ocr
