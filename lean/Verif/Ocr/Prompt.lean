import Verif.Ocr.Image
import Verif.Token.WordPiece

/-!
# Prompt and image features of DeepSeek-OCR

Models of mllm/models/deepseek_ocr/modeling_deepseek_ocr.hpp (`MD`: `DeepseekOCRModel::forward` L453-L621,
`DeepseekOCRForCausalLM::infer` L705-L925), modeling_deepseek_ocr_service.hpp (`MS`: `streamGenerate` L49-L160),
deepencoder.hpp (`DE`, the sizes of the convolutions) and mllm/utils/StringHelper.hpp (`SH`: `splitString` L10-L73).

The tokenizer is a function `enc`; the three networks are opaque, only the number and order of the feature vectors
they return matters.  The tensors are lists of rows; a pixel sum is computed in ℚ.
-/

namespace Verif.Ocr

variable {V : Type}

/-! ## The prompt -/

/-- `splitString` with a separator of two or more characters (SH L62-L70). The first argument bounds the number of
separators; the length of the text suffices. -/
def splitString (sep : List Char) : Nat → List Char → List (List Char)
  | 0, s => [s]
  | fuel + 1, s =>
    match Token.findSub sep s with
    | none => [s]
    | some p => s.take p :: splitString sep fuel (s.drop (p + sep.length))

/-- `IMAGE_TOKEN` (MD L733). -/
def imageTag : List Char := "<image>".toList

/-- `IMAGE_TOKEN_ID` (MD L734, MS L61). -/
def imageId : Int := 128815

/-- `num_queries`, `num_queries_base` (MD L819-L820, MS L121, L131): the divisions are integer divisions, `ceil` gets an
integer. -/
def queries (S : Nat) : Nat := S / 16 / 4

/-- `n` rows of `m` image tokens, each row followed by one more (MD L827-L830, L834-L837). -/
def tokenRows (n m : Nat) : List Int := (List.range n).flatMap fun _ => List.replicate m imageId ++ [imageId]

/-- `tokenized_image` (MD L822-L838, MS L122-L137). -/
def imageTokens (base S : Nat) (g : Nat × Nat) : List Int :=
  tokenRows (queries base) (queries base) ++ [imageId] ++
    if 1 < g.1 ∨ 1 < g.2 then tokenRows (queries S * g.2) (queries S * g.1) else []

/-- `crop_ratio` of an image (MD L775-L787, MS L106-L112); `T` is the size of the tiles. -/
def gridOf (T : Nat) (rs : List (Nat × Nat)) (w h : Nat) : Nat × Nat :=
  if h ≤ 640 ∧ w ≤ 640 then (1, 1) else if w = 0 ∨ h = 0 then (1, 1) else findClosest ((w : ℚ) / h) w h T rs

/-- The tokens and the mask `infer` builds (MD L742-L857) for the images' sizes and a prompt; `none`: `images[0]` (MD L743)
is read although there is none. `dynamicPreprocess` is called without a tile size (MD L781): it uses 640. -/
def inferPrompt (enc : List Char → List Int) (rs : List (Nat × Nat)) (base S : Nat) (images : List (Nat × Nat))
    (prompt : List Char) : Option (List Int × List Bool) :=
  if images = [] then none else
    let splits := splitString imageTag prompt.length prompt
    let parts := splits.zip images
    let last := splits.getLastD []
    some (0 :: ((parts.flatMap fun p => enc p.1 ++ imageTokens base S (gridOf 640 rs p.2.1 p.2.2)) ++ enc last),
      false :: ((parts.flatMap fun p => (enc p.1).map (fun _ => false) ++
        (imageTokens base S (gridOf 640 rs p.2.1 p.2.2)).map (fun _ => true)) ++ (enc last).map fun _ => false))

/-- The tokens and the mask the service builds (MS L91-L149): begin of sentence, the user role, the first image, the
text. -/
def servicePrompt (enc : List Char → List Int) (bos : Int) (rs : List (Nat × Nat)) (images : List (Nat × Nat)) (text : List Char) :
    List Int × List Bool :=
  let pre := bos :: enc "<|User|>".toList
  let img := match images with
    | [] => []
    | (w, h) :: _ => imageTokens 512 512 (gridOf 512 rs w h)
  let suf := enc ("\n<|grounding|>".toList ++ text ++ "<|Assistant|>".toList)
  (pre ++ img ++ suf, pre.map (fun _ => false) ++ img.map (fun _ => true) ++ suf.map (fun _ => false))

/-! ## The features -/

/-- Output size of a convolution along one side. -/
def conv (n k s p : Nat) : Nat := (n + 2 * p - k) / s + 1

/-- Side of the feature map of `ImageEncoderViT` (DE L315, L674-L684, L706-L716): patches of 16, the neck, two
convolutions of stride 2. -/
def samSide (S : Nat) : Nat := conv (conv (conv (conv (conv S 16 16 0) 1 1 0) 3 1 1) 3 2 1) 3 2 1

/-- A `{h, w, n}` view of a buffer of feature vectors. -/
def gridRows (buf : Nat → V) (h w : Nat) : List (List V) :=
  (List.range h).map fun r => (List.range w).map fun c => buf (r * w + c)

/-- `concat` of `image_newline_` along dimension 1, and the flattening (MD L518-L534, L540-L555). -/
def newlined (nl : V) (rows : List (List V)) : List V := rows.flatMap fun r => r ++ [nl]

/-- `view({Hc, Wc, h2, w2, n}).permute({0, 2, 1, 3, 4})` as a buffer (MD L536-L537): the index is decomposed over the
shape `{Hc, h2, Wc, w2}`. -/
def permuted (Wc h2 w2 : Nat) (buf : Nat → V) (i : Nat) : V :=
  let c := i % w2
  let b := i / w2 % Wc
  let r := i / w2 / Wc % h2
  let a := i / w2 / Wc / h2
  buf (((a * Wc + b) * h2 + r) * w2 + c)

/-- `images_in_this_batch` (MD L474-L611) of the only image. `sum` is the sum of the tile pixels, `ntiles` their number,
`T`, `base` the sides of a tile and of the padded image, `glob`, `loc` the outputs of the projector, by rows. `none`: the
view (MD L536) has a different number of elements. -/
def features (nl sep : V) (sum : ℚ) (ntiles T base : Nat) (g : Nat × Nat) (glob loc : Nat → V) : Option (List V) :=
  let global := newlined nl (gridRows glob (samSide base) (samSide base))
  if sum ≠ 0 then
    if ntiles = g.2 * g.1 then
      some (newlined nl (gridRows (permuted g.1 (samSide T) (samSide T) loc) (g.2 * samSide T) (g.1 * samSide T)) ++ global ++ [sep])
    else none
  else some (global ++ [sep])

/-- `ToTensor` and `Normalize` with mean and deviation 0.5 (MD L748-L749) on one value. -/
def normPixel (p : Nat) : ℚ := ((p : ℚ) / 255 - 1 / 2) / (1 / 2)

end Verif.Ocr
