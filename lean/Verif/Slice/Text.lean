import Verif.Slice.Model
import Verif.Token.WordPiece

/-!
# MiniCPM-o: placeholders and embeddings

`tokenization_minicpmo.hpp` (TK), `image_preprocessor_minicpmo.hpp` (IP), `audio_preprocessor_minicpmo.hpp` (AP),
`modeling_minicpmo.hpp` (MM), `modeling_whisper_encoder.hpp` (WE), all in `mllm/models/minicpm_o2_6`.

Simplifications: the networks are arbitrary; embeddings are opaque; `Tensor::at` and `operator[]` outside their
bounds are failures (in the program: undefined behaviour).
-/

namespace Verif.Slice

/-! ## Replacing the image tag (TK L354-380) -/

/-- The tag of an image in the chat template (TK L170, L355). -/
def tag : List Char := "(<image>./</image>)".toList

/-- `text_chunks` (TK L363-372): the text between the tags. -/
def splitTags : Nat → List Char → List (List Char)
  | 0, s => [s]
  | fuel + 1, s =>
    match Token.findSub tag s with
    | none => [s]
    | some p => s.take p :: splitTags fuel (s.drop (p + tag.length))

/-- The loop over the tags (TK L374-378): `original_sizes[i]` must exist. -/
def fillTags (nSizes : Nat) (ph : Nat → List Char) : Nat → List (List Char) → Option (List Char)
  | _, [] => some []
  | _, [last] => some ("\n".toList ++ last)
  | i, ch :: rest => if i < nSizes then (fillTags nSizes ph (i + 1) rest).map fun t => ch ++ (ph i ++ t) else none

/-- TK L354-381; `process` returns one original size (IP L282). -/
def replaceTags (ph : Nat → List Char) (s : List Char) : Option (List Char) :=
  fillTags 1 ph 0 (splitTags s.length s)

/-! ## Positions (IP L226-250) -/

/-- Positions of the ids that satisfy `p`. -/
def posFrom (p : Int → Bool) : Nat → List Int → List Nat
  | _, [] => []
  | b, x :: xs => if p x then b :: posFrom p (b + 1) xs else posFrom p (b + 1) xs

/-- The ids of the markers. -/
structure Marks where
  im : Int
  imEnd : Int
  slice : Int
  sliceEnd : Int
  unk : Int

def Marks.isStart (t : Marks) (x : Int) : Bool := x == t.im || x == t.slice
def Marks.isEnd (t : Marks) (x : Int) : Bool := x == t.imEnd || x == t.sliceEnd

/-- `calc_bounds` (IP L226-250). -/
def calcBounds (t : Marks) (ids : List Int) : List (Nat × Nat) :=
  (posFrom t.isStart 0 ids).zip (posFrom t.isEnd 0 ids)

/-! ## Merging (MM L275-299) -/

variable {E : Type}

/-- The inner loop: `for (pos = start; pos <= end - 1 && idx < len; ++pos, ++idx)`. -/
def mergeOne (len : Nat) (emb : Nat → E) (stop : Nat) : Nat → Nat → Nat → (Nat → E) → Nat → E
  | 0, _, _, text => text
  | fuel + 1, pos, idx, text =>
    if pos < stop ∧ idx < len then
      mergeOne len emb stop fuel (pos + 1) (idx + 1) (Function.update text pos (emb idx))
    else text

/-- `merge_vision_text_embeddings` (MM L275-299): one bound per image, counted by the embeddings. -/
def mergeVision (len : Nat) : List (Nat → E) → List (Nat × Nat) → (Nat → E) → Option (Nat → E)
  | [], _, text => some text
  | _ :: _, [], _ => none
  | v :: vs, b :: bs, text => mergeVision len vs bs (mergeOne len v b.2 len (b.1 + 1) 0 text)

/-! ## The placeholder (IP L185-223) -/

/-- `<image>` or `<slice>`, the query slots, and the end marker. -/
def block (t : Marks) (q : Nat) (s e : Int) : List Int := s :: (List.replicate q t.unk ++ [e])

/-- `get_grid_placeholder` (IP L203-223): `rows` lines of `cols` slices, newlines between lines. -/
def gridIds (t : Marks) (q : Nat) (nl : List Int) (cols rows : Nat) : List Int :=
  (List.range rows).flatMap fun i =>
    (if i > 0 then nl else []) ++ (List.range cols).flatMap fun _ => block t q t.slice t.sliceEnd

/-- `get_slice_image_placeholder` (IP L185-201); `idIds`: the ids of the image number. -/
def placeholder (t : Marks) (q : Nat) (idIds nl : List Int) (grid : Option (Nat × Nat)) : List Int :=
  idIds ++ block t q t.im t.imEnd ++ (match grid with | none => [] | some g => gridIds t q nl g.1 g.2)

/-! ## Audio -/

/-- The number of slots for `n` samples (AP L228-239); C++ division truncates.  The quotient of the first
line is computed in `float`, which is exact enough below 2^24 samples. -/
def audioSlots (n : Nat) : Int :=
  let feat : Int := (n + 159) / 160
  let feat := (feat - 1).tdiv 2 + 1
  (feat - 2).tdiv 2 + 1

/-- Samples after padding or truncation (AP L302-319; 30 seconds of 16 kHz). -/
def paddedSamples : Nat := 30 * 16000

/-- `n_frames` of the STFT (STFTOp.cpp L62-66): centred, window 400, hop 160. -/
def melFrames (n : Nat) : Nat := 1 + (n + 2 * (400 / 2) - 400) / 160

/-- Length after a convolution (Conv1DOp.cpp L83-88). -/
def convLen (n kernel stride padding : Nat) : Nat := (n + 2 * padding - (kernel - 1) - 1) / stride + 1

/-- Positions of the encoder (WE L157-162, L182-190). -/
def encoderLen (n : Nat) : Nat := convLen (convLen (melFrames n) 3 1 1) 3 2 1

/-- Rows of the position table (`configuration_minicpmo.hpp` L82, WE L154, L166). -/
def positionRows : Nat := 1500

/-- Embeddings of an audio (AvgPool1dOp.cpp L28-37 with kernel and stride 2; MM L242-268). -/
def audioEmbeds (n : Nat) : Nat := (encoderLen n - 2) / 2 + 1

/-- The first end marker after a position (AP L335-342). -/
def firstEnd (e : Int) : Nat → List Int → Option Nat
  | _, [] => none
  | b, x :: xs => if x == e then some b else firstEnd e (b + 1) xs

/-- `calcAudioBounds` (AP L329-347). -/
def audioBounds (s e : Int) : Nat → List Int → List (Nat × Nat)
  | _, [] => []
  | b, x :: xs =>
    if x == s then
      match firstEnd e (b + 1) xs with
      | some j => (b + 1, j) :: audioBounds s e (b + 1) xs
      | none => audioBounds s e (b + 1) xs
    else audioBounds s e (b + 1) xs

/-- `merge_audio_text_embeddings` (MM L301-325) for one audio. -/
def mergeAudio (len : Nat) (emb : Nat → E) (bs : List (Nat × Nat)) (text : Nat → E) : Option (Nat → E) :=
  match bs with
  | [] => none
  | b :: _ => some (mergeOne len emb b.2 len b.1 0 text)

/-! ## The temporary file of a slice (IP L158-164) -/

/-- A process cutting an image: what is left to cut, the number of `rand()` calls so far, where in
`crop_image` it is, what it has read back; `dead`: `Image::open` ended the process. -/
structure Cutter (D : Type) where
  todo : List D
  k : Nat
  phase : Nat
  got : List D
  dead : Bool

structure FsSt (D : Type) where
  file : Nat → Option D
  proc : Nat → Cutter D

/-- One step of process `i`; `name i k` is the `k`-th random number of process `i`. -/
inductive FsStep {D : Type} (name : Nat → Nat → Nat) : FsSt D → FsSt D → Prop
  /-- `stbi_write_png` -/
  | write {σ : FsSt D} {i : Nat} {d : D} {ds : List D} : (σ.proc i).dead = false → (σ.proc i).phase = 0 →
      (σ.proc i).todo = d :: ds →
      FsStep name σ ⟨Function.update σ.file (name i (σ.proc i).k) (some d),
        Function.update σ.proc i { σ.proc i with phase := 1 }⟩
  /-- `Image::open` -/
  | open {σ : FsSt D} {i : Nat} {d : D} : (σ.proc i).dead = false → (σ.proc i).phase = 1 →
      σ.file (name i (σ.proc i).k) = some d →
      FsStep name σ ⟨σ.file, Function.update σ.proc i { σ.proc i with phase := 2, got := (σ.proc i).got ++ [d] }⟩
  | fail {σ : FsSt D} {i : Nat} : (σ.proc i).dead = false → (σ.proc i).phase = 1 →
      σ.file (name i (σ.proc i).k) = none →
      FsStep name σ ⟨σ.file, Function.update σ.proc i { σ.proc i with dead := true }⟩
  /-- `std::remove` -/
  | remove {σ : FsSt D} {i : Nat} : (σ.proc i).dead = false → (σ.proc i).phase = 2 →
      FsStep name σ ⟨Function.update σ.file (name i (σ.proc i).k) none,
        Function.update σ.proc i
          { σ.proc i with phase := 0, todo := (σ.proc i).todo.tail, k := (σ.proc i).k + 1 }⟩

inductive FsReach {D : Type} (name : Nat → Nat → Nat) (σ : FsSt D) : FsSt D → Prop
  | init : FsReach name σ σ
  | step {τ υ : FsSt D} : FsReach name σ τ → FsStep name τ υ → FsReach name σ υ

/-- Processes that have to cut `work i`. -/
def FsSt.start {D : Type} (file : Nat → Option D) (work : Nat → List D) : FsSt D :=
  ⟨file, fun i => ⟨work i, 0, 0, [], false⟩⟩

end Verif.Slice
