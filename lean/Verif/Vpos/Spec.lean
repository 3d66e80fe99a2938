import Verif.Vpos.Model

/-! # What the positions of a prompt are

Read this with `Props.lean`; the only things taken from the model are the records `Pos`, `Grid` and the names of the versions. -/

namespace Verif.Vpos

/-- A piece of a prompt: an ordinary token, or the start-of-image token followed by the placeholders of one image. -/
inductive Seg
  | tok (id : Nat)
  | img (g : Grid)

/-- The number of placeholders of an image: one for each merged patch. -/
def patchCount (ms : Nat) (g : Grid) : Nat := g.t * (g.h / ms) * (g.w / ms)

/-- The tokens of a piece, of a prompt. -/
def Seg.render (ms vs im : Nat) : Seg → List Nat
  | .tok id => [id]
  | .img g => vs :: List.replicate (patchCount ms g) im
def render (ms vs im : Nat) (l : List Seg) : List Nat := l.flatMap (Seg.render ms vs im)

/-- The images of a prompt. -/
def grids (l : List Seg) : List Grid := l.filterMap fun s => match s with
  | .tok _ => none
  | .img g => some g

/-- Ordinary tokens are neither the start-of-image token nor the placeholder. -/
def WF (vs im : Nat) (l : List Seg) : Prop := im ≠ vs ∧ ∀ id, Seg.tok id ∈ l → id ≠ vs ∧ id ≠ im

/-- The positions taken by a piece: one by a token; an image takes one for its start and as many as its longest side (for Qwen3-VL the
number of frames counts as a side). -/
def Seg.width (v : Ver) (ms : Nat) : Seg → Nat
  | .tok _ => 1
  | .img g => 1 + match v with
    | .vl => max g.t (max (g.h / ms) (g.w / ms))
    | .q5 => max (g.h / ms) (g.w / ms)

/-- The position after a prompt that begins at `p`. -/
def endPos (v : Ver) (ms : Nat) (l : List Seg) (p : Nat) : Nat := p + (l.map (Seg.width v ms)).sum

/-- Frame after frame, row after row: the offsets of the patches of an image.  Qwen3.5 does not count frames. -/
def patches (v : Ver) (ms : Nat) (g : Grid) (p : Nat) : List Pos :=
  (List.range g.t).flatMap fun f => (List.range (g.h / ms)).flatMap fun r => (List.range (g.w / ms)).map fun c =>
    ⟨p + (match v with | .vl => f | .q5 => 0), p + r, p + c⟩

/-- The positions of a prompt that begins at `p`. -/
def specPos (v : Ver) (ms : Nat) : List Seg → Nat → List Pos
  | [], _ => []
  | .tok _ :: l, p => ⟨p, p, p⟩ :: specPos v ms l (p + 1)
  | .img g :: l, p => ⟨p, p, p⟩ :: patches v ms g (p + 1) ++ specPos v ms l (p + Seg.width v ms (.img g))

end Verif.Vpos
