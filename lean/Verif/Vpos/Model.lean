import Verif.Prelude

/-!
# Three-dimensional positions of the Python vision-language models

Models of pymllm/models/qwen3_vl.py (`QV`) L595-L694, L1160-L1252, pymllm/models/qwen3_5.py (`Q5`) L792-L880, L955-L1049,
pymllm/executor/model_runner.py (`MR`) L1252-L1253 and the prefix reuse of pymllm/orchestrator/model_runner_process.py (`MP`) L660-L729.
-/

namespace Verif.Vpos

/-- One column of `position_ids`: time, height, width. -/
structure Pos where
  t : Nat
  h : Nat
  w : Nat
deriving DecidableEq, Repr

/-- One row of `image_grid_thw`. -/
structure Grid where
  t : Nat
  h : Nat
  w : Nat
deriving DecidableEq, Repr

/-- A position of a text token: all three equal. -/
def Pos.text (p : Nat) : Pos := ⟨p, p, p⟩

/-- The two functions: `get_rope_index` of Qwen3-VL (`vl`) and `get_rope_index_qwen3_5`. -/
inductive Ver | vl | q5
deriving DecidableEq, Repr

/-- `llm_grid_h`, `gh` (QV L649, Q5 L848); `ms` is the spatial merge size. -/
def Grid.gh (ms : Nat) (g : Grid) : Nat := g.h / ms
/-- `llm_grid_w`, `gw` (QV L650, Q5 L849). -/
def Grid.gw (ms : Nat) (g : Grid) : Nat := g.w / ms
/-- `num_image_tokens`, `n_img` (QV L651, Q5 L850). -/
def Grid.num (ms : Nat) (g : Grid) : Nat := g.t * g.gh ms * g.gw ms

/-- `x.repeat_interleave(k)`. -/
def repeatInterleave (x : List Nat) (k : Nat) : List Nat := (List.range (x.length * k)).map fun i => x.getD (i / k) 0
/-- `x.repeat(k)`. -/
def repeatL (x : List Nat) (k : Nat) : List Nat := (List.range (x.length * k)).map fun i => x.getD (i % x.length) 0

/-- The three rows written for the tokens of an image (QV L654-L677, Q5 L853-L864), `cur` being the running position.  A view of shape
`(t, gh, gw)` is flattened in row-major order. -/
def imgRows (v : Ver) (ms : Nat) (g : Grid) (cur : Nat) : List Nat × List Nat × List Nat :=
  match v with
  | .vl => ((List.range (g.num ms)).map fun k => k / (g.gh ms * g.gw ms) + cur, (List.range (g.num ms)).map fun k => k / g.gw ms % g.gh ms + cur,
      (List.range (g.num ms)).map fun k => k % g.gw ms + cur)
  | .q5 => (List.replicate (g.num ms) cur, (repeatL (repeatInterleave (List.range (g.gh ms)) (g.gw ms)) g.t).map (· + cur),
      (repeatL (List.range (g.gw ms)) (g.gh ms * g.t)).map (· + cur))

/-- The columns made of the three rows. -/
def columns (r : List Nat × List Nat × List Nat) : List Pos := (List.range r.1.length).map fun k => ⟨r.1.getD k 0, r.2.1.getD k 0, r.2.2.getD k 0⟩

/-- By how much an image moves the running position (QV L684, Q5 L870). -/
def advance (v : Ver) (ms : Nat) (g : Grid) : Nat :=
  match v with
  | .vl => max g.t (max (g.gh ms) (g.gw ms))
  | .q5 => max (g.gh ms) (g.gw ms)

/-- The `while` loop (QV L632-L691, Q5 L840-L878).  Positions are written from left to right without gaps, so that the written part is a
list that grows at its end.  `none`: assigning the rows of an image to a slice cut off by the end of the sequence raises (a row of one
element is broadcast, even to an empty slice). -/
def loop (v : Ver) (ms vs : Nat) (ids : List Nat) (grids : List Grid) (cur : Nat) : Option (List Pos × Nat) :=
  match ids with
  | [] => some ([], cur)
  | id :: rest =>
    match grids with
    | [] => (loop v ms vs rest [] (cur + 1)).map fun r => (Pos.text cur :: r.1, r.2)
    | g :: gs =>
      if id = vs then
        if g.num ms ≤ rest.length then
          (loop v ms vs (rest.drop (g.num ms)) gs (cur + 1 + advance v ms g)).map fun r =>
            (Pos.text cur :: columns (imgRows v ms g (cur + 1)) ++ r.1, r.2)
        else if g.num ms = 1 then some ([Pos.text cur], cur + 1 + advance v ms g) else none
      else (loop v ms vs rest (g :: gs) (cur + 1)).map fun r => (Pos.text cur :: r.1, r.2)
termination_by ids.length
decreasing_by all_goals simp <;> omega

/-- The initial running position: QV L628 has no parameter for it, Q5 L836. -/
def firstPos : Ver → Nat → Nat
  | .vl, _ => 0
  | .q5, s => s

/-- `get_rope_index` (QV L595-L694; its positions start at 0) and `get_rope_index_qwen3_5` (Q5 L792-L880): the columns and the delta.
`none`: an exception (a division by the merge size 0, or a cut image). -/
def ropeIndex (v : Ver) (ms vs : Nat) (ids : List Nat) (grids : Option (List Grid)) (startPos : Nat) : Option (List Pos × Int) :=
  let start := firstPos v startPos
  match grids with
  | none | some [] => some ((List.range ids.length).map fun i => Pos.text (i + start), 0)
  | some gs => if ms = 0 then none else (loop v ms vs ids gs start).map fun r => (r.1, ((r.2 : Int) - start) - ids.length)

/-- One sequence of an extend batch: the tokens that are not cached and the number of cached ones. -/
structure Seq where
  ids : List Nat
  prefixLen : Nat

/-- The loop over the sequences of an extend batch (QV L1174-L1199, Q5 L960-L996): `grids` are the rows of all requests together. -/
def extendBatch (v : Ver) (ms vs : Nat) (grids : Option (List Grid)) : List Seq → Nat → Option (List (List Pos × Int))
  | [], _ => some []
  | s :: ss, off =>
    let num := s.ids.count vs
    match grids with
    | some gs =>
      if 0 < num then do
        let r ← ropeIndex v ms vs s.ids (some ((gs.drop off).take num)) s.prefixLen
        let rs ← extendBatch v ms vs grids ss (off + num)
        some (r :: rs)
      else do
        let r ← ropeIndex v ms vs s.ids none s.prefixLen
        let rs ← extendBatch v ms vs grids ss off
        some (r :: rs)
    | none => do
        let r ← ropeIndex v ms vs s.ids none s.prefixLen
        let rs ← extendBatch v ms vs grids ss off
        some (r :: rs)

/-- The position of the token of a decode step (QV L1206-L1212, MR L1253): `seqLen` counts this token. -/
def decodePos (seqLen : Nat) (delta : Int) : Int := ((seqLen : Int) - 1) + delta

/-- The comparison of image tokens and image features (QV L1248-L1258, Q5): `true` when it passes.  The vision encoder gives one feature
for every merged patch of every image. -/
def featuresMatch (ms img : Nat) (ids : List Nat) (grids : List Grid) : Bool := ids.count img = (grids.map fun g => g.num ms).sum

/-- How many cached tokens an extend step uses when the radix cache matched `m` of the request's `n` tokens (MP L723-L726). -/
def usedPrefix (n m : Nat) : Nat := if n ≤ m + 1 ∧ 2 ≤ n then n - 2 else m

end Verif.Vpos
