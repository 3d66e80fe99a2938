import Verif.Aot.Model

/-!
# What the runtime is supposed to compute

A decoder-only transformer processes one token at a time: `F tok pos hist` gives the logits after `tok` at position
`pos` and the token's cache entry (keys and values of all layers), where `hist` is the list of the entries of the
tokens it attends to.  Nothing here refers to chunks, buffers, masks or padding.
-/
namespace Verif.Aot

/-- The keys and values of one token: per layer, head and dimension. -/
abbrev Ent (c : Cfg) (α : Type) := Fin c.layers → Fin c.heads → Fin c.dim → α × α

abbrev Net (c : Cfg) (α Lg : Type) := Int → Int → List (Ent c α) → Lg × Ent c α

/-- Feeding tokens one after the other, each attending to all before it. -/
def feed {c : Cfg} {α Lg : Type} (F : Net c α Lg) : List (Ent c α) → List Int → List (Ent c α)
  | hist, [] => hist
  | hist, t :: ts => feed F (hist ++ [(F t hist.length hist).2]) ts

/-- The logits after the last token `t` of `ts ++ [t]`. -/
def lastLogits {c : Cfg} {α Lg : Type} (F : Net c α Lg) (hist : List (Ent c α)) (ts : List Int) (t : Int) : Lg :=
  (F t (feed F hist ts).length (feed F hist ts)).1

/-- Greedy decoding for at most `n` steps: feed the last token, take the best next one; stop after an EOS. -/
def continueRef {c : Cfg} {α Lg : Type} (F : Net c α Lg) (greedy : Lg → Int) (eos : List Int) :
    Nat → List (Ent c α) → Int → List Int
  | 0, _, _ => []
  | n + 1, hist, t =>
    let r := F t hist.length hist
    let t' := greedy r.1
    if t' ∈ eos then [t'] else t' :: continueRef F greedy eos n (hist ++ [r.2]) t'

/-- The answer to the prompt `ts ++ [t]`: the first token, then up to `n` more, ending with the first EOS. -/
def answer {c : Cfg} {α Lg : Type} (F : Net c α Lg) (greedy : Lg → Int) (eos : List Int) (ts : List Int) (t : Int) (n : Nat) :
    List Int :=
  let t0 := greedy (lastLogits F [] ts t)
  if t0 ∈ eos then [t0] else t0 :: continueRef F greedy eos n (feed F [] (ts ++ [t])) t0

/-- The entry stored in column `j` of the past-key and past-value tensors with `S` columns, of shapes
[1, heads, dim, S] and [1, heads, S, dim]. -/
def pastEnt {c : Cfg} {α : Type} (S : Nat) (k v : Fin c.layers → Mem α) (j : Nat) : Ent c α :=
  fun l h d => (k l ((h * c.dim + d) * S + j), v l ((h * S + j) * c.dim + d))

/-- What row `i` of a graph for `n` tokens is told to attend to: past columns and earlier new rows. -/
def attended {c : Cfg} {α : Type} (n : Nat) (x : In c α) (new : Nat → Ent c α) (i : Nat) : List (Ent c α) :=
  ((List.range (c.ctx - n)).filter (fun j => x.mask (i * c.ctx + j))).map (pastEnt (c.ctx - n) x.k x.v) ++
  ((List.range i).filter (fun j => x.mask (i * c.ctx + (c.ctx - n + j)))).map new

/-- A compiled graph for `n` tokens implements `F`: each row whose mask allows the row itself and no later row
computes `F` on its token, its position and what it attends to. -/
def Implements {c : Cfg} {α Lg : Type} (F : Net c α Lg) (n : Nat) (g : Graph c α Lg) : Prop :=
  ∀ (x : In c α) (i : Nat), i < n →
    x.mask (i * c.ctx + (c.ctx - n + i)) = true →
    (∀ j, i < j → j < n → x.mask (i * c.ctx + (c.ctx - n + j)) = false) →
    ((g x).logits i, pastEnt n (g x).k (g x).v i) =
      F (x.ids i) (x.pos i) (attended n x (pastEnt n (g x).k (g x).v) i)

end Verif.Aot
