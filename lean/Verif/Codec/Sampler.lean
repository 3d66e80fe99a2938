import Verif.Prelude
import Mathlib.Analysis.SpecialFunctions.Exp
import Mathlib.Algebra.Order.Monoid.Unbundled.WithTop

/-!
# Choosing audio codes

Models of mllm/models/minicpm_o2_6/modeling_chattts.hpp (`CT`): the filters on the logits, the masking of the end
token, the softmax and the sampler.  A logit is a real number or minus infinity (`⊥`); numbers are exact (the code
computes in `float`).
-/

namespace Verif.Codec

/-- A logit, possibly minus infinity. -/
abbrev Logit := WithBot ℝ

open Classical in
/-- The row in descending order: the first `k` places are what `std::partial_sort` produces (CT L621-L627); equal
values cannot be told apart. -/
noncomputable def descending (row : List Logit) : List Logit := row.mergeSort (fun a b => decide (b ≤ a))

/-- The number of values kept (CT L604-L606). -/
def keptK (topk least vocab : Nat) : Nat := min (max topk least) vocab

open Classical in
/-- `applyTopKWarper` on a row (CT L600-L641). -/
noncomputable def topK (row : List Logit) (topk least : Nat) : List Logit :=
  let threshold := (descending row).getD (keptK topk least row.length - 1) ⊥
  row.map fun x => if x < threshold then ⊥ else x

/-- `exp` of a logit. -/
noncomputable def weight (x : Logit) : ℝ := x.recBotCoe 0 Real.exp

/-- The softmax of a row (CT L428, L673-L684); the subtraction of the maximum cancels. -/
noncomputable def softmax (row : List Logit) : List ℝ := row.map fun x => weight x / (row.map weight).sum

open Classical in
/-- The loop that counts the tokens of the nucleus (CT L687-L693). -/
noncomputable def nucleus (topp : ℝ) : List ℝ → ℝ → Nat → Nat
  | [], _, n => n
  | q :: qs, cum, n => if topp < cum + q then n + 1 else nucleus topp qs (cum + q) (n + 1)

/-- An order `std::sort` can produce (CT L664-L670): the positions by descending logit, equal ones anyhow. -/
structure Sorted (row : List Logit) (ord : List Nat) : Prop where
  perm : ord.Perm (List.range row.length)
  desc : ord.Pairwise fun i j => row.getD j ⊥ ≤ row.getD i ⊥

/-- `applyTopPWarper` on a row (CT L654-L706), for one order of the sort. -/
noncomputable def topP (row : List Logit) (ord : List Nat) (topp : ℝ) (least : Nat) : List Logit :=
  let probs := softmax (ord.map fun i => row.getD i ⊥)
  let keep := max (nucleus topp probs 0 0) least
  (ord.drop keep).foldl (fun r i => r.set i ⊥) row

/-- Masking of the end token (CT L398-L423). -/
def maskEnd (row : List Logit) (eos : Nat) (i least : Nat) (force : Bool) : List Logit :=
  let row := if i < least then row.set eos ⊥ else row
  if force then row.set eos ⊥ else row

/-- `std::partial_sum` (CT L720-L721). -/
def partialSums : List ℝ → ℝ → List ℝ
  | [], _ => []
  | q :: qs, cum => (cum + q) :: partialSums qs (cum + q)

open Classical in
/-- `multinomialSample` (CT L712-L731) for a given random number: the first position whose partial sum is not below
it, the length of the row if there is none. -/
noncomputable def pick (probs : List ℝ) (r : ℝ) : Nat := (partialSums probs 0).findIdx fun c => decide (r ≤ c)

/-- The random numbers a generator seeded with a value yields. -/
abbrev Stream := Nat → Nat → ℝ

/-- A call of `multinomialSample` constructs a generator with the seed of the context and takes its first number
(CT L724-L726); nothing is carried over to the next call. -/
noncomputable def multinomial (gen : Stream) (seed : Nat) (probs : List ℝ) : Nat := pick probs (gen seed 0)

/-- The tokens of a run: the distributions of all steps and codebooks in the order they are sampled (CT L432-L443). -/
noncomputable def sampleAll (gen : Stream) (seed : Nat) (dists : List (List ℝ)) : List Nat := dists.map (multinomial gen seed)

/-- The scores of one codebook at step `i` (CT L380-L428); `bos` is the first audio token. -/
noncomputable def scores (row : List Logit) (ord : List Nat) (bos : Bool) (topk : Int) (topp : ℝ) (eos i least : Nat) (force : Bool) : List ℝ :=
  let l := if bos then row else
    let l := if 0 < topk then topK row topk.toNat 3 else row
    if 0 < topp ∧ topp < 1 then topP l ord topp 3 else l
  softmax (maskEnd l eos i least force)

end Verif.Codec
