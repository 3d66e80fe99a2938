import Verif.Radix.Model
/-
Specification of the prefix cache, independent of the tree:
a history is just the list of inserts, oldest first.
-/
namespace Verif.Radix

variable {C A : Type}

/-- The value given by an insert has at least one address per token in every column (otherwise
`insert` throws `out_of_range`). -/
def Ins.Fits (r : Ins C A) : Prop := ∀ c, r.key.length ≤ (r.val c).length

/-- A history in which some inserts threw (`false`): an insert that does not throw must fit. -/
def OkHist (h : List (Bool × Ins C A)) : Prop := ∀ x ∈ h, x.1 = true → x.2.Fits

/-- `n` tokens of `key` are cached under `e`: nothing, or a prefix of an inserted key. -/
def Cached (h : List (Ins C A)) (e : Int) (key : List Int) (n : Nat) : Prop :=
  n ≤ key.length ∧ (n = 0 ∨ ∃ r ∈ h, r.extra = e ∧ key.take n <+: r.key)

/-- The first insert under `e` whose key shares the first `i+1` tokens with `key`. -/
def firstOwner (h : List (Ins C A)) (e : Int) (key : List Int) (i : Nat) : Option (Ins C A) :=
  h.find? (fun r => r.extra = e && (key.take (i + 1)).isPrefixOf r.key)

/-- Longest-prefix-match specification of a search result. -/
structure LongestMatch (h : List (Ins C A)) (e : Int) (key : List Int) (r : Result C A) : Prop where
  cached : Cached h e key r.matched
  longest : ∀ n, Cached h e key n → n ≤ r.matched
  success : r.success = true ↔ r.matched ≠ 0
  addr : ∀ c, ∃ xs, r.cols c = some xs ∧ xs.length = r.matched ∧
    ∀ i, i < r.matched → ∃ o, firstOwner h e key i = some o ∧ xs[i]? = (o.val c)[i]?

/-- API-level condition that excludes the wrong descent: whenever two keys (used with the same
extra key) part at some position, the token of the one does not occur later in the other. -/
def Separable (a b : List Int) : Prop :=
  ∀ p x xs y ys, a = p ++ x :: xs → b = p ++ y :: ys → x ≠ y → x ∉ ys

/-- The inserts of a history are pairwise separable: a later key against every earlier one. -/
def SepHist (h : List (Ins C A)) : Prop :=
  h.Pairwise (fun a b => a.extra = b.extra → Separable b.key a.key)

/-- `key` may be looked up under `e` without wrong descent. -/
def SepQuery (h : List (Ins C A)) (e : Int) (key : List Int) : Prop :=
  ∀ r ∈ h, r.extra = e → Separable key r.key

end Verif.Radix
