import Verif.Prelude
import Mathlib.Data.List.Sort
import Mathlib.Algebra.Order.BigOperators.Group.List
import Mathlib.Algebra.Order.Ring.Rat

/-!
# C65: the four samplers of `ARGeneration`

Source: `mllm/models/ARGeneration.cpp` L334-L495.

Simplifications: a logit or probability is a rational (no NaN, sums are exact); the softmax and the
temperature scaling are not modelled, the samplers get its result `p : Nat → ℚ`, `p j` being the
probability of token `j < n`.  `std::sort` and `std::partial_sort` may return any arrangement their
contract allows, `std::discrete_distribution` may return any index; the samplers are therefore
relations between the probabilities and the token returned.
-/

namespace Verif.Gen

/-- Result of a sampler: a token, or undefined behaviour. -/
inductive Res where
  | token (t : Nat)
  | undef
deriving DecidableEq, Repr

/-! ### Model -/

/-- The scan of `std::max_element` over `[first + 1, last)`, `best` being the current maximum. -/
def maxScan (p : Nat → ℚ) (best : Nat) : List Nat → Nat
  | [] => best
  | i :: is => maxScan p (if p best < p i then i else best) is

/-- `sampleGreedy` (L335-L348): `std::max_element`, then its distance from the beginning. -/
def sampleGreedy (p : Nat → ℚ) (n : Nat) : Nat := maxScan p 0 (List.range n).tail

/-- `std::partial_sum` (L458). -/
def partialSum (p : Nat → ℚ) (n : Nat) : List ℚ :=
  (List.range n).map fun i => ((List.range (i + 1)).map p).sum

/-- The loop of `std::lower_bound` (L466): the range `[first, first + len)` is left. -/
def lowerBound (c : List ℚ) (r : ℚ) : Nat → Nat → Nat → Nat
  | 0, first, _ => first
  | fuel + 1, first, len =>
    if len = 0 then first
    else
      let half := len / 2
      let mid := first + half
      if c.getD mid 0 < r then lowerBound c r fuel (mid + 1) (len - half - 1)
      else lowerBound c r fuel first half

/-- `categoricalSample` (L451-L468), `r` being the random draw. -/
def categoricalSample (p : Nat → ℚ) (n : Nat) (r : ℚ) : Nat :=
  let cum := partialSum p n
  lowerBound cum r (n + 1) 0 n

/-- What `std::partial_sort(b, b + k, e, greater prob)` may leave in `indices` (L391-L394). -/
structure PartialSorted (p : Nat → ℚ) (n k : Nat) (idx : List Nat) : Prop where
  perm : idx.Perm (List.range n)
  sorted : (idx.take k).Pairwise fun i j => ¬ p j > p i
  smallest : ∀ i ∈ idx.take k, ∀ j ∈ idx.drop k, ¬ p j > p i

/-- `sampleTopK` (L370-L406) for `k > 0`, the only case the generation loops use.
`indices.begin() + k` past the end is undefined behaviour; otherwise the result is one of the
first `k` indices. -/
def sampleTopK (p : Nat → ℚ) (n k : Nat) (res : Res) : Prop :=
  if k > n then res = .undef
  else ∃ idx, PartialSorted p n k idx ∧ ∃ i, i < k ∧ ∃ t, idx[i]? = some t ∧ res = .token t

/-- The loop of `sampleTopP` (L429-L434): how many of the sorted indices are kept.  `cum` is
`cumulative_prob`. -/
def keepLoop (p : Nat → ℚ) (P : ℚ) : ℚ → List Nat → Nat
  | _, [] => 0
  | cum, t :: ts => if cum < P then keepLoop p P (cum + p t) ts + 1 else 0

/-- What `std::sort` may leave in `indices` (L426). -/
structure FullSorted (p : Nat → ℚ) (n : Nat) (idx : List Nat) : Prop where
  perm : idx.Perm (List.range n)
  sorted : idx.Pairwise fun i j => ¬ p j > p i

/-- `sampleTopP` (L410-L441). -/
def sampleTopP (p : Nat → ℚ) (n : Nat) (P : ℚ) (res : Res) : Prop :=
  ∃ idx, FullSorted p n idx ∧
    if keepLoop p P 0 idx = 0 then res = .undef   -- drawing from an empty weight list
    else ∃ i, i < keepLoop p P 0 idx ∧ ∃ t, idx[i]? = some t ∧ res = .token t

/-! ### Greedy -/

theorem maxScan_mem (p : Nat → ℚ) : ∀ (l : List Nat) (b : Nat),
    maxScan p b l = b ∨ maxScan p b l ∈ l := by
  intro l
  induction l with
  | nil => intro b; exact Or.inl rfl
  | cons i is ih =>
    intro b
    simp only [maxScan]
    rcases ih (if p b < p i then i else b) with h | h
    · rw [h]; split_ifs
      · exact Or.inr List.mem_cons_self
      · exact Or.inl rfl
    · exact Or.inr (List.mem_cons_of_mem _ h)

theorem maxScan_range (p : Nat → ℚ) (len : Nat) : ∀ (b s : Nat), b < s →
    (∀ j, j < s → p j ≤ p b) → (∀ j, j < b → p j < p b) →
    (∀ j, j < s + len → p j ≤ p (maxScan p b (List.range' s len))) ∧
    (∀ j, j < maxScan p b (List.range' s len) → p j < p (maxScan p b (List.range' s len))) ∧
    maxScan p b (List.range' s len) < s + len := by
  induction len with
  | zero => intro b s hb h1 h2; exact ⟨by simpa [maxScan] using h1, by simpa [maxScan] using h2, by simpa [maxScan]⟩
  | succ len ih =>
    intro b s hb h1 h2
    rw [List.range'_succ]
    simp only [maxScan]
    by_cases h : p b < p s
    · rw [if_pos h]
      have := ih s (s + 1) (by omega)
        (by
          intro j hj
          rcases Nat.lt_succ_iff_lt_or_eq.mp hj with hj | hj
          · exact (lt_of_le_of_lt (h1 j hj) h).le
          · rw [hj])
        (fun j hj => lt_of_le_of_lt (h1 j hj) h)
      rwa [show s + 1 + len = s + (len + 1) by omega] at this
    · rw [if_neg h]
      have := ih b (s + 1) (by omega)
        (by
          intro j hj
          rcases Nat.lt_succ_iff_lt_or_eq.mp hj with hj | hj
          · exact h1 j hj
          · rw [hj]; exact not_lt.mp h)
        h2
      rwa [show s + 1 + len = s + (len + 1) by omega] at this

/-- **C65, greedy.** Greedy decoding returns the lowest-numbered token of maximal logit. -/
theorem greedy_argmax (p : Nat → ℚ) (n : Nat) (hn : 0 < n) :
    sampleGreedy p n < n ∧ (∀ j, j < n → p j ≤ p (sampleGreedy p n)) ∧
      ∀ j, j < sampleGreedy p n → p j < p (sampleGreedy p n) := by
  obtain ⟨m, rfl⟩ : ∃ m, n = m + 1 := ⟨n - 1, by omega⟩
  have ht : (List.range (m + 1)).tail = List.range' 1 m := by
    rw [List.range_eq_range', List.range'_succ]; rfl
  unfold sampleGreedy
  rw [ht]
  have := maxScan_range p m 0 1 (by omega) (fun j hj => by rw [Nat.lt_one_iff.mp hj])
    (fun j hj => absurd hj (by omega))
  rw [Nat.add_comm 1 m] at this
  exact ⟨this.2.2, this.1, this.2.1⟩

example : sampleGreedy (fun j => if j = 2 ∨ j = 4 then 7 else (j : ℚ) / 2) 6 = 2 := by
  decide +kernel

/-! ### Temperature sampling -/

theorem lowerBound_spec (c : List ℚ) (r : ℚ)
    (hmono : ∀ i j, i ≤ j → j < c.length → c.getD i 0 ≤ c.getD j 0) :
    ∀ (fuel first len : Nat), len < fuel → first + len ≤ c.length →
    (∀ i, i < first → c.getD i 0 < r) →
    (∀ i, first + len ≤ i → i < c.length → r ≤ c.getD i 0) →
    lowerBound c r fuel first len ≤ c.length ∧
    (∀ i, i < lowerBound c r fuel first len → c.getD i 0 < r) ∧
    (∀ i, lowerBound c r fuel first len ≤ i → i < c.length → r ≤ c.getD i 0) := by
  intro fuel
  induction fuel with
  | zero => intro first len h; omega
  | succ fuel ih =>
    intro first len hf hlen hlo hhi
    unfold lowerBound
    by_cases h0 : len = 0
    · rw [if_pos h0]; subst h0; exact ⟨by omega, hlo, by simpa using hhi⟩
    · rw [if_neg h0]
      simp only
      have hmid : first + len / 2 < c.length := by omega
      by_cases hc : c.getD (first + len / 2) 0 < r
      · rw [if_pos hc]
        refine ih _ _ (by omega) (by omega) ?_ ?_
        · intro i hi
          exact lt_of_le_of_lt (hmono i _ (by omega) hmid) hc
        · intro i hi hl
          exact hhi i (by omega) hl
      · rw [if_neg hc]
        refine ih _ _ (by omega) (by omega) hlo ?_
        intro i hi hl
        exact le_trans (not_lt.mp hc) (hmono _ i (by omega) hl)

/-- Total probability of the tokens below `i`. -/
def massBelow (p : Nat → ℚ) (i : Nat) : ℚ := ((List.range i).map p).sum

theorem massBelow_succ (p : Nat → ℚ) (i : Nat) : massBelow p (i + 1) = massBelow p i + p i := by
  unfold massBelow; rw [List.range_succ]; simp

theorem massBelow_mono (p : Nat → ℚ) (n : Nat) (h : ∀ j, j < n → 0 ≤ p j) (i j : Nat)
    (hij : i ≤ j) (hj : j ≤ n) : massBelow p i ≤ massBelow p j := by
  induction j with
  | zero => obtain rfl : i = 0 := by omega
            exact le_refl _
  | succ j ih =>
    rcases Nat.lt_or_ge i (j + 1) with hlt | hge
    · rw [massBelow_succ]
      have := ih (by omega) (by omega)
      have := h j (by omega)
      linarith
    · obtain rfl : i = j + 1 := by omega
      exact le_refl _

theorem partialSum_getD (p : Nat → ℚ) (n i : Nat) (h : i < n) :
    (partialSum p n).getD i 0 = massBelow p (i + 1) := by
  unfold partialSum massBelow
  rw [List.getD_eq_getElem?_getD, List.getElem?_map, List.getElem?_range h]
  rfl

/-- **C65, temperature.** For every probability vector and every draw `r` the token returned is the
one whose interval of the cumulative distribution contains `r`: all the mass below it is less than
`r` (token 0 excepted) and the mass up to it reaches `r`.  It is a token of the vocabulary exactly
when `r` does not exceed the total mass. -/
theorem categorical_interval (p : Nat → ℚ) (n : Nat) (r : ℚ) (hp : ∀ j, j < n → 0 ≤ p j) :
    (categoricalSample p n r < n ↔ 0 < n ∧ r ≤ massBelow p n) ∧
    categoricalSample p n r ≤ n ∧
    (0 < categoricalSample p n r → massBelow p (categoricalSample p n r) < r) ∧
    (categoricalSample p n r < n → r ≤ massBelow p (categoricalSample p n r) +
      p (categoricalSample p n r)) := by
  have hl : (partialSum p n).length = n := by simp [partialSum]
  obtain ⟨h1, h2, h3⟩ := lowerBound_spec (partialSum p n) r
    (by
      intro i j hij hj
      rw [hl] at hj
      rw [partialSum_getD p n i (by omega), partialSum_getD p n j hj]
      exact massBelow_mono p n hp _ _ (by omega) (by omega))
    (n + 1) 0 n (by omega) (by omega) (fun i hi => absurd hi (by omega))
    (fun i hi hi' => by omega)
  change categoricalSample p n r ≤ _ at h1
  rw [hl] at h1
  have h2' : ∀ i, i < categoricalSample p n r → massBelow p (i + 1) < r := by
    intro i hi
    have := h2 i hi
    rwa [partialSum_getD p n i (by omega)] at this
  have h3' : ∀ i, categoricalSample p n r ≤ i → i < n → r ≤ massBelow p (i + 1) := by
    intro i hi hn
    have := h3 i hi (by omega)
    rwa [partialSum_getD p n i hn] at this
  refine ⟨⟨?_, ?_⟩, h1, ?_, ?_⟩
  · intro h
    refine ⟨by omega, ?_⟩
    have := h3' (n - 1) (by omega) (by omega)
    rwa [show n - 1 + 1 = n by omega] at this
  · rintro ⟨hn, hr⟩
    by_contra hge
    have := h2' (n - 1) (by omega)
    rw [show n - 1 + 1 = n by omega] at this
    exact absurd hr (not_le.mpr this)
  · intro h
    have := h2' (categoricalSample p n r - 1) (by omega)
    rwa [show categoricalSample p n r - 1 + 1 = categoricalSample p n r by omega] at this
  · intro h
    have := h3' _ (le_refl _) h
    rwa [massBelow_succ] at this

example : categoricalSample (fun _ => 1 / 4) 4 (6 / 10) = 2 := by decide +kernel

/-- **C65, temperature, is violated** at the two ends of the draw: probabilities that sum to
slightly less than one (as rounded ones do) with a draw above their sum give the token number
`vocab_size`, which is not in the vocabulary; and the draw 0 gives token 0 although its
probability is 0. -/
theorem categorical_violated :
    (∃ p : Nat → ℚ, ∃ r, (∀ j, j < 2 → 0 < p j) ∧ 1 - 1 / 2 ^ 22 ≤ massBelow p 2 ∧
      massBelow p 2 ≤ 1 ∧ 0 ≤ r ∧ r < 1 ∧ categoricalSample p 2 r = 2) ∧
    (∃ p : Nat → ℚ, (∀ j, 0 ≤ p j) ∧ p 0 = 0 ∧ massBelow p 2 = 1 ∧
      categoricalSample p 2 0 = 0) := by
  refine ⟨⟨fun j => if j = 0 then 1 / 2 else 1 / 2 - 1 / 2 ^ 23, 1 - 1 / 2 ^ 24, ?_, ?_, ?_, ?_, ?_,
    ?_⟩, ⟨fun j => if j = 1 then 1 else 0, ?_, rfl, ?_, ?_⟩⟩
  · intro j _
    by_cases h : j = 0
    · simp [h]
    · simp only [h, if_false]; norm_num
  · simp [massBelow, List.range_succ]; norm_num
  · simp [massBelow, List.range_succ]; norm_num
  · norm_num
  · norm_num
  · decide +kernel
  · intro j; dsimp only; split_ifs <;> norm_num
  · simp [massBelow, List.range_succ]
  · decide +kernel

/-! ### Top-k -/

/-- Tokens of the vocabulary that are strictly more probable than `t`. -/
def better (p : Nat → ℚ) (n t : Nat) : List Nat := (List.range n).filter fun j => p j > p t

/-- Tokens other than `t` that are at least as probable as `t`. -/
def rivals (p : Nat → ℚ) (n t : Nat) : List Nat :=
  (List.range n).filter fun j => decide (p j ≥ p t) && decide (j ≠ t)

theorem PartialSorted.ge {p : Nat → ℚ} {n k : Nat} {idx : List Nat} (h : PartialSorted p n k idx)
    {i j : Nat} (hi : i < k) {t u : Nat} (ht : idx[i]? = some t) (hu : idx[j]? = some u)
    (hij : i ≤ j) : p u ≤ p t := by
  rcases Nat.eq_or_lt_of_le hij with rfl | hlt
  · rw [ht] at hu; cases hu; exact le_refl _
  · have hm : t ∈ idx.take k := by
      rw [List.mem_iff_getElem?]; exact ⟨i, by rw [List.getElem?_take, if_pos hi, ht]⟩
    by_cases hjk : j < k
    · have hs := List.pairwise_iff_getElem.mp h.sorted i j
        (by rw [List.length_take]; have := (List.getElem?_eq_some_iff.mp ht).1; omega)
        (by rw [List.length_take]; have := (List.getElem?_eq_some_iff.mp hu).1; omega) hlt
      rw [List.getElem_take, List.getElem_take, (List.getElem?_eq_some_iff.mp ht).2,
        (List.getElem?_eq_some_iff.mp hu).2] at hs
      exact not_lt.mp hs
    · have hm2 : u ∈ idx.drop k := by
        rw [List.mem_iff_getElem?]
        exact ⟨j - k, by rw [List.getElem?_drop, show k + (j - k) = j by omega, hu]⟩
      exact not_lt.mp (h.smallest t hm u hm2)

/-- **C65, top-k.** For every probability vector, every arrangement `std::partial_sort` may
produce and every draw, if `k` does not exceed the vocabulary the token returned is in the
vocabulary and fewer than `k` tokens are strictly more probable than it. -/
theorem topK_sound (p : Nat → ℚ) (n k : Nat) (hk : k ≤ n) (res : Res)
    (h : sampleTopK p n k res) :
    ∃ t, res = .token t ∧ t < n ∧ (better p n t).length < k := by
  unfold sampleTopK at h
  rw [if_neg (by omega)] at h
  obtain ⟨idx, hs, i, hi, t, ht, rfl⟩ := h
  refine ⟨t, rfl, ?_, ?_⟩
  · have : t ∈ idx := List.mem_of_getElem? ht
    exact List.mem_range.mp (hs.perm.subset this)
  · have hperm : (better p n t).Perm (idx.filter fun j => p j > p t) :=
      (hs.perm.filter _).symm
    rw [hperm.length_eq]
    have hsplit : idx.filter (fun j => decide (p j > p t)) =
        (idx.take i).filter (fun j => decide (p j > p t)) := by
      conv_lhs => rw [← List.take_append_drop i idx, List.filter_append]
      have : (idx.drop i).filter (fun j => decide (p j > p t)) = [] := by
        rw [List.filter_eq_nil_iff]
        intro u hu
        obtain ⟨m, hm⟩ := List.mem_iff_getElem?.mp hu
        rw [List.getElem?_drop] at hm
        have := hs.ge hi ht hm (by omega)
        simpa using this
      rw [this, List.append_nil]
    rw [hsplit]
    calc _ ≤ (idx.take i).length := List.length_filter_le _ _
      _ ≤ i := by simp
      _ < k := hi

/-- **C65, top-k, completeness.** Every token with fewer than `k` rivals can be returned, whatever
arrangement the sort produced. -/
theorem topK_complete (p : Nat → ℚ) (n k : Nat) (hk : k ≤ n) (t : Nat) (ht : t < n)
    (hr : (rivals p n t).length < k) (idx : List Nat) (hs : PartialSorted p n k idx) :
    ∃ i, i < k ∧ idx[i]? = some t := by
  obtain ⟨i, hi⟩ := List.mem_iff_getElem?.mp (hs.perm.symm.subset (List.mem_range.mpr ht))
  refine ⟨i, ?_, hi⟩
  by_contra hge
  have hlen : idx.length = n := by rw [hs.perm.length_eq, List.length_range]
  have hsub : (idx.take k).Subperm ((rivals p n t)) := by
    have hnd : idx.Nodup := hs.perm.nodup_iff.mpr List.nodup_range
    refine List.subperm_of_subset (hnd.sublist (List.take_sublist _ _)) ?_
    intro u hu
    obtain ⟨m, hm⟩ := List.mem_iff_getElem?.mp hu
    have hmk : m < k := by
      have := (List.getElem?_eq_some_iff.mp hm).1; rw [List.length_take] at this; omega
    rw [List.getElem?_take, if_pos hmk] at hm
    have hge' := hs.ge hmk hm hi (by omega)
    have hne : u ≠ t := by
      rintro rfl
      have e1 := (List.getElem?_eq_some_iff.mp hm)
      have e2 := (List.getElem?_eq_some_iff.mp hi)
      have := (hnd.getElem_inj_iff (hi := e1.1) (hj := e2.1)).mp (by rw [e1.2, e2.2])
      omega
    unfold rivals
    rw [List.mem_filter]
    exact ⟨hs.perm.subset (List.mem_of_getElem? hm), by simp [hge', hne]⟩
  have := hsub.length_le
  rw [List.length_take] at this
  omega

/-- **C65, top-k, is violated** when `k` exceeds the vocabulary: undefined behaviour for every
probability vector. -/
theorem topK_violated (p : Nat → ℚ) (n k : Nat) (hk : n < k) (res : Res) :
    sampleTopK p n k res ↔ res = .undef := by
  unfold sampleTopK; rw [if_pos hk]

/-- Non-vacuity: with probabilities 1,3,2,3 and `k = 2` token 3 can be returned. -/
example : sampleTopK (fun j => [1, 3, 2, 3].getD j 0) 4 2 (.token 3) ∧
    (better (fun j => [1, 3, 2, 3].getD j 0) 4 3).length = 0 ∧
    (rivals (fun j => [1, 3, 2, 3].getD j 0) 4 3).length = 1 := by
  refine ⟨?_, by decide +kernel, by decide +kernel⟩
  unfold sampleTopK
  rw [if_neg (by omega)]
  exact ⟨[1, 3, 0, 2], ⟨by decide +kernel, by decide +kernel, by decide +kernel⟩, 1, by omega, 3,
    rfl, rfl⟩

/-! ### Top-p -/

/-- Total probability of a list of tokens. -/
def mass (p : Nat → ℚ) (l : List Nat) : ℚ := (l.map p).sum

theorem keepLoop_le (p : Nat → ℚ) (P : ℚ) : ∀ (l : List Nat) (c : ℚ), keepLoop p P c l ≤ l.length := by
  intro l
  induction l with
  | nil => intro c; simp [keepLoop]
  | cons t ts ih =>
    intro c
    simp only [keepLoop]
    split_ifs
    · have := ih (c + p t); simp; omega
    · simp

theorem keepLoop_before (p : Nat → ℚ) (P : ℚ) : ∀ (l : List Nat) (c : ℚ) (i : Nat),
    i < keepLoop p P c l → c + mass p (l.take i) < P := by
  intro l
  induction l with
  | nil => intro c i h; simp [keepLoop] at h
  | cons t ts ih =>
    intro c i h
    simp only [keepLoop] at h
    split_ifs at h with hc
    · cases i with
      | zero => simpa [mass] using hc
      | succ i =>
        have := ih (c + p t) i (by omega)
        simp only [mass, List.take_succ_cons, List.map_cons, List.sum_cons] at this ⊢
        linarith
    · omega

theorem keepLoop_after (p : Nat → ℚ) (P : ℚ) : ∀ (l : List Nat) (c : ℚ),
    keepLoop p P c l < l.length → P ≤ c + mass p (l.take (keepLoop p P c l)) := by
  intro l
  induction l with
  | nil => intro c h; simp [keepLoop] at h
  | cons t ts ih =>
    intro c h
    simp only [keepLoop] at h ⊢
    split_ifs at h ⊢ with hc
    · have := ih (c + p t) (by simpa using h)
      simp only [mass, List.take_succ_cons, List.map_cons, List.sum_cons] at this ⊢
      linarith
    · simp [mass]; exact not_lt.mp hc

theorem FullSorted.ge {p : Nat → ℚ} {n : Nat} {idx : List Nat} (h : FullSorted p n idx)
    {i j : Nat} {t u : Nat} (ht : idx[i]? = some t) (hu : idx[j]? = some u) (hij : i ≤ j) :
    p u ≤ p t := by
  rcases Nat.eq_or_lt_of_le hij with rfl | hlt
  · rw [ht] at hu; cases hu; exact le_refl _
  · have e1 := List.getElem?_eq_some_iff.mp ht
    have e2 := List.getElem?_eq_some_iff.mp hu
    have hs := List.pairwise_iff_getElem.mp h.sorted i j e1.1 e2.1 hlt
    rw [e1.2, e2.2] at hs
    exact not_lt.mp hs

theorem mass_filter_le (p : Nat → ℚ) (q : Nat → Bool) (l : List Nat) (h : ∀ j ∈ l, 0 ≤ p j) :
    mass p (l.filter q) ≤ mass p l := by
  induction l with
  | nil => simp [mass]
  | cons t ts ih =>
    have := ih (fun j hj => h j (List.mem_cons_of_mem _ hj))
    have h0 := h t List.mem_cons_self
    by_cases hq : q t
    · simp only [mass, List.filter_cons_of_pos hq, List.map_cons, List.sum_cons] at this ⊢
      linarith
    · simp only [mass, List.filter_cons_of_neg hq, List.map_cons, List.sum_cons] at this ⊢
      linarith

/-- **C65, top-p.** For every vector of non-negative probabilities, every threshold `P > 0`, every
arrangement `std::sort` may produce and every draw, the token returned is in the vocabulary and
the tokens strictly more probable than it have total probability less than `P`. -/
theorem topP_sound (p : Nat → ℚ) (n : Nat) (P : ℚ) (hn : 0 < n) (hP : 0 < P)
    (hp : ∀ j, j < n → 0 ≤ p j) (res : Res) (h : sampleTopP p n P res) :
    ∃ t, res = .token t ∧ t < n ∧ mass p (better p n t) < P := by
  obtain ⟨idx, hs, h⟩ := h
  have hlen : idx.length = n := by rw [hs.perm.length_eq, List.length_range]
  have hk : ¬ keepLoop p P 0 idx = 0 := by
    cases idx with
    | nil => simp at hlen; omega
    | cons a b => simp only [keepLoop, hP, if_true]; omega
  rw [if_neg hk] at h
  obtain ⟨i, hi, t, ht, rfl⟩ := h
  refine ⟨t, rfl, List.mem_range.mp (hs.perm.subset (List.mem_of_getElem? ht)), ?_⟩
  have hperm : mass p (better p n t) = mass p (idx.filter fun j => p j > p t) := by
    unfold mass better
    exact (((hs.perm.filter (fun j => decide (p j > p t))).map p).sum_eq).symm
  have hsplit : idx.filter (fun j => decide (p j > p t)) =
      (idx.take i).filter (fun j => decide (p j > p t)) := by
    conv_lhs => rw [← List.take_append_drop i idx, List.filter_append]
    have : (idx.drop i).filter (fun j => decide (p j > p t)) = [] := by
      rw [List.filter_eq_nil_iff]
      intro u hu
      obtain ⟨m, hm⟩ := List.mem_iff_getElem?.mp hu
      rw [List.getElem?_drop] at hm
      have := hs.ge ht hm (by omega)
      simpa using this
    rw [this, List.append_nil]
  rw [hperm, hsplit]
  refine lt_of_le_of_lt (mass_filter_le p _ _ ?_) ?_
  · intro j hj
    exact hp j (List.mem_range.mp (hs.perm.subset (List.mem_of_mem_take hj)))
  · have := keepLoop_before p P idx 0 i hi
    linarith

/-- **C65, top-p, completeness.** The tokens that can be returned carry at least the mass `P`
(or all there is), and without the least probable of them they carry less than `P`. -/
theorem topP_mass (p : Nat → ℚ) (n : Nat) (P : ℚ) (hn : 0 < n) (hP : 0 < P)
    (idx : List Nat) (hs : FullSorted p n idx) :
    min P (massBelow p n) ≤ mass p (idx.take (keepLoop p P 0 idx)) ∧
    0 < keepLoop p P 0 idx ∧
    mass p (idx.take (keepLoop p P 0 idx - 1)) < P := by
  have hlen : idx.length = n := by rw [hs.perm.length_eq, List.length_range]
  have hk : 0 < keepLoop p P 0 idx := by
    cases idx with
    | nil => simp at hlen; omega
    | cons a b => simp only [keepLoop, hP, if_true]; omega
  refine ⟨?_, hk, ?_⟩
  · rcases Nat.lt_or_ge (keepLoop p P 0 idx) idx.length with h | h
    · have := keepLoop_after p P idx 0 h
      exact le_trans (min_le_left _ _) (by linarith)
    · rw [List.take_of_length_le h]
      have : mass p idx = massBelow p n := by
        unfold mass massBelow; exact (hs.perm.map p).sum_eq
      rw [this]; exact min_le_right _ _
  · have := keepLoop_before p P idx 0 (keepLoop p P 0 idx - 1) (by omega)
    linarith

/-- Non-vacuity: probabilities 1/8, 1/2, 3/8 with `P = 3/5` keep tokens 1 and 2. -/
example : sampleTopP (fun j => [1/8, 1/2, 3/8].getD j 0) 3 (3/5) (.token 2) := by
  refine ⟨[1, 2, 0], ⟨by decide +kernel, by decide +kernel⟩, ?_⟩
  rw [if_neg (by decide +kernel)]
  exact ⟨1, by decide +kernel, 2, rfl, rfl⟩

end Verif.Gen
