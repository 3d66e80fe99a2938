import Verif.Codec.Sampler
import Mathlib.Algebra.BigOperators.Group.List.Basic
import Mathlib.Data.List.GetD
import Mathlib.Algebra.Order.BigOperators.Group.List

/-!
# C175: audio codes are drawn from the filtered distribution
-/

namespace Verif.Codec

/-! ## Top-k -/

theorem descending_perm (row : List Logit) : (descending row).Perm row := List.mergeSort_perm _ _

theorem descending_sorted (row : List Logit) : (descending row).Pairwise fun a b => b ≤ a := by
  have h := List.pairwise_mergeSort (le := fun a b : Logit => decide (b ≤ a))
    (fun a b c h1 h2 => by simp only [decide_eq_true_eq] at *; exact h2.trans h1)
    (fun a b => by simp only [Bool.or_eq_true, decide_eq_true_eq]; exact le_total b a) row
  exact h.imp fun hh => by simpa using hh

open Classical in
/-- A value is at least the `k`-th largest exactly if fewer than `k` values are greater. -/
theorem threshold_iff (row : List Logit) {k : Nat} (hk : 0 < k) (hk' : k ≤ row.length) (x : Logit) :
    (descending row).getD (k - 1) ⊥ ≤ x ↔ row.countP (fun y => decide (x < y)) < k := by
  have hp := descending_perm row
  have hs := descending_sorted row
  rw [← hp.countP_eq]
  have hlen : (descending row).length = row.length := hp.length_eq
  generalize descending row = s at *
  have hk1 : k - 1 < s.length := by omega
  rw [List.getD_eq_getElem _ _ hk1]
  rw [List.pairwise_iff_getElem] at hs
  constructor
  · intro h
    have hd : (s.drop (k - 1)).countP (fun y => decide (x < y)) = 0 := by
      rw [List.countP_eq_zero]
      intro y hy
      obtain ⟨i, hi, rfl⟩ := List.mem_iff_getElem.mp hy
      rw [List.getElem_drop]
      simp only [decide_eq_true_eq, not_lt]
      rcases Nat.eq_zero_or_pos i with rfl | hi0
      · exact h
      · exact (hs (k - 1) (k - 1 + i) hk1 (by rw [List.length_drop] at hi; omega) (by omega)).trans h
    have ht := List.countP_le_length (p := fun y => decide (x < y)) (l := s.take (k - 1))
    rw [← List.take_append_drop (k - 1) s, List.countP_append, hd]
    rw [List.length_take] at ht
    omega
  · intro h
    by_contra hx
    rw [not_le] at hx
    have ht : (s.take k).countP (fun y => decide (x < y)) = (s.take k).length := by
      rw [List.countP_eq_length]
      intro y hy
      obtain ⟨i, hi, rfl⟩ := List.mem_iff_getElem.mp hy
      rw [List.getElem_take, decide_eq_true_eq]
      rw [List.length_take] at hi
      rcases Nat.lt_or_ge i (k - 1) with h1 | h1
      · exact lt_of_lt_of_le hx (hs i (k - 1) (by omega) hk1 h1)
      · have : i = k - 1 := by omega
        subst this
        exact hx
    rw [← List.take_append_drop k s, List.countP_append, ht, List.length_take] at h
    omega

open Classical in
/-- Top-k keeps exactly the logits that fewer than `max k 3` others exceed, unchanged; the rest become minus infinity. -/
theorem C175_topk (row : List Logit) (k : Nat) {i : Nat} (hi : i < row.length) :
    (topK row k 3).getD i ⊥ =
      if row.countP (fun y => decide (row.getD i ⊥ < y)) < max k 3 then row.getD i ⊥ else ⊥ := by
  have hkk : 0 < keptK k 3 row.length := by unfold keptK; omega
  have hkl : keptK k 3 row.length ≤ row.length := by unfold keptK; omega
  have ht := threshold_iff row hkk hkl (row.getD i ⊥)
  have hcount : row.countP (fun y => decide (row.getD i ⊥ < y)) < keptK k 3 row.length ↔ row.countP (fun y => decide (row.getD i ⊥ < y)) < max k 3 := by
    have hlt : row.countP (fun y => decide (row.getD i ⊥ < y)) < row.length := by
      rw [List.countP_eq_length_filter]
      apply List.length_filter_lt_length_iff_exists.mpr
      exact ⟨row[i], List.getElem_mem hi, by simp [hi]⟩
    unfold keptK
    omega
  rw [hcount] at ht
  unfold topK
  dsimp only
  rw [List.getD_eq_getElem _ _ (by rw [List.length_map]; exact hi), List.getElem_map, List.getD_eq_getElem _ _ hi]
  rw [List.getD_eq_getElem _ _ hi] at ht
  by_cases hc : row.countP (fun y => decide (row[i] < y)) < max k 3
  · rw [if_pos hc, if_neg (not_lt.mpr (ht.mpr hc))]
  · rw [if_neg hc, if_pos (not_le.mp fun h => hc (ht.mp h))]

/-! ## Top-p -/

theorem nucleus_spec (topp : ℝ) : ∀ (qs : List ℝ) (cum : ℝ) (n : Nat), cum ≤ topp →
    ∃ m, nucleus topp qs cum n = n + m ∧ m ≤ qs.length ∧
      (∀ j, j < m → cum + (qs.take j).sum ≤ topp) ∧ (m = qs.length ∨ topp < cum + (qs.take m).sum) := by
  intro qs
  induction qs with
  | nil => intro cum n _; exact ⟨0, rfl, le_rfl, fun j hj => absurd hj (by omega), Or.inl rfl⟩
  | cons q qs ih =>
    intro cum n hcum
    by_cases h : topp < cum + q
    · refine ⟨1, by rw [nucleus, if_pos h], by simp, fun j hj => ?_, Or.inr ?_⟩
      · have : j = 0 := by omega
        subst this
        simpa using hcum
      · simpa using h
    · obtain ⟨m, h1, h2, h3, h4⟩ := ih (cum + q) (n + 1) (not_lt.mp h)
      refine ⟨m + 1, by rw [nucleus, if_neg h, h1]; omega, by simpa using h2, fun j hj => ?_, ?_⟩
      · rcases j with _ | j
        · simpa using hcum
        · have := h3 j (by omega)
          rw [List.take_succ_cons, List.sum_cons]
          linarith
      · rcases h4 with h4 | h4
        · exact Or.inl (by simp [h4])
        · refine Or.inr ?_
          rw [List.take_succ_cons, List.sum_cons]
          linarith

theorem set_loop (ds : List Nat) : ∀ (row : List Logit) (i : Nat), i < row.length →
    (ds.foldl (fun r i => r.set i ⊥) row).length = row.length ∧
    (ds.foldl (fun r i => r.set i ⊥) row).getD i ⊥ = if i ∈ ds then ⊥ else row.getD i ⊥ := by
  induction ds with
  | nil => intro row i _; simp
  | cons d ds ih =>
    intro row i hi
    have hi' : i < (row.set d ⊥).length := by simpa using hi
    obtain ⟨h1, h2⟩ := ih (row.set d ⊥) i hi'
    rw [List.foldl_cons, h2, h1]
    refine ⟨by simp, ?_⟩
    by_cases hm : i ∈ ds
    · rw [if_pos hm, if_pos (List.mem_cons_of_mem _ hm)]
    · rw [if_neg hm, List.getD_eq_getElem _ _ hi', List.getD_eq_getElem _ _ hi, List.getElem_set]
      by_cases hd : d = i
      · rw [if_pos hd, if_pos (by rw [hd]; exact List.mem_cons_self)]
      · rw [if_neg hd, if_neg]
        intro hc
        rcases List.mem_cons.mp hc with hc | hc
        · exact hd hc.symm
        · exact hm hc

/-- Top-p keeps a set `kept` of positions and turns the rest into minus infinity.  Every kept logit is at least every
other one; the kept tokens have more probability than `topp` or are all tokens; unless they are just three, the kept
tokens without the last one do not. -/
theorem C175_topp (row : List Logit) (ord : List Nat) (ho : Sorted row ord) {topp : ℝ} (hp : 0 ≤ topp) :
    ∃ kept : List Nat, kept <+: ord ∧ min 3 row.length ≤ kept.length ∧
      (∀ i, i < row.length → (topP row ord topp 3).getD i ⊥ = if i ∈ kept then row.getD i ⊥ else ⊥) ∧
      (∀ i j, i ∈ kept → j < row.length → j ∉ kept → row.getD j ⊥ ≤ row.getD i ⊥) ∧
      (kept.length = row.length ∨ topp < (kept.map fun i => (softmax row).getD i 0).sum) ∧
      (3 < kept.length → (kept.dropLast.map fun i => (softmax row).getD i 0).sum ≤ topp) := by
  obtain ⟨m, h1, h2, h3, h4⟩ := nucleus_spec topp (softmax (ord.map fun i => row.getD i ⊥)) 0 0 hp
  have hlen : ord.length = row.length := by rw [ho.perm.length_eq, List.length_range]
  have hmem : ∀ i, i ∈ ord ↔ i < row.length := fun i => by rw [ho.perm.mem_iff, List.mem_range]
  have hnd : ord.Nodup := ho.perm.nodup_iff.mpr List.nodup_range
  have hsl : (softmax (ord.map fun i => row.getD i ⊥)).length = row.length := by
    unfold softmax
    rw [List.length_map, List.length_map, hlen]
  have hrow : row = (List.range row.length).map fun i => row.getD i ⊥ := by
    apply List.ext_getElem
    · simp
    · intro i h _
      simp [h]
  have hperm : (ord.map fun i => row.getD i ⊥).Perm row := by
    have := ho.perm.map fun i => row.getD i ⊥
    rw [← hrow] at this
    exact this
  have hsum : ((ord.map fun i => row.getD i ⊥).map weight).sum = (row.map weight).sum := (hperm.map weight).sum_eq
  have hsm : softmax (ord.map fun i => row.getD i ⊥) = ord.map fun i => (softmax row).getD i 0 := by
    unfold softmax
    rw [hsum, List.map_map]
    apply List.map_congr_left
    intro i hi
    have hi' := (hmem i).mp hi
    simp only [Function.comp_apply]
    rw [List.getD_eq_getElem row _ hi', List.getD_eq_getElem _ _ (by rw [List.length_map]; exact hi'), List.getElem_map]
  rw [hsl] at h2 h4
  rw [hsm] at h3 h4
  simp only [zero_add] at h3 h4
  obtain ⟨K, hK⟩ : ∃ K, K = max m 3 := ⟨_, rfl⟩
  have hrun : topP row ord topp 3 = (ord.drop K).foldl (fun r i => r.set i ⊥) row := by
    unfold topP
    simp only [h1, Nat.zero_add, hK]
  have hkl : (ord.take K).length = min K row.length := by rw [List.length_take, hlen]
  have hsplit : ∀ i, i < row.length → (i ∈ ord.drop K ↔ i ∉ ord.take K) := by
    intro i hi
    have hin : i ∈ ord.take K ++ ord.drop K := by rw [List.take_append_drop]; exact (hmem i).mpr hi
    have hdis := (List.nodup_append.mp (by rw [List.take_append_drop]; exact hnd : (ord.take K ++ ord.drop K).Nodup)).2.2
    constructor
    · intro h1 h2
      exact hdis i h2 i h1 rfl
    · intro h
      exact (List.mem_append.mp hin).resolve_left h
  refine ⟨ord.take K, List.take_prefix _ _, by rw [hkl]; omega, fun i hi => ?_, fun i j hi hj hjn => ?_, ?_, fun h => ?_⟩
  · rw [hrun, (set_loop _ row i hi).2]
    by_cases h : i ∈ ord.take K
    · rw [if_pos h, if_neg (fun hc => (hsplit i hi).mp hc h)]
    · rw [if_neg h, if_pos ((hsplit i hi).mpr h)]
  · have hd := ho.desc
    rw [← List.take_append_drop K ord, List.pairwise_append] at hd
    exact hd.2.2 i hi j ((hsplit j hj).mpr hjn)
  · rcases Nat.lt_or_ge K row.length with hlt | hge
    · right
      rcases h4 with h4 | h4
      · omega
      · have hnn : ∀ x ∈ ord.map (fun i => (softmax row).getD i 0), 0 ≤ x := by
          rw [← hsm]
          intro x hx
          unfold softmax at hx
          obtain ⟨l, _, rfl⟩ := List.mem_map.mp hx
          have hw : ∀ l, 0 ≤ weight l := by
            intro l
            induction l using WithBot.recBotCoe with
            | bot => exact le_rfl
            | coe a => exact (Real.exp_pos a).le
          apply div_nonneg (hw l)
          apply List.sum_nonneg
          intro y hy
          obtain ⟨l', _, rfl⟩ := List.mem_map.mp hy
          exact hw l'
        rw [← List.map_take] at h4
        have hmK : m ≤ K := by omega
        have : ((ord.take K).map fun i => (softmax row).getD i 0) =
            ((ord.take m).map fun i => (softmax row).getD i 0) ++ (((ord.take K).drop m).map fun i => (softmax row).getD i 0) := by
          rw [← List.map_append]
          congr 1
          conv_lhs => rw [← List.take_append_drop m (ord.take K)]
          rw [List.take_take, Nat.min_eq_left hmK]
        rw [this, List.sum_append]
        have : 0 ≤ (((ord.take K).drop m).map fun i => (softmax row).getD i 0).sum := by
          apply List.sum_nonneg
          intro x hx
          obtain ⟨i, hi, rfl⟩ := List.mem_map.mp hx
          exact hnn _ (List.mem_map.mpr ⟨i, List.mem_of_mem_take (List.mem_of_mem_drop hi), rfl⟩)
        linarith
    · left
      rw [hkl]
      omega
  · rw [hkl] at h
    have hm : K = m := by omega
    have h3' := h3 (K - 1) (by omega)
    rw [← List.map_take] at h3'
    have : (ord.take K).dropLast = ord.take (K - 1) := by
      rw [List.dropLast_eq_take, hkl, List.take_take]
      congr 1
      omega
    rw [this]
    exact h3'

/-! ## The sampler -/

theorem partialSums_get : ∀ (qs : List ℝ) (cum : ℝ), (partialSums qs cum).length = qs.length ∧
    ∀ i, i < qs.length → (partialSums qs cum).getD i 0 = cum + (qs.take (i + 1)).sum := by
  intro qs
  induction qs with
  | nil => intro cum; exact ⟨rfl, fun i hi => absurd hi (by simp)⟩
  | cons q qs ih =>
    intro cum
    obtain ⟨h1, h2⟩ := ih (cum + q)
    refine ⟨by simp [partialSums, h1], fun i hi => ?_⟩
    rcases i with _ | i
    · simp [partialSums]
    · rw [partialSums, List.getD_cons_succ, h2 i (by simpa using hi), List.take_succ_cons, List.sum_cons]
      ring

/-- A position is chosen exactly if the random number is in its interval of the cumulative distribution, whose length
is its probability. -/
theorem C175_pick (probs : List ℝ) (hnn : ∀ q ∈ probs, 0 ≤ q) (r : ℝ) {t : Nat} (ht : t < probs.length) :
    pick probs r = t ↔ (t = 0 ∨ (probs.take t).sum < r) ∧ r ≤ (probs.take (t + 1)).sum := by
  obtain ⟨hl, hg⟩ := partialSums_get probs 0
  have hmono : ∀ i j, i ≤ j → (probs.take i).sum ≤ (probs.take j).sum := by
    intro i j hij
    have : probs.take j = probs.take i ++ (probs.take j).drop i := by
      conv_lhs => rw [← List.take_append_drop i (probs.take j)]
      rw [List.take_take, Nat.min_eq_left hij]
    rw [this, List.sum_append]
    have : 0 ≤ ((probs.take j).drop i).sum := List.sum_nonneg fun x hx => hnn x (List.mem_of_mem_take (List.mem_of_mem_drop hx))
    linarith
  have hv : ∀ i (hi : i < (partialSums probs 0).length), (partialSums probs 0)[i] = (probs.take (i + 1)).sum := by
    intro i hi
    have := hg i (by omega)
    rw [List.getD_eq_getElem _ _ hi, zero_add] at this
    exact this
  unfold pick
  rw [List.findIdx_eq (by omega)]
  simp only [hv, decide_eq_true_eq, decide_eq_false_iff_not, not_le]
  constructor
  · rintro ⟨h1, h2⟩
    refine ⟨?_, h1⟩
    rcases Nat.eq_zero_or_pos t with h | h
    · exact Or.inl h
    · have := h2 (t - 1) (by omega)
      rw [show t - 1 + 1 = t by omega] at this
      exact Or.inr this
  · rintro ⟨h1, h2⟩
    refine ⟨h2, fun j hj => ?_⟩
    rcases h1 with h | h
    · omega
    · exact lt_of_le_of_lt (hmono (j + 1) t (by omega)) h

/-- A positive random number that the probabilities reach never selects a token without probability, and always
selects a token. -/
theorem C175_positive (probs : List ℝ) (hnn : ∀ q ∈ probs, 0 ≤ q) {r : ℝ} (h0 : 0 < r) (h1 : r ≤ probs.sum) :
    ∃ ht : pick probs r < probs.length, 0 < probs[pick probs r] := by
  obtain ⟨hl, hg⟩ := partialSums_get probs 0
  have hlt : pick probs r < probs.length := by
    rw [← hl]
    unfold pick
    rw [List.findIdx_lt_length]
    have hne : probs ≠ [] := by
      rintro rfl
      simp at h1
      linarith
    have hpos : 0 < probs.length := List.length_pos_of_ne_nil hne
    refine ⟨(partialSums probs 0)[probs.length - 1]'(by omega), List.getElem_mem _, ?_⟩
    have := hg (probs.length - 1) (by omega)
    rw [List.getD_eq_getElem _ _ (by omega), zero_add, show probs.length - 1 + 1 = probs.length by omega, List.take_length] at this
    rw [this, decide_eq_true_eq]
    exact h1
  refine ⟨hlt, ?_⟩
  have key : ∀ t (ht : t < probs.length), (t = 0 ∨ (probs.take t).sum < r) ∧ r ≤ (probs.take (t + 1)).sum → 0 < probs[t] := by
    intro t ht this
    have hsum : (probs.take (t + 1)).sum = (probs.take t).sum + probs[t] := by
      rw [List.take_succ_eq_append_getElem ht, List.sum_append]
      simp
    rw [hsum] at this
    rcases this.1 with h | h
    · have h2 := this.2
      have : (probs.take t).sum = 0 := by rw [h]; rfl
      linarith
    · linarith [this.2]
  exact key _ hlt ((C175_pick probs hnn r hlt).mp rfl)

/-- Nothing bounds the result: a random number above the sum of the probabilities (which rounding leaves below one)
gives the length of the row, a token that does not exist. -/
theorem C175_range_violated (probs : List ℝ) (hnn : ∀ q ∈ probs, 0 ≤ q) {r : ℝ} (h : probs.sum < r) : pick probs r = probs.length := by
  obtain ⟨hl, hg⟩ := partialSums_get probs 0
  unfold pick
  rw [← hl, List.findIdx_eq_length]
  intro c hc
  obtain ⟨i, hi, rfl⟩ := List.mem_iff_getElem.mp hc
  have := hg i (by omega)
  rw [List.getD_eq_getElem _ _ hi, zero_add] at this
  rw [this, decide_eq_false_iff_not, not_le]
  apply lt_of_le_of_lt _ h
  conv_rhs => rw [← List.take_append_drop (i + 1) probs, List.sum_append]
  have : 0 ≤ (probs.drop (i + 1)).sum := List.sum_nonneg fun x hx => hnn x (List.mem_of_mem_drop hx)
  linarith

/-- A random number of zero selects the first token whatever its probability. -/
theorem C175_zero_violated (q : ℝ) (qs : List ℝ) (h : 0 ≤ q) : pick (q :: qs) 0 = 0 := by
  unfold pick
  rw [partialSums, List.findIdx_cons]
  simp [h]

/-- All tokens of all steps and codebooks are chosen with one and the same random number: equal distributions always
give equal tokens. -/
theorem C175_same_number_violated (gen : Stream) (seed : Nat) (dists : List (List ℝ)) :
    ∃ r, sampleAll gen seed dists = dists.map fun d => pick d r := ⟨gen seed 0, rfl⟩

/-! ## The end token -/

theorem weight_nonneg (l : Logit) : 0 ≤ weight l := by
  induction l using WithBot.recBotCoe with
  | bot => exact le_rfl
  | coe a => exact (Real.exp_pos a).le

theorem softmax_nonneg (row : List Logit) : ∀ q ∈ softmax row, 0 ≤ q := by
  intro q hq
  unfold softmax at hq
  obtain ⟨l, _, rfl⟩ := List.mem_map.mp hq
  apply div_nonneg (weight_nonneg l)
  apply List.sum_nonneg
  intro y hy
  obtain ⟨l', _, rfl⟩ := List.mem_map.mp hy
  exact weight_nonneg l'

/-- If one logit is not minus infinity the probabilities add up to one. -/
theorem softmax_sum {row : List Logit} (h : ∃ l ∈ row, l ≠ ⊥) : (softmax row).sum = 1 := by
  obtain ⟨l, hl, hne⟩ := h
  obtain ⟨a, rfl⟩ := WithBot.ne_bot_iff_exists.mp hne
  have hpos : 0 < (row.map weight).sum := by
    apply lt_of_lt_of_le (Real.exp_pos a)
    have : weight (a : Logit) = Real.exp a := rfl
    rw [← this]
    apply List.single_le_sum
    · intro y hy
      obtain ⟨l', _, rfl⟩ := List.mem_map.mp hy
      exact weight_nonneg l'
    · exact List.mem_map.mpr ⟨_, hl, rfl⟩
  unfold softmax
  have : ∀ (xs : List Logit) (c : ℝ), (xs.map fun x => weight x / c).sum = (xs.map weight).sum / c := by
    intro xs c
    induction xs with
    | nil => simp
    | cons x xs ih => rw [List.map_cons, List.sum_cons, ih, List.map_cons, List.sum_cons, add_div]
  rw [this, div_self hpos.ne']

theorem maskEnd_get (row : List Logit) {eos i least : Nat} {force : Bool} (h : i < least ∨ force = true) :
    maskEnd row eos i least force = row.set eos ⊥ := by
  unfold maskEnd
  rcases h with h | h
  · rw [if_pos h]
    cases force
    · simp
    · simp
  · rw [h]
    by_cases hc : i < least
    · simp [hc]
    · simp [hc]

/-- Before the smallest number of tokens, or if stopping is forbidden, the end token is not chosen. -/
theorem C175_no_end (row : List Logit) {eos i least : Nat} {force : Bool} (h : i < least ∨ force = true) (heos : eos < row.length)
    {r : ℝ} (h0 : 0 < r) (h1 : r ≤ 1) (hother : ∃ j, j < row.length ∧ j ≠ eos ∧ row.getD j ⊥ ≠ ⊥) :
    pick (softmax (maskEnd row eos i least force)) r ≠ eos ∧ pick (softmax (maskEnd row eos i least force)) r < row.length := by
  rw [maskEnd_get row h]
  obtain ⟨j, hj, hne, hjb⟩ := hother
  have hs : (softmax (row.set eos ⊥)).sum = 1 := by
    apply softmax_sum
    refine ⟨row.getD j ⊥, ?_, hjb⟩
    rw [List.getD_eq_getElem _ _ hj]
    apply List.mem_iff_getElem.mpr
    refine ⟨j, by simpa using hj, ?_⟩
    rw [List.getElem_set, if_neg (Ne.symm hne)]
  obtain ⟨hlt, hpos⟩ := C175_positive _ (softmax_nonneg _) h0 (by rw [hs]; exact h1)
  have hl : (softmax (row.set eos ⊥)).length = row.length := by simp [softmax]
  refine ⟨fun he => ?_, by omega⟩
  have hz : ∀ (p : Nat) (hp : p < (softmax (row.set eos ⊥)).length), p = eos → (softmax (row.set eos ⊥))[p] = 0 := by
    intro p hp e
    subst e
    simp only [softmax, List.getElem_map, List.getElem_set_self]
    simp [weight]
  rw [hz _ hlt he] at hpos
  exact lt_irrefl _ hpos

/-- The chosen token is one the filters kept. -/
theorem C175_chosen_kept (row : List Logit) {r : ℝ} (h0 : 0 < r) (h1 : r ≤ 1) (hne : ∃ l ∈ row, l ≠ ⊥) :
    pick (softmax row) r < row.length ∧ row.getD (pick (softmax row) r) ⊥ ≠ ⊥ := by
  obtain ⟨hlt, hpos⟩ := C175_positive _ (softmax_nonneg row) h0 (by rw [softmax_sum hne]; exact h1)
  have hl : (softmax row).length = row.length := by simp [softmax]
  refine ⟨by omega, fun hb => ?_⟩
  rw [List.getD_eq_getElem _ _ (by omega)] at hb
  have : (softmax row)[pick (softmax row) r] = 0 := by
    have hz : ∀ (p : Nat) (hp : p < (softmax row).length) (hp' : p < row.length), row[p] = ⊥ → (softmax row)[p] = 0 := by
      intro p hp hp' e
      simp only [softmax, List.getElem_map, e]
      simp [weight]
    exact hz _ hlt (by omega) hb
  rw [this] at hpos
  exact lt_irrefl _ hpos

/-! ## Instances -/

/-- Two equal codebooks: equal tokens in every step. -/
example (gen : Stream) (seed : Nat) : ∃ t, sampleAll gen seed [[1 / 2, 1 / 2], [1 / 2, 1 / 2]] = [t, t] := ⟨_, rfl⟩

example : pick [1 / 4, 3 / 4] (1 / 2) = 1 :=
  (C175_pick _ (by intro q hq; fin_cases hq <;> norm_num) _ (by decide)).mpr ⟨Or.inr (by norm_num), by norm_num⟩

example : pick [1 / 4, 1 / 2] 1 = 2 :=
  C175_range_violated _ (by intro q hq; fin_cases hq <;> norm_num) (by norm_num)

example : pick [0, 1] 0 = 0 := C175_zero_violated 0 [1] le_rfl

/-- Asked for one token the filter keeps three: the smallest of four goes. -/
example : (topK [(1 : ℝ), (5 : ℝ), (2 : ℝ), (4 : ℝ)] 1 3).getD 0 ⊥ = ⊥ := by
  rw [C175_topk _ 1 (i := 0) (by decide)]
  have h1 : ((1 : ℝ) : Logit) < ((5 : ℝ) : Logit) := WithBot.coe_lt_coe.mpr (by norm_num)
  have h2 : ((1 : ℝ) : Logit) < ((2 : ℝ) : Logit) := WithBot.coe_lt_coe.mpr (by norm_num)
  have h3 : ((1 : ℝ) : Logit) < ((4 : ℝ) : Logit) := WithBot.coe_lt_coe.mpr (by norm_num)
  rw [if_neg]
  simp [List.countP_cons, h1, h2, h3]

/-- Rows with at least two tokens satisfy the hypotheses of `C175_no_end`. -/
example : pick (softmax (maskEnd [((1 : ℝ) : Logit), ((2 : ℝ) : Logit)] 1 0 5 false)) 1 ≠ 1 :=
  (C175_no_end _ (Or.inl (by decide)) (by decide) one_pos le_rfl ⟨0, by decide, by decide, by simp⟩).1

end Verif.Codec
