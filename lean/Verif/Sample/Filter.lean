import Verif.Sample.Penalty
import Mathlib.Data.List.Perm.Subperm

/-!
# C67: top-k, top-p and min-p filtering
-/

namespace Verif.Sample

open Verif.Gen (mass better)

/-- Tokens with fewer than `k` strictly more probable ones. -/
def kept (p : Nat → ℚ) (n k : Nat) : List Nat :=
  (List.range n).filter fun j => decide ((better p n j).length < k)

theorem sortedVals_perm (p : Nat → ℚ) (n : Nat) :
    (sortedVals p n).Perm ((List.range n).map p) := List.mergeSort_perm _ _

theorem sortedVals_sorted (p : Nat → ℚ) (n : Nat) :
    (sortedVals p n).Pairwise fun a b => b ≤ a := by
  have := List.pairwise_mergeSort (le := fun a b : ℚ => decide (b ≤ a))
    (fun a b c h1 h2 => by simp at *; exact le_trans h2 h1)
    (fun a b => by simp; exact le_total b a) ((List.range n).map p)
  unfold sortedVals
  exact this.imp (by simp)

/-- In a list sorted in decreasing order, a value lies below the one at position `i` exactly when
more than `i` entries exceed it. -/
theorem below_iff (s : List ℚ) (hs : s.Pairwise fun a b => b ≤ a) (i : Nat) (hi : i < s.length)
    (x : ℚ) : x < s.getD i 0 ↔ i < (s.filter fun y => decide (y > x)).length := by
  induction s generalizing i with
  | nil => simp at hi
  | cons a s ih =>
    have hs' := (List.pairwise_cons.mp hs)
    by_cases ha : a > x
    · rw [List.filter_cons_of_pos (by simpa using ha)]
      cases i with
      | zero => simpa using ha
      | succ i =>
        simp only [List.getD_cons_succ, List.length_cons]
        rw [ih hs'.2 i (by simpa using hi)]
        omega
    · have hall : (a :: s).filter (fun y => decide (y > x)) = [] := by
        rw [List.filter_eq_nil_iff]
        intro b hb
        rcases List.mem_cons.mp hb with rfl | hb
        · simpa using ha
        · have := hs'.1 b hb
          simp only [decide_eq_true_eq, not_lt]
          exact le_trans this (not_lt.mp ha)
      rw [hall]
      constructor
      · intro h
        exfalso
        cases i with
        | zero => exact ha (by simpa using h)
        | succ i =>
          have hm : (a :: s).getD (i + 1) 0 ∈ s := by
            simp only [List.getD_cons_succ]
            rw [List.getD_eq_getElem?_getD, List.getElem?_eq_getElem (by simpa using hi)]
            exact List.getElem_mem _
          have := hs'.1 _ hm
          exact ha (lt_of_lt_of_le h this)
      · intro h; simp at h

/-- The mask of the top-k filter: a token is removed exactly when `k` or more tokens are strictly
more probable. -/
theorem threshold_iff (p : Nat → ℚ) (n : Nat) (k : Int) (h1 : 1 ≤ k) (h2 : k ≤ n) (j : Nat) :
    p j < (sortedVals p n).getD (k - 1).toNat 0 ↔ k.toNat ≤ (better p n j).length := by
  have hl : (sortedVals p n).length = n := by rw [(sortedVals_perm p n).length_eq]; simp
  rw [below_iff _ (sortedVals_sorted p n) _ (by omega)]
  have : ((sortedVals p n).filter fun y => decide (y > p j)).length = (better p n j).length := by
    rw [((sortedVals_perm p n).filter _).length_eq, List.filter_map, List.length_map]
    rfl
  rw [this]
  omega

/-- What the top-k filter computes. -/
theorem topKRenorm_spec (p : Nat → ℚ) (n : Nat) (k : Int) :
    topKRenorm p n k =
      if 1 ≤ k ∧ k ≤ n then
        some fun j => (if (better p n j).length < k.toNat then p j else 0) /
          max (mass p (kept p n k.toNat)) (1 / 10 ^ 8)
      else none := by
  unfold topKRenorm
  by_cases h : 1 ≤ k ∧ k ≤ n
  · have hcond : 0 ≤ k - 1 ∧ k - 1 < (n : Int) := ⟨by omega, by omega⟩
    simp only [if_pos h, if_pos hcond]
    have hf : (fun j => if p j < (sortedVals p n).getD (k - 1).toNat 0 then 0 else p j) =
        fun j => if (better p n j).length < k.toNat then p j else 0 := by
      funext j
      by_cases hb : (better p n j).length < k.toNat
      · rw [if_pos hb, if_neg (by rw [threshold_iff p n k h.1 h.2]; omega)]
      · rw [if_neg hb, if_pos (by rw [threshold_iff p n k h.1 h.2]; omega)]
    have hm : mass (fun j => if (better p n j).length < k.toNat then p j else 0) (List.range n) =
        mass p (kept p n k.toNat) := by
      unfold mass kept
      generalize List.range n = l
      induction l with
      | nil => rfl
      | cons a l ih =>
        by_cases hb : (better p n a).length < k.toNat
        · rw [List.filter_cons_of_pos (by simpa using hb)]
          simp only [List.map_cons, List.sum_cons, if_pos hb, ih]
        · rw [List.filter_cons_of_neg (by simpa using hb)]
          simp only [List.map_cons, List.sum_cons, if_neg hb, ih, zero_add]
    congr 1
    funext j
    have := congrFun hf j
    unfold clampSum
    rw [this, hf, hm]
  · have hcond : ¬ (0 ≤ k - 1 ∧ k - 1 < (n : Int)) := fun hc => h ⟨by omega, by omega⟩
    simp only [if_neg h, if_neg hcond]

theorem mass_perm {p : Nat → ℚ} {l m : List Nat} (h : l.Perm m) : mass p l = mass p m := by
  unfold mass; exact (h.map p).sum_eq

theorem mass_nonneg {p : Nat → ℚ} {l : List Nat} (h : ∀ j ∈ l, 0 ≤ p j) : 0 ≤ mass p l := by
  unfold mass
  apply List.sum_nonneg
  intro x hx
  obtain ⟨j, hj, rfl⟩ := List.mem_map.mp hx
  exact h j hj

theorem le_mass {p : Nat → ℚ} {l : List Nat} (h : ∀ j ∈ l, 0 ≤ p j) {t : Nat} (ht : t ∈ l) :
    p t ≤ mass p l := by
  induction l with
  | nil => simp at ht
  | cons a l ih =>
    have h0 := h a List.mem_cons_self
    have h1 := mass_nonneg (p := p) (l := l) (fun j hj => h j (List.mem_cons_of_mem _ hj))
    simp only [mass, List.map_cons, List.sum_cons] at *
    rcases List.mem_cons.mp ht with rfl | ht
    · linarith
    · have := ih (fun j hj => h j (List.mem_cons_of_mem _ hj)) ht
      linarith

theorem clampSum_pos (p : Nat → ℚ) (n : Nat) : 0 < clampSum p n :=
  lt_of_lt_of_le (by norm_num) (le_max_right _ _)

/-- The mass before a token in the sorted order, as the top-p filter computes it. -/
theorem cumsum_sub (p : Nat → ℚ) (idx : List Nat) (j : Nat) (hj : j ∈ idx) :
    cumsum p idx (idx.idxOf j) - p j = mass p (idx.take (idx.idxOf j)) := by
  have hlt := List.idxOf_lt_length_iff.mpr hj
  unfold cumsum mass
  rw [List.take_succ, List.getElem?_eq_getElem hlt, List.getElem_idxOf]
  simp

/-- Everything strictly more probable than `j` stands before it. -/
theorem better_before {p : Nat → ℚ} {n : Nat} {idx : List Nat} (hs : Verif.Gen.FullSorted p n idx)
    (hp : ∀ j, j < n → 0 ≤ p j) (j : Nat) (hj : j < n) :
    mass p (better p n j) ≤ mass p (idx.take (idx.idxOf j)) := by
  have hmem : j ∈ idx := hs.perm.symm.subset (List.mem_range.mpr hj)
  have hlt := List.idxOf_lt_length_iff.mpr hmem
  have hget : idx[idx.idxOf j]? = some j := by
    rw [List.getElem?_eq_getElem hlt, List.getElem_idxOf]
  have hperm : mass p (better p n j) = mass p (idx.filter fun i => p i > p j) := by
    unfold better
    exact (mass_perm (hs.perm.filter (fun i => decide (p i > p j)))).symm
  have hsplit : idx.filter (fun i => decide (p i > p j)) =
      (idx.take (idx.idxOf j)).filter (fun i => decide (p i > p j)) := by
    conv_lhs => rw [← List.take_append_drop (idx.idxOf j) idx, List.filter_append]
    have : (idx.drop (idx.idxOf j)).filter (fun i => decide (p i > p j)) = [] := by
      rw [List.filter_eq_nil_iff]
      intro u hu
      obtain ⟨m, hm⟩ := List.mem_iff_getElem?.mp hu
      rw [List.getElem?_drop] at hm
      have := hs.ge hget hm (by omega)
      simpa using this
    rw [this, List.append_nil]
  rw [hperm, hsplit]
  refine Verif.Gen.mass_filter_le p _ _ ?_
  intro i hi
  exact hp i (List.mem_range.mp (hs.perm.subset (List.mem_of_mem_take hi)))

/-- The first token of the sorted order survives the top-p filter when the threshold is not
negative. -/
theorem topPRenorm_head {p : Nat → ℚ} {n : Nat} {idx : List Nat} {P : ℚ} (hP : 0 ≤ P)
    (t : Nat) (ts : List Nat) (hidx : idx = t :: ts) :
    topPRenorm p n P idx t = p t / clampSum (fun j => if cumsum p idx (idx.idxOf j) - p j > P
      then 0 else p j) n := by
  subst hidx
  unfold topPRenorm
  simp only
  have : ¬ cumsum p (t :: ts) ((t :: ts).idxOf t) - p t > P := by
    rw [cumsum_sub p _ t List.mem_cons_self]
    simp [mass]
    exact hP
  rw [if_neg this]

theorem topPRenorm_neg {p : Nat → ℚ} {n : Nat} {idx : List Nat} {P : ℚ} (hP : P < 0)
    (hs : idx.Perm (List.range n)) (hp : ∀ j, j < n → 0 ≤ p j) (j : Nat) (hj : j < n) :
    topPRenorm p n P idx j = 0 := by
  unfold topPRenorm
  simp only
  have hmem : j ∈ idx := hs.symm.subset (List.mem_range.mpr hj)
  have : cumsum p idx (idx.idxOf j) - p j > P := by
    rw [cumsum_sub p _ j hmem]
    refine lt_of_lt_of_le hP (mass_nonneg ?_)
    intro i hi
    exact hp i (List.mem_range.mp (hs.subset (List.mem_of_mem_take hi)))
  rw [if_pos this]; simp

/-- **C67, soundness.** For every probability vector, every `k`, every threshold and every
tie-breaking of the sort: a token that can be returned is a token of the vocabulary of positive
probability, fewer than `k` tokens are strictly more probable than it, and these have, among the
tokens the top-k filter keeps, a share of at most `P`. -/
theorem topKTopP_sound (p : Nat → ℚ) (n : Nat) (k : Int) (P : ℚ) (hp : ∀ j, j < n → 0 ≤ p j)
    (hbig : 1 / 10 ^ 8 ≤ mass p (kept p n k.toNat)) (t : Nat) (h : topKTopP p n k P (some t)) :
    t < n ∧ 0 < p t ∧ (1 ≤ k ∧ k ≤ n) ∧ ((better p n t).length : Int) < k ∧
      mass p (better p n t) ≤ P * mass p (kept p n k.toNat) := by
  unfold topKTopP at h
  rw [topKRenorm_spec] at h
  by_cases hk : 1 ≤ k ∧ k ≤ n
  · simp only [if_pos hk] at h
    have hmax : max (mass p (kept p n k.toNat)) (1 / 10 ^ 8) = mass p (kept p n k.toNat) :=
      max_eq_left hbig
    rw [hmax] at h
    set S := mass p (kept p n k.toNat) with hS
    have hSpos : 0 < S := lt_of_lt_of_le (by norm_num) hbig
    obtain ⟨idx, hs, h⟩ := h
    set p1 : Nat → ℚ := fun j => (if (better p n j).length < k.toNat then p j else 0) / S with hp1
    have hp1n : ∀ j, j < n → 0 ≤ p1 j := by
      intro j hj
      simp only [hp1]
      apply div_nonneg _ hSpos.le
      split_ifs
      · exact hp j hj
      · exact le_refl _
    unfold multinomial at h
    split_ifs at h with h0
    obtain ⟨t', ht', hw, heq⟩ := h
    cases heq
    have hmem : t ∈ idx := hs.perm.symm.subset (List.mem_range.mpr ht')
    have hcp := clampSum_pos (fun j => if cumsum p1 idx (idx.idxOf j) - p1 j > P then 0 else p1 j) n
    have hnot : ¬ cumsum p1 idx (idx.idxOf t) - p1 t > P := by
      intro hc
      unfold topPRenorm at hw
      simp only [if_pos hc] at hw
      simp at hw
    have hp1t : 0 < p1 t := by
      unfold topPRenorm at hw
      simp only [if_neg hnot] at hw
      by_contra hcon
      exact absurd hw (not_lt.mpr (div_nonpos_of_nonpos_of_nonneg (not_lt.mp hcon) hcp.le))
    have hlen : (better p n t).length < k.toNat := by
      by_contra hcon
      simp only [hp1, if_neg hcon] at hp1t
      simp at hp1t
    have hpt : 0 < p t := by
      simp only [hp1, if_pos hlen] at hp1t
      by_contra hcon
      exact absurd hp1t (not_lt.mpr (div_nonpos_of_nonpos_of_nonneg (not_lt.mp hcon) hSpos.le))
    refine ⟨ht', hpt, hk, by omega, ?_⟩
    rw [cumsum_sub p1 idx t hmem] at hnot
    have hle := le_trans (better_before hs hp1n t ht') (not_lt.mp hnot)
    -- tokens better than `t` under `p` are kept, and better under `p1`
    have hsub : mass p (better p n t) / S ≤ mass p1 (better p1 n t) := by
      have hsame : ∀ i ∈ better p n t, p1 i = p i / S := by
        intro i hi
        have hi' := List.mem_filter.mp hi
        have hpi : p i > p t := by simpa using hi'.2
        have : (better p n i).length < k.toNat := by
          refine lt_of_le_of_lt ?_ hlen
          unfold better
          apply List.Sublist.length_le
          apply List.monotone_filter_right
          intro u hu
          simp only [decide_eq_true_eq] at hu ⊢
          exact lt_trans hpi hu
        simp only [hp1, if_pos this]
      have hEq : better p1 n t = better p n t := by
        unfold better
        apply List.filter_congr
        intro i hi
        simp only [decide_eq_decide]
        constructor
        · intro hgt
          simp only [hp1, if_pos hlen] at hgt
          by_cases hb : (better p n i).length < k.toNat
          · rw [if_pos hb] at hgt
            have : p t / S < p i / S := hgt
            rwa [div_lt_div_iff_of_pos_right hSpos] at this
          · rw [if_neg hb] at hgt
            have : p t / S < 0 / S := hgt
            rw [zero_div] at this
            exact absurd this (not_lt.mpr (div_nonneg hpt.le hSpos.le))
        · intro hgt
          have hi2 : i ∈ better p n t := by
            unfold better; rw [List.mem_filter]; exact ⟨hi, by simpa using hgt⟩
          rw [hsame i hi2]
          simp only [hp1, if_pos hlen]
          exact (div_lt_div_iff_of_pos_right hSpos).mpr hgt
      rw [hEq]
      apply le_of_eq
      unfold mass
      have : (better p n t).map p1 = (better p n t).map (fun i => p i / S) :=
        List.map_congr_left hsame
      rw [this]
      generalize better p n t = l
      induction l with
      | nil => simp
      | cons a l ih => simp only [List.map_cons, List.sum_cons, add_div, ih]
    have := le_trans hsub hle
    rwa [div_le_iff₀ hSpos] at this
  · simp only [if_neg hk] at h
    cases h

/-- **C67, exactness of top-k.** The weights after the top-k filter are the original probabilities
of the tokens with fewer than `k` strictly more probable ones, divided by the mass of these tokens;
all other weights are 0.  Whenever `1 ≤ k ≤ vocab_size`. -/
theorem topK_renorm_exact (p : Nat → ℚ) (n : Nat) (k : Int) (hk : 1 ≤ k ∧ k ≤ n)
    (hbig : 1 / 10 ^ 8 ≤ mass p (kept p n k.toNat)) :
    ∃ w, topKRenorm p n k = some w ∧
      (∀ j, w j = if (better p n j).length < k.toNat then p j / mass p (kept p n k.toNat) else 0) ∧
      mass w (List.range n) = 1 := by
  refine ⟨_, by rw [topKRenorm_spec, if_pos hk], ?_, ?_⟩
  · intro j
    rw [max_eq_left hbig]
    split_ifs
    · rfl
    · simp
  · rw [max_eq_left hbig]
    have hSpos : 0 < mass p (kept p n k.toNat) := lt_of_lt_of_le (by norm_num) hbig
    have : mass (fun j => (if (better p n j).length < k.toNat then p j else 0) /
        mass p (kept p n k.toNat)) (List.range n) =
        mass p (kept p n k.toNat) / mass p (kept p n k.toNat) := by
      have aux : ∀ S : ℚ, mass (fun j => (if (better p n j).length < k.toNat then p j else 0) / S)
          (List.range n) = mass p (kept p n k.toNat) / S := by
        intro S
        unfold kept mass
        generalize List.range n = l
        induction l with
        | nil => simp
        | cons a l ih =>
          by_cases hb : (better p n a).length < k.toNat
          · rw [List.filter_cons_of_pos (by simpa using hb)]
            simp only [List.map_cons, List.sum_cons, if_pos hb, ih, add_div]
          · rw [List.filter_cons_of_neg (by simpa using hb)]
            simp only [List.map_cons, List.sum_cons, if_neg hb, ih, zero_add, zero_div]
      exact aux _
    rw [this, div_self hSpos.ne']

/-- **C67 is violated** for ties: with `k = 1` and three equally probable tokens each of them
can be returned, so top-k with `k = 1` is not greedy decoding and more than `k` tokens are
candidates. -/
theorem topK_ties_violated (t : Nat) (ht : t < 3) : topKTopP (fun _ => 1 / 3) 3 1 1 (some t) := by
  unfold topKTopP
  have hk : topKRenorm (fun _ => 1 / 3) 3 1 = some fun _ => 1 / 3 := by
    rw [topKRenorm_spec, if_pos (by norm_num)]
    have hb : ∀ j, better (fun _ => (1 / 3 : ℚ)) 3 j = [] := by intro j; simp [better]
    have hm : mass (fun _ => (1 / 3 : ℚ)) (kept (fun _ => (1 / 3 : ℚ)) 3 (Int.toNat 1)) = 1 := by
      unfold kept
      simp only [hb]
      simp [mass, List.range_succ]
      norm_num
    rw [hm]
    congr 1
    funext j
    rw [hb]
    norm_num
  rw [hk]
  refine ⟨[0, 1, 2], ⟨by decide +kernel, by decide +kernel⟩, ?_⟩
  have hw : ∀ j, j < 3 → topPRenorm (fun _ => 1 / 3) 3 1 [0, 1, 2] j = 1 / 3 := by
    intro j hj
    have : j = 0 ∨ j = 1 ∨ j = 2 := by omega
    rcases this with rfl | rfl | rfl <;> decide +kernel
  unfold multinomial
  rw [if_neg (by
    simp only [mass, List.range_succ, List.range_zero, List.nil_append, List.map_append,
      List.map_cons, List.map_nil, List.sum_append, List.sum_cons, List.sum_nil]
    rw [hw 0 (by omega), hw 1 (by omega), hw 2 (by omega)]; norm_num)]
  exact ⟨t, ht, by rw [hw t ht]; norm_num, rfl⟩

/-- Non-vacuity of `topKTopP_sound`: probabilities 1/2, 3/10, 1/5, `k = 2`, `P = 7/10`. -/
example : topKTopP (fun j => [1/2, 3/10, 1/5].getD j 0) 3 2 (7/10) (some 1) ∧
    1 / 10 ^ 8 ≤ mass (fun j => [1/2, 3/10, 1/5].getD j 0)
      (kept (fun j => [1/2, 3/10, 1/5].getD j 0) 3 (Int.toNat 2)) := by
  refine ⟨?_, by decide +kernel⟩
  unfold topKTopP
  rw [topKRenorm_spec, if_pos (by norm_num)]
  refine ⟨[0, 1, 2], ⟨by decide +kernel, by decide +kernel⟩, ?_⟩
  unfold multinomial
  rw [if_neg (by decide +kernel)]
  exact ⟨1, by omega, by decide +kernel, rfl⟩

/-! ### min-p -/

/-- **C67, min-p.** A token has positive weight exactly when it has positive probability at least
`min_p` times the largest one. -/
theorem minP_support (p : Nat → ℚ) (n : Nat) (mp : ℚ) (hn : 0 < n)
    (t : Nat) :
    0 < minPWeights p n mp t ↔ 0 < p t ∧ ∃ m, m < n ∧ (∀ j, j < n → p j ≤ p m) ∧ mp * p m ≤ p t := by
  obtain ⟨g1, g2, _⟩ := Verif.Gen.greedy_argmax p n hn
  unfold minPWeights
  simp only
  have hc := clampSum_pos (fun j => if p j < mp * p (Verif.Gen.sampleGreedy p n) then 0 else p j) n
  by_cases h : p t < mp * p (Verif.Gen.sampleGreedy p n)
  · rw [if_pos h]
    simp only [zero_div, lt_self_iff_false, false_iff, not_and, not_exists]
    intro _ m hm hmax hle
    have : p m = p (Verif.Gen.sampleGreedy p n) := le_antisymm (g2 m hm) (hmax _ g1)
    rw [this] at hle
    exact absurd h (not_lt.mpr hle)
  · rw [if_neg h]
    constructor
    · intro hpos
      refine ⟨?_, _, g1, g2, not_lt.mp h⟩
      by_contra hcon
      exact absurd hpos (not_lt.mpr (div_nonpos_of_nonpos_of_nonneg (not_lt.mp hcon) hc.le))
    · rintro ⟨hpos, _⟩
      exact div_pos hpos hc

example : 0 < minPWeights (fun j => [1/2, 3/10, 1/5].getD j 0) 3 (1/2) 1 ∧
    minPWeights (fun j => [1/2, 3/10, 1/5].getD j 0) 3 (1/2) 2 = 0 := by decide +kernel

end Verif.Sample
