import Verif.Sample.Model

/-!
# C66: what the penalties do to the logits
-/

namespace Verif.Sample

/-- Lookup in the association list of counts. -/
def cnt (t : Int) : List (Int × Nat) → Nat
  | [] => 0
  | (u, c) :: m => if u = t then c else cnt t m

theorem cnt_bump (t u : Int) (m : List (Int × Nat)) :
    cnt u (bump t m) = cnt u m + if u = t then 1 else 0 := by
  induction m with
  | nil =>
    by_cases h : u = t
    · simp [bump, cnt, h]
    · simp [bump, cnt, h]; exact fun e => h e.symm
  | cons a m ih =>
    obtain ⟨v, c⟩ := a
    simp only [bump]
    by_cases hv : v = t
    · simp only [hv, if_true, cnt]
      by_cases hu : u = t
      · simp [hu]
      · rw [if_neg (fun h => hu h.symm), if_neg hu, if_neg (fun h => hu h.symm)]; rfl
    · simp only [if_neg hv, cnt]
      by_cases hu : v = u
      · subst hu; simp [hv]
      · simp only [if_neg hu]; exact ih

/-- Keys occur once and every count is positive. -/
def Good (m : List (Int × Nat)) : Prop := (m.map (·.1)).Nodup ∧ ∀ e ∈ m, 0 < e.2

theorem mem_bump (t : Int) (m : List (Int × Nat)) (u : Int) :
    u ∈ (bump t m).map (·.1) ↔ u = t ∨ u ∈ m.map (·.1) := by
  induction m with
  | nil => simp [bump]
  | cons a m ih =>
    obtain ⟨v, c⟩ := a
    simp only [bump]
    by_cases hv : v = t
    · subst hv; simp only [if_true]; simp
    · simp only [if_neg hv, List.map_cons, List.mem_cons, ih]; tauto

theorem Good.bump {m : List (Int × Nat)} (h : Good m) (t : Int) : Good (bump t m) := by
  induction m with
  | nil => simp [Sample.bump, Good]
  | cons a m ih =>
    obtain ⟨v, c⟩ := a
    have hm : Good m := ⟨(List.nodup_cons.mp h.1).2, fun e he => h.2 e (List.mem_cons_of_mem _ he)⟩
    have hv0 : v ∉ m.map (·.1) := (List.nodup_cons.mp h.1).1
    have hc := h.2 (v, c) List.mem_cons_self
    simp only [Sample.bump]
    by_cases hv : v = t
    · simp only [if_pos hv]
      refine ⟨h.1, ?_⟩
      intro e he
      rcases List.mem_cons.mp he with rfl | he
      · simp
      · exact h.2 e (List.mem_cons_of_mem _ he)
    · simp only [if_neg hv]
      refine ⟨?_, ?_⟩
      · rw [List.map_cons, List.nodup_cons]
        refine ⟨?_, (ih hm).1⟩
        rw [mem_bump]; rintro (h1 | h1)
        · exact hv h1
        · exact hv0 h1
      · intro e he
        rcases List.mem_cons.mp he with rfl | he
        · exact hc
        · exact (ih hm).2 e he

theorem counts_good (n : Nat) (history : List Int) :
    Good (tokenCounts n history) ∧
    ∀ u, cnt u (tokenCounts n history) = if 0 ≤ u ∧ u < n then history.count u else 0 := by
  induction history using List.reverseRecOn with
  | nil => refine ⟨by simp [tokenCounts, Good], fun u => by simp [tokenCounts, cnt]⟩
  | append_singleton l a ih =>
    obtain ⟨hg, hc⟩ := ih
    have hstep : tokenCounts n (l ++ [a]) =
        if 0 ≤ a ∧ a < (n : Int) then bump a (tokenCounts n l) else tokenCounts n l := by
      unfold tokenCounts; rw [List.foldl_append]; rfl
    rw [hstep]
    by_cases ha : 0 ≤ a ∧ a < (n : Int)
    · rw [if_pos ha]
      refine ⟨hg.bump a, fun u => ?_⟩
      rw [cnt_bump, hc u]
      by_cases hu : u = a
      · subst hu; simp [ha, List.count_append]
      · have : List.count u [a] = 0 := List.count_eq_zero.mpr (by simpa using hu)
        simp [hu, List.count_append, this]
    · rw [if_neg ha]
      refine ⟨hg, fun u => ?_⟩
      rw [hc u]
      by_cases hu : 0 ≤ u ∧ u < (n : Int)
      · have hua : u ≠ a := fun h => ha (h ▸ hu)
        have : List.count u [a] = 0 := List.count_eq_zero.mpr (by simpa using hua)
        simp [hu, List.count_append, this]
      · simp only [if_neg hu]

theorem cnt_zero_of_not_mem (t : Int) (m : List (Int × Nat)) (h : t ∉ m.map (·.1)) : cnt t m = 0 := by
  induction m with
  | nil => rfl
  | cons a m ih =>
    obtain ⟨v, c⟩ := a
    simp only [List.map_cons, List.mem_cons, not_or] at h
    simp only [cnt, if_neg (fun e => h.1 (Eq.symm e))]
    exact ih h.2

theorem writeBack_spec (o : Penalty) (l : Nat → ℚ) (m : List (Int × Nat)) (hg : Good m)
    (r : Nat → ℚ) (j : Nat) :
    writeBack o l m r j = if (j : Int) ∈ m.map (·.1) then penalise o (cnt j m) (l j) else r j := by
  induction m generalizing r with
  | nil => simp [writeBack]
  | cons a m ih =>
    obtain ⟨t, c⟩ := a
    have hm : Good m := ⟨(List.nodup_cons.mp hg.1).2, fun e he => hg.2 e (List.mem_cons_of_mem _ he)⟩
    have ht0 : t ∉ m.map (·.1) := (List.nodup_cons.mp hg.1).1
    simp only [writeBack]
    rw [ih hm]
    by_cases hj : (j : Int) = t
    · subst hj
      simp [cnt, ht0]
    · have hcnt : cnt (j : Int) ((t, c) :: m) = cnt j m := by
        simp only [cnt, if_neg (fun e => hj (Eq.symm e))]
      rw [hcnt]
      simp only [List.map_cons, List.mem_cons, hj, false_or, if_false]

/-- The documented penalised logit of a token that occurs `c` times: divide a positive logit by the
repetition penalty and multiply any other by it, subtract the frequency penalty once per
occurrence and the presence penalty once. -/
def penalised (o : Penalty) (c : Nat) (x : ℚ) : ℚ :=
  (if x > 0 then x / o.rep else x * o.rep) - o.freq * c - o.pres

theorem penalise_eq (o : Penalty) (c : Nat) (x : ℚ) : penalise o c x = penalised o c x := by
  have h1 : (if o.rep ≠ 1 then (if x > 0 then x / o.rep else x * o.rep) else x) =
      (if x > 0 then x / o.rep else x * o.rep) := by
    by_cases h : o.rep = 1
    · rw [h]; simp
    · rw [if_pos h]
  unfold penalise penalised
  rw [h1]
  by_cases hf : o.freq = 0 <;> by_cases hp : o.pres = 0 <;> simp [hf, hp]

/-- **C66.** For every row, history (including ids outside the vocabulary) and option values, the
logit of a vocabulary token that occurs in the history is exactly the documented penalised logit
for its number of occurrences, and every other logit is unchanged. -/
theorem penalties_exact (n : Nat) (o : Penalty) (history : List Int) (l : Nat → ℚ) (j : Nat)
    (hj : j < n) :
    applyPenalty n o history l j =
      if (j : Int) ∈ history then penalised o (history.count (j : Int)) (l j) else l j := by
  unfold applyPenalty
  by_cases h0 : history = []
  · simp [h0]
  · rw [if_neg h0]
    by_cases hn : o.rep = 1 ∧ o.freq = 0 ∧ o.pres = 0
    · rw [if_pos hn]
      by_cases hm : (j : Int) ∈ history
      · rw [if_pos hm]; unfold penalised; simp [hn]
      · rw [if_neg hm]
    · rw [if_neg hn]
      obtain ⟨hg, hc⟩ := counts_good n history
      have hcj : cnt (j : Int) (tokenCounts n history) = history.count (j : Int) := by
        rw [hc, if_pos ⟨by omega, by omega⟩]
      have hmem : (j : Int) ∈ (tokenCounts n history).map (·.1) ↔ (j : Int) ∈ history := by
        constructor
        · intro h
          have : cnt (j : Int) (tokenCounts n history) ≠ 0 := by
            have hg' := hg
            generalize tokenCounts n history = m at h hg'
            clear hc hg hcj
            induction m with
            | nil => simp at h
            | cons a m ih =>
              obtain ⟨v, c⟩ := a
              simp only [cnt]
              by_cases hv : v = (j : Int)
              · rw [if_pos hv]
                have := hg'.2 (v, c) List.mem_cons_self
                simp at this; omega
              · rw [if_neg hv]
                refine ih ?_ ⟨(List.nodup_cons.mp hg'.1).2,
                  fun e he => hg'.2 e (List.mem_cons_of_mem _ he)⟩
                simp only [List.map_cons, List.mem_cons] at h
                rcases h with h | h
                · exact absurd h.symm hv
                · exact h
          rw [hcj] at this
          exact List.count_pos_iff.mp (Nat.pos_of_ne_zero this)
        · intro h
          by_contra hcon
          have := cnt_zero_of_not_mem _ _ hcon
          rw [hcj] at this
          have := List.count_pos_iff.mpr h
          omega
      by_cases he : tokenCounts n history = []
      · simp only [he, if_true]
        rw [he] at hmem
        have : (j : Int) ∉ history := fun h => by simpa using hmem.mpr h
        rw [if_neg this]
      · simp only [if_neg he]
        rw [writeBack_spec o l _ hg]
        by_cases hm : (j : Int) ∈ history
        · rw [if_pos (hmem.mpr hm), if_pos hm, hcj, penalise_eq]
        · rw [if_neg (fun h => hm (hmem.mp h)), if_neg hm]

/-- **C66, consequence.** With a repetition penalty of at least 1 and non-negative frequency and
presence penalties no logit increases. -/
theorem penalties_discourage (n : Nat) (o : Penalty) (history : List Int) (l : Nat → ℚ) (j : Nat)
    (hj : j < n) (hr : 1 ≤ o.rep) (hf : 0 ≤ o.freq) (hp : 0 ≤ o.pres) :
    applyPenalty n o history l j ≤ l j := by
  rw [penalties_exact n o history l j hj]
  split_ifs with h
  · unfold penalised
    have h1 : (if l j > 0 then l j / o.rep else l j * o.rep) ≤ l j := by
      split_ifs with hx
      · rw [div_le_iff₀ (by linarith)]; nlinarith
      · nlinarith
    have h2 : (0 : ℚ) ≤ o.freq * (history.count (j : Int) : ℚ) := by positivity
    linarith
  · exact le_refl _

example : applyPenalty 5 { rep := 2, freq := 1 / 2, pres := 1 / 4 } [1, 9, 1, -1, 3]
      (fun j => [1, 4, 1, -2, 0].getD j 0) 1 = 3 / 4 ∧
    applyPenalty 5 { rep := 2, freq := 1 / 2, pres := 1 / 4 } [1, 9, 1, -1, 3]
      (fun j => [1, 4, 1, -2, 0].getD j 0) 3 = - 4 - 3 / 4 ∧
    applyPenalty 5 { rep := 2, freq := 1 / 2, pres := 1 / 4 } [1, 9, 1, -1, 3]
      (fun j => [1, 4, 1, -2, 0].getD j 0) 0 = 1 := by decide +kernel

end Verif.Sample
