import Verif.LongRope.Model

/-! # C196: LongRoPE through a generation -/

namespace Verif.LongRope

/-- The score rotary embedding is meant to give: it sees the two positions only through their distance. -/
noncomputable def relScore (half : ℕ) (s : ℝ) (f : ℕ → ℝ) (q k : ℕ → ℝ) (dist : ℝ) : ℝ :=
  ∑ i ∈ Finset.range half, s ^ 2 *
    ((q i * k i + q (i + half) * k (i + half)) * Real.cos (dist * f i) +
      (q i * k (i + half) - q (i + half) * k i) * Real.sin (dist * f i))

/-- C196.  Token `t` of a generation has position `t`: the prompt's tokens count from 0, every further token goes one on. -/
theorem C196_positions (n : ℕ) (hn : 0 < n) :
    (pass n 0).2 = List.range n ∧ ∀ m, (pass n (m + 1)).2 = [n + m] := by
  refine ⟨rfl, fun m => ?_⟩
  induction m with
  | zero =>
    obtain ⟨j, rfl⟩ : ∃ j, n = j + 1 := ⟨n - 1, by omega⟩
    simp [pass, positions, List.range_succ]
  | succ m ih =>
    rw [pass, ih]; simp [positions]; omega

theorem pass_len (n m : ℕ) : (pass n m).1 = if m = 0 then n else 1 := by
  cases m <;> simp [pass]

/-- What the score is in general: every pair of entries is rotated by its own frequency, the query's and the key's. -/
theorem score_eq (c : Cfg) (n mq pq mk pk : ℕ) (q k : ℕ → ℝ) :
    score c n mq pq mk pk q k = ∑ i ∈ Finset.range c.half, scaling c ^ 2 *
      ((q i * k i + q (i + c.half) * k (i + c.half)) *
        Real.cos ((pass n mq).2.getD pq 0 * invFreq c (pass n mq).1 i - (pass n mk).2.getD pk 0 * invFreq c (pass n mk).1 i) +
      (q i * k (i + c.half) - q (i + c.half) * k i) *
        Real.sin ((pass n mq).2.getD pq 0 * invFreq c (pass n mq).1 i -
          (pass n mk).2.getD pk 0 * invFreq c (pass n mk).1 i)) := by
  unfold score
  rw [two_mul, Finset.sum_range_add, ← Finset.sum_add_distrib]
  refine Finset.sum_congr rfl fun i hi => ?_
  have hi := Finset.mem_range.mp hi
  have h1 : ¬ c.half + i < c.half := by omega
  have h2 : c.half + i - c.half = i := by omega
  simp only [rope, sinRow, cosRow, hi, h1, h2, if_true, if_false]
  rw [Nat.add_comm c.half i, Real.cos_sub, Real.sin_sub]
  ring

/-- C196, for prompts no longer than the original context (or equal factor lists, or no LongRoPE): the score of any two
tokens of a generation, however long it gets, depends on their distance only. -/
theorem C196_relative_partial (c : Cfg) (n : ℕ) (h1 : 1 ≤ c.orig) (h : n ≤ c.orig ∨ c.long = c.short ∨ c.short = [])
    (mq pq mk pk : ℕ) (q k : ℕ → ℝ) :
    score c n mq pq mk pk q k = relScore c.half (scaling c) (invFreq c 1) q k
      ((pass n mq).2.getD pq 0 - (pass n mk).2.getD pk 0) := by
  have hf : ∀ m i, invFreq c (pass n m).1 i = invFreq c 1 i := by
    intro m i
    rw [pass_len]
    split_ifs
    · have h1 : ¬ 1 > c.orig := by omega
      rcases h with h | h | h
      · have h0 : ¬ n > c.orig := by omega
        simp only [invFreq, h0, h1]
      · simp only [invFreq, h, ite_self]
      · simp [invFreq, h]
    · rfl
  rw [score_eq]
  unfold relScore
  refine Finset.sum_congr rfl fun i _ => ?_
  rw [hf, hf]
  simp only [← sub_mul]

theorem invFreq_ne {c : Cfg} {n i : ℕ} (ht : 0 < c.theta) (h1 : 1 ≤ c.orig) (hn : c.orig < n) (hs : i < c.short.length)
    (hl : i < c.long.length) (hpos : 0 < c.short[i] ∧ 0 < c.long[i]) (hne : c.short[i] ≠ c.long[i]) :
    invFreq c 1 i ≠ invFreq c n i := by
  have h0 : c.short ≠ [] := by intro e; simp [e] at hs
  have h2 : ¬ 1 > c.orig := by omega
  have h3 : n > c.orig := hn
  have hb : (1 / c.theta ^ ((2 : ℝ) * i / (2 * c.half : ℕ))) ≠ 0 := by positivity
  have es : c.short.getD i 0 = c.short[i] := by simp [List.getD, hs]
  have el : c.long.getD i 0 = c.long[i] := by simp [List.getD, hl]
  simp only [invFreq, h0, h2, h3, ne_eq, not_false_eq_true, if_true, if_false, es, el]
  intro e
  rw [div_eq_div_iff hpos.1.ne' hpos.2.ne'] at e
  exact hne (mul_left_cancel₀ hb e).symm

/-- C196 fails for longer prompts: the prompt's keys are cached with the long factors, every later query is rotated with the
short ones.  Wherever the two factors differ, moving query and key on by one position each, which leaves their distance
alone, changes the angle between them. -/
theorem C196_long_violated (c : Cfg) (n i m p : ℕ) (ht : 0 < c.theta) (h1 : 1 ≤ c.orig) (hn : c.orig < n)
    (hs : i < c.short.length) (hl : i < c.long.length) (hpos : 0 < c.short[i] ∧ 0 < c.long[i])
    (hne : c.short[i] ≠ c.long[i]) (hp : p + 1 < n) :
    ((pass n (m + 2)).2.getD 0 0 * invFreq c (pass n (m + 2)).1 i - (pass n 0).2.getD (p + 1) 0 * invFreq c (pass n 0).1 i) ≠
      ((pass n (m + 1)).2.getD 0 0 * invFreq c (pass n (m + 1)).1 i - (pass n 0).2.getD p 0 * invFreq c (pass n 0).1 i) ∧
    ((pass n (m + 2)).2.getD 0 0 : ℝ) - (pass n 0).2.getD (p + 1) 0 = (pass n (m + 1)).2.getD 0 0 - (pass n 0).2.getD p 0 := by
  obtain ⟨e0, es⟩ := C196_positions n (by omega)
  have hf := invFreq_ne ht h1 hn hs hl hpos hne
  have a : (List.range n).getD (p + 1) 0 = p + 1 := by simp [List.getD, hp]
  have b : (List.range n).getD p 0 = p := by simp [List.getD, show p < n by omega]
  have es2 : (pass n (m + 2)).2 = [n + (m + 1)] := es (m + 1)
  rw [es2, es, e0, a, b]
  simp only [pass, List.getD_cons_zero]
  push_cast
  refine ⟨fun e => hf ?_, by ring⟩
  linarith

/-- C196 fails in another way: the long factors are chosen by the length of one pass, so a generation that outgrows the
original context never gets them. -/
theorem C196_grow_violated (c : Cfg) (n m i : ℕ) (ht : 0 < c.theta) (h1 : 1 ≤ c.orig) (hn : c.orig < n + m + 1)
    (hs : i < c.short.length) (hl : i < c.long.length) (hpos : 0 < c.short[i] ∧ 0 < c.long[i])
    (hne : c.short[i] ≠ c.long[i]) :
    invFreq c (pass n (m + 1)).1 i ≠ invFreq c (n + m + 1) i :=
  invFreq_ne ht h1 hn hs hl hpos hne

/-- C196.  Where the two context lengths agree the magnitude is left alone. -/
theorem C196_scaling (c : Cfg) (h : c.maxPos = c.orig) (ho : 1 ≤ c.orig) : scaling c = 1 := by
  have : (c.orig : ℝ) ≠ 0 := by positivity
  simp [scaling, h, div_self this]

/-- The hypotheses of `C196_relative_partial` and `C196_long_violated` are met. -/
example : ∃ c : Cfg, (5 ≤ c.orig ∧ c.long ≠ c.short) ∧ 0 < c.theta ∧ 1 ≤ c.orig ∧ c.orig < 9 ∧
    ∃ (hs : 1 < c.short.length) (hl : 1 < c.long.length), (0 < c.short[1] ∧ 0 < c.long[1]) ∧ c.short[1] ≠ c.long[1] :=
  ⟨⟨2, 10000, [1, 1], [1, 4], 8, 16, true⟩, by norm_num, by norm_num, by norm_num, by norm_num, by simp, by simp,
    by norm_num, by norm_num⟩

end Verif.LongRope
