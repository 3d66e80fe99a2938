import Verif.Sample.Chain

/-!
# C69, C70: limits of the law, shape of the output row
-/

namespace Verif.Sample

open Finset

/-- Two tokens, target 3/4 : 1/4, draft 1/4 : 3/4, whatever was generated before. -/
def tgt : List Nat → Nat → ℚ := fun _ j => if j = 0 then 3 / 4 else if j = 1 then 1 / 4 else 0
def drf : List Nat → Nat → ℚ := fun _ j => if j = 0 then 1 / 4 else if j = 1 then 3 / 4 else 0

/-- The hypotheses of `speculative_preserves_law_partial` are met; the conclusion is the correct
value 3/4 for "the first token is 0". -/
example : IsModel 2 tgt ∧ IsModel 2 drf ∧ (∀ ys, Ordinary 2 (tgt ys) (drf ys)) ∧
    (speculative 2 tgt drf 2 3).ev (fun l => if l.head? = some 0 then 1 else 0) = 3 / 4 := by
  refine ⟨⟨?_, ?_⟩, ⟨?_, ?_⟩, ?_, by decide +kernel⟩
  · intro ys j; unfold tgt; split_ifs <;> norm_num
  · intro ys; simp [tgt, sum_range_succ]; norm_num
  · intro ys j; unfold drf; split_ifs <;> norm_num
  · intro ys; simp [drf, sum_range_succ]; norm_num
  · intro ys
    refine ⟨?_, Or.inr ?_⟩
    · intro j hj
      have : j = 0 ∨ j = 1 := by omega
      rcases this with rfl | rfl <;> right <;> norm_num [drf, tiny]
    · simp [diff, tgt, drf, sum_range_succ]; norm_num [small]

/-- Two models that differ by 1e-9. -/
def nearT : List Nat → Nat → ℚ := fun _ j =>
  if j = 0 then 1 / 2 + 1 / 10 ^ 9 else if j = 1 then 1 / 2 - 1 / 10 ^ 9 else 0
def nearQ : List Nat → Nat → ℚ := fun _ j => if j = 0 ∨ j = 1 then 1 / 2 else 0

/-- **C69 is violated** inside the thresholds: when the two distributions differ by no more than
1e-8 the replacement token is drawn from the target distribution itself instead of the difference,
and the law of the answer is not the target's (here off by about 5e-10). -/
theorem speculative_law_violated :
    IsModel 2 nearT ∧ IsModel 2 nearQ ∧
    (speculative 2 nearT nearQ 1 2).ev (fun l => if l.head? = some 0 then 1 else 0) ≠
      (extend 2 nearT 2 []).ev (fun l => if l.head? = some 0 then 1 else 0) := by
  refine ⟨⟨?_, ?_⟩, ⟨?_, ?_⟩, by decide +kernel⟩
  · intro ys j; unfold nearT; split_ifs <;> norm_num
  · intro ys; simp [nearT, sum_range_succ]; norm_num
  · intro ys j; unfold nearQ; split_ifs <;> norm_num
  · intro ys; simp [nearQ, sum_range_succ]; norm_num

/-! ### C70 -/

namespace Prog

variable {α β : Type}

theorem can_bind (p : Prog α) (g : α → Prog β) (x : β) :
    (p.bind g).can x ↔ ∃ a, p.can a ∧ (g a).can x := by
  induction p with
  | ret a => simp [bind, can]
  | coin θ k ih =>
    simp only [bind, can, ih]
    constructor
    · rintro (⟨h, a, h1, h2⟩ | ⟨h, a, h1, h2⟩)
      · exact ⟨a, Or.inl ⟨h, h1⟩, h2⟩
      · exact ⟨a, Or.inr ⟨h, h1⟩, h2⟩
    · rintro ⟨a, (⟨h, h1⟩ | ⟨h, h1⟩), h2⟩
      · exact Or.inl ⟨h, a, h1, h2⟩
      · exact Or.inr ⟨h, a, h1, h2⟩
  | draw n w k ih =>
    simp only [bind, can, ih]
    constructor
    · rintro ⟨t, h1, h2, a, h3, h4⟩; exact ⟨a, ⟨t, h1, h2, h3⟩, h4⟩
    · rintro ⟨a, ⟨t, h1, h2, h3⟩, h4⟩; exact ⟨t, h1, h2, a, h3, h4⟩

end Prog

theorem can_metric {pt pd : ℚ} {st : RowSt} {k : RowSt → Prog RowSt} {x : RowSt}
    (h : (metric pt pd st k).can x) :
    ∃ a : RowSt, a.out = st.out ∧ a.all = st.all ∧ a.emitted = st.emitted ∧
      st.accepted ≤ a.accepted ∧ a.accepted ≤ st.accepted + 1 ∧ (k a).can x := by
  unfold metric at h
  split_ifs at h with hp
  · exact ⟨{ st with accepted := st.accepted + 1 }, rfl, rfl, rfl, by simp, by simp, h⟩
  · simp only [Prog.can, if_true, Bool.false_eq_true, if_false] at h
    rcases h with ⟨_, h⟩ | ⟨_, h⟩
    · exact ⟨{ st with accepted := st.accepted + 1 }, rfl, rfl, rfl, by simp, by simp, h⟩
    · exact ⟨st, rfl, rfl, rfl, by simp, by simp, h⟩

/-- Rejected rows keep output and `emitted`. -/
theorem can_rejected {n : Nat} {dps tps : Nat → Nat → ℚ} :
    ∀ (xs : List Nat) (t : Nat) (st x : RowSt), st.all = false → (rowLoop n dps tps t xs st).can x →
      x.out = st.out ∧ x.emitted = st.emitted ∧ x.all = false ∧
        x.accepted ≤ st.accepted + xs.length := by
  intro xs
  induction xs with
  | nil =>
    intro t st x hst h
    simp only [rowLoop, Prog.can] at h
    subst h; exact ⟨rfl, rfl, hst, by simp⟩
  | cons z xs ih =>
    intro t st x hst h
    rw [rowLoop, Prog.can_bind] at h
    obtain ⟨b, hb, hx⟩ := h
    obtain ⟨a, h1, h2, h3, h4, h5, ha⟩ := can_metric hb
    have haf : a.all = false := by rw [h2, hst]
    unfold decideTok at ha
    rw [haf] at ha
    simp only [Bool.false_eq_true, if_false, Prog.can] at ha
    subst ha
    obtain ⟨g1, g2, g3, g4⟩ := ih (t + 1) b x haf hx
    refine ⟨by rw [g1, h1], by rw [g2, h3], g3, ?_⟩
    simp only [List.length_cons]; omega

/-- The loop from an all-accepted state. -/
theorem can_accepting {n : Nat} {dps tps : Nat → Nat → ℚ} :
    ∀ (xs ys : List Nat) (st x : RowSt), st.all = true → st.out = rowOf ys (xs.length + 1) →
      (rowLoop n dps tps ys.length xs st).can x →
      x.accepted ≤ st.accepted + xs.length ∧
      ((x.all = true ∧ x.out = rowOf (ys ++ xs) 1 ∧ x.emitted = st.emitted + xs.length) ∨
       (x.all = false ∧ ∃ j y, j < xs.length ∧ y < n ∧
          0 < residual n (tps (ys.length + j)) (dps (ys.length + j)) y ∧
          x.out = rowOf (ys ++ xs.take j ++ [y]) (xs.length - j) ∧
          x.emitted = st.emitted + j + 1)) := by
  intro xs
  induction xs with
  | nil =>
    intro ys st x hst hout h
    simp only [rowLoop, Prog.can] at h
    subst h
    exact ⟨by simp, Or.inl ⟨hst, by simpa using hout, by simp⟩⟩
  | cons z xs ih =>
    intro ys st x hst hout h
    rw [rowLoop, Prog.can_bind] at h
    obtain ⟨b, hb, hx⟩ := h
    obtain ⟨a, h1, h2, h3, h4, h5, ha⟩ := can_metric hb
    have hat : a.all = true := by rw [h2, hst]
    have haout : a.out = rowOf ys (xs.length + 1 + 1) := by rw [h1, hout]; rfl
    unfold decideTok at ha
    rw [if_pos hat] at ha
    simp only [Prog.can, if_true, Bool.false_eq_true, if_false] at ha
    rcases ha with ⟨_, ha⟩ | ⟨_, y, hy, hw, ha⟩
    · subst ha
      have := ih (ys ++ [z]) { a with out := a.out.set ys.length (z : Int), emitted := a.emitted + 1 } x hat (by
        change a.out.set ys.length (z : Int) = _
        rw [haout, rowOf_set]) (by simpa using hx)
      obtain ⟨g1, g2⟩ := this
      dsimp only at g1 g2
      refine ⟨by simp only [List.length_cons] at g1 ⊢; omega, ?_⟩
      rcases g2 with ⟨q1, q2, q3⟩ | ⟨q1, j, y, q2, q3, q4, q5, q6⟩
      · refine Or.inl ⟨q1, by simpa using q2, ?_⟩
        rw [q3]; simp only [List.length_cons]; omega
      · refine Or.inr ⟨q1, j + 1, y, by simp; omega, q3, ?_, ?_, ?_⟩
        · simp only [List.length_append, List.length_singleton] at q4
          rwa [show ys.length + (j + 1) = ys.length + 1 + j by omega]
        · rw [q5]; simp
        · rw [q6]; omega
    · subst ha
      obtain ⟨g1, g2, g3, g4⟩ := can_rejected xs _ _ x (by rfl) hx
      refine ⟨by simp only [List.length_cons] at g4 ⊢; omega, Or.inr ⟨g3, 0, y, by simp, hy, by simpa using hw, ?_, ?_⟩⟩
      · rw [g1]
        change a.out.set ys.length (y : Int) = _
        rw [haout, rowOf_set]
        simp
      · rw [g2]; change a.emitted + 1 = _; omega

/-- **C70.** For all probabilities and all random draws, the output row of a request with draft
tokens `xs` is: the first `j` draft tokens, then one sampled token of the vocabulary, then `-1` up
to length `xs.length + 1`.  If `j` is less than the number of draft tokens the sampled token comes
from the residual distribution of position `j`, otherwise from the target distribution after all
of them; the metric `accepted` never exceeds the number of draft tokens. -/
theorem chain_shape (n : Nat) (dps tps : Nat → Nat → ℚ) (xs : List Nat) (r : RowSt)
    (h : (chainRow n dps tps xs).can r) :
    ∃ j y, j ≤ xs.length ∧ y < n ∧
      r.out = (xs.take j).map (fun x : Nat => (x : Int)) ++ (y : Int) :: List.replicate (xs.length - j) (-1) ∧
      r.out.length = xs.length + 1 ∧
      (j < xs.length → 0 < residual n (tps j) (dps j) y) ∧
      (j = xs.length → 0 < tps j y / max (∑ i ∈ range n, tps j i) small) ∧
      r.emitted = j + (if j < xs.length then 1 else 0) ∧
      r.accepted ≤ xs.length := by
  unfold chainRow at h
  rw [Prog.can_bind] at h
  obtain ⟨s, hs, hr⟩ := h
  obtain ⟨g1, g2⟩ := can_accepting xs [] _ s rfl rfl hs
  rcases g2 with ⟨q1, q2, q3⟩ | ⟨q1, j, y, q2, q3, q4, q5, q6⟩
  · unfold bonus at hr
    rw [if_pos q1] at hr
    simp only [Prog.can] at hr
    obtain ⟨y, hy, hw, rfl⟩ := hr
    have ho : s.out.set xs.length (y : Int) = xs.map (fun x : Nat => (x : Int)) ++ [(y : Int)] := by
      rw [q2]
      have := rowOf_set xs 0 y
      simp only [List.nil_append, Nat.zero_add] at this ⊢
      rw [this]
      simp [rowOf]
    refine ⟨xs.length, y, le_refl _, hy, ?_, ?_, fun h => absurd h (by omega), fun _ => hw, ?_, ?_⟩
    · change s.out.set xs.length (y : Int) = _
      rw [ho]; simp
    · change (s.out.set xs.length (y : Int)).length = _
      rw [ho]; simp
    · change s.emitted = _
      rw [q3]; simp
    · change s.accepted ≤ _
      simpa using g1
  · unfold bonus at hr
    rw [q1] at hr
    simp only [Bool.false_eq_true, if_false, Prog.can] at hr
    subst hr
    have ho : r.out = (xs.take j).map (fun x : Nat => (x : Int)) ++
        (y : Int) :: List.replicate (xs.length - j) (-1) := by
      rw [q5]; simp [rowOf]
    refine ⟨j, y, by omega, q3, ho, ?_, fun _ => by simpa using q4, fun h => absurd h (by omega), ?_,
      by simpa using g1⟩
    · rw [ho]; simp; omega
    · rw [q6, if_pos q2]; simp

/-- **C70 is violated** for the emitted count: documented as the number of draft tokens emitted, it
also counts the replacement token.  Whenever a draft token was rejected, it is one too large. -/
theorem emitted_count_violated (n : Nat) (dps tps : Nat → Nat → ℚ) (xs : List Nat) (r : RowSt)
    (h : (chainRow n dps tps xs).can r) (hpad : (-1 : Int) ∈ r.out) :
    ∃ j y, j < xs.length ∧
      r.out = (xs.take j).map (fun x : Nat => (x : Int)) ++ (y : Int) :: List.replicate (xs.length - j) (-1) ∧
      0 ≤ y ∧ r.emitted = j + 1 := by
  obtain ⟨j, y, h1, h2, h3, h4, h5, h6, h7, h8⟩ := chain_shape n dps tps xs r h
  have hlt : j < xs.length := by
    by_contra hc
    have hj : xs.length - j = 0 := by omega
    rw [h3, hj] at hpad
    simp only [List.replicate_zero, List.mem_append, List.mem_map, List.mem_singleton] at hpad
    rcases hpad with ⟨x, _, hx⟩ | hx
    · omega
    · omega
  exact ⟨j, y, hlt, h3, by omega, by rw [h7, if_pos hlt]⟩

/-- Both theorems speak about something: with the models above and drafts `[1, 1]`, the row
`[0, -1, -1]` (rejection at once) with emitted count 1 is possible. -/
example : ∃ r, (chainRow 2 (fun _ => drf []) (fun _ => tgt []) [1, 1]).can r ∧
    r.out = [0, -1, -1] ∧ r.emitted = 1 := by
  refine ⟨⟨[0, -1, -1], 0, 1, false⟩, ?_, rfl, rfl⟩
  unfold chainRow
  rw [Prog.can_bind]
  refine ⟨⟨[0, -1, -1], 0, 1, false⟩, ?_, rfl⟩
  rw [rowLoop, Prog.can_bind]
  refine ⟨⟨[0, -1, -1], 0, 1, false⟩, ?_, ?_⟩
  · unfold metric
    rw [if_neg (by norm_num [tgt, drf])]
    refine Or.inr ⟨by norm_num [tgt, drf, tiny], ?_⟩
    simp only [Bool.false_eq_true, if_false]
    unfold decideTok
    rw [if_pos rfl]
    refine Or.inr ⟨by norm_num [tgt, drf, tiny], ?_⟩
    simp only [Bool.false_eq_true, if_false, Prog.can]
    exact ⟨0, by omega, by decide +kernel, rfl⟩
  · rw [rowLoop, Prog.can_bind]
    refine ⟨⟨[0, -1, -1], 0, 1, false⟩, ?_, rfl⟩
    unfold metric
    rw [if_neg (by norm_num [tgt, drf])]
    refine Or.inr ⟨by norm_num [tgt, drf, tiny], ?_⟩
    simp [decideTok, Prog.can]

end Verif.Sample
