import Verif.Marlin.StripeLemmas

namespace Verif.Marlin

/-- The tiles of a slice, as tile numbers `kt * column + row`. -/
def Grid.Covers (G : Grid) (s : Slice) (t : Nat) : Prop :=
  G.kt * s.col + s.row ≤ t ∧ t < G.kt * s.col + s.row + s.iters

theorem Grid.sliceIters_zero (G : Grid) (b row col : Nat) (hrow : row < G.kt) :
    G.sliceIters b row col = 0 ↔ (G.iters * (b + 1) ≤ G.kt * col + row ∨ G.cols ≤ col) := by
  unfold Grid.sliceIters Grid.cols
  dsimp only
  generalize G.iters * (b + 1) = e
  generalize G.kt * col + row = p
  generalize G.nt * G.par = c
  split_ifs <;> omega

theorem Grid.sliceIters_val (G : Grid) (b row col : Nat) (hrow : row < G.kt)
    (h1 : G.kt * col + row < G.iters * (b + 1)) (h2 : col < G.cols) :
    0 < G.sliceIters b row col ∧ row + G.sliceIters b row col ≤ G.kt ∧
    G.kt * col + row + G.sliceIters b row col ≤ G.iters * (b + 1) ∧
    (row + G.sliceIters b row col = G.kt ∨
      G.kt * col + row + G.sliceIters b row col = G.iters * (b + 1)) := by
  unfold Grid.cols at h2
  unfold Grid.sliceIters
  dsimp only
  generalize G.iters * (b + 1) = e at *
  generalize G.kt * col = p at *
  generalize G.nt * G.par = c at *
  split_ifs <;> omega

theorem Grid.slices_cover (G : Grid) (b : Nat) (hkt : 0 < G.kt) :
    ∀ (fuel row col : Nat) (lock : Int), row < G.kt → G.cols + 1 ≤ fuel + col → 
    ∀ t, (∃ s ∈ G.slicesFrom b fuel row col lock, G.Covers s t) ↔
      (G.kt * col + row ≤ t ∧ t < G.iters * (b + 1) ∧ t < G.kt * G.cols) := by
  intro fuel
  induction fuel with
  | zero =>
    intro row col lock hrow hf t
    have : G.kt * G.cols ≤ G.kt * col := Nat.mul_le_mul_left _ (by omega)
    simp only [Grid.slicesFrom, List.not_mem_nil, false_and, exists_false, false_iff]
    omega
  | succ fuel ih =>
    intro row col lock hrow hf t
    rw [Grid.slicesFrom]
    unfold Grid.initSlice
    dsimp only
    by_cases hz : G.sliceIters b row col = 0
    · rw [if_pos hz]
      simp only [List.not_mem_nil, false_and, exists_false, false_iff]
      rcases (G.sliceIters_zero b row col hrow).1 hz with h | h
      · omega
      · have : G.kt * G.cols ≤ G.kt * col := Nat.mul_le_mul_left _ h
        omega
    · rw [if_neg hz]
      have hn := mt (G.sliceIters_zero b row col hrow).2 hz
      push Not at hn
      obtain ⟨v1, v2, v3, v4⟩ := G.sliceIters_val b row col hrow hn.1 hn.2
      have hc : G.kt * (col + 1) = G.kt * col + G.kt := by ring
      have hle : G.kt * (col + 1) ≤ G.kt * G.cols := Nat.mul_le_mul_left _ hn.2
      simp only [List.mem_cons, exists_eq_or_imp]
      rw [ih 0 (col + 1) _ hkt (by omega) t]
      unfold Grid.Covers
      dsimp only
      omega

/-- What every slice of a block looks like. -/
theorem Grid.slices_shape (G : Grid) (b : Nat) (hkt : 0 < G.kt) :
    ∀ (fuel row col : Nat) (lock : Int), row < G.kt → G.iters * b ≤ G.kt * col + row →
    (∀ s ∈ G.slicesFrom b fuel row col lock,
      col ≤ s.col ∧ s.col < G.cols ∧ 0 < s.iters ∧ s.row + s.iters ≤ G.kt ∧
      s.count = G.sliceCount s.col ∧ s.idx = G.sliceIdx b s.col ∧
      G.iters * b ≤ G.kt * s.col + s.row ∧ G.kt * s.col + s.row + s.iters ≤ G.iters * (b + 1) ∧
      (s.row = 0 ∨ (s.row = row ∧ s.col = col)) ∧
      (s.row + s.iters = G.kt ∨ G.kt * s.col + s.row + s.iters = G.iters * (b + 1))) ∧
    (G.slicesFrom b fuel row col lock).Pairwise (fun s s' => s.col < s'.col) := by
  intro fuel
  induction fuel with
  | zero => intro row col lock _ _; simp [Grid.slicesFrom]
  | succ fuel ih =>
    intro row col lock hrow hstart
    rw [Grid.slicesFrom]
    unfold Grid.initSlice
    dsimp only
    by_cases hz : G.sliceIters b row col = 0
    · rw [if_pos hz]; simp
    · rw [if_neg hz]
      have hn := mt (G.sliceIters_zero b row col hrow).2 hz
      push Not at hn
      obtain ⟨v1, v2, v3, v4⟩ := G.sliceIters_val b row col hrow hn.1 hn.2
      have hc : G.kt * (col + 1) = G.kt * col + G.kt := by ring
      obtain ⟨i1, i2⟩ := ih 0 (col + 1) (G.lockNext b col lock) hkt (by omega)
      refine ⟨?_, ?_⟩
      · intro s hs
        rcases List.mem_cons.1 hs with rfl | hs
        · exact ⟨le_refl _, hn.2, v1, v2, rfl, rfl, hstart, v3, Or.inr ⟨rfl, rfl⟩, v4⟩
        · obtain ⟨a1, a2, a3, a4, a5, a6, a7, a8, a9, a10⟩ := i1 s hs
          refine ⟨by omega, a2, a3, a4, a5, a6, a7, a8, ?_, a10⟩
          rcases a9 with h | h
          · exact Or.inl h
          · exact Or.inl h.1
      · refine List.pairwise_cons.2 ⟨fun s hs => ?_, i2⟩
        have := (i1 s hs).1
        show col < s.col
        omega

/-- Where the block starts. -/
theorem Grid.start_pos (G : Grid) (b : Nat) :
    G.kt * (G.iters * b / G.kt) + G.iters * b % G.kt = G.iters * b := Nat.div_add_mod _ _

theorem Grid.block_cover (G : Grid) (h : G.Ok) (b t : Nat) (ht : t < G.kt * G.cols) :
    (∃ s ∈ G.blockSlices b, G.Covers s t) ↔ G.Owns b t := by
  unfold Grid.blockSlices
  rw [G.slices_cover b h.kt _ _ _ _ (Nat.mod_lt _ h.kt) (by unfold Grid.cols; generalize G.iters * b / G.kt = q; omega), G.start_pos]
  unfold Grid.Owns
  omega

theorem Grid.block_shape (G : Grid) (h : G.Ok) (b : Nat) :
    (∀ s ∈ G.blockSlices b,
      s.col < G.cols ∧ 0 < s.iters ∧ s.row + s.iters ≤ G.kt ∧
      s.count = G.sliceCount s.col ∧ s.idx = G.sliceIdx b s.col ∧
      G.iters * b ≤ G.kt * s.col + s.row ∧ G.kt * s.col + s.row + s.iters ≤ G.iters * (b + 1) ∧
      (s.row = 0 ∨ G.kt * s.col + s.row = G.iters * b) ∧
      (s.row + s.iters = G.kt ∨ G.kt * s.col + s.row + s.iters = G.iters * (b + 1))) ∧
    (G.blockSlices b).Pairwise (fun s s' => s.col < s'.col) := by
  have hsp := G.start_pos b
  obtain ⟨h1, h2⟩ := G.slices_shape b h.kt (G.nt * G.par + 1) _ _ (G.lock0 b)
    (Nat.mod_lt (G.iters * b) h.kt) (le_of_eq hsp.symm)
  refine ⟨fun s hs => ?_, h2⟩
  obtain ⟨a1, a2, a3, a4, a5, a6, a7, a8, a9, a10⟩ := h1 s hs
  refine ⟨a2, a3, a4, a5, a6, a7, a8, ?_, a10⟩
  rcases a9 with h | h
  · exact Or.inl h
  · right; rw [h.1, h.2]; exact hsp

/-- A slice's block lies among the blocks of the column. -/
theorem Grid.slice_meets (G : Grid) (h : G.Ok) (b : Nat) (s : Slice) (hs : s ∈ G.blockSlices b) :
    G.firstB s.col ≤ b ∧ b ≤ G.lastB s.col := by
  obtain ⟨a2, a3, a4, a5, a6, a7, a8, a9, a10⟩ := (G.block_shape h b).1 s hs
  exact (G.meets_iff h b s.col).1 ⟨s.row, by omega, by unfold Grid.Owns; omega⟩

/-- Every block among the blocks of a column has a slice of it. -/
theorem Grid.has_slice (G : Grid) (h : G.Ok) (b col : Nat) (hc : col < G.cols)
    (hb : G.firstB col ≤ b ∧ b ≤ G.lastB col) : ∃ s ∈ G.blockSlices b, s.col = col := by
  obtain ⟨r, hr, ho⟩ := (G.meets_iff h b col).2 hb
  have hle : G.kt * (col + 1) ≤ G.kt * G.cols := Nat.mul_le_mul_left _ hc
  have hc1 : G.kt * (col + 1) = G.kt * col + G.kt := by ring
  obtain ⟨s, hs, hcov⟩ := (G.block_cover h b (G.kt * col + r) (by omega)).2 ho
  refine ⟨s, hs, ?_⟩
  obtain ⟨a2, a3, a4, _⟩ := (G.block_shape h b).1 s hs
  unfold Grid.Covers at hcov
  rcases Nat.lt_trichotomy s.col col with hl | hl | hl
  · have := Nat.mul_le_mul_left G.kt (show s.col + 1 ≤ col from hl)
    rw [Nat.mul_add] at this; omega
  · exact hl
  · have := Nat.mul_le_mul_left G.kt (show col + 1 ≤ s.col from hl)
    omega

/-- Which lock a shared column uses. -/
def Grid.lockOf (G : Grid) (col : Nat) : Nat :=
  if G.par * G.nt ≥ G.blocks then G.lastB col else col

/-- With at least as many columns as blocks a stripe is at least a column long. -/
theorem Grid.iters_ge (G : Grid) (h : G.Ok) (hc : G.par * G.nt ≥ G.blocks) : G.kt ≤ G.iters := by
  have h1 := G.iters_enough h
  have h2 : G.kt * G.blocks ≤ G.kt * G.cols := by
    unfold Grid.cols
    exact Nat.mul_le_mul_left _ (by rw [Nat.mul_comm G.nt]; exact hc)
  exact Nat.le_of_mul_le_mul_right (h2.trans h1) h.blocks

theorem Grid.last_le_two (G : Grid) (h : G.Ok) (hk : G.kt ≤ G.iters) (col : Nat) :
    G.lastB col ≤ G.firstB col + 1 := by
  have h1 := G.first_spec h col
  have h2 := G.last_spec h col
  by_contra hc
  have := Nat.mul_le_mul_left G.iters (show G.firstB col + 2 ≤ G.lastB col by omega)
  have e : G.iters * (G.firstB col + 2) = G.iters * (G.firstB col + 1) + G.iters := by ring
  have hm : G.kt * (col + 1) = G.kt * col + G.kt := by ring
  omega

/-- Locks when there are at least as many columns as blocks. -/
theorem Grid.locks_many (G : Grid) (h : G.Ok) (b : Nat) (hc : G.par * G.nt ≥ G.blocks) :
    ∀ (fuel row col : Nat) (lock : Int), row < G.kt → G.iters * b ≤ G.kt * col + row →
    (lock = b ∨ G.iters * (b + 1) ≤ G.kt * col + row) →
    ∀ s ∈ G.slicesFrom b fuel row col lock, s.count > 1 → s.lock = G.lastB s.col := by
  intro fuel
  induction fuel with
  | zero => intro row col lock _ _ _ s hs; simp [Grid.slicesFrom] at hs
  | succ fuel ih =>
    intro row col lock hrow hstart hinv s hs
    rw [Grid.slicesFrom] at hs
    unfold Grid.initSlice at hs
    dsimp only at hs
    by_cases hz : G.sliceIters b row col = 0
    · rw [if_pos hz] at hs; simp at hs
    · rw [if_neg hz] at hs
      have hn := mt (G.sliceIters_zero b row col hrow).2 hz
      push Not at hn
      have hlock : lock = b := by
        rcases hinv with h1 | h1
        · exact h1
        · omega
      obtain ⟨v1, v2, v3, v4⟩ := G.sliceIters_val b row col hrow hn.1 hn.2
      have hc1 : G.kt * (col + 1) = G.kt * col + G.kt := by ring
      have hmeet := (G.meets_iff h b col).1 ⟨row, hrow, by unfold Grid.Owns; omega⟩
      have hidx := G.idx_eq h b col hmeet
      have hcount := G.count_eq h col
      have h2 := G.last_le_two h (G.iters_ge h hc) col
      rcases List.mem_cons.1 hs with rfl | hs
      · intro hgt
        show G.lockNext b col lock = _
        change G.sliceCount col > 1 at hgt
        show G.lockNext b col lock = ((G.lastB col : Nat) : Int)
        unfold Grid.lockNext
        rw [if_pos hc, hidx, hcount, hlock]
        rw [hcount] at hgt
        split_ifs <;> omega
      · refine ih 0 (col + 1) _ h.kt (by omega) ?_ s hs
        show G.lockNext b col lock = _ ∨ _
        unfold Grid.lockNext
        rw [if_pos hc, hidx, hcount, hlock]
        split_ifs with hif
        · right
          have hb : b + 1 ≤ G.lastB col := by omega
          have h3 := Nat.mul_le_mul_left G.iters hb
          have h4 := G.last_spec h col
          omega
        · left; rfl

/-- Locks when there are more blocks than columns. -/
theorem Grid.locks_few (G : Grid) (b : Nat) (hc : ¬ G.par * G.nt ≥ G.blocks) :
    ∀ (fuel row col : Nat) (lock : Int), lock = (col : Int) - 1 →
    ∀ s ∈ G.slicesFrom b fuel row col lock, s.lock = s.col := by
  intro fuel
  induction fuel with
  | zero => intro row col lock _ s hs; simp [Grid.slicesFrom] at hs
  | succ fuel ih =>
    intro row col lock hl s hs
    rw [Grid.slicesFrom] at hs
    unfold Grid.initSlice at hs
    dsimp only at hs
    by_cases hz : G.sliceIters b row col = 0
    · rw [if_pos hz] at hs; simp at hs
    · rw [if_neg hz] at hs
      have hlk : G.lockNext b col lock = (col : Int) := by
        unfold Grid.lockNext; rw [if_neg hc, hl]; omega
      rcases List.mem_cons.1 hs with rfl | hs
      · exact hlk
      · refine ih 0 (col + 1) _ ?_ s hs
        show G.lockNext b col lock = _
        rw [hlk]; push_cast; omega

theorem Grid.slice_lock (G : Grid) (h : G.Ok) (b : Nat) (s : Slice) (hs : s ∈ G.blockSlices b)
    (hgt : s.count > 1) : s.lock = G.lockOf s.col := by
  have hsp := G.start_pos b
  unfold Grid.blockSlices at hs
  unfold Grid.lockOf
  by_cases hc : G.par * G.nt ≥ G.blocks
  · rw [if_pos hc]
    refine G.locks_many h b hc _ _ _ _ (Nat.mod_lt _ h.kt) (le_of_eq hsp.symm) (Or.inl ?_) s hs hgt
    unfold Grid.lock0; rw [if_pos hc]
  · rw [if_neg hc]
    refine G.locks_few b hc _ _ _ _ ?_ s hs
    unfold Grid.lock0; rw [if_neg hc]

theorem Grid.lockOf_inj (G : Grid) (h : G.Ok) {c c' : Nat}
    (hs : G.sliceCount c > 1) (hs' : G.sliceCount c' > 1) (he : G.lockOf c = G.lockOf c') :
    c = c' := by
  rw [G.count_eq h] at hs hs'
  unfold Grid.lockOf at he
  split_ifs at he with hc
  · have key : ∀ {c c' : Nat}, G.firstB c' < G.lastB c' → G.lastB c = G.lastB c' → ¬ c < c' := by
      intro c c' hs' he hlt
      have h1 := G.last_spec h c
      have h2 := G.first_spec h c'
      have h3 := Nat.mul_le_mul_left G.iters (show G.firstB c' + 1 ≤ G.lastB c' from hs')
      have h4 := Nat.mul_le_mul_left G.kt (show c + 1 ≤ c' from hlt)
      rw [he] at h1
      omega
    have k1 := key (c := c) (c' := c') (by omega) he
    have k2 := key (c := c') (c' := c) (by omega) he.symm
    omega
  · exact he

theorem Grid.last_lt (G : Grid) (h : G.Ok) {c : Nat} (hc : c < G.cols) : G.lastB c < G.blocks := by
  have h1 := G.last_spec h c
  have h2 := G.iters_enough h
  have h3 := Nat.mul_le_mul_left G.kt (show c + 1 ≤ G.cols from hc)
  exact Nat.lt_of_mul_lt_mul_left (lt_of_lt_of_le h1.1 (h3.trans h2))

theorem Grid.lockOf_lt (G : Grid) (h : G.Ok) {c : Nat} (hc : c < G.cols) :
    G.lockOf c < G.blocks := by
  unfold Grid.lockOf
  split_ifs with hl
  · exact G.last_lt h hc
  · unfold Grid.cols at hc; rw [Nat.mul_comm] at hc; omega

end Verif.Marlin
