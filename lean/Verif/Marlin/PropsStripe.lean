import Verif.Marlin.BarrierProgress
import Verif.Marlin.AtomicInv

/-!
# C153, C154: the striped partition and the reduction across thread blocks
-/

namespace Verif.Marlin

/-! ## C153: every tile is worked on exactly once -/

/-- Specification: block `b` has work in column `c`. -/
def Grid.WorksOn (G : Grid) (b c : Nat) : Prop := ∃ s ∈ G.blockSlices b, s.col = c

theorem Grid.worksOn_iff (G : Grid) (h : G.Ok) {b c : Nat} (hc : c < G.cols) :
    G.WorksOn b c ↔ G.firstB c ≤ b ∧ b ≤ G.lastB c := by
  constructor
  · rintro ⟨s, hs, rfl⟩; exact G.slice_meets h b s hs
  · exact fun hb => G.has_slice h b c hc hb

theorem Grid.Covers.unique (G : Grid) {s s' : Slice} {t : Nat} (hs : s.row + s.iters ≤ G.kt)
    (hs' : s'.row + s'.iters ≤ G.kt) (h1 : G.Covers s t) (h2 : G.Covers s' t) : s.col = s'.col := by
  unfold Grid.Covers at h1 h2
  rcases Nat.lt_trichotomy s.col s'.col with hl | hl | hl
  · have := Nat.mul_le_mul_left G.kt (show s.col + 1 ≤ s'.col from hl)
    rw [Nat.mul_add G.kt s.col 1] at this; omega
  · exact hl
  · have := Nat.mul_le_mul_left G.kt (show s'.col + 1 ≤ s.col from hl)
    rw [Nat.mul_add G.kt s'.col 1] at this; omega

/-- **C153.** For every problem and grid size: every tile of every column belongs to exactly one
slice of exactly one thread block, and slices stay inside their column. -/
theorem C153_every_tile_once (G : Grid) (h : G.Ok) :
    (∀ t, t < G.kt * G.cols →
      ∃! bs : Nat × Slice, bs.1 < G.blocks ∧ bs.2 ∈ G.blockSlices bs.1 ∧ G.Covers bs.2 t) ∧
    (∀ b, ∀ s ∈ G.blockSlices b, s.col < G.cols ∧ 0 < s.iters ∧ s.row + s.iters ≤ G.kt) := by
  constructor
  · intro t ht
    have hd := G.iters_pos h
    have hown : G.Owns (t / G.iters) t :=
      ⟨Nat.mul_div_le t G.iters, Nat.lt_mul_div_succ t hd⟩
    obtain ⟨s, hs, hcv⟩ := (G.block_cover h _ t ht).2 hown
    refine ⟨(t / G.iters, s), ⟨?_, hs, hcv⟩, ?_⟩
    · show t / G.iters < G.blocks
      rw [Nat.div_lt_iff_lt_mul hd, Nat.mul_comm]
      exact lt_of_lt_of_le ht (G.iters_enough h)
    · rintro ⟨b', s'⟩ ⟨hb', hs', hcv'⟩
      dsimp only at hb' hs' hcv'
      have hown' := (G.block_cover h b' t ht).1 ⟨s', hs', hcv'⟩
      have hbe : b' = t / G.iters := by
        unfold Grid.Owns at hown'
        exact (Nat.div_eq_of_lt_le (by rw [Nat.mul_comm]; exact hown'.1)
          (by rw [Nat.mul_comm (b' + 1)]; exact hown'.2)).symm
      subst hbe
      have hsh := (G.block_shape h (t / G.iters)).1
      have hcol := Grid.Covers.unique G (hsh s' hs').2.2.1 (hsh s hs).2.2.1 hcv' hcv
      have e1 := G.sl_eq h hs
      have e2 := G.sl_eq h hs'
      rw [← e1, ← e2, hcol]
  · intro b s hs
    obtain ⟨a, b, c, _⟩ := (G.block_shape h b).1 s hs
    exact ⟨a, b, c⟩

/-- **C153.** What a block believes about the other blocks is true: `slice_count` is the number of
blocks with work in the column, `slice_idx` the number of *later* blocks with work in it. -/
theorem C153_counts (G : Grid) (h : G.Ok) (b : Nat) (s : Slice) (hs : s ∈ G.blockSlices b) :
    (∃ T : Finset Nat, (∀ x, x ∈ T ↔ x < G.blocks ∧ G.WorksOn x s.col) ∧ s.count = T.card) ∧
    (∃ T : Finset Nat, (∀ x, x ∈ T ↔ b < x ∧ x < G.blocks ∧ G.WorksOn x s.col) ∧
      s.idx = T.card) := by
  have hcol := ((G.block_shape h b).1 s hs).1
  have hl := G.last_lt h hcol
  have hm := G.slice_meets h b s hs
  have hf : SliceFacts G b s := slice_facts G h (by omega) hs
  constructor
  · refine ⟨Finset.Icc (G.firstB s.col) (G.lastB s.col), ?_, ?_⟩
    · intro x; rw [Finset.mem_Icc, G.worksOn_iff h hcol]; omega
    · rw [hf.count, Nat.card_Icc]; unfold Grid.cnt; omega
  · refine ⟨Finset.Ioc b (G.lastB s.col), ?_, ?_⟩
    · intro x; rw [Finset.mem_Ioc, G.worksOn_iff h hcol]; omega
    · rw [hf.idx, Nat.card_Ioc]

/-- **C153.** Blocks that share a column use the same lock, blocks that share different columns use
different locks, and every lock in use lies in the workspace, which has one lock per block of the
grid. -/
theorem C153_locks (G : Grid) (h : G.Ok) (b b' : Nat) (s s' : Slice) (hs : s ∈ G.blockSlices b)
    (hs' : s' ∈ G.blockSlices b') (h1 : 1 < s.count) (h2 : 1 < s'.count) :
    (s.lock = s'.lock ↔ s.col = s'.col) ∧ 0 ≤ s.lock ∧ s.lock < G.blocks := by
  have hc := ((G.block_shape h b).1 s hs)
  have hc' := ((G.block_shape h b').1 s' hs')
  rw [G.slice_lock h b s hs h1, G.slice_lock h b' s' hs' h2]
  refine ⟨⟨fun e => ?_, fun e => by rw [e]⟩, by omega, by exact_mod_cast G.lockOf_lt h hc.1⟩
  apply G.lockOf_inj h
  · rw [← hc.2.2.2.1]; exact h1
  · rw [← hc'.2.2.2.1]; exact h2
  · exact_mod_cast e

/-- **C153.** The scratch buffer: the fp32 partial sums of a shared slice (`locks_off * c_size`,
one `c_size` block each) lie within the `blocks * c_size` elements the host allocates. -/
theorem C153_scratch (G : Grid) (h : G.Ok) (b : Nat) (s : Slice) (hs : s ∈ G.blockSlices b)
    (h1 : 1 < s.count) (cSize i : Nat) (hi : i < cSize) :
    0 ≤ s.lock * cSize + i ∧ s.lock * cSize + i < G.blocks * cSize := by
  obtain ⟨_, l0, l1⟩ := C153_locks G h b b s s hs hs h1 h1
  constructor
  · positivity
  · have : (s.lock + 1) * cSize ≤ G.blocks * cSize :=
      mul_le_mul_of_nonneg_right (by omega) (by positivity)
    rw [Int.add_mul] at this
    omega

/-- **C153.** Stepping through the columns by wrapping around gives the same weight column and row
block as dividing. -/
theorem C153_place (G : Grid) (h : G.Ok) (c : Nat) : G.wrapCol (G.place c) = G.place (c + 1) := by
  unfold Grid.wrapCol Grid.place
  have hn := h.nt
  have hm := Nat.mod_lt c hn
  have hdm := Nat.div_add_mod c G.nt
  dsimp only
  split_ifs with he
  · have e : c + 1 = G.nt * (c / G.nt + 1) := by rw [Nat.mul_add G.nt (c / G.nt) 1]; omega
    rw [e, Nat.mul_mod_right, Nat.mul_div_cancel_left _ hn]
  · have e : c + 1 = (c % G.nt + 1) + G.nt * (c / G.nt) := by omega
    have e1 : (c + 1) % G.nt = c % G.nt + 1 := by
      conv_lhs => rw [e]
      rw [Nat.add_mul_mod_self_left, Nat.mod_eq_of_lt (by omega)]
    have e2 : (c + 1) / G.nt = c / G.nt := by
      conv_lhs => rw [e]
      rw [Nat.add_mul_div_left _ _ hn, Nat.div_eq_of_lt (by omega)]
      simp
    rw [e1, e2]

/-- **C153.** With scale groups that span `g` tiles, and `g` dividing a column, every slice starts
and ends at a group boundary: no group of scales is split between blocks. -/
theorem C153_groups_whole (G : Grid) (h : G.Ok) (hg : G.g ∣ G.kt) (b : Nat) (s : Slice)
    (hs : s ∈ G.blockSlices b) : G.g ∣ s.row ∧ G.g ∣ s.iters := by
  obtain ⟨a2, a3, a4, a5, a6, a7, a8, a9, a10⟩ := (G.block_shape h b).1 s hs
  have hi : G.g ∣ G.iters := ⟨_, rfl⟩
  have hrow : G.g ∣ s.row := by
    rcases a9 with e | e
    · rw [e]; exact dvd_zero _
    · have : G.g ∣ G.kt * s.col + s.row := by rw [e]; exact Dvd.dvd.mul_right hi _
      exact (Nat.dvd_add_right (Dvd.dvd.mul_right hg _)).1 this
  refine ⟨hrow, ?_⟩
  rcases a10 with e | e
  · have : G.g ∣ s.row + s.iters := by rw [e]; exact hg
    exact (Nat.dvd_add_right hrow).1 this
  · have : G.g ∣ G.kt * s.col + s.row + s.iters := by rw [e]; exact Dvd.dvd.mul_right hi _
    exact (Nat.dvd_add_right (Dvd.dvd.add (Dvd.dvd.mul_right hg _) hrow)).1 this

/-! Non-vacuity: 3 × 3 tiles on 5 blocks, the example in the comment of the kernel: block 1 works
on two columns, the middle column has three blocks, and the answers are as drawn there. -/

/-- The example of marlin_template.h L275-281. -/
def exampleGrid : Grid := ⟨3, 3, 1, 5, 1⟩

theorem exampleGrid_ok : exampleGrid.Ok := ⟨by decide, by decide, by decide, by decide, by decide⟩

example : exampleGrid.iters = 2 := by decide
example : (exampleGrid.blockSlices 1).map (fun s => (s.col, s.row, s.iters, s.count, s.idx, s.lock))
    = [(0, 2, 1, 2, 0, 0), (1, 0, 1, 2, 1, 1)] := by decide +kernel
example : (exampleGrid.blockSlices 4).map (fun s => (s.col, s.row, s.iters)) = [(2, 2, 1)] := by
  decide +kernel

/-! ## C154: the reduction, under every interleaving -/

section
variable {α : Type} {A : Arith α} {fp32 : Bool} {G : Grid}

/-- **C154.** Whatever the interleaving of the blocks, what has been written for a column is the
sum of the parts of all its slices, in the order from the last block to the first: the result does
not depend on the schedule, and no stale or partial sum is ever written. -/
theorem C154_result_fixed (h : G.Ok) {lock : Int → Int} (hz : ∀ l, lock l = 0)
    {tmp : Int → Option α} {σ : BSt α} (hr : BReach A fp32 (BSt.start α G lock tmp) σ)
    (c : Nat) (hc : c < G.cols) (v : α) (hv : σ.res c = some v) :
    combine A (G.columnSlices c) = some v := by
  have hi := reach_inv h hz hr
  rw [combine_column h hc]
  rcases hi.res c hc with e | e
  · rw [e] at hv; cases hv
  · rw [← e]; exact hv

/-- **C154.** The blocks never deadlock: as long as some block has work, some block can move. -/
theorem C154_no_deadlock (h : G.Ok) {lock : Int → Int} (hz : ∀ l, lock l = 0)
    {tmp : Int → Option α} {σ : BSt α} (hr : BReach A fp32 (BSt.start α G lock tmp) σ)
    (hn : ¬ σ.Finished) : ∃ τ, BStep A fp32 σ τ := progress h (reach_inv h hz hr) hn

/-- **C154.** Every execution ends: each step uses up some of the remaining work. -/
theorem C154_terminates (h : G.Ok) {lock : Int → Int} (hz : ∀ l, lock l = 0)
    {tmp : Int → Option α} {σ : BSt α} (hr : BReach A fp32 (BSt.start α G lock tmp) σ) :
    Acc (fun τ σ => BStep A fp32 σ τ) σ := by
  obtain ⟨n, hn⟩ : ∃ n, σ.left G.blocks = n := ⟨_, rfl⟩
  induction n using Nat.strong_induction_on generalizing σ with
  | _ n ih =>
    refine Acc.intro _ (fun τ hs => ?_)
    have hlt := step_left h (reach_inv h hz hr) hs
    exact ih _ (by omega) (.step hr hs) rfl

/-- **C154.** When the blocks are done, every column has its result and every lock is back at 0,
so the same workspace can be given to the next launch. -/
theorem C154_done (h : G.Ok) {lock : Int → Int} (hz : ∀ l, lock l = 0)
    {tmp : Int → Option α} {σ : BSt α} (hr : BReach A fp32 (BSt.start α G lock tmp) σ)
    (hf : σ.Finished) :
    (∀ c, c < G.cols → ∃ v, σ.res c = some v ∧ combine A (G.columnSlices c) = some v) ∧
    (∀ l, σ.lock l = 0) := by
  have hi := reach_inv h hz hr
  refine ⟨fun c hc => ?_, final_locks h hi hf hz⟩
  refine ⟨colSum A G c, hi.resDone c hc ?_, combine_column h hc⟩
  rw [hf]; simp

/-- **C154.** Mutual exclusion on the intermediate buffer: two blocks between `barrier_acquire`
and the end of `global_reduce` never use the same place. -/
theorem C154_exclusive (h : G.Ok) {lock : Int → Int} (hz : ∀ l, lock l = 0)
    {tmp : Int → Option α} {σ : BSt α} (hr : BReach A fp32 (BSt.start α G lock tmp) σ)
    {b b' : Nat} {s s' : Slice} {r r' : List Slice} {a a' : Option α}
    (hb : σ.blk b = ⟨s :: r, .crit, a⟩) (hb' : σ.blk b' = ⟨s' :: r', .crit, a'⟩)
    (hslot : s.slot fp32 = s'.slot fp32) : b = b' := by
  have hi := reach_inv h hz hr
  have f1 := (hi.facts h hb).1
  have f2 := (hi.facts h hb').1
  have g1 := hi.pcs b s r _ a hb (Or.inl rfl)
  have g2 := hi.pcs b' s' r' _ a' hb' (Or.inl rfl)
  rw [slot_eq f1 g1, slot_eq f2 g2] at hslot
  have hcol := slotOf_inj fp32 G h g1 g2 hslot
  obtain ⟨n, hn, _, hd, hbf, _⟩ := hi.col s.col f1.col g1
  have key : ∀ {b : Nat} {s' : Slice} {r : List Slice} {a : Option α},
      σ.blk b = ⟨s' :: r, .crit, a⟩ → s'.col = s.col → G.firstB s.col ≤ b → b ≤ G.lastB s.col →
      G.lastB s.col - b = n := by
    intro b s' r a hb he h1 h2
    have hp : (σ.blk b).ph s.col = .crit a := by rw [hb, ← he]; simp [Blk.ph]
    rcases Nat.lt_trichotomy (G.lastB s.col - b) n with hl | hl | hl
    · rw [hd b h1 h2 hl] at hp; cases hp
    · exact hl
    · rw [hbf b h1 h2 hl] at hp; cases hp
  have k1 := key hb rfl f1.first f1.last
  have k2 := key hb' hcol.symm (by rw [hcol]; exact f2.first) (by rw [hcol]; exact f2.last)
  have hf2 := f2.first
  have hl2 := f2.last
  have hf1 := f1.first
  have hl1 := f1.last
  rw [← hcol] at hf2 hl2
  omega

end

section
variable {α : Type} [AddCommMonoid α] {G : Grid}

/-- The tiles of one column, split by the block that owns them. -/
theorem Grid.column_tiles (h : G.Ok) (f : Nat → α) (part : Slice → α)
    (hpart : ∀ b, ∀ s ∈ G.blockSlices b, part s = ∑ i ∈ Finset.range s.iters, f (G.kt * s.col + s.row + i))
    {c : Nat} (hc : c < G.cols) :
    ((G.columnSlices c).map part).sum = ∑ r ∈ Finset.range G.kt, f (G.kt * c + r) := by
  rw [column_sum h hc]
  have hd := G.iters_pos h
  have hkc : G.kt * (c + 1) ≤ G.kt * G.cols := Nat.mul_le_mul_left _ hc
  have hk1 : G.kt * (c + 1) = G.kt * c + G.kt := by ring
  have hown : ∀ t, G.Owns (t / G.iters) t := fun t =>
    ⟨Nat.mul_div_le t G.iters, Nat.lt_mul_div_succ t hd⟩
  have hmaps : ∀ r ∈ Finset.range G.kt, (G.kt * c + r) / G.iters ∈ G.team c := by
    intro r hr
    rw [mem_team]
    exact (G.meets_iff h _ c).1 ⟨r, Finset.mem_range.1 hr, hown _⟩
  rw [← Finset.sum_fiberwise_of_maps_to hmaps]
  refine Finset.sum_congr rfl (fun b hb => ?_)
  rw [mem_team] at hb
  obtain ⟨s, hs, hsc⟩ := G.has_slice h b c hc hb
  have hse := G.sl_eq h hs
  rw [hsc] at hse
  rw [hse, hpart b s hs]
  obtain ⟨a2, a3, a4, a5, a6, a7, a8, a9, a10⟩ := (G.block_shape h b).1 s hs
  rw [hsc] at a7 a8 a9 a10 ⊢
  refine Finset.sum_bij' (fun i _ => s.row + i) (fun r _ => r - s.row) ?_ ?_ ?_ ?_ ?_
  · intro i hi
    rw [Finset.mem_range] at hi
    rw [Finset.mem_filter, Finset.mem_range]
    refine ⟨by omega, Nat.div_eq_of_lt_le ?_ ?_⟩
    · rw [Nat.mul_comm]; omega
    · rw [Nat.mul_comm (b + 1)]; omega
  · intro r hr
    rw [Finset.mem_filter, Finset.mem_range] at hr
    rw [Finset.mem_range]
    have ho := hown (G.kt * c + r)
    rw [hr.2] at ho
    unfold Grid.Owns at ho
    omega
  · intro i _; omega
  · intro r hr
    rw [Finset.mem_filter, Finset.mem_range] at hr
    have ho := hown (G.kt * c + r)
    rw [hr.2] at ho
    unfold Grid.Owns at ho
    omega
  · intro i _; congr 1; omega

/-- **C154.** In exact arithmetic the result of a column is the sum over *all* its tiles, whatever
the number of blocks: `f t` is the contribution of tile `t`, and the part of each slice of each block is
the sum over its own tiles. -/
theorem C154_column_is_full_sum (h : G.Ok) (f : Nat → α) (A : Arith α) (hadd : A.add = (· + ·))
    (hst : A.st = id)
    (hpart : ∀ b, ∀ s ∈ G.blockSlices b, A.part s = ∑ i ∈ Finset.range s.iters, f (G.kt * s.col + s.row + i))
    {fp32 : Bool} {lock : Int → Int} (hz : ∀ l, lock l = 0) {tmp : Int → Option α} {σ : BSt α}
    (hr : BReach A fp32 (BSt.start α G lock tmp) σ) (hf : σ.Finished)
    (c : Nat) (hc : c < G.cols) :
    σ.res c = some (∑ r ∈ Finset.range G.kt, f (G.kt * c + r)) := by
  obtain ⟨v, hv, hcomb⟩ := (C154_done h hz hr hf).1 c hc
  rw [hv, ← Grid.column_tiles h f A.part hpart hc]
  have key : ∀ (l : List Slice) (a : α),
      l.foldl (fun acc s => some (match acc with
        | none => A.part s
        | some a => A.add (A.part s) (A.st a))) (some a) = some (a + (l.map A.part).sum) := by
    intro l
    induction l with
    | nil => intro a; simp
    | cons s l ih =>
      intro a
      rw [List.foldl_cons, ih, hadd, hst, List.map_cons, List.sum_cons]
      simp only [id]
      rw [add_comm (A.part s) a, add_assoc]
  unfold combine at hcomb
  cases hl : G.columnSlices c with
  | nil => rw [hl] at hcomb; simp at hcomb
  | cons s l =>
    rw [hl, List.foldl_cons] at hcomb
    have hcomb' := (key l (A.part s)).symm.trans hcomb
    rw [← hcomb', List.map_cons, List.sum_cons]

/-- **C154.** The atomic mode: in exact arithmetic, whatever the interleaving, the blocks never
deadlock, every execution ends, and at the end the output of every column is the sum over all its
tiles — whatever the output held before — and every lock is back at 0. -/
theorem C154_atomic (h : G.Ok) (f : Nat → α) (part : Slice → α)
    (hpart : ∀ b, ∀ s ∈ G.blockSlices b, part s = ∑ i ∈ Finset.range s.iters, f (G.kt * s.col + s.row + i))
    {lock : Int → Int} (hz : ∀ l, lock l = 0) {out : Nat → Option α} {σ : ASt α}
    (hr : AReach 0 (· + ·) part (ASt.start α G lock out) σ) :
    (¬ σ.Finished → ∃ τ, AStep 0 (· + ·) part σ τ) ∧
    Acc (fun τ σ => AStep 0 (· + ·) part σ τ) σ ∧
    (σ.Finished →
      (∀ c, c < G.cols → σ.out c = some (∑ r ∈ Finset.range G.kt, f (G.kt * c + r))) ∧
      (∀ l, σ.lock l = 0)) := by
  have hi := areach_inv h hz hr
  refine ⟨aprogress h hi, ?_, fun hf => ?_⟩
  · clear hi
    obtain ⟨n, hn⟩ : ∃ n, σ.left G.blocks = n := ⟨_, rfl⟩
    induction n using Nat.strong_induction_on generalizing σ with
    | _ n ih =>
      refine Acc.intro _ (fun τ hs => ?_)
      have hlt := astep_left h hz hr hs
      exact ih _ (by omega) (.step hr hs) rfl
  · obtain ⟨h1, h2⟩ := afinal h hi hf hz
    exact ⟨fun c hc => by rw [h1 c hc, Grid.column_tiles h f part hpart hc], h2⟩

end

/-- Non-vacuity: with tiles worth their own number, the first column of the example (tiles 0, 1
and 2, shared by blocks 0 and 1) adds up to 3 … -/
example : combine (α := Nat) ⟨(· + ·), id,
      fun s => ∑ i ∈ Finset.range s.iters, (exampleGrid.kt * s.col + s.row + i)⟩
    (exampleGrid.columnSlices 0) = some 3 := by decide +kernel

/-- … every execution of the example can be driven to the end … -/
example (A : Arith Nat) : ∃ σ, BReach A true (BSt.start Nat exampleGrid (fun _ => 0) (fun _ => none)) σ ∧
    σ.Finished := by
  have key : ∀ σ, BReach A true (BSt.start Nat exampleGrid (fun _ => 0) (fun _ => none)) σ →
      ∃ τ, BReach A true (BSt.start Nat exampleGrid (fun _ => 0) (fun _ => none)) τ ∧ τ.Finished := by
    intro σ hr
    have hacc := C154_terminates exampleGrid_ok (fun _ => rfl) hr
    induction hacc with
    | intro σ _ ih =>
      by_cases hf : σ.Finished
      · exact ⟨σ, hr, hf⟩
      · obtain ⟨τ, hs⟩ := C154_no_deadlock exampleGrid_ok (fun _ => rfl) hr hf
        exact ih τ hs (.step hr hs)
  exact key _ .init

/-- … and the zero-lock hypothesis matters: a workspace that starts with a non-zero lock blocks
the grid for ever (no block can take the first step on that column). -/
theorem C154_needs_zeroed_workspace : ∃ (G : Grid) (_ : G.Ok) (lock : Int → Int),
    ∀ (A : Arith Nat) (σ : BSt Nat), BReach A true (BSt.start Nat G lock (fun _ => none)) σ →
      ¬ σ.Finished := by
  refine ⟨⟨2, 1, 1, 2, 1⟩, ⟨by decide, by decide, by decide, by decide, by decide⟩, fun _ => 5, ?_⟩
  intro A σ hr
  have hb0 : Grid.blockSlices ⟨2, 1, 1, 2, 1⟩ 0 = [⟨0, 0, 1, 2, 1, 0⟩] := by decide +kernel
  have hb1 : Grid.blockSlices ⟨2, 1, 1, 2, 1⟩ 1 = [⟨0, 1, 1, 2, 0, 0⟩] := by decide +kernel
  have : σ = BSt.start Nat ⟨2, 1, 1, 2, 1⟩ (fun _ => 5) (fun _ => none) := by
    induction hr with
    | init => rfl
    | step _ hs ih =>
      exfalso
      subst ih
      have hcases : ∀ (b : Nat) (s : Slice) (r : List Slice) (pc : Pc) (a : Option Nat),
          (BSt.start Nat ⟨2, 1, 1, 2, 1⟩ (fun _ => 5) (fun _ => none)).blk b = ⟨s :: r, pc, a⟩ →
          pc = .wait ∧ s.count = 2 ∧ s.idx ≤ 1 := by
        intro b s r pc a hb
        unfold BSt.start at hb
        dsimp only at hb
        split_ifs at hb with hlt
        · have : b = 0 ∨ b = 1 := by omega
          rcases this with rfl | rfl
          · rw [hb0] at hb
            simp only [Blk.mk.injEq, List.cons.injEq] at hb
            obtain ⟨⟨rfl, _⟩, rfl, _⟩ := hb
            decide
          · rw [hb1] at hb
            simp only [Blk.mk.injEq, List.cons.injEq] at hb
            obtain ⟨⟨rfl, _⟩, rfl, _⟩ := hb
            decide
        · simp at hb
      cases hs with
      | acquire b s rest a hb hc hl =>
        have := hcases b s rest _ a hb
        have hl' : (5 : Int) = s.idx := hl
        omega
      | reduce b s rest v hb w hw => exact absurd (hcases b s rest _ _ hb).1 (by decide)
      | release b s rest v hb => exact absurd (hcases b s rest _ _ hb).1 (by decide)
      | alone b s rest a hb hc =>
        have := hcases b s rest _ a hb
        omega
      | finish b s rest v hb => exact absurd (hcases b s rest _ _ hb).1 (by decide)
  rw [this]
  intro hf
  have := hf 0
  unfold BSt.start at this
  dsimp only at this
  rw [if_pos (by decide), hb0] at this
  cases this

end Verif.Marlin
