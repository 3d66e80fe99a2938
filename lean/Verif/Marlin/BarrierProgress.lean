import Verif.Marlin.BarrierInv
import Mathlib.Algebra.BigOperators.Intervals
import Mathlib.Algebra.Order.BigOperators.Group.Finset

namespace Verif.Marlin

section
variable {α : Type} {A : Arith α} {fp32 : Bool} {G : Grid} {lock0 : Int → Int}

/-- Specification: the slices of a column, from the last block to the first. -/
def Grid.columnSlices (G : Grid) (c : Nat) : List Slice :=
  (List.range G.blocks).reverse.filterMap
    (fun b => (G.blockSlices b).find? (fun s => s.col == c))

/-- Specification: adding up parts one after the other, each sum being stored before the next part
is added to it. -/
def combine (A : Arith α) (l : List Slice) : Option α :=
  l.foldl (fun acc s => some (match acc with
    | none => A.part s
    | some a => A.add (A.part s) (A.st a))) none

theorem Grid.find_slice (h : G.Ok) {b c : Nat} (hc : c < G.cols) :
    (G.blockSlices b).find? (fun s => s.col == c) =
      if G.firstB c ≤ b ∧ b ≤ G.lastB c then some (G.sl b c) else none := by
  split_ifs with hif
  · obtain ⟨s, hs, rfl⟩ := G.has_slice h b c hc hif
    rw [find_unique (G.block_shape h b).2 hs, G.sl_eq h hs]
  · rw [List.find?_eq_none]
    intro s hs hsc
    have : s.col = c := by simpa using hsc
    exact hif (this ▸ G.slice_meets h b s hs)

theorem Grid.columnSlices_eq (h : G.Ok) {c : Nat} (hc : c < G.cols) :
    G.columnSlices c = (List.range (G.cnt c)).map (fun i => G.sl (G.lastB c - i) c) := by
  have hl := G.last_lt h hc
  have hfl := G.first_le_last h c
  unfold Grid.columnSlices
  rw [List.filterMap_reverse]
  have hsplit : List.range G.blocks =
      List.range' 0 (G.firstB c) ++ List.range' (G.firstB c) (G.cnt c) ++
        List.range' (G.lastB c + 1) (G.blocks - (G.lastB c + 1)) := by
    rw [List.range_eq_range']
    have e1 : List.range' 0 (G.firstB c) ++ List.range' (G.firstB c) (G.cnt c)
        = List.range' 0 (G.firstB c + G.cnt c) := by
      have := List.range'_append (s := 0) (m := G.firstB c) (n := G.cnt c) (step := 1)
      simpa using this
    rw [e1]
    have := List.range'_append (s := 0) (m := G.firstB c + G.cnt c)
      (n := G.blocks - (G.lastB c + 1)) (step := 1)
    have e2 : G.firstB c + G.cnt c = G.lastB c + 1 := by unfold Grid.cnt; omega
    rw [e2] at this ⊢
    have e3 : 0 + 1 * (G.lastB c + 1) = G.lastB c + 1 := by omega
    rw [e3] at this
    rw [this]
    congr 1
    omega
  have hnone : ∀ l : List Nat, (∀ b ∈ l, ¬ (G.firstB c ≤ b ∧ b ≤ G.lastB c)) →
      l.filterMap (fun b => (G.blockSlices b).find? (fun s => s.col == c)) = [] := by
    intro l hl'
    rw [List.filterMap_eq_nil_iff]
    intro b hb
    rw [G.find_slice h hc, if_neg (hl' b hb)]
  have hmid : (List.range' (G.firstB c) (G.cnt c)).filterMap
      (fun b => (G.blockSlices b).find? (fun s => s.col == c))
      = (List.range' (G.firstB c) (G.cnt c)).map (fun b => G.sl b c) := by
    rw [← List.filterMap_eq_map]
    apply List.filterMap_congr
    intro b hb
    rw [List.mem_range'_1] at hb
    have hb2 : G.firstB c ≤ b ∧ b ≤ G.lastB c := by unfold Grid.cnt at hb; omega
    rw [G.find_slice h hc, if_pos hb2]
    rfl
  rw [hsplit, List.filterMap_append, List.filterMap_append, hmid, hnone, hnone]
  · rw [List.nil_append, List.append_nil, ← List.map_reverse]
    apply List.ext_getElem
    · simp
    · intro i hi1 hi2
      simp only [List.length_map, List.length_reverse, List.length_range'] at hi1
      simp only [List.getElem_map, List.getElem_reverse, List.getElem_range', List.length_range',
        List.getElem_range]
      congr 1
      unfold Grid.cnt at *
      omega
  · intro b hb; rw [List.mem_range'_1] at hb; omega
  · intro b hb; rw [List.mem_range'_1] at hb; omega

theorem combine_runSum (c n : Nat) :
    combine A ((List.range (n + 1)).map (fun i => G.sl (G.lastB c - i) c))
      = some (runSum A G c n) := by
  induction n with
  | zero => rfl
  | succ n ih =>
    unfold combine at *
    rw [List.range_succ, List.map_append, List.foldl_append, ih]
    rfl

theorem combine_column (h : G.Ok) {c : Nat} (hc : c < G.cols) :
    combine A (G.columnSlices c) = some (colSum A G c) := by
  rw [G.columnSlices_eq h hc]
  have : G.cnt c = (G.cnt c - 1) + 1 := by unfold Grid.cnt; omega
  rw [this, combine_runSum]; rfl

/-- All blocks have done all their slices. -/
def BSt.Finished (σ : BSt α) : Prop := ∀ b, (σ.blk b).todo = []

theorem progress (h : G.Ok) {σ : BSt α} (hi : BInv A fp32 G lock0 σ) (hn : ¬ σ.Finished) :
    ∃ τ, BStep A fp32 σ τ := by
  -- the last unfinished block
  have hex : ∃ b, (σ.blk b).todo ≠ [] ∧ ∀ b', b < b' → (σ.blk b').todo = [] := by
    unfold BSt.Finished at hn
    push Not at hn
    obtain ⟨b, hb⟩ := hn
    have hbig : ∀ x, G.blocks ≤ x → (σ.blk x).todo = [] := by
      intro x hx
      obtain ⟨pre, hp⟩ := hi.suffix x
      rw [if_neg (by omega)] at hp
      simpa using (List.append_eq_nil_iff.1 hp.symm).2
    by_contra hno
    push Not at hno
    have hall : ∀ k, ∃ x, b + k ≤ x ∧ (σ.blk x).todo ≠ [] := by
      intro k
      induction k with
      | zero => exact ⟨b, le_refl _, hb⟩
      | succ k ih =>
        obtain ⟨x, hx, hx2⟩ := ih
        obtain ⟨y, hy, hy2⟩ := hno x hx2
        exact ⟨y, by omega, hy2⟩
    obtain ⟨x, hx, hx2⟩ := hall G.blocks
    exact hx2 (hbig x (by omega))
  obtain ⟨b, hb, hlater⟩ := hex
  obtain ⟨⟨todo, pc, a⟩, hB⟩ : ∃ B : Blk α, σ.blk b = B := ⟨_, rfl⟩
  rw [hB] at hb
  cases todo with
  | nil => exact absurd rfl hb
  | cons s rest =>
  obtain ⟨hf, _⟩ := hi.facts h hB
  cases pc with
  | out =>
    obtain ⟨v, rfl, _⟩ := hi.out b s rest a hB
    exact ⟨_, .finish σ b s rest v hB⟩
  | wait =>
    by_cases hc : s.count > 1
    · have h1 : 1 < G.cnt s.col := by have := hf.count; omega
      obtain ⟨n, hn, ⟨ha, _⟩, hlk, hd, hbf, hcur⟩ :=
        (hi.col _ hf.col h1).active hf.first hf.last
      have hph : (σ.blk b).ph s.col = .before := by rw [hB]; simp [Blk.ph]
      have hnb := ha (by rw [hph]; simp)
      have hncnt : n < G.cnt s.col := by unfold Grid.cnt at *; have := hf.first; omega
      have hnn : n = G.lastB s.col - b := by
        by_contra hne
        have hlt : b < G.lastB s.col - n := by have := hf.last; omega
        have hdone : (σ.blk (G.lastB s.col - n)).ph s.col = .done := by
          have := hlater _ hlt
          simp [Blk.ph, this]
        rcases hcur hncnt with ⟨hx, _⟩ | ⟨hx, _⟩
        · rcases hx with hx | hx <;> (rw [hdone] at hx; cases hx)
        · rw [hdone] at hx; cases hx
      refine ⟨_, .acquire σ b s rest a hB hc ?_⟩
      rw [hf.lock h1, hlk, if_neg (by omega), hf.idx, hnn]
    · exact ⟨_, .alone σ b s rest a hB hc⟩
  | crit =>
    have h1 : 1 < G.cnt s.col := hi.pcs b s rest _ _ hB (Or.inl rfl)
    obtain ⟨n, hn, ⟨ha, ha2⟩, hlk, hd, hbf, hcur⟩ := (hi.col _ hf.col h1).active hf.first hf.last
    have hph : (σ.blk b).ph s.col = .crit a := by rw [hB]; simp [Blk.ph]
    have hnb := ha (by rw [hph]; simp)
    have hnb2 := ha2 (by rw [hph]; simp)
    have hncnt : n < G.cnt s.col := by unfold Grid.cnt at *; have := hf.first; omega
    have hbn : G.lastB s.col - n = b := by have := hf.last; omega
    have hb2 := hcur hncnt
    rw [hbn, hph] at hb2
    rcases hb2 with ⟨hx, ht⟩ | ⟨hx, _⟩
    · rcases hx with hx | hx
      · cases hx
      · simp only [Ph.crit.injEq] at hx
        subst hx
        by_cases hz : s.idx = 0
        · exact ⟨_, .reduce σ b s rest _ hB _ (by rw [if_pos hz])⟩
        · have hpos : 0 < n := by rw [hf.idx] at hz; omega
          refine ⟨_, .reduce σ b s rest _ hB (A.add (A.part (G.sl b s.col))
            (A.st (runSum A G s.col (n - 1)))) ?_⟩
          rw [if_neg hz]
          exact ⟨_, by rw [slot_eq hf h1]; exact ht hpos, rfl⟩
    · cases hx
  | rel =>
    have h1 : 1 < G.cnt s.col := hi.pcs b s rest _ _ hB (Or.inr rfl)
    obtain ⟨n, hn, ⟨ha, ha2⟩, hlk, hd, hbf, hcur⟩ := (hi.col _ hf.col h1).active hf.first hf.last
    have hph : (σ.blk b).ph s.col = .rel a := by rw [hB]; simp [Blk.ph]
    have hnb := ha (by rw [hph]; simp)
    have hnb2 := ha2 (by rw [hph]; simp)
    have hncnt : n < G.cnt s.col := by unfold Grid.cnt at *; have := hf.first; omega
    have hbn : G.lastB s.col - n = b := by have := hf.last; omega
    have hb2 := hcur hncnt
    rw [hbn, hph] at hb2
    rcases hb2 with ⟨hx, ht⟩ | ⟨hx, _⟩
    · rcases hx with hx | hx <;> cases hx
    · simp only [Ph.rel.injEq] at hx
      subst hx
      exact ⟨_, .release σ b s rest _ hB⟩

/-- How much work a block has left. -/
def Blk.left (B : Blk α) : Nat :=
  4 * B.todo.length + (match B.pc with | .wait => 3 | .crit => 2 | .rel => 1 | .out => 0)

/-- How much work the grid has left. -/
def BSt.left (σ : BSt α) (n : Nat) : Nat := ∑ b ∈ Finset.range n, (σ.blk b).left

theorem left_upd {σ τ : BSt α} {n b : Nat} {B : Blk α} (hb : b < n) (hτ : τ.blk = upd σ.blk b B)
    (hlt : B.left < (σ.blk b).left) : τ.left n < σ.left n := by
  unfold BSt.left
  apply Finset.sum_lt_sum
  · intro x _
    rw [hτ]
    by_cases hx : x = b
    · rw [hx, upd_same]; omega
    · rw [upd_ne _ _ hx]
  · exact ⟨b, Finset.mem_range.2 hb, by rw [hτ, upd_same]; exact hlt⟩

theorem step_left (h : G.Ok) {σ τ : BSt α} (hi : BInv A fp32 G lock0 σ) (hs : BStep A fp32 σ τ) :
    τ.left G.blocks < σ.left G.blocks := by
  cases hs with
  | acquire b s rest a hb hc hl =>
    exact left_upd (hi.facts h hb).1.lt rfl (by rw [hb]; simp [Blk.left])
  | reduce b s rest v hb w hw =>
    exact left_upd (hi.facts h hb).1.lt rfl (by rw [hb]; simp [Blk.left])
  | release b s rest v hb =>
    exact left_upd (hi.facts h hb).1.lt rfl (by rw [hb]; simp [Blk.left])
  | alone b s rest a hb hc =>
    exact left_upd (hi.facts h hb).1.lt rfl (by rw [hb]; simp [Blk.left])
  | finish b s rest v hb =>
    exact left_upd (hi.facts h hb).1.lt rfl (by rw [hb]; simp [Blk.left]; omega)

theorem final_locks (h : G.Ok) {σ : BSt α} (hi : BInv A fp32 G lock0 σ) (hf : σ.Finished)
    (hz : ∀ l, lock0 l = 0) (l : Int) : σ.lock l = 0 := by
  by_cases hc : ∃ c, c < G.cols ∧ 1 < G.cnt c ∧ l = (G.lockOf c : Int)
  · obtain ⟨c, hcc, hsh, rfl⟩ := hc
    obtain ⟨n, hn, hlk, hd, hbf, hcur⟩ := hi.col c hcc hsh
    rw [hlk]
    split_ifs with hif
    · rfl
    · exfalso
      have hdone : (σ.blk (G.lastB c - n)).ph c = .done := by simp [Blk.ph, hf _]
      rcases hcur (by omega) with ⟨hx, _⟩ | ⟨hx, _⟩
      · rcases hx with hx | hx <;> (rw [hdone] at hx; cases hx)
      · rw [hdone] at hx; cases hx
  · push Not at hc
    rw [hi.others l (fun c h1 h2 => hc c h1 h2), hz]

end

end Verif.Marlin
