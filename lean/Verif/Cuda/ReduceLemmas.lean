import Verif.Cuda.Reduce

namespace Verif.Cuda

theorem inv_start (W : ℕ) (val : Bool → ℕ → ℝ) (mem : ℕ → ℝ) (got : Bool → ℕ → ℝ) :
    Inv W val (fun _ => 0) mem got := by
  constructor <;> intros <;> omega

theorem inv_share0 {W : ℕ} {val : Bool → ℕ → ℝ} {pc : ℕ → ℕ} {mem : ℕ → ℝ} {got : Bool → ℕ → ℝ} {w : ℕ}
    (h : Inv W val pc mem got) (hw : w < W) (hp : pc w = 0) :
    Inv W val (Function.update pc w 1) (Function.update mem w (part val false w)) got := by
  obtain ⟨s2, s4, s7, s9, m1, m2, m3, m4, g1, g2⟩ := h
  have hs2 : ∀ v < W, pc v < 2 := by
    intro v hv
    by_contra hc
    have := s2 v hv (by omega) w hw
    omega
  constructor <;> simp only [Function.update_apply] <;> grind

theorem inv_share1 {W : ℕ} {val : Bool → ℕ → ℝ} {pc : ℕ → ℕ} {mem : ℕ → ℝ} {got : Bool → ℕ → ℝ} {w : ℕ}
    (h : Inv W val pc mem got) (hw : w < W) (hp : pc w = 5) :
    Inv W val (Function.update pc w 6) (Function.update mem w (part val true w)) got := by
  obtain ⟨s2, s4, s7, s9, m1, m2, m3, m4, g1, g2⟩ := h
  have h0 : 0 < W := by omega
  have hs3 := s4 w hw (by omega)
  have hs7 : ∀ v < W, pc v < 7 := by
    intro v hv
    by_contra hc
    have := s7 v hv (by omega) w hw
    omega
  have h03 := hs3 0 h0
  have h07 := hs7 0 h0
  constructor <;> simp only [Function.update_apply] <;> grind

theorem inv_sync {W : ℕ} {val : Bool → ℕ → ℝ} {pc : ℕ → ℕ} {mem : ℕ → ℝ} {got : Bool → ℕ → ℝ} {w p : ℕ}
    (h : Inv W val pc mem got) (hw : w < W) (hp : pc w = p) (hs : p = 1 ∨ p = 3 ∨ p = 6 ∨ p = 8)
    (hall : ∀ v < W, p ≤ pc v) : Inv W val (Function.update pc w (p + 1)) mem got := by
  obtain ⟨s2, s4, s7, s9, m1, m2, m3, m4, g1, g2⟩ := h
  have h0 : 0 < W := by omega
  have := hall 0 h0
  rcases hs with rfl | rfl | rfl | rfl <;>
  constructor <;> simp only [Function.update_apply] <;> grind

theorem inv_skip {W : ℕ} {val : Bool → ℕ → ℝ} {pc : ℕ → ℕ} {mem : ℕ → ℝ} {got : Bool → ℕ → ℝ} {w p : ℕ}
    (h : Inv W val pc mem got) (hw : w < W) (h0 : w ≠ 0) (hp : pc w = p) (hs : p = 2 ∨ p = 7) :
    Inv W val (Function.update pc w (p + 1)) mem got := by
  obtain ⟨s2, s4, s7, s9, m1, m2, m3, m4, g1, g2⟩ := h
  rcases hs with rfl | rfl <;>
  constructor <;> simp only [Function.update_apply] <;> grind

theorem inv_fold0 {W : ℕ} {val : Bool → ℕ → ℝ} {pc : ℕ → ℕ} {mem : ℕ → ℝ} {got : Bool → ℕ → ℝ}
    (h : Inv W val pc mem got) (h0 : 0 < W) (hp : pc 0 = 2) :
    Inv W val (Function.update pc 0 3) (Function.update mem 0 (total W val false)) got := by
  obtain ⟨s2, s4, s7, s9, m1, m2, m3, m4, g1, g2⟩ := h
  have hs4 : ∀ v < W, pc v < 4 := by
    intro v hv
    by_contra hc
    have := s4 v hv (by omega) 0 h0
    omega
  constructor <;> simp only [Function.update_apply] <;> grind

theorem inv_fold1 {W : ℕ} {val : Bool → ℕ → ℝ} {pc : ℕ → ℕ} {mem : ℕ → ℝ} {got : Bool → ℕ → ℝ}
    (h : Inv W val pc mem got) (h0 : 0 < W) (hp : pc 0 = 7) :
    Inv W val (Function.update pc 0 8) (Function.update mem 0 (total W val true)) got := by
  obtain ⟨s2, s4, s7, s9, m1, m2, m3, m4, g1, g2⟩ := h
  have hs9 : ∀ v < W, pc v < 9 := by
    intro v hv
    by_contra hc
    have := s9 v hv (by omega) 0 h0
    omega
  constructor <;> simp only [Function.update_apply] <;> grind

theorem inv_load0 {W : ℕ} {val : Bool → ℕ → ℝ} {pc : ℕ → ℕ} {mem : ℕ → ℝ} {got : Bool → ℕ → ℝ} {w : ℕ}
    (h : Inv W val pc mem got) (hw : w < W) (hp : pc w = 4) :
    Inv W val (Function.update pc w 5) mem
      (fun j => if j = false then Function.update (got j) w (mem 0) else got j) := by
  obtain ⟨s2, s4, s7, s9, m1, m2, m3, m4, g1, g2⟩ := h
  have h0 : 0 < W := by omega
  have h3 := s4 w hw (by omega) 0 h0
  have h7 : pc 0 < 7 := by
    by_contra hc
    have := s7 0 h0 (by omega) w hw
    omega
  have hm : mem 0 = total W val false ∨ (6 ≤ pc 0 ∧ mem 0 = part val true 0) := by
    by_cases h6 : 6 ≤ pc 0
    · exact Or.inr ⟨h6, m3 0 h0 h6 (by omega)⟩
    · exact Or.inl (m2 h3 (by omega))
  constructor <;> simp only [Function.update_apply] <;> grind

theorem inv_load1 {W : ℕ} {val : Bool → ℕ → ℝ} {pc : ℕ → ℕ} {mem : ℕ → ℝ} {got : Bool → ℕ → ℝ} {w : ℕ}
    (h : Inv W val pc mem got) (hw : w < W) (hp : pc w = 9) :
    Inv W val (Function.update pc w 10) mem
      (fun j => if j = true then Function.update (got j) w (mem 0) else got j) := by
  obtain ⟨s2, s4, s7, s9, m1, m2, m3, m4, g1, g2⟩ := h
  have h0 : 0 < W := by omega
  have h8 := s9 w hw (by omega) 0 h0
  have hm := m4 h8
  constructor <;> simp only [Function.update_apply] <;> grind

theorem prefix_get {prog : List Ins} (hp : prog <+: twoSums) {p : ℕ} {x : Ins} (h : prog[p]? = some x) :
    twoSums[p]? = some x := by
  obtain ⟨t, ht⟩ := hp
  rw [← ht]
  have := (List.getElem?_eq_some_iff.mp h).1
  rw [List.getElem?_append_left this]
  exact h

theorem inv_step {W : ℕ} (hW : W ≤ 32) {val : Bool → ℕ → ℝ} {prog : List Ins} (hp : prog <+: twoSums) {c c' : Cfg}
    (h : Inv W val c.pc c.mem c.got) (hs : Step W val prog c c') : Inv W val c'.pc c'.mem c'.got := by
  have hwarp : ∀ i w, warpSum (fun l => val i (w * 32 + l)) 0 = part val i w := fun i w => warpSum_eq _ _ (by decide)
  cases hs with
  | @share w i hw hx =>
    rcases two_cases (prefix_get hp hx) with ⟨e, hc⟩ | ⟨e, hc⟩ | ⟨e, hc⟩ | ⟨e, hc⟩ | ⟨e, hc⟩ | ⟨e, hc⟩ | ⟨e, hc⟩ |
      ⟨e, hc⟩ | ⟨e, hc⟩ | ⟨e, hc⟩ <;> cases hc
    · simp only [hwarp, e]; exact inv_share0 h hw e
    · simp only [hwarp, e]; exact inv_share1 h hw e
  | @sync w hw hx hall =>
    refine inv_sync h hw rfl ?_ hall
    rcases two_cases (prefix_get hp hx) with ⟨e, hc⟩ | ⟨e, hc⟩ | ⟨e, hc⟩ | ⟨e, hc⟩ | ⟨e, hc⟩ | ⟨e, hc⟩ | ⟨e, hc⟩ |
      ⟨e, hc⟩ | ⟨e, hc⟩ | ⟨e, hc⟩ <;> cases hc <;> omega
  | @skip w hw h0 hx =>
    refine inv_skip h hw h0 rfl ?_
    rcases two_cases (prefix_get hp hx) with ⟨e, hc⟩ | ⟨e, hc⟩ | ⟨e, hc⟩ | ⟨e, hc⟩ | ⟨e, hc⟩ | ⟨e, hc⟩ | ⟨e, hc⟩ |
      ⟨e, hc⟩ | ⟨e, hc⟩ | ⟨e, hc⟩ <;> cases hc <;> omega
  | fold h0 hx =>
    rcases two_cases (prefix_get hp hx) with ⟨e, hc⟩ | ⟨e, hc⟩ | ⟨e, hc⟩ | ⟨e, hc⟩ | ⟨e, hc⟩ | ⟨e, hc⟩ | ⟨e, hc⟩ |
      ⟨e, hc⟩ | ⟨e, hc⟩ | ⟨e, hc⟩ <;> cases hc
    · simp only [e]
      rw [fold_eq hW _ val false fun v hv => h.m1 v hv (h.s2 0 h0 (by omega) v hv) (by omega)]
      exact inv_fold0 h h0 e
    · simp only [e]
      rw [fold_eq hW _ val true fun v hv => h.m3 v hv (h.s7 0 h0 (by omega) v hv) (by omega)]
      exact inv_fold1 h h0 e
  | @load w i hw hx =>
    rcases two_cases (prefix_get hp hx) with ⟨e, hc⟩ | ⟨e, hc⟩ | ⟨e, hc⟩ | ⟨e, hc⟩ | ⟨e, hc⟩ | ⟨e, hc⟩ | ⟨e, hc⟩ |
      ⟨e, hc⟩ | ⟨e, hc⟩ | ⟨e, hc⟩ <;> cases hc
    · simp only [e]; exact inv_load0 h hw e
    · simp only [e]; exact inv_load1 h hw e

theorem reach_inv {W : ℕ} (hW : W ≤ 32) {val : Bool → ℕ → ℝ} {prog : List Ins} (hp : prog <+: twoSums) {c : Cfg}
    (h : Reach W val prog c) : Inv W val c.pc c.mem c.got := by
  induction h with
  | start m g => exact inv_start W val m g
  | step _ hs ih => exact inv_step hW hp ih hs

theorem reach_len {W : ℕ} {val : Bool → ℕ → ℝ} {prog : List Ins} {c : Cfg} (h : Reach W val prog c) :
    ∀ w, c.pc w ≤ prog.length := by
  induction h with
  | start m g => intro w; exact Nat.zero_le _
  | @step c c' _ hs ih =>
    intro w
    have key : ∀ u, c.pc u < prog.length → Function.update c.pc u (c.pc u + 1) w ≤ prog.length := by
      intro u hu
      rw [Function.update_apply]
      split_ifs
      · omega
      · exact ih w
    cases hs with
    | share _ hx => exact key _ (List.getElem?_eq_some_iff.mp hx).1
    | sync _ hx _ => exact key _ (List.getElem?_eq_some_iff.mp hx).1
    | fold _ hx => exact key _ (List.getElem?_eq_some_iff.mp hx).1
    | skip _ _ hx => exact key _ (List.getElem?_eq_some_iff.mp hx).1
    | load _ hx => exact key _ (List.getElem?_eq_some_iff.mp hx).1

/-- A warp that is not at a barrier, or at one that all have reached, can advance. -/
theorem can_step {W : ℕ} (val : Bool → ℕ → ℝ) {prog : List Ins} (c : Cfg) {w : ℕ} (hw : w < W)
    (hl : c.pc w < prog.length) (hall : ∀ v < W, c.pc w ≤ c.pc v) :
    ∃ c', Step W val prog c c' ∧ c'.pc = Function.update c.pc w (c.pc w + 1) := by
  have hx : prog[c.pc w]? = some prog[c.pc w] := List.getElem?_eq_getElem hl
  generalize prog[c.pc w] = x at hx
  cases x with
  | share i => exact ⟨_, .share hw hx, rfl⟩
  | sync => exact ⟨_, .sync hw hx hall, rfl⟩
  | load i => exact ⟨_, .load hw hx, rfl⟩
  | fold =>
    by_cases h0 : w = 0
    · subst h0; exact ⟨_, .fold hw hx, rfl⟩
    · exact ⟨_, .skip hw h0 hx, rfl⟩

/-- From a point where all warps are together they can all advance by one. -/
theorem lockstep {W : ℕ} {val : Bool → ℕ → ℝ} {prog : List Ins} {c : Cfg} {p : ℕ} (hr : Reach W val prog c)
    (hp : ∀ v < W, c.pc v = p) (hl : p < prog.length) (k : ℕ) (hk : k ≤ W) :
    ∃ c', Reach W val prog c' ∧ ∀ v < W, c'.pc v = if v < k then p + 1 else p := by
  induction k with
  | zero => exact ⟨c, hr, fun v hv => by rw [if_neg (by omega)]; exact hp v hv⟩
  | succ k ih =>
    obtain ⟨c1, hr1, h1⟩ := ih (by omega)
    have hkk : c1.pc k = p := by rw [h1 k (by omega), if_neg (by omega)]
    obtain ⟨c2, hs, hpc⟩ := can_step (W := W) (prog := prog) val c1 (w := k) (by omega) (by omega) (by
      intro v hv
      rw [hkk, h1 v hv]
      split_ifs <;> omega)
    refine ⟨c2, .step hr1 hs, fun v hv => ?_⟩
    rw [hpc, Function.update_apply, hkk, h1 v hv]
    split_ifs <;> omega

theorem all_at {W : ℕ} (val : Bool → ℕ → ℝ) {prog : List Ins} (p : ℕ) (hl : p ≤ prog.length) :
    ∃ c, Reach W val prog c ∧ ∀ v < W, c.pc v = p := by
  induction p with
  | zero => exact ⟨_, .start (fun _ => 0) (fun _ _ => 0), fun _ _ => rfl⟩
  | succ p ih =>
    obtain ⟨c, hr, hp⟩ := ih (by omega)
    obtain ⟨c', hr', h'⟩ := lockstep hr hp (by omega) W le_rfl
    exact ⟨c', hr', fun v hv => by rw [h' v hv, if_pos hv]⟩

end Verif.Cuda
