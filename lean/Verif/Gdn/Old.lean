import Verif.Gdn.LayerLemmas

/-! Lemmas about the older chunkwise scan. -/

namespace Verif.Gdn
namespace Chunk
variable {K V : ℕ} (c : Chunk K V)

/-- The decay of row `i` is not clamped. -/
def Unclamped (i : ℕ) : Prop := 1e-10 ≤ Real.exp (c.g i)

theorem gammaClamp_eq (i : ℕ) (h : ∀ j ≤ i, c.Unclamped j) :
    c.gammaClamp i = Real.exp (∑ j ∈ Finset.range (i + 1), c.g j) := by
  unfold gammaClamp
  congr 1
  refine Finset.sum_congr rfl fun j hj => ?_
  have := Finset.mem_range.1 hj
  rw [max_eq_left (h j (by omega)), Real.log_exp]

theorem wOld_eq (t : ℕ) (a : Fin K) :
    c.wOld t a = c.bk t a - ∑ j ∈ Finset.range t, c.k j a * dot (c.wOld j) (c.bk t) := by
  rw [wOld]
  show _ - _ = _
  congr 1
  exact Fin.sum_univ_eq_sum_range (fun j => c.k j a * dot (c.wOld j) (c.bk t)) t

theorem uOld_eq (t : ℕ) (d : Fin V) :
    c.uOld t d = c.bvOld t d - ∑ j ∈ Finset.range t, c.uOld j d * dot (c.k j) (c.bk t) := by
  rw [uOld]
  show _ - _ = _
  congr 1
  exact Fin.sum_univ_eq_sum_range (fun j => c.uOld j d * dot (c.k j) (c.bk t)) t

theorem dot_bk (x : Fin K → ℝ) (t : ℕ) : dot x (c.bk t) = c.beta t * dot x (c.k t) := by
  unfold bk dot; rw [Finset.mul_sum]; exact Finset.sum_congr rfl fun a _ => by ring

theorem bk_dot (x : Fin K → ℝ) (t : ℕ) : dot (c.bk t) x = c.beta t * dot (c.k t) x := by
  unfold bk dot; rw [Finset.mul_sum]; exact Finset.sum_congr rfl fun a _ => by ring

theorem wOld_zero (a : Fin K) : c.wOld 0 a = c.W 0 a := by
  rw [wOld_eq, W_rec]; simp [bk]

theorem wOld_one (a : Fin K) : c.wOld 1 a = c.W 1 a := by
  rw [wOld_eq, W_rec]
  simp only [Finset.sum_range_one]
  have : c.wOld 0 = c.bk 0 := by funext a; rw [wOld_eq]; simp
  rw [← wOld_zero, this, bk_dot, dot_bk]
  unfold bk
  ring

/-- The old scan's `w` at the third token, against the right one. -/
theorem wOld_two (a : Fin K) : c.wOld 2 a = c.W 2 a
    + c.beta 0 * c.beta 1 * c.beta 2 * dot (c.k 0) (c.k 1)
      * (c.k 1 a * dot (c.k 0) (c.k 2) - c.k 0 a * dot (c.k 1) (c.k 2)) := by
  have w0 : c.wOld 0 = c.bk 0 := by funext a; rw [wOld_eq]; simp
  have w1 : c.wOld 1 = fun a => c.bk 1 a
      - ∑ j ∈ Finset.range 1, c.k j a * (c.beta 0 * c.beta 1 * dot (c.k 0) (c.k 1)) := by
    funext a
    rw [wOld_eq]
    simp only [Finset.sum_range_one]
    rw [w0, bk_dot, dot_bk]; ring
  rw [wOld_eq, W_rec]
  simp only [Finset.sum_range_succ, Finset.sum_range_zero, zero_add]
  rw [← wOld_zero, ← wOld_one, w0]
  have e : dot (c.wOld 1) (c.bk 2) = c.beta 1 * c.beta 2 * dot (c.k 1) (c.k 2)
      - c.beta 0 * c.beta 1 * c.beta 2 * dot (c.k 0) (c.k 1) * dot (c.k 0) (c.k 2) := by
    rw [dot_comm, w1, dot_sub_sum]
    simp only [Finset.sum_range_one]
    rw [bk_dot, bk_dot, dot_bk, dot_comm (c.k 2) (c.k 1), dot_comm (c.k 2) (c.k 0)]
    ring
  rw [e, w1, bk_dot, dot_bk]
  simp only [Finset.sum_range_one, bk]
  ring

theorem uOld_rec (n : ℕ) (h : ∀ i < n, c.Unclamped i) (i : ℕ) (hi : i < n) (d : Fin V) :
    c.uOld i d = c.beta i / Real.exp (∑ j ∈ Finset.range (i + 1), c.g j) * c.v i d
      - ∑ j ∈ Finset.range i, c.uOld j d * (c.beta i * dot (c.k j) (c.k i)) := by
  rw [uOld_eq]
  simp only [dot_bk]
  unfold bvOld
  rw [c.gammaClamp_eq i (fun j hj => h j (by omega))]

/-- State of the recurrence with the right `w` and the old `u`. -/
theorem state_old (S : Mat V K) (n : ℕ) (h : ∀ i < n, c.Unclamped i) :
    stateAfter S c.tok n = fun i a =>
      Real.exp (∑ j ∈ Finset.range n, c.g j) * wy S c.k c.W c.uOld n i a :=
  stateAfter_wy S c.tok c.W c.uOld n (fun i _ a => c.W_rec i a)
    (fun i hi d => c.uOld_rec n h i hi d)

theorem passOld_wy (n : ℕ) (hn : 0 < n) (S : Mat V K) (h : ∀ i < n, c.Unclamped i) :
    c.passOld n S = fun d a =>
      Real.exp (∑ j ∈ Finset.range n, c.g j) * wy S c.k c.wOld c.uOld n d a := by
  funext d a
  unfold passOld
  rw [c.gammaClamp_eq _ (fun j hj => h j (by omega)), Nat.sub_add_cancel hn]
  rfl

theorem outOld_wy (n r : ℕ) (hr : r < n) (S : Mat V K) (h : ∀ i < n, c.Unclamped i) :
    c.outOld n S r = fun d => Real.exp (∑ j ∈ Finset.range (r + 1), c.g j)
      * dot (wy S c.k c.wOld c.uOld (r + 1) d) (c.q r) := by
  funext d
  unfold outOld
  rw [c.gammaClamp_eq _ (fun j hj => h j (by omega)), dot_wy, sum_kq c n r hr, sum_kq c n r hr]
  rfl

theorem wy_congr (S : Mat V K) (k w w' : ℕ → Fin K → ℝ) (u : ℕ → Fin V → ℝ) (n : ℕ)
    (h : ∀ j < n, w j = w' j) : wy S k w u n = wy S k w' u n := by
  funext d a
  unfold wy
  congr 2
  refine Finset.sum_congr rfl fun j hj => ?_
  rw [h j (Finset.mem_range.1 hj)]

theorem old_short {j : ℕ} (hj : j < 2) : c.wOld j = c.W j := by
  funext a
  match j, hj with
  | 0, _ => exact c.wOld_zero a
  | 1, _ => exact c.wOld_one a

theorem passOld_short (n : ℕ) (hn : 0 < n) (hn2 : n ≤ 2) (S : Mat V K)
    (h : ∀ i < n, c.Unclamped i) : c.passOld n S = stateAfter S c.tok n := by
  rw [c.passOld_wy n hn S h, c.state_old S n h,
    wy_congr S c.k c.wOld c.W c.uOld n fun j hj => c.old_short (by omega)]

theorem outOld_short (n r : ℕ) (hr : r < n) (hr2 : r < 2) (S : Mat V K)
    (h : ∀ i < n, c.Unclamped i) : c.outOld n S r = outAt S c.tok r := by
  rw [c.outOld_wy n r hr S h]
  unfold outAt
  rw [c.state_old S (r + 1) fun i hi => h i (by omega),
    wy_congr S c.k c.wOld c.W c.uOld (r + 1) fun j hj => c.old_short (by omega)]
  funext d
  exact (dot_scale _ _ _).symm

theorem passOld_three (S : Mat V K) (h : ∀ i < 3, c.Unclamped i) (d : Fin V) (a : Fin K) :
    c.passOld 3 S d a = stateAfter S c.tok 3 d a
      - Real.exp (∑ j ∈ Finset.range 3, c.g j) * (c.beta 0 * c.beta 1 * c.beta 2)
        * dot (c.k 0) (c.k 1)
        * (dot (S d) (c.k 1) * dot (c.k 0) (c.k 2) - dot (S d) (c.k 0) * dot (c.k 1) (c.k 2))
        * c.k 2 a := by
  rw [c.passOld_wy 3 (by omega) S h, c.state_old S 3 h]
  have e : dot (S d) (c.wOld 2) = dot (S d) (c.W 2)
      + c.beta 0 * c.beta 1 * c.beta 2 * dot (c.k 0) (c.k 1)
        * (dot (S d) (c.k 1) * dot (c.k 0) (c.k 2) - dot (S d) (c.k 0) * dot (c.k 1) (c.k 2)) := by
    have : c.wOld 2 = fun a => c.W 2 a
        - ∑ j ∈ Finset.range 2, c.k j a * (if j = 0 then
            c.beta 0 * c.beta 1 * c.beta 2 * dot (c.k 0) (c.k 1) * dot (c.k 1) (c.k 2)
          else -(c.beta 0 * c.beta 1 * c.beta 2 * dot (c.k 0) (c.k 1) * dot (c.k 0) (c.k 2))) := by
      funext a
      rw [c.wOld_two]
      simp only [Finset.sum_range_succ, Finset.sum_range_zero, if_true, one_ne_zero, if_false]
      ring
    rw [this, dot_sub_sum]
    simp only [Finset.sum_range_succ, Finset.sum_range_zero, if_true, one_ne_zero, if_false]
    ring
  have e0 : c.wOld 0 = c.W 0 := c.old_short (by omega)
  have e1 : c.wOld 1 = c.W 1 := c.old_short (by omega)
  unfold wy
  simp only [Finset.sum_range_succ, Finset.sum_range_zero]
  rw [e, e0, e1]
  ring

end Chunk

theorem rowsAt_tok {K V : ℕ} (x : Inp K V) (st h i : ℕ) :
    (rowsAt x st h).tok i = x.tok h (st + i) := rfl

theorem oldEntry_eq {K V : ℕ} (x : Inp K V) (S0 : ℕ → Mat V K) {C L h : ℕ} (hC : 0 < C)
    (hC2 : C ≤ 2) (hu : ∀ t < L, 1e-10 ≤ Real.exp (x.g t h)) (c : ℕ)
    (hc : c * C < L + C) :
    oldEntry C L x S0 c h = stateAfter (S0 h) (x.tok h) (min (c * C) L) := by
  induction c with
  | zero => simp [oldEntry, stateAfter]
  | succ c ih =>
    rw [Nat.succ_mul] at hc
    have hlt : c * C < L := by omega
    rw [oldEntry, ih (by omega), Nat.min_eq_left hlt.le, Chunk.passOld_short]
    · rw [stateAfter_congr _ _ (fun i => x.tok h (c * C + i)) _ (fun i _ => rowsAt_tok ..),
        ← stateAfter_add]
      congr 1
      rw [Nat.succ_mul]; omega
    · omega
    · omega
    · intro i hi
      exact hu _ (by omega)

end Verif.Gdn
