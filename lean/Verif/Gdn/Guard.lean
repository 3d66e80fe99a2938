import Verif.Gdn.Old

/-! What the underflow guard of the batched scan forgets. -/

namespace Verif.Gdn

/-- The same tensors with another value vector at token `t` of head `h`. -/
def Inp.setV {K V : ℕ} (x : Inp K V) (t h : ℕ) (v : Fin V → ℝ) : Inp K V :=
  { x with v := fun t' h' => if t' = t ∧ h' = h then v else x.v t' h' }

theorem solveLower_congr {D : ℕ} (M : ℕ → ℕ → ℝ) (B B' : ℕ → Fin D → ℝ) (C : ℕ)
    (h : ∀ i < C, B i = B' i) (i : ℕ) (hi : i < C) : solveLower M B i = solveLower M B' i := by
  induction i using Nat.strong_induction_on with
  | _ i ih =>
    funext d
    rw [solveLower_eq, solveLower_eq, h i hi]
    congr 1
    refine Finset.sum_congr rfl fun j hj => ?_
    have := Finset.mem_range.1 hj
    rw [ih j this (by omega)]

/-- Two chunks that differ in their values only, and not in what they write. -/
structure Chunk.Like {K V : ℕ} (C : ℕ) (c c' : Chunk K V) : Prop where
  q : c.q = c'.q
  k : c.k = c'.k
  g : c.g = c'.g
  beta : c.beta = c'.beta
  bv : ∀ i < C, c.bv i = c'.bv i

theorem Chunk.Like.same {K V : ℕ} {C : ℕ} {c c' : Chunk K V} (h : Chunk.Like C c c') :
    c.pass C = c'.pass C ∧ c.out C = c'.out C := by
  obtain ⟨q, k, v, g, b⟩ := c
  obtain ⟨q', k', v', g', b'⟩ := c'
  obtain ⟨h1, h2, h3, h4, h5⟩ := h
  simp only at h1 h2 h3 h4
  subst h1 h2 h3 h4
  have hU : ∀ i < C, (Chunk.mk q k v g b).U i = (Chunk.mk q k v' g b).U i :=
    solveLower_congr _ _ _ C h5
  constructor
  · funext S d a
    have : (Chunk.mk q k v g b).utK C d a = (Chunk.mk q k v' g b).utK C d a := by
      unfold Chunk.utK
      refine Finset.sum_congr rfl fun j hj => ?_
      rw [hU j (Finset.mem_range.1 hj)]
    unfold Chunk.pass
    rw [this]; rfl
  · funext S r d
    have : (Chunk.mk q k v g b).oIntra C r d = (Chunk.mk q k v' g b).oIntra C r d := by
      unfold Chunk.oIntra
      refine Finset.sum_congr rfl fun j hj => ?_
      rw [hU j (Finset.mem_range.1 hj)]; rfl
    unfold Chunk.out
    rw [this]; rfl

theorem setV_like {K V : ℕ} (x : Inp K V) (L HV C t h : ℕ) (v : Fin V → ℝ)
    (hg : Real.exp (∑ j ∈ Finset.range (t % C + 1), x.g (t / C * C + j) h) ≤ 1e-30) (ht : t < L)
    (b : ℕ) : Chunk.Like C (chunkAt L HV C x b) (chunkAt L HV C (x.setV t h v) b) := by
  refine ⟨rfl, rfl, rfl, rfl, fun i hi => ?_⟩
  by_cases he : b / HV * C + i = t ∧ b % HV = h
  · obtain ⟨h1, h2⟩ := he
    obtain ⟨d1, d2⟩ := divmod (c := b / HV) hi
    rw [h1] at d1 d2
    have hgam : (chunkAt L HV C x b).gamma i ≤ 1e-30 := by
      unfold Chunk.gamma Chunk.cumg
      rw [d1, d2] at hg
      have e : ∑ j ∈ Finset.range (i + 1), (chunkAt L HV C x b).g j
          = ∑ j ∈ Finset.range (i + 1), x.g (b / HV * C + j) h := by
        refine Finset.sum_congr rfl fun j hj => ?_
        have := Finset.mem_range.1 hj
        simp only [chunkAt, toChunks, padRows, h2]
        rw [if_pos (by omega)]
      rw [e]; exact hg
    have hi0 : (chunkAt L HV C x b).invGamma i = 0 := if_neg (not_lt.2 hgam)
    have hi1 : (chunkAt L HV C (x.setV t h v) b).invGamma i = 0 := hi0
    funext d
    unfold Chunk.bv
    rw [hi0, hi1]; ring
  · funext d
    unfold Chunk.bv
    have : (chunkAt L HV C (x.setV t h v) b).v i = (chunkAt L HV C x b).v i := by
      simp only [chunkAt, toChunks, padRows, Inp.setV]
      rw [if_neg he]
    rw [this]; rfl

theorem setV_chunkEntry {K V : ℕ} (x : Inp K V) (S0 : ℕ → Mat V K) (L HV C t h : ℕ)
    (v : Fin V → ℝ)
    (hg : Real.exp (∑ j ∈ Finset.range (t % C + 1), x.g (t / C * C + j) h) ≤ 1e-30) (ht : t < L)
    (c h' : ℕ) :
    chunkEntry L HV C x S0 c h' = chunkEntry L HV C (x.setV t h v) S0 c h' := by
  induction c with
  | zero => rfl
  | succ c ih =>
    rw [chunkEntry, chunkEntry, ih, (setV_like x L HV C t h v hg ht _).same.1]

theorem setV_chunkScan {K V : ℕ} (x : Inp K V) (S0 : ℕ → Mat V K) (L HV C t h : ℕ)
    (v : Fin V → ℝ)
    (hg : Real.exp (∑ j ∈ Finset.range (t % C + 1), x.g (t / C * C + j) h) ≤ 1e-30) (ht : t < L) :
    chunkScan HV C L (x.setV t h v) S0 = chunkScan HV C L x S0 := by
  unfold chunkScan
  refine Prod.ext ?_ ?_
  · funext l h'
    simp only
    rw [← setV_chunkEntry x S0 L HV C t h v hg ht, (setV_like x L HV C t h v hg ht _).same.2]
  · funext h'
    exact (setV_chunkEntry x S0 L HV C t h v hg ht _ _).symm

theorem dot_add_scale {K : ℕ} (x y q : Fin K → ℝ) (s : ℝ) :
    dot (fun a => x a + s * y a) q = dot x q + s * dot y q := by
  unfold dot
  rw [Finset.mul_sum, ← Finset.sum_add_distrib]
  exact Finset.sum_congr rfl fun a _ => by ring

/-- The recurrence does answer with the value just written. -/
theorem outAt_setV {K V : ℕ} (x : Inp K V) (S0 : Mat V K) (t h : ℕ) (v : Fin V → ℝ) (d : Fin V) :
    outAt S0 ((x.setV t h v).tok h) t d = outAt S0 (x.tok h) t d
      + x.beta t h * dot (x.k t h) (x.q t h) * (v d - x.v t h d) := by
  have hs : stateAfter S0 ((x.setV t h v).tok h) t = stateAfter S0 (x.tok h) t := by
    refine stateAfter_congr _ _ _ _ fun i hi => ?_
    simp only [Inp.setV, Inp.tok]
    rw [if_neg (by omega)]
  have hv : ((x.setV t h v).tok h t).v = v := by simp [Inp.setV, Inp.tok]
  unfold outAt
  show dot (next (stateAfter S0 ((x.setV t h v).tok h) t) ((x.setV t h v).tok h t) d) (x.q t h)
    = dot (next (stateAfter S0 (x.tok h) t) (x.tok h t) d) (x.q t h) + _
  rw [hs]
  have : next (stateAfter S0 (x.tok h) t) ((x.setV t h v).tok h t) d
      = fun a => next (stateAfter S0 (x.tok h) t) (x.tok h t) d a
        + (x.beta t h * (v d - x.v t h d)) * x.k t h a := by
    funext a
    unfold next
    rw [hv]
    show Real.exp (x.g t h) * _ + x.beta t h * (v d - Real.exp (x.g t h) * _) * x.k t h a
      = Real.exp (x.g t h) * _ + x.beta t h * (x.v t h d - Real.exp (x.g t h) * _) * x.k t h a + _
    show Real.exp (x.g t h) * stateAfter S0 (x.tok h) t d a
        + x.beta t h * (v d - Real.exp (x.g t h) * app (stateAfter S0 (x.tok h) t) (x.k t h) d)
          * x.k t h a
      = Real.exp (x.g t h) * stateAfter S0 (x.tok h) t d a
        + x.beta t h * (x.v t h d
          - Real.exp (x.g t h) * app (stateAfter S0 (x.tok h) t) (x.k t h) d) * x.k t h a + _
    ring
  rw [this, dot_add_scale]
  ring

end Verif.Gdn
