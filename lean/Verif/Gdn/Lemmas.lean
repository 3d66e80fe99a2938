import Verif.Gdn.Model

namespace Verif.Gdn

theorem dot_comm {K : ℕ} (x y : Fin K → ℝ) : dot x y = dot y x := by
  unfold dot; exact Finset.sum_congr rfl fun a _ => mul_comm _ _

/-- Token `i` of a chunk. -/
def Chunk.tok {K V : ℕ} (c : Chunk K V) (i : ℕ) : Tok K V :=
  ⟨c.q i, c.k i, c.v i, c.g i, c.beta i⟩

/-- Undecayed state after `n` tokens in WY form. -/
def wy {K V : ℕ} (S : Mat V K) (k w : ℕ → Fin K → ℝ) (u : ℕ → Fin V → ℝ) (n : ℕ) : Mat V K :=
  fun i a => S i a - (∑ j ∈ Finset.range n, dot (S i) (w j) * k j a)
    + ∑ j ∈ Finset.range n, u j i * k j a

theorem dot_sub_sum {K n : ℕ} (s b : Fin K → ℝ) (f : ℕ → ℝ) (w : ℕ → Fin K → ℝ) :
    dot s (fun a => b a - ∑ j ∈ Finset.range n, w j a * f j)
      = dot s b - ∑ j ∈ Finset.range n, dot s (w j) * f j := by
  unfold dot
  have : ∀ a, s a * (b a - ∑ j ∈ Finset.range n, w j a * f j)
      = s a * b a - ∑ j ∈ Finset.range n, s a * w j a * f j := by
    intro a
    rw [mul_sub, Finset.mul_sum]
    congr 1
    exact Finset.sum_congr rfl fun j _ => by ring
  simp only [this, Finset.sum_sub_distrib, Finset.sum_mul]
  congr 1
  exact Finset.sum_comm

theorem dot_wy {K V : ℕ} (S : Mat V K) (k w : ℕ → Fin K → ℝ) (u : ℕ → Fin V → ℝ) (n : ℕ)
    (i : Fin V) (x : Fin K → ℝ) :
    dot (wy S k w u n i) x = dot (S i) x - (∑ j ∈ Finset.range n, dot (S i) (w j) * dot (k j) x)
      + ∑ j ∈ Finset.range n, u j i * dot (k j) x := by
  unfold wy
  have : ∀ a, (S i a - (∑ j ∈ Finset.range n, dot (S i) (w j) * k j a)
      + ∑ j ∈ Finset.range n, u j i * k j a) * x a
      = S i a * x a - (∑ j ∈ Finset.range n, dot (S i) (w j) * (k j a * x a))
        + ∑ j ∈ Finset.range n, u j i * (k j a * x a) := by
    intro a
    rw [add_mul, sub_mul, Finset.sum_mul, Finset.sum_mul]
    simp only [mul_assoc]
  show ∑ a, _ * x a = _
  simp only [this, Finset.sum_sub_distrib, Finset.sum_add_distrib]
  congr 1
  · congr 1
    rw [Finset.sum_comm]
    exact Finset.sum_congr rfl fun j _ => by rw [← Finset.mul_sum]; rfl
  · rw [Finset.sum_comm]
    exact Finset.sum_congr rfl fun j _ => by rw [← Finset.mul_sum]; rfl

/-- The WY form follows the recurrence. -/
theorem stateAfter_wy {K V : ℕ} (S : Mat V K) (x : ℕ → Tok K V) (w : ℕ → Fin K → ℝ)
    (u : ℕ → Fin V → ℝ) (n : ℕ)
    (hw : ∀ i < n, ∀ a, w i a = (x i).beta * (x i).k a
      - ∑ j ∈ Finset.range i, w j a * ((x i).beta * dot ((x j).k) ((x i).k)))
    (hu : ∀ i < n, ∀ d, u i d = (x i).beta / Real.exp (∑ j ∈ Finset.range (i + 1), (x j).g)
        * (x i).v d
      - ∑ j ∈ Finset.range i, u j d * ((x i).beta * dot ((x j).k) ((x i).k))) :
    stateAfter S x n = fun i a =>
      Real.exp (∑ j ∈ Finset.range n, (x j).g) * wy S (fun j => (x j).k) w u n i a := by
  induction n with
  | zero => funext i a; simp [stateAfter, wy]
  | succ n ih =>
    have ih := ih (fun i hi => hw i (by omega)) (fun i hi => hu i (by omega))
    funext i a
    set G := Real.exp (∑ j ∈ Finset.range (n + 1), (x j).g) with hG
    have hG0 : G ≠ 0 := (Real.exp_pos _).ne'
    have hdec : Real.exp (x n).g * Real.exp (∑ j ∈ Finset.range n, (x j).g) = G := by
      rw [hG, Finset.sum_range_succ, Real.exp_add, mul_comm]
    have happ : Real.exp (x n).g * app (stateAfter S x n) (x n).k i
        = G * dot (wy S (fun j => (x j).k) w u n i) (x n).k := by
      rw [ih, ← hdec, mul_assoc]
      congr 1
      unfold app dot
      rw [Finset.mul_sum]
      exact Finset.sum_congr rfl fun b _ => by ring
    have hst : Real.exp (x n).g * stateAfter S x n i a
        = G * wy S (fun j => (x j).k) w u n i a := by rw [ih, ← hdec, mul_assoc]
    show Real.exp (x n).g * stateAfter S x n i a
      + (x n).beta * ((x n).v i - Real.exp (x n).g * app (stateAfter S x n) (x n).k i) * (x n).k a = _
    rw [happ, hst]
    have hwn : dot (S i) (w n) = (x n).beta * (dot (S i) (x n).k
        - ∑ j ∈ Finset.range n, dot (S i) (w j) * dot (x j).k (x n).k) := by
      have : w n = fun a => (x n).beta * (x n).k a
          - ∑ j ∈ Finset.range n, w j a * ((x n).beta * dot ((x j).k) ((x n).k)) :=
        funext (hw n (by omega))
      rw [this, dot_sub_sum, mul_sub, Finset.mul_sum]
      congr 1
      · unfold dot; rw [Finset.mul_sum]; exact Finset.sum_congr rfl fun b _ => by ring
      · exact Finset.sum_congr rfl fun j _ => by ring
    have hun : u n i = (x n).beta / G * (x n).v i
        - (x n).beta * ∑ j ∈ Finset.range n, u j i * dot (x j).k (x n).k := by
      rw [hu n (by omega), ← hG, Finset.mul_sum]
      congr 1
      exact Finset.sum_congr rfl fun j _ => by ring
    rw [dot_wy]
    have e1 : wy S (fun j => (x j).k) w u (n + 1) i a
        = wy S (fun j => (x j).k) w u n i a - dot (S i) (w n) * (x n).k a
          + u n i * (x n).k a := by
      unfold wy; rw [Finset.sum_range_succ, Finset.sum_range_succ]; ring
    rw [e1, hwn, hun]
    have e2 : (x n).beta * (x n).v i = G * ((x n).beta / G * (x n).v i) := by
      rw [div_mul_eq_mul_div, mul_div_cancel₀ _ hG0]
    have : (x n).beta * ((x n).v i - G * (dot (S i) (x n).k
        - (∑ j ∈ Finset.range n, dot (S i) (w j) * dot (x j).k (x n).k)
        + ∑ j ∈ Finset.range n, u j i * dot (x j).k (x n).k)) * (x n).k a
        = ((x n).beta * (x n).v i) * (x n).k a - (x n).beta * (G * (dot (S i) (x n).k
        - (∑ j ∈ Finset.range n, dot (S i) (w j) * dot (x j).k (x n).k)
        + ∑ j ∈ Finset.range n, u j i * dot (x j).k (x n).k)) * (x n).k a := by ring
    rw [this, e2]
    ring

theorem stateAfter_congr {K V : ℕ} (S : Mat V K) (x y : ℕ → Tok K V) (n : ℕ)
    (h : ∀ i < n, x i = y i) : stateAfter S x n = stateAfter S y n := by
  induction n with
  | zero => rfl
  | succ n ih =>
    show next _ _ = next _ _
    rw [ih (fun i hi => h i (by omega)), h n (by omega)]

theorem stateAfter_add {K V : ℕ} (S : Mat V K) (x : ℕ → Tok K V) (m n : ℕ) :
    stateAfter S x (m + n) = stateAfter (stateAfter S x m) (fun i => x (m + i)) n := by
  induction n with
  | zero => rfl
  | succ n ih =>
    show next (stateAfter S x (m + n)) (x (m + n)) = next _ _
    rw [ih]

/-- A token with zero log decay and zero gate leaves the state alone. -/
theorem next_neutral {K V : ℕ} (S : Mat V K) (x : Tok K V) (hg : x.g = 0) (hb : x.beta = 0) :
    next S x = S := by
  funext i a; simp [next, hg, hb]

theorem stateAfter_neutral {K V : ℕ} (S : Mat V K) (x : ℕ → Tok K V) (m n : ℕ) (hmn : m ≤ n)
    (h : ∀ i, m ≤ i → i < n → (x i).g = 0 ∧ (x i).beta = 0) :
    stateAfter S x n = stateAfter S x m := by
  induction n, hmn using Nat.le_induction with
  | base => rfl
  | succ n hn ih =>
    show next _ _ = _
    rw [next_neutral _ _ (h n hn (by omega)).1 (h n hn (by omega)).2]
    exact ih fun i a b => h i a (by omega)

/-! ## The sequential loop is the recurrence -/

/-- Token `t` of head `h`. -/
def Inp.tok {K V : ℕ} (x : Inp K V) (h t : ℕ) : Tok K V :=
  ⟨x.q t h, x.k t h, x.v t h, x.g t h, x.beta t h⟩

theorem seqStep_fst {K V : ℕ} (S : Mat V K) (q k : Fin K → ℝ) (v : Fin V → ℝ) (g b : ℝ) :
    (seqStep S q k v g b).1 = next S ⟨q, k, v, g, b⟩ := by
  funext i a
  simp only [seqStep, next, app, dot]
  have : ∑ a, S i a * Real.exp g * k a = Real.exp g * ∑ a, S i a * k a := by
    rw [Finset.mul_sum]; exact Finset.sum_congr rfl fun a _ => by ring
  rw [this]; ring

theorem seqStep_snd {K V : ℕ} (S : Mat V K) (q k : Fin K → ℝ) (v : Fin V → ℝ) (g b : ℝ) :
    (seqStep S q k v g b).2 = app (next S ⟨q, k, v, g, b⟩) q := by
  rw [← seqStep_fst]; rfl

theorem seqState_eq {K V : ℕ} (x : Inp K V) (S0 : ℕ → Mat V K) (n h : ℕ) :
    seqState x S0 n h = stateAfter (S0 h) (x.tok h) n := by
  induction n with
  | zero => rfl
  | succ n ih => show (seqStep _ _ _ _ _ _).1 = _; rw [seqStep_fst, ih]; rfl

theorem seqScan_out {K V : ℕ} (L : ℕ) (x : Inp K V) (S0 : ℕ → Mat V K) (t h : ℕ) :
    (seqScan L x S0).1 t h = outAt (S0 h) (x.tok h) t := by
  show (seqStep _ _ _ _ _ _).2 = _
  rw [seqStep_snd, seqState_eq]; rfl

theorem seqScan_state {K V : ℕ} (L : ℕ) (x : Inp K V) (S0 : ℕ → Mat V K) (h : ℕ) :
    (seqScan L x S0).2 h = stateAfter (S0 h) (x.tok h) L := seqState_eq x S0 L h

/-! ## One chunk of the batched scan -/

theorem solveLower_eq {D : ℕ} (M : ℕ → ℕ → ℝ) (B : ℕ → Fin D → ℝ) (i : ℕ) (d : Fin D) :
    solveLower M B i d = B i d - ∑ j ∈ Finset.range i, M i j * solveLower M B j d := by
  rw [solveLower]
  show _ - _ = _
  congr 1
  exact Fin.sum_univ_eq_sum_range (fun j => M i j * solveLower M B j d) i

theorem Chunk.M_low {K V : ℕ} (c : Chunk K V) {i j : ℕ} (h : j < i) :
    c.M i j = c.beta i * dot (c.k j) (c.k i) := by
  unfold Chunk.M Chunk.A
  rw [if_neg (by omega), if_pos h, zero_add]
  unfold Chunk.bk dot
  rw [Finset.mul_sum]
  exact Finset.sum_congr rfl fun a _ => by ring

theorem Chunk.W_rec {K V : ℕ} (c : Chunk K V) (i : ℕ) (a : Fin K) :
    c.W i a = c.beta i * c.k i a
      - ∑ j ∈ Finset.range i, c.W j a * (c.beta i * dot (c.k j) (c.k i)) := by
  unfold Chunk.W
  rw [solveLower_eq]
  congr 1
  refine Finset.sum_congr rfl fun j hj => ?_
  rw [c.M_low (Finset.mem_range.1 hj)]; ring

theorem Chunk.U_rec {K V : ℕ} (c : Chunk K V) (i : ℕ) (d : Fin V) :
    c.U i d = c.bv i d
      - ∑ j ∈ Finset.range i, c.U j d * (c.beta i * dot (c.k j) (c.k i)) := by
  unfold Chunk.U
  rw [solveLower_eq]
  congr 1
  refine Finset.sum_congr rfl fun j hj => ?_
  rw [c.M_low (Finset.mem_range.1 hj)]; ring

/-- Row `i` escapes the underflow guard, or writes nothing. -/
def Chunk.Safe {K V : ℕ} (c : Chunk K V) (i : ℕ) : Prop := c.gamma i > 1e-30 ∨ c.beta i = 0

theorem Chunk.bv_safe {K V : ℕ} (c : Chunk K V) (i : ℕ) (h : c.Safe i) (d : Fin V) :
    c.bv i d = c.beta i / c.gamma i * c.v i d := by
  unfold Chunk.bv Chunk.invGamma
  rcases h with h | h
  · rw [if_pos h]; ring
  · simp [h]

theorem Chunk.state_wy {K V : ℕ} (c : Chunk K V) (S : Mat V K) (n : ℕ) (h : ∀ i < n, c.Safe i) :
    stateAfter S c.tok n = fun i a =>
      Real.exp (∑ j ∈ Finset.range n, c.g j) * wy S c.k c.W c.U n i a :=
  stateAfter_wy S c.tok c.W c.U n (fun i _ a => c.W_rec i a)
    (fun i hi d => by rw [c.U_rec i d, c.bv_safe i (h i hi)]; rfl)

theorem Chunk.pass_eq {K V : ℕ} (c : Chunk K V) (C : ℕ) (hC : 0 < C) (S : Mat V K)
    (h : ∀ i < C, c.Safe i) : c.pass C S = stateAfter S c.tok C := by
  rw [c.state_wy S C h]
  funext d a
  unfold Chunk.pass Chunk.gammaC Chunk.cumg
  rw [Nat.sub_add_cancel hC]
  congr 1
  unfold wy Chunk.aState Chunk.utK
  congr 1
  have : ∀ e, S d e * ((if e = a then (1:ℝ) else 0) - ∑ j ∈ Finset.range C, c.W j e * c.k j a)
      = (if e = a then S d e else 0) - ∑ j ∈ Finset.range C, S d e * c.W j e * c.k j a := by
    intro e
    rw [mul_sub, Finset.mul_sum]
    congr 1
    · split <;> simp
    · exact Finset.sum_congr rfl fun j _ => by ring
  simp only [this, Finset.sum_sub_distrib, Finset.sum_ite_eq', Finset.mem_univ, if_true]
  congr 1
  rw [Finset.sum_comm]
  exact Finset.sum_congr rfl fun j _ => by rw [dot, Finset.sum_mul]

theorem sum_kq {K V : ℕ} (c : Chunk K V) (C r : ℕ) (hr : r < C) (f : ℕ → ℝ) :
    ∑ j ∈ Finset.range C, f j * c.kq j r
      = ∑ j ∈ Finset.range (r + 1), f j * dot (c.k j) (c.q r) := by
  have hs : Finset.range (r + 1) ⊆ Finset.range C := by
    intro j; simp only [Finset.mem_range]; omega
  rw [← Finset.sum_subset hs (f := fun j => f j * c.kq j r)]
  · refine Finset.sum_congr rfl fun j hj => ?_
    have := Finset.mem_range.1 hj
    rw [Chunk.kq, if_pos (by omega)]
  · intro j _ hj
    have : ¬ j < r + 1 := fun h => hj (Finset.mem_range.2 h)
    rw [Chunk.kq, if_neg (by omega), mul_zero]

theorem dot_scale {K : ℕ} (s : ℝ) (x y : Fin K → ℝ) : dot (fun a => s * x a) y = s * dot x y := by
  unfold dot; rw [Finset.mul_sum]; exact Finset.sum_congr rfl fun a _ => by ring

theorem Chunk.out_eq {K V : ℕ} (c : Chunk K V) (C r : ℕ) (hr : r < C) (S : Mat V K)
    (h : ∀ i ≤ r, c.Safe i) : c.out C S r = outAt S c.tok r := by
  funext d
  unfold outAt
  rw [c.state_wy S (r + 1) (fun i hi => h i (by omega))]
  show _ = dot (fun a => Real.exp _ * wy S c.k c.W c.U (r + 1) d a) (c.q r)
  rw [dot_scale, dot_wy]
  unfold Chunk.out Chunk.gamma Chunk.cumg
  congr 1
  unfold Chunk.oIntra
  rw [sum_kq c C r hr]
  congr 1
  unfold Chunk.P
  show dot (S d) (fun e => c.q r e - ∑ j ∈ Finset.range C, c.W j e * c.kq j r) = _
  rw [dot_sub_sum, sum_kq c C r hr]

/-! ## Chunks in a row -/

/-- Token `t` of head `h` of the padded tensors. -/
def Inp.ptok {K V : ℕ} (x : Inp K V) (L h t : ℕ) : Tok K V :=
  ⟨padRows L x.q t h, padRows L x.k t h, padRows L x.v t h, padRows L x.g t h,
    padRows L x.beta t h⟩

theorem ptok_lt {K V : ℕ} (x : Inp K V) {L h t : ℕ} (ht : t < L) : x.ptok L h t = x.tok h t := by
  simp [Inp.ptok, Inp.tok, padRows, ht]

theorem divmod {c HV h : ℕ} (hh : h < HV) : (c * HV + h) / HV = c ∧ (c * HV + h) % HV = h := by
  have h0 : 0 < HV := by omega
  constructor
  · rw [mul_comm, Nat.mul_add_div h0, Nat.div_eq_of_lt hh, Nat.add_zero]
  · rw [mul_comm, Nat.mul_add_mod, Nat.mod_eq_of_lt hh]

theorem chunkAt_tok {K V : ℕ} (x : Inp K V) {L HV C c h : ℕ} (hh : h < HV) (i : ℕ) :
    (chunkAt L HV C x (c * HV + h)).tok i = x.ptok L h (c * C + i) := by
  obtain ⟨h1, h2⟩ := divmod (c := c) hh
  simp [Chunk.tok, chunkAt, toChunks, Inp.ptok, h1, h2]

/-- Within every chunk, the decay accumulated since the chunk began stays above the guard. -/
def NoUnderflow {K V : ℕ} (C L : ℕ) (x : Inp K V) (h : ℕ) : Prop :=
  ∀ t < L, Real.exp (∑ j ∈ Finset.range (t % C + 1), x.g (t / C * C + j) h) > 1e-30

theorem safe_of {K V : ℕ} (x : Inp K V) {L HV C c h : ℕ} (hC : 0 < C) (hh : h < HV)
    (hn : NoUnderflow C L x h) (i : ℕ) (hi : i < C) : (chunkAt L HV C x (c * HV + h)).Safe i := by
  obtain ⟨h1, h2⟩ := divmod (c := c) hh
  obtain ⟨d1, d2⟩ := divmod (c := c) hi
  by_cases hL : c * C + i < L
  · left
    have := hn _ hL
    rw [d1, d2] at this
    unfold Chunk.gamma Chunk.cumg
    have e : ∑ j ∈ Finset.range (i + 1), (chunkAt L HV C x (c * HV + h)).g j
        = ∑ j ∈ Finset.range (i + 1), x.g (c * C + j) h := by
      refine Finset.sum_congr rfl fun j hj => ?_
      have := Finset.mem_range.1 hj
      simp only [chunkAt, toChunks, padRows, h1, h2]
      rw [if_pos (by omega)]
    rw [e]; exact this
  · right
    simp only [chunkAt, toChunks, padRows, h1, h2]
    rw [if_neg hL]

theorem chunkEntry_eq {K V : ℕ} (x : Inp K V) (S0 : ℕ → Mat V K) {L HV C h : ℕ} (hC : 0 < C)
    (hh : h < HV) (hn : NoUnderflow C L x h) (c : ℕ) :
    chunkEntry L HV C x S0 c h = stateAfter (S0 h) (x.ptok L h) (c * C) := by
  induction c with
  | zero => simp [chunkEntry, stateAfter]
  | succ c ih =>
    rw [chunkEntry, Chunk.pass_eq _ _ hC _ (safe_of x hC hh hn), ih, Nat.succ_mul,
      stateAfter_add]
    exact stateAfter_congr _ _ _ _ fun i _ => chunkAt_tok x hh i

theorem padLen_spec (L C : ℕ) (hC : 0 < C) : L ≤ padLen L C ∧ padLen L C / C * C = padLen L C := by
  unfold padLen
  refine ⟨by omega, ?_⟩
  have hm := Nat.mod_lt L hC
  have hd := Nat.div_add_mod L C
  apply Nat.div_mul_cancel
  by_cases h : L % C = 0
  · rw [h, Nat.sub_zero, Nat.mod_self, Nat.add_zero]
    exact Nat.dvd_of_mod_eq_zero h
  · rw [Nat.mod_eq_of_lt (by omega : C - L % C < C)]
    refine ⟨L / C + 1, ?_⟩
    rw [Nat.mul_add]; omega

theorem chunkScan_state {K V : ℕ} (HV C L : ℕ) (x : Inp K V) (S0 : ℕ → Mat V K) (h : ℕ)
    (hC : 0 < C) (hh : h < HV) (hn : NoUnderflow C L x h) :
    (chunkScan HV C L x S0).2 h = stateAfter (S0 h) (x.tok h) L := by
  show chunkEntry L HV C x S0 (padLen L C / C) h = _
  obtain ⟨hl, hm⟩ := padLen_spec L C hC
  rw [chunkEntry_eq x S0 hC hh hn, hm, stateAfter_neutral _ _ L _ hl]
  · exact stateAfter_congr _ _ _ _ fun i hi => ptok_lt x hi
  · intro i hi _
    simp [Inp.ptok, padRows, Nat.not_lt.2 hi]

theorem chunkScan_out {K V : ℕ} (HV C L : ℕ) (x : Inp K V) (S0 : ℕ → Mat V K) (h l : ℕ)
    (hC : 0 < C) (hh : h < HV) (hl : l < L) (hn : NoUnderflow C L x h) :
    (chunkScan HV C L x S0).1 l h = outAt (S0 h) (x.tok h) l := by
  obtain ⟨h1, h2⟩ := divmod (c := l / C) hh
  have hr := Nat.mod_lt l hC
  have hlc : l / C * C + l % C = l := by rw [mul_comm]; exact Nat.div_add_mod l C
  show (chunkAt L HV C x (l / C * HV + h)).out C (chunkEntry L HV C x S0 ((l / C * HV + h) / HV)
    ((l / C * HV + h) % HV)) (l % C) = _
  rw [h1, h2, Chunk.out_eq _ _ _ hr _ (fun i hi => safe_of x hC hh hn i (by omega)),
    chunkEntry_eq x S0 hC hh hn]
  unfold outAt
  congr 1
  · rw [stateAfter_congr _ _ (fun i => x.ptok L h (l / C * C + i)) _
        (fun i _ => chunkAt_tok x hh i), ← stateAfter_add,
      show l / C * C + (l % C + 1) = l + 1 by omega]
    exact stateAfter_congr _ _ _ _ fun i hi => ptok_lt x (by omega)
  · rw [chunkAt_tok x hh, hlc, ptok_lt x hl]

end Verif.Gdn
