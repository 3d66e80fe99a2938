import Verif.Vl.Rope
import Mathlib.Analysis.SpecialFunctions.Trigonometric.Basic
import Mathlib.Analysis.SpecialFunctions.Pow.Real
/-
C117: what rotary embedding is for - attention scores depend on relative positions only.
Sources: mllm/models/qwen3/modeling_qwen3.hpp L15-70 (`makeRoPEInvFreq`, `makeRotaryPosEmbedding`; llama, qwen2vl text,
smollm3, deepseek_ocr and qwen3_moe hold the same loops), and the operators of `Rope.lean`.

Assumptions: exact real arithmetic (`float` tables round); `int` index products do not overflow.
-/
namespace Verif.Vl
open Finset

/-! ### The tables -/

/-- `makeRoPEInvFreq`, modeling_qwen3.hpp L15-20. -/
noncomputable def invFreq (dim : Nat) (theta : ℝ) : List ℝ :=
  (List.range (dim / 2)).map fun i => 1 / theta ^ ((2 * i : ℝ) / dim)

/-- The writes of the second loop nest of `makeRotaryPosEmbedding`, modeling_qwen3.hpp L50-66, with
`freqs[b][s][d] = pos[b * S + s] * inv_freq[d]` from the first (L34-43). `trig`: `std::sin` or `std::cos`. Keys: flat
indices of the `[B, S, 2n]` table. -/
noncomputable def tabWrites (trig : ℝ → ℝ) (scaling : ℝ) (freq : List ℝ) (pos : Nat → Nat → Int) (B S : Nat) : List (Nat × ℝ) :=
  let n := freq.length
  let dim := n * 2
  (List.range B).flatMap fun b => (List.range S).flatMap fun s => (List.range n).flatMap fun d =>
    [(b * S * dim + s * dim + d, trig ((pos b s : ℝ) * freq.getD d 0) * scaling),
     (b * S * dim + s * dim + d + n, trig ((pos b s : ℝ) * freq.getD d 0) * scaling)]

/-- Element `[b, s, d]` of the row-major table; never-written elements are not zero in the code, the theorem shows
there are none in range. -/
noncomputable def ropeTab (trig : ℝ → ℝ) (scaling : ℝ) (freq : List ℝ) (pos : Nat → Nat → Int) (B S b s d : Nat) : Option ℝ :=
  buf (tabWrites trig scaling freq pos B S) (b * S * (freq.length * 2) + s * (freq.length * 2) + d)

/-- C117, tables: every entry of the table is written, with the angle of its frequency at its own position; the two
halves of a row are equal. -/
theorem C117_table (trig : ℝ → ℝ) (a : ℝ) (freq : List ℝ) (pos : Nat → Nat → Int) (B S b s d : Nat) (hb : b < B) (hs : s < S)
    (hd : d < freq.length * 2) :
    ropeTab trig a freq pos B S b s d = some (trig ((pos b s : ℝ) * freq.getD (d % freq.length) 0) * a) := by
  set n := freq.length with hn
  have hn0 : 0 < n := by omega
  have uniq : ∀ b' s' d', s' < S → d' < n * 2 → b' * S * (n * 2) + s' * (n * 2) + d' = b * S * (n * 2) + s * (n * 2) + d →
      b' = b ∧ s' = s ∧ d' = d := by
    intro b' s' d' h1 h2 h3
    have e : (b' * S + s') * (n * 2) + d' = (b * S + s) * (n * 2) + d := by rw [Nat.add_mul, Nat.add_mul]; exact h3
    have e1 : b' * S + s' = b * S + s := by
      have := congrArg (· / (n * 2)) e
      beta_reduce at this
      rw [Nat.mul_comm _ (n * 2), Nat.mul_comm _ (n * 2), Nat.mul_add_div (by omega), Nat.mul_add_div (by omega), Nat.div_eq_of_lt h2, Nat.div_eq_of_lt hd] at this
      omega
    have e2 : b' = b := by
      have := congrArg (· / S) e1
      beta_reduce at this
      rw [Nat.mul_comm _ S, Nat.mul_comm _ S, Nat.mul_add_div (by omega), Nat.mul_add_div (by omega), Nat.div_eq_of_lt h1, Nat.div_eq_of_lt hs] at this
      omega
    subst e2
    rw [e1] at e
    omega
  have mem : ∀ e, e ∈ tabWrites trig a freq pos B S ↔ ∃ b, b < B ∧ ∃ s, s < S ∧ ∃ d, d < n ∧
      (e = (b * S * (n * 2) + s * (n * 2) + d, trig ((pos b s : ℝ) * freq.getD d 0) * a) ∨
       e = (b * S * (n * 2) + s * (n * 2) + d + n, trig ((pos b s : ℝ) * freq.getD d 0) * a)) := by
    intro e
    simp only [tabWrites, List.mem_flatMap, List.mem_range, List.mem_cons, List.not_mem_nil, or_false, ← hn]
  apply buf_eq
  · rw [mem]
    refine ⟨b, hb, s, hs, d % n, Nat.mod_lt _ hn0, ?_⟩
    rcases Nat.lt_or_ge d n with h | h
    · left; rw [Nat.mod_eq_of_lt h]
    · right
      rw [show d % n = d - n by rw [Nat.mod_eq_sub_mod h, Nat.mod_eq_of_lt (by omega)]]
      rw [Nat.add_assoc _ (d - n), Nat.sub_add_cancel h]
  · intro e he hk
    obtain ⟨b', -, s', hs', d', hd', h | h⟩ := (mem e).mp he
    · subst h
      obtain ⟨rfl, rfl, rfl⟩ := uniq b' s' d' hs' (by omega) hk
      simp only
      rw [Nat.mod_eq_of_lt hd']
    · subst h
      obtain ⟨rfl, rfl, rfl⟩ := uniq b' s' (d' + n) hs' (by omega) (by rw [← hk, Nat.add_assoc _ d' n])
      simp only
      rw [Nat.add_mod_right, Nat.mod_eq_of_lt hd']

/-! ### Specification -/

/-- The attention logit of a query row and a key row, before the `1/√D` factor. -/
noncomputable def dotRow (D : Nat) (q k : Nat → ℝ) : ℝ := ∑ d ∈ range D, q d * k d

/-- The score as a function of the angle differences `δ`: the pairs are correlated and cross-correlated with the cosine
and sine of the difference; dimensions from `2 half` on enter as they are. -/
noncomputable def relScore (half D : Nat) (a : ℝ) (δ : Nat → ℝ) (q k : Nat → ℝ) : ℝ :=
  a ^ 2 * ∑ i ∈ range half, ((q i * k i + q (i + half) * k (i + half)) * Real.cos (δ i) +
    (q i * k (i + half) - q (i + half) * k i) * Real.sin (δ i)) +
  ∑ j ∈ range (D - half * 2), q (half * 2 + j) * k (half * 2 + j)

/-! ### The rotation -/

theorem dot_rotated (half r : Nat) (s1 c1 s2 c2 q k : Nat → ℝ) :
    dotRow (half * 2 + r) (rotated half s1 c1 q) (rotated half s2 c2 k) =
      ∑ i ∈ range half, ((q i * k i + q (i + half) * k (i + half)) * (c1 i * c2 i + s1 i * s2 i) +
        (q i * k (i + half) - q (i + half) * k i) * (s1 i * c2 i - c1 i * s2 i)) +
      ∑ j ∈ range r, q (half * 2 + j) * k (half * 2 + j) := by
  unfold dotRow
  rw [sum_range_add, show half * 2 = half + half by omega, sum_range_add, ← sum_add_distrib]
  congr 1
  · apply sum_congr rfl
    intro i hi
    have hi := mem_range.mp hi
    have e1 : ∀ (s c x : Nat → ℝ), rotated half s c x i = x i * c i - x (i + half) * s i := fun s c x => by
      unfold rotated; rw [if_pos hi]
    have e2 : ∀ (s c x : Nat → ℝ), rotated half s c x (half + i) = x i * s i + x (i + half) * c i := fun s c x => by
      unfold rotated
      rw [if_neg (by omega), if_pos (by omega), show half + i - half = i by omega, Nat.add_comm half i]
    rw [e1, e1, e2, e2]
    ring
  · apply sum_congr rfl
    intro j hj
    unfold rotated
    rw [if_neg (by omega), if_neg (by omega), if_neg (by omega), if_neg (by omega)]

/-- C117, angles: rotating the query by `θ` and the key by `φ` gives a score that depends on `θ - φ` only; the factor
`a` (`attention_scaling`) on both tables scales the rotated part by `a²`. -/
theorem C117_relative (half D : Nat) (hD : half * 2 ≤ D) (a : ℝ) (θ φ q k : Nat → ℝ) :
    dotRow D (rotated half (fun d => Real.sin (θ d) * a) (fun d => Real.cos (θ d) * a) q)
      (rotated half (fun d => Real.sin (φ d) * a) (fun d => Real.cos (φ d) * a) k) =
    relScore half D a (fun i => θ i - φ i) q k := by
  obtain ⟨r, rfl⟩ := Nat.exists_eq_add_of_le hD
  rw [dot_rotated]
  unfold relScore
  rw [Nat.add_sub_cancel_left, mul_sum]
  congr 1
  apply sum_congr rfl
  intro i _
  rw [Real.cos_sub, Real.sin_sub]
  ring

/-- C117: the length of a row is kept (scaling 1). -/
theorem C117_norm (half D : Nat) (hD : half * 2 ≤ D) (θ q : Nat → ℝ) :
    dotRow D (rotated half (fun d => Real.sin (θ d) * 1) (fun d => Real.cos (θ d) * 1) q)
      (rotated half (fun d => Real.sin (θ d) * 1) (fun d => Real.cos (θ d) * 1) q) = dotRow D q q := by
  obtain ⟨r, rfl⟩ := Nat.exists_eq_add_of_le hD
  rw [C117_relative half _ hD]
  unfold relScore dotRow
  rw [Nat.add_sub_cancel_left, sum_range_add, show half * 2 = half + half by omega, sum_range_add, ← sum_add_distrib]
  simp only [sub_self, Real.cos_zero, Real.sin_zero, mul_one, one_pow, one_mul, mul_zero, add_zero]
  congr 1
  apply sum_congr rfl
  intro i _
  rw [Nat.add_comm half i]

/-! ### End to end -/

/-- C117, end to end. The query tensor and the key tensor go through the operator with the tables built from their
position ids (the queries of one call, keys possibly of an earlier one): the score of query row `(n, h, s)` and key row
`(n', h', s')` is the function `relScore` of the difference of their positions - nothing else about the
positions, the batch layout, the calls or the vector width enters. -/
theorem C117_scores_partial (step : Nat) (hst : 0 < step) (lay : Layout) (a : ℝ) (freq : List ℝ) (D : Nat)
    (pd : Option Nat) (hpd : pd.getD D = freq.length * 2) (hle : freq.length * 2 ≤ D)
    (B H S B' H' S' : Nat) (pos pos' : Nat → Nat → Int)
    (qa qo ka ko : View) (hq : Fits lay B H S D qa qo) (hk : Fits lay B' H' S' D ka ko) (memq memk : Int → ℝ)
    (sq cq sk ck : Nat → Nat → Nat → ℝ)
    (hsq : ∀ b s d, b < B → s < S → d < freq.length → ropeTab Real.sin a freq pos B S b s d = some (sq b s d))
    (hcq : ∀ b s d, b < B → s < S → d < freq.length → ropeTab Real.cos a freq pos B S b s d = some (cq b s d))
    (hsk : ∀ b s d, b < B' → s < S' → d < freq.length → ropeTab Real.sin a freq pos' B' S' b s d = some (sk b s d))
    (hck : ∀ b s d, b < B' → s < S' → d < freq.length → ropeTab Real.cos a freq pos' B' S' b s d = some (ck b s d))
    (n h s n' h' s' : Nat) (hn : n < B) (hh : h < H) (hs : s < S) (hn' : n' < B') (hh' : h' < H') (hs' : s' < S') :
    dotRow D (fun d => runAll (ropeForward step lay B H S D pd qa qo sq cq) memq (qo.addr (lay.idx (n, h, s) d)))
      (fun d => runAll (ropeForward step lay B' H' S' D pd ka ko sk ck) memk (ko.addr (lay.idx (n', h', s') d))) =
    relScore freq.length D a (fun i => ((pos n s - pos' n' s' : Int) : ℝ) * freq.getD i 0)
      (fun d => memq (qa.addr (lay.idx (n, h, s) d))) (fun d => memk (ka.addr (lay.idx (n', h', s') d))) := by
  have hpd' : ∀ p, pd = some p → p ≤ D := by
    rintro p rfl
    simp only [Option.getD_some] at hpd
    omega
  have hhalf : pd.getD D / 2 = freq.length := by omega
  have key : ∀ (sn cs : Nat → ℝ) (p : Int) (x : Nat → ℝ),
      (∀ d, d < freq.length → sn d = Real.sin ((p : ℝ) * freq.getD d 0) * a) →
      (∀ d, d < freq.length → cs d = Real.cos ((p : ℝ) * freq.getD d 0) * a) → ∀ d,
      rotated freq.length sn cs x d = rotated freq.length (fun d => Real.sin ((p : ℝ) * freq.getD d 0) * a)
        (fun d => Real.cos ((p : ℝ) * freq.getD d 0) * a) x d := by
    intro sn cs p x e1 e2 d
    unfold rotated
    split_ifs with c1 c2
    · rw [e1 d c1, e2 d c1]
    · rw [e1 _ (by omega), e2 _ (by omega)]
    · rfl
  have tab : ∀ (trig : ℝ → ℝ) (B S : Nat) (pos : Nat → Nat → Int) (t : Nat → Nat → Nat → ℝ) (b s : Nat), b < B → s < S →
      (∀ b s d, b < B → s < S → d < freq.length → ropeTab trig a freq pos B S b s d = some (t b s d)) →
      ∀ d, d < freq.length → t b s d = trig ((pos b s : ℝ) * freq.getD d 0) * a := by
    intro trig B S pos t b s hb hs ht d hd
    have h1 := ht b s d hb hs hd
    rw [C117_table trig a freq pos B S b s d hb hs (by omega), Nat.mod_eq_of_lt hd] at h1
    exact (Option.some.inj h1).symm
  have hqv : ∀ d ∈ range D, runAll (ropeForward step lay B H S D pd qa qo sq cq) memq (qo.addr (lay.idx (n, h, s) d)) =
      rotated freq.length (fun d => Real.sin ((pos n s : ℝ) * freq.getD d 0) * a)
        (fun d => Real.cos ((pos n s : ℝ) * freq.getD d 0) * a) (fun d => memq (qa.addr (lay.idx (n, h, s) d))) d := by
    intro d hd
    rw [(C116_rope_partial step hst lay B H S D pd hpd' qa qo hq sq cq memq).1 n h s d hn hh hs (mem_range.mp hd), hhalf]
    exact key _ _ _ _ (tab Real.sin B S pos sq n s hn hs hsq) (tab Real.cos B S pos cq n s hn hs hcq) d
  have hkv : ∀ d ∈ range D, runAll (ropeForward step lay B' H' S' D pd ka ko sk ck) memk (ko.addr (lay.idx (n', h', s') d)) =
      rotated freq.length (fun d => Real.sin ((pos' n' s' : ℝ) * freq.getD d 0) * a)
        (fun d => Real.cos ((pos' n' s' : ℝ) * freq.getD d 0) * a) (fun d => memk (ka.addr (lay.idx (n', h', s') d))) d := by
    intro d hd
    rw [(C116_rope_partial step hst lay B' H' S' D pd hpd' ka ko hk sk ck memk).1 n' h' s' d hn' hh' hs' (mem_range.mp hd), hhalf]
    exact key _ _ _ _ (tab Real.sin B' S' pos' sk n' s' hn' hs' hsk) (tab Real.cos B' S' pos' ck n' s' hn' hs' hck) d
  have hsum := C117_relative freq.length D hle a (fun d => (pos n s : ℝ) * freq.getD d 0)
    (fun d => (pos' n' s' : ℝ) * freq.getD d 0) (fun d => memq (qa.addr (lay.idx (n, h, s) d)))
    (fun d => memk (ka.addr (lay.idx (n', h', s') d)))
  have hfun : (fun i => (pos n s : ℝ) * freq.getD i 0 - (pos' n' s' : ℝ) * freq.getD i 0) =
      fun i => ((pos n s - pos' n' s' : Int) : ℝ) * freq.getD i 0 := by
    funext i; push_cast; ring
  rw [hfun] at hsum
  rw [← hsum]
  unfold dotRow
  exact sum_congr rfl fun d hd => by beta_reduce; rw [hqv d hd, hkv d hd]

/-- C117 for the multimodal operator: the score depends on the three position differences, each through the
frequencies of its own section. -/
theorem C117_mrope_scores_partial (step : Nat) (hst : 0 < step) (lay : Layout) (freq : List ℝ) (s0 s1 s2 : Nat)
    (hsum : s0 + s1 + s2 = freq.length) (B H S B' H' S' : Nat) (pos pos' : Nat → Nat → Int)
    (qa qo ka ko : View) (hq : Fits lay B H S (freq.length * 2) qa qo) (hk : Fits lay B' H' S' (freq.length * 2) ka ko)
    (memq memk : Int → ℝ) (sq cq sk ck : Nat → Nat → ℝ)
    (hsq : ∀ s d, s < S → d < freq.length → mropeTab Real.sin freq pos [s0, s1, s2] S s d = some (sq s d))
    (hcq : ∀ s d, s < S → d < freq.length → mropeTab Real.cos freq pos [s0, s1, s2] S s d = some (cq s d))
    (hsk : ∀ s d, s < S' → d < freq.length → mropeTab Real.sin freq pos' [s0, s1, s2] S' s d = some (sk s d))
    (hck : ∀ s d, s < S' → d < freq.length → mropeTab Real.cos freq pos' [s0, s1, s2] S' s d = some (ck s d))
    (n h s n' h' s' : Nat) (hn : n < B) (hh : h < H) (hs : s < S) (hn' : n' < B') (hh' : h' < H') (hs' : s' < S') :
    dotRow (freq.length * 2)
      (fun d => runAll (mropeForward step lay B H S (freq.length * 2) qa qo sq cq) memq (qo.addr (lay.idx (n, h, s) d)))
      (fun d => runAll (mropeForward step lay B' H' S' (freq.length * 2) ka ko sk ck) memk (ko.addr (lay.idx (n', h', s') d))) =
    relScore freq.length (freq.length * 2) 1
      (fun i => freq.getD i 0 * ((pos (section3 s0 s1 i) s - pos' (section3 s0 s1 i) s' : Int) : ℝ))
      (fun d => memq (qa.addr (lay.idx (n, h, s) d))) (fun d => memk (ka.addr (lay.idx (n', h', s') d))) := by
  have key : ∀ (sn cs θ x : Nat → ℝ),
      (∀ d, d < freq.length → sn d = Real.sin (θ d)) → (∀ d, d < freq.length → cs d = Real.cos (θ d)) → ∀ d,
      rotated freq.length sn cs x d = rotated freq.length (fun d => Real.sin (θ d) * 1) (fun d => Real.cos (θ d) * 1) x d := by
    intro sn cs θ x e1 e2 d
    unfold rotated
    split_ifs with c1 c2
    · rw [e1 d c1, e2 d c1]; beta_reduce; rw [mul_one, mul_one]
    · rw [e1 _ (by omega), e2 _ (by omega)]; beta_reduce; rw [mul_one, mul_one]
    · rfl
  have tab : ∀ (trig : ℝ → ℝ) (S : Nat) (pos : Nat → Nat → Int) (t : Nat → Nat → ℝ) (s : Nat), s < S →
      (∀ s d, s < S → d < freq.length → mropeTab trig freq pos [s0, s1, s2] S s d = some (t s d)) →
      ∀ d, d < freq.length → t s d = trig (freq.getD d 0 * (pos (section3 s0 s1 d) s : ℝ)) := by
    intro trig S pos t s hs ht d hd
    have h1 := ht s d hs hd
    rw [C114_tables_partial trig freq pos s0 s1 s2 S s d hsum hs (by omega), Nat.mod_eq_of_lt hd] at h1
    exact (Option.some.inj h1).symm
  have hqv : ∀ d ∈ range (freq.length * 2),
      runAll (mropeForward step lay B H S (freq.length * 2) qa qo sq cq) memq (qo.addr (lay.idx (n, h, s) d)) =
      rotated freq.length (fun d => Real.sin (freq.getD d 0 * (pos (section3 s0 s1 d) s : ℝ)) * 1)
        (fun d => Real.cos (freq.getD d 0 * (pos (section3 s0 s1 d) s : ℝ)) * 1)
        (fun d => memq (qa.addr (lay.idx (n, h, s) d))) d := by
    intro d hd
    rw [C116_mrope_partial step hst lay B H S _ (by omega) qa qo hq sq cq memq n h s d hn hh hs (mem_range.mp hd),
      Nat.mul_div_cancel _ (by omega)]
    exact key _ _ _ _ (tab Real.sin S pos sq s hs hsq) (tab Real.cos S pos cq s hs hcq) d
  have hkv : ∀ d ∈ range (freq.length * 2),
      runAll (mropeForward step lay B' H' S' (freq.length * 2) ka ko sk ck) memk (ko.addr (lay.idx (n', h', s') d)) =
      rotated freq.length (fun d => Real.sin (freq.getD d 0 * (pos' (section3 s0 s1 d) s' : ℝ)) * 1)
        (fun d => Real.cos (freq.getD d 0 * (pos' (section3 s0 s1 d) s' : ℝ)) * 1)
        (fun d => memk (ka.addr (lay.idx (n', h', s') d))) d := by
    intro d hd
    rw [C116_mrope_partial step hst lay B' H' S' _ (by omega) ka ko hk sk ck memk n' h' s' d hn' hh' hs' (mem_range.mp hd),
      Nat.mul_div_cancel _ (by omega)]
    exact key _ _ _ _ (tab Real.sin S' pos' sk s' hs' hsk) (tab Real.cos S' pos' ck s' hs' hck) d
  have hmain := C117_relative freq.length (freq.length * 2) (le_refl _) 1
    (fun d => freq.getD d 0 * (pos (section3 s0 s1 d) s : ℝ)) (fun d => freq.getD d 0 * (pos' (section3 s0 s1 d) s' : ℝ))
    (fun d => memq (qa.addr (lay.idx (n, h, s) d))) (fun d => memk (ka.addr (lay.idx (n', h', s') d)))
  have hfun : (fun i => freq.getD i 0 * (pos (section3 s0 s1 i) s : ℝ) - freq.getD i 0 * (pos' (section3 s0 s1 i) s' : ℝ)) =
      fun i => freq.getD i 0 * ((pos (section3 s0 s1 i) s - pos' (section3 s0 s1 i) s' : Int) : ℝ) := by
    funext i; push_cast; ring
  rw [hfun] at hmain
  rw [← hmain]
  unfold dotRow
  exact sum_congr rfl fun d hd => by beta_reduce; rw [hqv d hd, hkv d hd]

/-- C117: at position 0 the operator changes nothing (scaling 1). -/
theorem C117_position_zero (freq x : Nat → ℝ) (half d : Nat) :
    rotated half (fun d => Real.sin (((0 : Int) : ℝ) * freq d) * 1) (fun d => Real.cos (((0 : Int) : ℝ) * freq d) * 1) x d = x d := by
  unfold rotated
  simp only [Int.cast_zero, zero_mul, Real.sin_zero, Real.cos_zero, mul_one, mul_zero, sub_zero, zero_add, ite_self]

/-- Hypotheses of the end-to-end theorem are met: head size 128, one query row at position 7 against a cached key row at
position 3, four heads, vector width 4; the tables are total in range. -/
example : Fits .bhsd 1 4 1 128 ⟨0, Verif.Tensor.rowStrides [1, 4, 1, 128]⟩ ⟨512, Verif.Tensor.rowStrides [1, 4, 1, 128]⟩ ∧
    (invFreq 128 1000000).length * 2 = 128 ∧
    ropeTab Real.sin 1 (invFreq 128 1000000) (fun _ _ => 7) 1 1 0 0 65 = some (Real.sin (7 * (invFreq 128 1000000).getD 1 0) * 1) := by
  have hl : (invFreq 128 1000000).length = 64 := by simp [invFreq]
  refine ⟨fits_contig .bhsd 1 4 1 128 0 512 (.inr (.inl (by decide))), by omega, ?_⟩
  rw [C117_table Real.sin 1 (invFreq 128 1000000) (fun _ _ => 7) 1 1 0 0 65 (by omega) (by omega) (by omega), hl]
  norm_num

end Verif.Vl
