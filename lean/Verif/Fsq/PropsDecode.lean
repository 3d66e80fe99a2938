import Verif.Fsq.Props

/-!
# C182: decoding residual indices
-/

namespace Verif.Fsq

/-- The vector that the tokens `tok q` of the quantizers mean: the codeword of each, the `q`-th scaled by the inverse `q`-th power of
the levels less one. -/
def Meaning (levels : List Nat) (Q : Nat) (tok : Nat → Nat) (d : Nat) : ℚ :=
  ((List.range Q).map fun q => codebook levels (tok q) d * (((levels.getD d 0 : ℚ) - 1) ^ q)⁻¹).sum

theorem padded_full {Q : Nat} (hQ : 0 < Q) (rows : Nat) (ind : Nat → Int) : padded Q rows Q ind = some (rows, ind) := by
  unfold padded
  rw [if_neg (by rw [Nat.mul_mod_left]; simp)]
  dsimp only
  rw [Nat.mul_div_cancel _ hQ]
  simp

theorem decode_full (levels : List Nat) {Q : Nat} (hQ : 0 < Q) (rows : Nat) (ind : Nat → Int) :
    decode levels Q rows Q ind = some (rows, fun r d => ((List.range Q).map fun q => gathered levels Q ind q r d * scales levels q d).sum) := by
  unfold decode
  rw [padded_full hQ]
  rfl

theorem gathered_eq (levels : List Nat) (Q : Nat) (ind : Nat → Int) (q r d : Nat) {n : Nat} (h0 : n ≠ 0) (hn : n < size levels) (h : ind (r * Q + q) = n) :
    gathered levels Q ind q r d = codebook levels n d := by
  unfold gathered
  dsimp only
  rw [h, if_neg (by omega), if_neg (by omega), min_eq_left (by omega), max_eq_right (by omega), Int.toNat_natCast]

theorem gathered_zero (levels : List Nat) (Q : Nat) (ind : Nat → Int) (q r d : Nat) (h : ind (r * Q + q) = 0) : gathered levels Q ind q r d = 0 := by
  unfold gathered
  dsimp only
  rw [h]
  simp

/-- **C182** Tokens other than 0 decode to what they mean, in every row. -/
theorem C182_decode_partial (levels : List Nat) {Q : Nat} (hQ : 0 < Q) (rows : Nat) (ind : Nat → Int) (tok : Nat → Nat → Nat)
    (ht : ∀ r q, q < Q → ind (r * Q + q) = tok r q ∧ tok r q ≠ 0 ∧ tok r q < size levels) :
    ∃ f, decode levels Q rows Q ind = some (rows, f) ∧ ∀ r d, f r d = Meaning levels Q (tok r) d := by
  refine ⟨_, decode_full levels hQ rows ind, fun r d => ?_⟩
  unfold Meaning
  congr 1
  apply List.map_congr_left
  intro q hq
  obtain ⟨h1, h2, h3⟩ := ht r q (List.mem_range.mp hq)
  rw [gathered_eq levels Q ind q r d h2 h3 h1]
  rfl

theorem sum_nonpos : ∀ l : List ℚ, (∀ x ∈ l, x ≤ 0) → l.sum ≤ 0
  | [], _ => by simp
  | x :: l, h => by
    have h1 := h x (by simp)
    have h2 := sum_nonpos l fun y hy => h y (by simp [hy])
    rw [List.sum_cons]
    linarith

theorem codeword_zero {levels : List Nat} (hl : Levels levels) {d : Nat} (hd : d < levels.length) : codebook levels 0 d = -1 := by
  unfold codebook
  rw [toCodes_eq _ _ hd]
  simp only [Nat.zero_div, Nat.zero_mod, Nat.cast_zero, zero_sub]
  have h2 := hl.get hd
  have h1 : (1 : ℚ) ≤ (levels.getD d 0 / 2 : Nat) := by exact_mod_cast (show 1 ≤ levels.getD d 0 / 2 by omega)
  rw [neg_div, div_self (by linarith)]

/-- **C182** Token 0 is a codeword (-1 in every dimension) but decodes to nothing: a row of which the tokens are 0 decodes to zero
everywhere, though it means something negative everywhere. -/
theorem C182_zero_violated {levels : List Nat} (hl : Levels levels) {Q : Nat} (hQ : 0 < Q) (rows : Nat) (ind : Nat → Int) (r : Nat)
    (h : ∀ q < Q, ind (r * Q + q) = 0) :
    ∃ f, decode levels Q rows Q ind = some (rows, f) ∧ ∀ d < levels.length, f r d = 0 ∧ Meaning levels Q (fun _ => 0) d ≤ -1 := by
  refine ⟨_, decode_full levels hQ rows ind, fun d hd => ⟨?_, ?_⟩⟩
  · apply List.sum_eq_zero
    intro x hx
    obtain ⟨q, hq, rfl⟩ := List.mem_map.mp hx
    rw [gathered_zero levels Q ind q r d (h q (List.mem_range.mp hq)), zero_mul]
  · unfold Meaning
    obtain ⟨n, rfl⟩ : ∃ n, Q = n + 1 := ⟨Q - 1, by omega⟩
    rw [List.range_succ_eq_map, List.map_cons, List.sum_cons, codeword_zero hl hd]
    have : ((List.map Nat.succ (List.range n)).map fun q => codebook levels ((fun _ => 0) q) d * (((levels.getD d 0 : ℚ) - 1) ^ q)⁻¹).sum ≤ 0 := by
      apply sum_nonpos
      intro x hx
      obtain ⟨q, _, rfl⟩ := List.mem_map.mp hx
      have h2 : (2 : ℚ) ≤ levels.getD d 0 := by exact_mod_cast hl.get hd
      have : 0 ≤ (((levels.getD d 0 : ℚ) - 1) ^ q)⁻¹ := by
        apply inv_nonneg.mpr
        apply pow_nonneg
        linarith
      show codebook levels 0 d * _ ≤ 0
      rw [codeword_zero hl hd]
      linarith
    rw [pow_zero, inv_one]
    linarith

/-- The token of the middle of the codebook. -/
def middle (levels : List Nat) : Nat := sumTo (fun d => levels.getD d 0 / 2 * below levels d) levels.length

/-- **C182** The middle of the codebook is zero everywhere; where it is not token 0 itself (two levels or more), it cannot be told from
token 0: different tokens decode to the same. -/
theorem C182_collision_violated {levels : List Nat} (hl : Levels levels) {Q : Nat} (hQ : 0 < Q) (rows : Nat) (ind ind' : Nat → Int) (r : Nat)
    (h : ∀ q < Q, ind (r * Q + q) = 0) (h' : ∀ q < Q, ind' (r * Q + q) = middle levels) :
    (0 < middle levels ∧ middle levels < size levels) ∧
      ∃ f f', decode levels Q rows Q ind = some (rows, f) ∧ decode levels Q rows Q ind' = some (rows, f') ∧ ∀ d < levels.length, f r d = f' r d := by
  have hm := sum_digit levels (fun d => levels.getD d 0 / 2) (fun d hd => by have := hl.get hd; omega) levels.length le_rfl
  have hn : 0 < levels.length := List.length_pos_iff.mpr hl.1
  have hpos : 0 < middle levels := by
    have h0 := hm.2 0 hn
    have h2 := hl.get hn
    rcases Nat.eq_zero_or_pos (middle levels) with h1 | h1
    · unfold middle at h1
      rw [h1] at h0
      simp only [Nat.zero_div, Nat.zero_mod] at h0
      omega
    · exact h1
  have hlt : middle levels < size levels := by
    rw [← below_full]
    exact hm.1
  refine ⟨⟨hpos, hlt⟩, _, _, decode_full levels hQ rows ind, decode_full levels hQ rows ind', fun d hd => ?_⟩
  congr 1
  apply List.map_congr_left
  intro q hq
  have hq := List.mem_range.mp hq
  rw [gathered_zero levels Q ind q r d (h q hq), gathered_eq levels Q ind' q r d (by omega) hlt (h' q hq)]
  unfold codebook
  rw [toCodes_eq _ _ hd]
  have := hm.2 d hd
  unfold middle
  rw [this]
  simp

example : middle [5, 5, 5, 5] = 312 := rfl

/-- **C182** Tokens of fewer quantizers than there are: rows disappear. -/
theorem C182_fewer_violated (levels : List Nat) {Q rows Qd n : Nat} {f : Nat → Nat → ℚ} (ind : Nat → Int) (hQ : Qd < Q) (hr : 0 < rows)
    (h : decode levels Q rows Qd ind = some (n, f)) : n < rows := by
  unfold decode padded at h
  split_ifs at h with h0
  · simp at h
  · simp only [Option.map_some, Option.some.injEq, Prod.mk.injEq] at h
    rw [← h.1]
    exact Nat.div_lt_of_lt_mul (by rw [Nat.mul_comm]; exact Nat.mul_lt_mul_of_pos_right hQ hr)

example : ∃ f, decode [5] 2 4 1 (fun _ => 1) = some (2, f) := ⟨_, rfl⟩

/-- **C182** The audio tokens of one batch: channel `c` at time `t` is made of the tokens of its group at that time. -/
theorem C182_embed_partial {levels : List Nat} {G R : Nat} (hR : 0 < R) (T w : Nat) (proj : Nat → (Nat → ℚ) → Nat → ℚ) (x : Nat → Nat → Nat → Int)
    (tok : Nat → Nat → Nat) (ht : ∀ k < G * R, ∀ t < T, x 0 k t = tok k t ∧ tok k t ≠ 0 ∧ tok k t < size levels) :
    ∃ f, embed levels 1 G R T w proj x = some ((1, G * w, T), f) ∧
      ∀ g < G, ∀ c < w, ∀ t < T, f 0 (g * w + c) t = proj g (fun d => Meaning levels R (fun q => tok (g * R + q) t) d) c := by
  refine ⟨?f, ?h1, ?h2⟩
  case f =>
    exact fun _ c t => match decode levels R (1 * T) R fun k => x (k / R / T) (c / w * R + k % R) (k / R % T) with
      | some p => proj (c / w) (p.2 t) (c % w)
      | none => 0
  case h1 =>
    unfold embed
    dsimp only
    rw [if_pos (fun g _ => by rw [decode_full levels hR]; simp), Nat.one_mul]
    rfl
  case h2 =>
    intro g hg c hc t htT
    rw [(pos_div hc).1, (pos_div hc).2, decode_full levels hR]
    dsimp only
    congr 1
    funext d
    unfold Meaning
    congr 1
    apply List.map_congr_left
    intro q hq
    have hq := List.mem_range.mp hq
    dsimp only
    have hk : g * R + q < G * R := by
      calc g * R + q < g * R + R := by omega
        _ = (g + 1) * R := by ring
        _ ≤ G * R := Nat.mul_le_mul_right _ hg
    obtain ⟨h1, h2, h3⟩ := ht _ hk t htT
    rw [gathered_eq levels R _ q t d h2 h3 (by rw [(pos_div hq).1, (pos_div hq).2, Nat.div_eq_of_lt htT, Nat.mod_eq_of_lt htT]; exact h1)]
    rfl

/-- **C182** Several batches come out as one, one behind the other in time. -/
theorem C182_batch_violated {levels : List Nat} {B G R T w : Nat} (hB : 2 ≤ B) (hR : 0 < R) (proj : Nat → (Nat → ℚ) → Nat → ℚ)
    (x : Nat → Nat → Nat → Int) : ∃ s f, embed levels B G R T w proj x = some (s, f) ∧ s ≠ (B, G * w, T) ∧ s = (1, G * w, B * T) := by
  unfold embed
  dsimp only
  rw [if_pos (fun g _ => by rw [decode_full levels hR]; simp)]
  refine ⟨_, _, rfl, ?_, rfl⟩
  intro h
  have := (Prod.mk.inj h).1
  omega

/-- **C182** Encoding: whatever the quantizers do, what they produce and what is left add up to the input. -/
theorem C182_residual (quant : Nat → ℚ → ℚ) (s : Nat → ℚ) (Q : Nat) (x : ℚ) : (residual quant s Q x).1 + (residual quant s Q x).2 = x := by
  unfold residual
  induction Q with
  | zero => simp
  | succ n ih =>
    rw [List.range_succ, List.foldl_append, List.foldl_cons, List.foldl_nil]
    dsimp only
    linarith

/-- **C182** Encoding: the first term is one that the first quantizer gives for the input, every later one what its quantizer gives
for what the terms before left over. -/
theorem C182_residual_step (quant : Nat → ℚ → ℚ) (s : Nat → ℚ) (Q : Nat) (x : ℚ) :
    (residual quant s (Q + 1) x).1 = (residual quant s Q x).1 + quant Q ((x - (residual quant s Q x).1) / s Q) * s Q := by
  have h := C182_residual quant s Q x
  have h2 : x - (residual quant s Q x).1 = (residual quant s Q x).2 := by linarith
  rw [h2]
  unfold residual
  rw [List.range_succ, List.foldl_append, List.foldl_cons, List.foldl_nil]

end Verif.Fsq
