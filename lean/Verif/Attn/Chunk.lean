import Verif.Attn.Radix
/-
Chunked prefill and decoding give the rows of one full prefill (C80).
-/
namespace Verif.Attn
open Verif.Tensor Verif.Ops

/-- Causal attention only depends on the tokens up to the position of the row. -/
theorem causalAttn_congr {SQ SKV SQ' SKV' HQ HK DK : Nat} {q k v q' k' v' : Nat → Nat → Nat → Nat → ℝ}
    {b s s' h d : Nat} (hpos : SKV - SQ + s = SKV' - SQ' + s') (hq : ∀ x, x < DK → q b s h x = q' b s' h x)
    (hk : ∀ j x, j ≤ SKV - SQ + s → x < DK → k b j (h / (HQ / HK)) x = k' b j (h / (HQ / HK)) x)
    (hv : ∀ j, j ≤ SKV - SQ + s → v b j (h / (HQ / HK)) d = v' b j (h / (HQ / HK)) d) :
    causalAttn SQ SKV HQ HK DK q k v b s h d = causalAttn SQ' SKV' HQ HK DK q' k' v' b s' h d := by
  unfold causalAttn
  rw [← hpos]
  unfold attend
  have hsc : ∀ j ∈ Finset.range (SKV - SQ + s + 1), score DK (q b s h) (k b j (h / (HQ / HK))) =
      score DK (q' b s' h) (k' b j (h / (HQ / HK))) := by
    intro j hj
    unfold score
    congr 1
    apply Finset.sum_congr rfl
    intro x hx
    have hx' := Finset.mem_range.mp hx
    have hj' := Finset.mem_range.mp hj
    rw [hq x hx', hk j x (by omega) hx']
  congr 1
  · apply Finset.sum_congr rfl
    intro j hj
    have hj' := Finset.mem_range.mp hj
    beta_reduce
    rw [hsc j hj, hv j (by omega)]
  · apply Finset.sum_congr rfl
    intro j hj
    beta_reduce
    rw [hsc j hj]

/-- C80: a prompt of `n` tokens processed in one call, or only its last chunk of `m` tokens at length `p`
(with the keys and values of the first `p` tokens in the cache): the rows of the chunk are the corresponding rows
of the full result.  Later tokens of the prompt make no difference to them. -/
theorem flash_chunk_partial (W W' : Nat) (ord ord' : Nat → List Nat) (Q K V Q' K' V' : Tens ℝ)
    (B n p m HQ HK D : Nat) (q k v : Nat → Nat → Nat → Nat → ℝ) (ho : HeadOrder B HQ ord)
    (ho' : HeadOrder B HQ ord') (hQ : Holds Q B n HQ D q) (hK : Holds K B n HK D k) (hV : Holds V B n HK D v)
    (hQ' : Holds Q' B m HQ D (fun b s => q b (p - m + s))) (hK' : Holds K' B p HK D k) (hV' : Holds V' B p HK D v)
    (hQc : (isContiguous Q.shape Q.stride).isSome = true) (hQc' : (isContiguous Q'.shape Q'.stride).isSome = true)
    (hKc : Packed K) (hVc : Packed V) (hKc' : Packed K') (hVc' : Packed V') (hH : HK ∣ HQ) (hHQ : 0 < HQ)
    (hmp : m ≤ p) (hpn : p ≤ n) :
    ∃ O O', flash W ord Q K V = some O ∧ flash W' ord' Q' K' V' = some O' ∧
      ∀ b s h d, b < B → s < m → h < HQ → d < D → O'.elem [b, s, h, d] = O.elem [b, p - m + s, h, d] := by
  obtain ⟨O, h1, h2⟩ := flash_attention_partial W ord Q K V B n n HQ HK D q k v ho hQ hK hV hQc hKc hVc hH hHQ
    (le_refl n)
  obtain ⟨O', h1', h2'⟩ := flash_attention_partial W' ord' Q' K' V' B m p HQ HK D _ k v ho' hQ' hK' hV' hQc' hKc' hVc'
    hH hHQ hmp
  refine ⟨O, O', h1, h1', fun b s h d hb hs hh hd => ?_⟩
  rw [h2'.val b s h d hb hs hh hd, h2.val b (p - m + s) h d hb (by omega) hh hd]
  congr 1
  exact causalAttn_congr (by omega) (fun _ _ => rfl) (fun _ _ _ _ => rfl) (fun _ _ => rfl)

/-- C80: the same for attention over token addresses; the tables may share tokens or hold copies. -/
theorem radix_chunk_partial (W W' : Nat) (ord ord' : Nat → List Nat) (o : RadixOpt) (Q Q' : Tens ℝ) (T T' : Tokens)
    (n p m : Nat) (q k v : Nat → Nat → Nat → Nat → ℝ) (ho : HeadOrder o.B o.HQ ord) (ho' : HeadOrder o.B o.HQ ord')
    (hQ : Holds Q o.B n o.HQ o.DK q) (hQ' : Holds Q' o.B m o.HQ o.DK (fun b s => q b (p - m + s)))
    (hQc : (isContiguous Q.shape Q.stride).isSome = true) (hQc' : (isContiguous Q'.shape Q'.stride).isSome = true)
    (hT : Stored T o.B n o.HK o.DK o.DV k v) (hT' : Stored T' o.B p o.HK o.DK o.DV k v)
    (hH : o.HK ∣ o.HQ) (hHQ : 0 < o.HQ) (hmp : m ≤ p) (hpn : p ≤ n) :
    ∃ O O', radixAttn (.simd W) ord o Q T = some O ∧ radixAttn (.simd W') ord' o Q' T' = some O' ∧
      ∀ b s h d, b < o.B → s < m → h < o.HQ → d < o.DV → O'.elem [b, s, h, d] = O.elem [b, p - m + s, h, d] := by
  obtain ⟨O, h1, h2⟩ := radix_attention_partial W ord o Q T n n q k v ho hQ hQc hT hH hHQ (le_refl n)
  obtain ⟨O', h1', h2'⟩ := radix_attention_partial W' ord' o Q' T' m p _ k v ho' hQ' hQc' hT' hH hHQ hmp
  refine ⟨O, O', h1, h1', fun b s h d hb hs hh hd => ?_⟩
  rw [h2'.val b s h d hb hs hh hd, h2.val b (p - m + s) h d hb (by omega) hh hd]
  congr 1
  exact causalAttn_congr (by omega) (fun _ _ => rfl) (fun _ _ _ _ => rfl) (fun _ _ => rfl)

/-- The tokens of any function are held by a contiguous tensor. -/
theorem holds_exact (A B C D : Nat) (f : Nat → Nat → Nat → Nat → ℝ) :
    Holds (exact [A, B, C, D] fun k => match coords [A, B, C, D] k with | [a, b, c, d] => f a b c d | _ => 0)
      A B C D f := by
  refine ⟨rfl, fun a b c d ha hb hc hd => ?_⟩
  have hi : InB [A, B, C, D] [a, b, c, d] := inB4.mpr ⟨ha, hb, hc, hd⟩
  rw [exact, fresh_elem _ _ hi, if_pos (lin_lt hi), coords_lin hi]

/-- The hypotheses of `flash_attention_partial` and `flash_chunk_partial` can be met for any contents. -/
example (q k v : Nat → Nat → Nat → Nat → ℝ) : ∃ Q K V Q' K' V' : Tens ℝ,
    Holds Q 2 5 4 3 q ∧ Holds K 2 5 2 3 k ∧ Holds V 2 5 2 3 v ∧
    Holds Q' 2 2 4 3 (fun b s => q b (4 - 2 + s)) ∧ Holds K' 2 4 2 3 k ∧ Holds V' 2 4 2 3 v ∧
    (isContiguous Q.shape Q.stride).isSome = true ∧ (isContiguous Q'.shape Q'.stride).isSome = true ∧
    Packed K ∧ Packed V ∧ Packed K' ∧ Packed V' :=
  ⟨_, _, _, _, _, _, holds_exact 2 5 4 3 q, holds_exact 2 5 2 3 k, holds_exact 2 5 2 3 v,
    holds_exact 2 2 4 3 _, holds_exact 2 4 2 3 k, holds_exact 2 4 2 3 v, rfl, rfl,
    contig_packed rfl, contig_packed rfl, contig_packed rfl, contig_packed rfl⟩

end Verif.Attn
