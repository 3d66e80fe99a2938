import Verif.Attn.Core
/-
`nn::functional::flashAttention2` (C78): mllm/nn/Functional.cpp L70-L88, mllm/core/aops/FlashAttention2Op.cpp
L29-L32, mllm/backends/cpu/ops/FlashAttention2Op.cpp, mllm/backends/cpu/kernels/common/fa2_1/fwd_bshd.hpp.
Float32 only (other types stop with an error).  Address arithmetic stays inside `int32_t`.
-/
namespace Verif.Attn
open Verif.Tensor Verif.Ops

/-! ### Model -/

/-- Read of a key or value component: `k + b*S_KV*H_KV*D + j*H_KV*D + h_kv*D` (fwd_bshd.hpp L57-L64).  The
strides of the tensor are not consulted. -/
def kvAt (K : Tens ℝ) (SKV HK D b j h x : Nat) : Option ℝ := K.raw (b * SKV * HK * D + j * HK * D + h * D + x)

/-- The operator.  `none`: an assertion stops the program, or `H_Q / H_KV` or `h / head_repeat_times` divides
by zero (a query tensor without heads is counted among these).  `W`: lanes of the vector unit; `ord`: order in
which threads take the heads. -/
noncomputable def flash (W : Nat) (ord : Nat → List Nat) (Q K V : Tens ℝ) : Option (Tens ℝ) :=
  match Q.shape, K.shape, V.shape with
  | [B, SQ, HQ, D], [_, SKV, HK, _], [_, SKV', _, _] =>
    if (isContiguous Q.shape Q.stride).isSome = true ∧ SKV = SKV' ∧ HQ / HK ≠ 0 then
      some (fresh [B, SQ, HQ, D] (bufV (attnWrites B SQ HQ D ord fun b h s d =>
        rowVal (.simd W) D none (fun x => qAt Q SQ HQ D b s h x)
          (fun j x => kvAt K SKV HK D b j (h / (HQ / HK)) x)
          (fun j => kvAt V SKV HK D b j (h / (HQ / HK)) d) (causalKeys SQ SKV s))))
    else none
  | _, _, _ => none

/-! ### Specification -/

/-- `t` is a readable tensor of the given shape whose elements are the numbers `f`. -/
structure Holds (t : Tens ℝ) (A B C D : Nat) (f : Nat → Nat → Nat → Nat → ℝ) : Prop where
  shape : t.shape = [A, B, C, D]
  val : ∀ a b c d, a < A → b < B → c < C → d < D → t.elem [a, b, c, d] = some (f a b c d)

/-- Causal grouped-query attention: query row `s` of `SQ` is the row at position `SKV - SQ + s` of the
sequence; it sees the keys up to and including its own position, of the key head its head is grouped with. -/
noncomputable def causalAttn (SQ SKV HQ HK DK : Nat) (q k v : Nat → Nat → Nat → Nat → ℝ) (b s h d : Nat) : ℝ :=
  attend (Finset.range (SKV - SQ + s + 1)) (fun j => score DK (q b s h) (k b j (h / (HQ / HK))))
    (fun j => v b j (h / (HQ / HK)) d)

/-! ### Proofs -/

theorem kvAt_elem {K : Tens ℝ} {B SKV HK D : Nat} (hK : K.shape = [B, SKV, HK, D]) (hc : Packed K)
    {b j h x : Nat} (hb : b < B) (hj : j < SKV) (hh : h < HK) (hx : x < D) :
    kvAt K SKV HK D b j h x = K.elem [b, j, h, x] := by
  unfold kvAt
  rw [← packed_raw hc (by rw [hK]; exact inB4.mpr ⟨hb, hj, hh, hx⟩), hK, lin4']
  congr 1
  ring

/-- C78: with key and value tensors laid out row-major, whole groups of query heads and at most as many query
rows as keys, every element of the result is causal softmax attention, whatever the number of lanes and the
order in which threads take the heads. -/
theorem flash_attention_partial (W : Nat) (ord : Nat → List Nat) (Q K V : Tens ℝ) (B SQ SKV HQ HK D : Nat)
    (q k v : Nat → Nat → Nat → Nat → ℝ) (ho : HeadOrder B HQ ord) (hQ : Holds Q B SQ HQ D q)
    (hK : Holds K B SKV HK D k) (hV : Holds V B SKV HK D v) (hQc : (isContiguous Q.shape Q.stride).isSome = true)
    (hKc : Packed K) (hVc : Packed V) (hH : HK ∣ HQ) (hHQ : 0 < HQ) (hS : SQ ≤ SKV) :
    ∃ O, flash W ord Q K V = some O ∧
      Holds O B SQ HQ D (causalAttn SQ SKV HQ HK D q k v) := by
  have hHK : 0 < HK := Nat.pos_of_dvd_of_pos hH hHQ
  have hrep : HQ / HK ≠ 0 := (Nat.div_pos (Nat.le_of_dvd hHQ hH) hHK).ne'
  have hQp : Packed Q := contig_packed (isContiguous_some hQc)
  refine ⟨fresh [B, SQ, HQ, D] (bufV (attnWrites B SQ HQ D ord fun b h s d =>
        rowVal (.simd W) D none (fun x => qAt Q SQ HQ D b s h x)
          (fun j x => kvAt K SKV HK D b j (h / (HQ / HK)) x)
          (fun j => kvAt V SKV HK D b j (h / (HQ / HK)) d) (causalKeys SQ SKV s))), ?_, rfl, ?_⟩
  · unfold flash
    rw [hQ.shape, hK.shape, hV.shape]
    rw [hQ.shape] at hQc
    simp only
    rw [if_pos ⟨hQc, trivial, hrep⟩]
  · intro b s h d hb hs hh hd
    rw [attn_elem ho _ hb hs hh hd, causalKeys_eq hS hs]
    have hg := group_lt hH hh
    rw [rowVal_attend (qf := q b s h) (kf := fun j => k b j (h / (HQ / HK)))
      (vf := fun j => v b j (h / (HQ / HK)) d) (by simp) (List.nodup_range)]
    · rw [causalAttn, List.toFinset_range]
    · intro x hx
      rw [qAt_elem hQ.shape hQp hb hs hh hx, hQ.val b s h x hb hs hh hx]
    · intro j hj x hx
      have hj' : j < SKV := by have := List.mem_range.mp hj; omega
      rw [kvAt_elem hK.shape hKc hb hj' hg hx, hK.val b j _ x hb hj' hg hx]
    · intro j hj
      have hj' : j < SKV := by have := List.mem_range.mp hj; omega
      rw [kvAt_elem hV.shape hVc hb hj' hg hd, hV.val b j _ d hb hj' hg hd]

/-- C78: the result of attention is an average of the values of the keys seen: it stays between any bounds
that hold for those values. -/
theorem causal_between (SQ SKV HQ HK DK : Nat) (q k v : Nat → Nat → Nat → Nat → ℝ) (b s h d : Nat) (lo hi : ℝ)
    (hv : ∀ j, j ≤ SKV - SQ + s → lo ≤ v b j (h / (HQ / HK)) d ∧ v b j (h / (HQ / HK)) d ≤ hi) :
    lo ≤ causalAttn SQ SKV HQ HK DK q k v b s h d ∧ causalAttn SQ SKV HQ HK DK q k v b s h d ≤ hi :=
  attend_between ⟨0, by simp⟩ _ _ lo hi fun j hj => hv j (by have := Finset.mem_range.mp hj; omega)

/-- A view of a cache with capacity `cap` tokens, offering its first `n` tokens: the strides are those of the
whole cache. -/
def cacheView (t : Tens ℝ) (B cap n HK D : Nat) : Prop :=
  t.shape = [B, n, HK, D] ∧ t.stride = [((cap * HK * D : Nat) : Int), ((HK * D : Nat) : Int), (D : Int), 1]

/-- C78: a cache view with one batch row is laid out row-major, so the theorem applies to it. -/
theorem cache_view_packed {t : Tens ℝ} {cap n HK D : Nat} (h : cacheView t 1 cap n HK D) : Packed t := by
  intro i hi
  rw [h.1] at hi ⊢
  match i, hi with
  | [b, j, c, d], hi =>
    have := (inB4.mp hi).1
    obtain rfl : b = 0 := by omega
    rw [lin4']
    simp only [Tens.addr, h.2, dot]
    push_cast; ring

/-- C78 violated for batches: with a cache view that has room for more tokens than it holds, batch row 1 of a
decode step reads the second slot of batch row 0 (one key and value: the result is that value itself). -/
theorem flash_batch_violated (W : Nat) (ord : Nat → List Nat) (Q K V : Tens ℝ) (B cap HQ HK D : Nat)
    (q k : Nat → Nat → Nat → Nat → ℝ) (ho : HeadOrder B HQ ord) (hQ : Holds Q B 1 HQ D q)
    (hQc : (isContiguous Q.shape Q.stride).isSome = true) (hK : cacheView K B cap 1 HK D)
    (hV : cacheView V B cap 1 HK D) (hH : HK ∣ HQ) (hB : 1 < B)
    (hKr : ∀ j h x, j < cap → h < HK → x < D → K.mem (K.addr [0, j, h, x]) = some (k 0 j h x))
    (hcap : 1 < cap) (O : Tens ℝ) (hO : flash W ord Q K V = some O) (h d : Nat) (hh : h < HQ) (hd : d < D)
    (val : ℝ) (hval : V.mem (V.addr [0, 1, h / (HQ / HK), d]) = some val) :
    O.elem [1, 0, h, d] = some val := by
  have hg := group_lt hH hh
  have hQp : Packed Q := contig_packed (isContiguous_some hQc)
  unfold flash at hO
  rw [hQ.shape, hK.1, hV.1] at hO
  simp only at hO
  split at hO
  · cases hO
    rw [attn_elem ho _ hB (by omega) hh hd]
    have hone : causalKeys 1 1 0 = [0] := by decide
    rw [hone, rowVal_attend (js := [0]) (qf := q 1 0 h) (kf := fun _ => k 0 1 (h / (HQ / HK)))
      (vf := fun _ => val) (by simp) (by simp)]
    · simp [attend_one]
    · intro x hx
      rw [qAt_elem hQ.shape hQp hB (by omega) hh hx, hQ.val 1 0 h x hB (by omega) hh hx]
    · intro j hj x hx
      simp only [List.mem_singleton] at hj
      subst hj
      rw [← hKr 1 _ x hcap hg hx]
      unfold kvAt Tens.raw
      congr 1
      simp only [Tens.addr, hK.2, dot]
      push_cast; ring
    · intro j hj
      simp only [List.mem_singleton] at hj
      subst hj
      rw [← hval]
      unfold kvAt Tens.raw
      congr 1
      simp only [Tens.addr, hV.2, dot]
      push_cast; ring
  · cases hO

/-- C78 violated for query tensors longer than the keys: the first rows are not numbers. -/
theorem flash_short_violated (W : Nat) (ord : Nat → List Nat) (Q K V O : Tens ℝ) (B SQ SKV HQ HK D : Nat)
    (ho : HeadOrder B HQ ord) (hQ : Q.shape = [B, SQ, HQ, D]) (hK : K.shape = [B, SKV, HK, D])
    (hO : flash W ord Q K V = some O) (b s h d : Nat) (hb : b < B) (hs : SKV + s < SQ) (hh : h < HQ) (hd : d < D) :
    O.elem [b, s, h, d] = none := by
  unfold flash at hO
  rw [hQ, hK] at hO
  split at hO
  · rename_i _ _ _ _ _ _ _ _ _ _ _ _ heq1 heq2 heq3
    simp only [List.cons.injEq, and_true] at heq1 heq2
    obtain ⟨rfl, rfl, rfl, rfl⟩ := heq1
    obtain ⟨rfl, rfl, rfl, rfl⟩ := heq2
    split at hO
    · cases hO
      rw [attn_elem ho _ hb (by omega) hh hd, causalKeys_short hs, rowVal_empty]
    · cases hO
  · cases hO

/-- C78 violated when the query heads do not divide evenly: the last query head reads past the last key head;
with a value tensor of one token stored in exactly its own memory, the result is not a number. -/
theorem flash_heads_violated (W : Nat) (ord : Nat → List Nat) (Q K O : Tens ℝ) (v : Nat → ℝ) (HQ HK D : Nat)
    (ho : HeadOrder 1 HQ ord) (hQ : Q.shape = [1, 1, HQ, D]) (hK : K.shape = [1, 1, HK, D])
    (hO : flash W ord Q K (exact [1, 1, HK, D] v) = some O) (hnd : ¬ HK ∣ HQ) (hge : HK ≤ HQ) (hHK : 0 < HK)
    (d : Nat) (hd : d < D) : O.elem [0, 0, HQ - 1, d] = none := by
  have hlt : HK < HQ := lt_of_le_of_ne hge (fun h => hnd (h ▸ dvd_refl _))
  have hrep : 0 < HQ / HK := Nat.div_pos hge hHK
  have hbig : HK ≤ (HQ - 1) / (HQ / HK) := by
    rw [Nat.le_div_iff_mul_le hrep]
    have h1 : HK * (HQ / HK) ≤ HQ := Nat.mul_div_le HQ HK
    have h2 : HK * (HQ / HK) ≠ HQ := fun h => hnd ⟨HQ / HK, h.symm⟩
    omega
  unfold flash at hO
  rw [hQ, hK] at hO
  split at hO
  · rename_i _ _ _ _ _ _ _ _ _ _ _ _ heq1 heq2 heq3
    simp only [List.cons.injEq, and_true] at heq1 heq2
    obtain ⟨rfl, rfl, rfl, rfl⟩ := heq1
    obtain ⟨rfl, rfl, rfl, rfl⟩ := heq2
    split at hO
    · cases hO
      rw [attn_elem ho _ (by omega) (by omega) (by omega) hd]
      have hone : causalKeys 1 1 0 = [0] := by decide
      rw [hone]
      apply rowVal_none_v (j := 0) (by simp)
      rw [kvAt, exact_raw, if_neg]
      simp only [numel]
      have : HK * D ≤ (HQ - 1) / (HQ / HK) * D := Nat.mul_le_mul_right _ hbig
      simp only [zero_mul, zero_add, one_mul, mul_one]
      omega
    · cases hO
  · cases hO

end Verif.Attn
