import Verif.Attn.Flash
/-
Attention over a table of token addresses (C79): `RadixAttnOp` and `RadixAttnRelaxOp`
(mllm/core/aops/RadixAttnOp.cpp L23-L29, RadixAttnDiffDimOp.cpp L28-L37,
mllm/backends/cpu/ops/RadixAttnOp.cpp, RadixAttnDiffDimOp.cpp,
mllm/backends/cpu/kernels/common/radix_attn/fwd_bshd.hpp,
radix_attn_relax/radix_attn_relax_fwd_bshd.hpp).
-/
namespace Verif.Attn
open Verif.Tensor Verif.Ops

/-! ### Model -/

/-- The memory the token addresses point into, and the address tables `K_PTR`, `V_PTR`. -/
structure Tokens where
  mem : Int → Option ℝ
  kp : Nat → Int
  vp : Nat → Int
  nk : Nat
  nv : Nat

/-- Read of a component of a token: `p[j] + b*H_KV*D + h_kv*D` (radix_attn/fwd_bshd.hpp L66-L72). -/
def tokAt (mem : Int → Option ℝ) (p : Nat → Int) (HK D b j h x : Nat) : Option ℝ :=
  mem (p j + ((b * HK * D + h * D + x : Nat) : Int))

/-- Options of the operators.  `RadixAttnOp` takes both sizes from the query (`DK = DV = D`) and does not check
that the query is contiguous; `RadixAttnRelaxOp` takes batch and sizes from its options and does. -/
structure RadixOpt where
  checkQ : Bool
  B : Nat
  HQ : Nat
  HK : Nat
  DK : Nat
  DV : Nat

/-- The kernel over both tables. -/
noncomputable def radixVal (arch : Arch) (o : RadixOpt) (Q : Tens ℝ) (T : Tokens) (SQ b h s d : Nat) : Option ℝ :=
  rowVal arch o.DK none (fun x => qAt Q SQ o.HQ o.DK b s h x)
    (fun j x => tokAt T.mem T.kp o.HK o.DK b j (h / (o.HQ / o.HK)) x)
    (fun j => tokAt T.mem T.vp o.HK o.DV b j (h / (o.HQ / o.HK)) d) (causalKeys SQ T.nk s)

/-- The operator.  `none`: an assertion fails, or a division by zero. -/
noncomputable def radixAttn (arch : Arch) (ord : Nat → List Nat) (o : RadixOpt) (Q : Tens ℝ) (T : Tokens) :
    Option (Tens ℝ) :=
  match Q.shape with
  | [B, SQ, HQ, _] =>
    if (o.checkQ = true → (isContiguous Q.shape Q.stride).isSome = true) ∧ HQ = o.HQ ∧ T.nk = T.nv ∧
        o.HQ / o.HK ≠ 0 then
      some (fresh [o.B, SQ, o.HQ, o.DV] (bufV (attnWrites B SQ o.HQ o.DV ord fun b h s d =>
        radixVal arch o Q T SQ b h s d)))
    else none
  | _ => none

/-! ### Specification -/

/-- Token `j` of the table has key and value rows `k b j h`, `v b j h` in memory. -/
structure Stored (T : Tokens) (B S HK DK DV : Nat) (k v : Nat → Nat → Nat → Nat → ℝ) : Prop where
  nk : T.nk = S
  nv : T.nv = S
  key : ∀ b j h x, b < B → j < S → h < HK → x < DK →
    T.mem (T.kp j + ((b * HK * DK + h * DK + x : Nat) : Int)) = some (k b j h x)
  value : ∀ b j h x, b < B → j < S → h < HK → x < DV →
    T.mem (T.vp j + ((b * HK * DV + h * DV + x : Nat) : Int)) = some (v b j h x)

/-! ### Proofs -/

/-- C79: on a build with vector primitives, attention over token addresses is causal softmax attention over
the rows stored at those addresses, wherever they lie. -/
theorem radix_attention_partial (W : Nat) (ord : Nat → List Nat) (o : RadixOpt) (Q : Tens ℝ) (T : Tokens)
    (SQ S : Nat) (q k v : Nat → Nat → Nat → Nat → ℝ) (ho : HeadOrder o.B o.HQ ord)
    (hQ : Holds Q o.B SQ o.HQ o.DK q) (hQc : (isContiguous Q.shape Q.stride).isSome = true)
    (hT : Stored T o.B S o.HK o.DK o.DV k v) (hH : o.HK ∣ o.HQ) (hHQ : 0 < o.HQ) (hS : SQ ≤ S) :
    ∃ O, radixAttn (.simd W) ord o Q T = some O ∧
      Holds O o.B SQ o.HQ o.DV (causalAttn SQ S o.HQ o.HK o.DK q k v) := by
  have hHK : 0 < o.HK := Nat.pos_of_dvd_of_pos hH hHQ
  have hrep : o.HQ / o.HK ≠ 0 := (Nat.div_pos (Nat.le_of_dvd hHQ hH) hHK).ne'
  have hQp : Packed Q := contig_packed (isContiguous_some hQc)
  refine ⟨fresh [o.B, SQ, o.HQ, o.DV] (bufV (attnWrites o.B SQ o.HQ o.DV ord fun b h s d =>
        radixVal (.simd W) o Q T SQ b h s d)), ?_, rfl, ?_⟩
  · unfold radixAttn
    have h1 : o.checkQ = true → (isContiguous [o.B, SQ, o.HQ, o.DK] Q.stride).isSome = true := by
      intro _; rw [← hQ.shape]; exact hQc
    rw [hQ.shape]
    simp only
    rw [if_pos ⟨h1, trivial, hT.nk.trans hT.nv.symm, hrep⟩]
  · intro b s h d hb hs hh hd
    rw [attn_elem ho _ hb hs hh hd, radixVal, hT.nk, causalKeys_eq hS hs]
    have hg := group_lt hH hh
    rw [rowVal_attend (qf := q b s h) (kf := fun j => k b j (h / (o.HQ / o.HK)))
      (vf := fun j => v b j (h / (o.HQ / o.HK)) d) (by simp) (List.nodup_range)]
    · rw [causalAttn, List.toFinset_range]
    · intro x hx
      rw [qAt_elem hQ.shape hQp hb hs hh hx, hQ.val b s h x hb hs hh hx]
    · intro j hj x hx
      have hj' : j < S := by have := List.mem_range.mp hj; omega
      exact hT.key b j _ x hb hj' hg hx
    · intro j hj
      have hj' : j < S := by have := List.mem_range.mp hj; omega
      exact hT.value b j _ d hb hj' hg hd

/-- C79: where the tokens are stored does not matter: two tables that hold the same rows give the same result,
element by element. -/
theorem radix_layout_partial (W W' : Nat) (ord ord' : Nat → List Nat) (o : RadixOpt) (Q : Tens ℝ) (T T' : Tokens)
    (SQ S : Nat) (q k v : Nat → Nat → Nat → Nat → ℝ) (ho : HeadOrder o.B o.HQ ord) (ho' : HeadOrder o.B o.HQ ord')
    (hQ : Holds Q o.B SQ o.HQ o.DK q) (hQc : (isContiguous Q.shape Q.stride).isSome = true)
    (hT : Stored T o.B S o.HK o.DK o.DV k v) (hT' : Stored T' o.B S o.HK o.DK o.DV k v)
    (hH : o.HK ∣ o.HQ) (hHQ : 0 < o.HQ) (hS : SQ ≤ S) :
    ∃ O O', radixAttn (.simd W) ord o Q T = some O ∧ radixAttn (.simd W') ord' o Q T' = some O' ∧
      ∀ b s h d, b < o.B → s < SQ → h < o.HQ → d < o.DV → O.elem [b, s, h, d] = O'.elem [b, s, h, d] := by
  obtain ⟨O, h1, h2⟩ := radix_attention_partial W ord o Q T SQ S q k v ho hQ hQc hT hH hHQ hS
  obtain ⟨O', h1', h2'⟩ := radix_attention_partial W' ord' o Q T' SQ S q k v ho' hQ hQc hT' hH hHQ hS
  exact ⟨O, O', h1, h1', fun b s h d hb hs hh hd => by rw [h2.val b s h d hb hs hh hd, h2'.val b s h d hb hs hh hd]⟩

/-- C79: the same result as `flashAttention2` on key and value tensors with the same contents. -/
theorem radix_flash_partial (W W' : Nat) (ord ord' : Nat → List Nat) (o : RadixOpt) (Q K V : Tens ℝ) (T : Tokens)
    (SQ S : Nat) (q k v : Nat → Nat → Nat → Nat → ℝ) (ho : HeadOrder o.B o.HQ ord) (ho' : HeadOrder o.B o.HQ ord')
    (hQ : Holds Q o.B SQ o.HQ o.DK q) (hQc : (isContiguous Q.shape Q.stride).isSome = true) (hD : o.DV = o.DK)
    (hT : Stored T o.B S o.HK o.DK o.DV k v) (hK : Holds K o.B S o.HK o.DK k) (hV : Holds V o.B S o.HK o.DK v)
    (hKc : Packed K) (hVc : Packed V) (hH : o.HK ∣ o.HQ) (hHQ : 0 < o.HQ) (hS : SQ ≤ S) :
    ∃ O O', radixAttn (.simd W) ord o Q T = some O ∧ flash W' ord' Q K V = some O' ∧
      ∀ b s h d, b < o.B → s < SQ → h < o.HQ → d < o.DV → O.elem [b, s, h, d] = O'.elem [b, s, h, d] := by
  obtain ⟨O, h1, h2⟩ := radix_attention_partial W ord o Q T SQ S q k v ho hQ hQc hT hH hHQ hS
  obtain ⟨O', h1', h2'⟩ := flash_attention_partial W' ord' Q K V o.B SQ S o.HQ o.HK o.DK q k v ho' hQ hK hV hQc
    hKc hVc hH hHQ hS
  refine ⟨O, O', h1, h1', fun b s h d hb hs hh hd => ?_⟩
  rw [h2.val b s h d hb hs hh hd, h2'.val b s h d hb hs hh (by omega)]

/-- C79 violated on x86: the radix kernels get empty primitives there; every element of the result is memory
nobody wrote. -/
theorem radix_x86_violated (ord : Nat → List Nat) (o : RadixOpt) (Q O : Tens ℝ) (T : Tokens) (SQ DK : Nat)
    (hQ : Q.shape = [o.B, SQ, o.HQ, DK]) (ho : HeadOrder o.B o.HQ ord)
    (hO : radixAttn .noop ord o Q T = some O) (b s h d : Nat) (hb : b < o.B) (hs : s < SQ) (hh : h < o.HQ)
    (hd : d < o.DV) : O.elem [b, s, h, d] = none := by
  unfold radixAttn at hO
  rw [hQ] at hO
  simp only at hO
  split at hO
  · cases hO
    rw [attn_elem ho _ hb hs hh hd]
    rfl
  · cases hO

/-- A query tensor that is the transpose of a contiguous one: element `[0, s, h, 0]` lies at address `s + 2h`. -/
noncomputable def viewQ : Tens ℝ := ⟨0, [1, 2, 2, 1], [4, 1, 2, 1], fun a => some (if a = 2 then 1 else 0)⟩

/-- Two tokens with two heads; both rows of token `j` hold the number `j`. -/
noncomputable def viewT : Tokens := ⟨fun a => some ((a / 2 : Int) : ℝ), fun j => 2 * j, fun j => 2 * j, 2, 2⟩

noncomputable def viewq (_ s h _ : Nat) : ℝ := if s + 2 * h = 2 then 1 else 0
noncomputable def viewk (_ j _ _ : Nat) : ℝ := j

theorem viewT_stored : Stored viewT 1 2 2 1 1 viewk viewk := by
  have key : ∀ b j h x : Nat, b < 1 → j < 2 → h < 2 → x < 1 →
      viewT.mem (2 * (j : Int) + ((b * 2 * 1 + h * 1 + x : Nat) : Int)) = some (viewk b j h x) := by
    intro b j h x hb hj hh hx
    obtain rfl : b = 0 := by omega
    obtain rfl : x = 0 := by omega
    have : (2 * (j : Int) + ((0 * 2 * 1 + h * 1 + 0 : Nat) : Int)) / 2 = j := by omega
    simp only [viewT, this, viewk]
    simp
  exact ⟨rfl, rfl, key, key⟩

/-- C79 violated for query views: `RadixAttnOp` does not check the layout of the query and reads it row-major,
so the result for a transposed query is not attention of the query given. -/
theorem radix_view_violated : ∃ (Q : Tens ℝ) (T : Tokens) (O : Tens ℝ) (q k v : Nat → Nat → Nat → Nat → ℝ),
    Holds Q 1 2 2 1 q ∧ Stored T 1 2 2 1 1 k v ∧
    radixAttn (.simd 4) (fun _ => [0, 1]) ⟨false, 1, 2, 2, 1, 1⟩ Q T = some O ∧
    O.elem [0, 1, 0, 0] ≠ some (causalAttn 2 2 2 2 1 q k v 0 1 0 0) := by
  refine ⟨viewQ, viewT, fresh [1, 2, 2, 1] (bufV (attnWrites 1 2 2 1 (fun _ => [0, 1]) fun b h s d =>
        radixVal (.simd 4) ⟨false, 1, 2, 2, 1, 1⟩ viewQ viewT 2 b h s d)), viewq, viewk, viewk, ⟨rfl, ?_⟩,
    viewT_stored, ?_, ?_⟩
  · intro b s h d hb hs hh hd
    obtain rfl : b = 0 := by omega
    obtain rfl : d = 0 := by omega
    have : viewQ.addr [0, s, h, 0] = (s : Int) + 2 * h := by
      simp only [viewQ, Tens.addr, dot]; push_cast; ring
    rw [Tens.elem, this]
    simp only [viewQ, viewq]
    congr 1
    have : ((s : Int) + 2 * h = 2) ↔ (s + 2 * h = 2) := by omega
    simp only [this]
  · unfold radixAttn
    simp [viewQ, viewT]
  · have ho : HeadOrder 1 2 (fun _ => [0, 1]) := fun _ _ => List.Perm.refl _
    rw [attn_elem ho _ (by omega) (by omega) (by omega) (by omega), radixVal]
    rw [show viewT.nk = 2 from rfl, causalKeys_eq (by omega) (by omega)]
    rw [rowVal_attend (qf := fun _ => 1) (kf := fun j => viewk 0 j 0) (vf := fun j => viewk 0 j 0 0) (by simp)
      (List.nodup_range)]
    · intro h
      simp only [Option.some.injEq, List.toFinset_range, causalAttn, attend, score] at h
      norm_num [Finset.sum_range_succ, viewk, viewq] at h
      have he : (1 : ℝ) < Real.exp 1 := by
        have := Real.add_one_lt_exp (x := 1) (by norm_num); linarith
      rw [div_eq_iff (by positivity)] at h
      linarith
    · intro x hx
      change x < 1 at hx
      obtain rfl : x = 0 := by omega
      simp [qAt, Tens.raw, viewQ]
    · intro j hj x hx
      exact viewT_stored.key 0 j 0 x (by omega) (by simpa using hj) (by omega) hx
    · intro j hj
      exact viewT_stored.value 0 j 0 0 (by omega) (by simpa using hj) (by omega) (by omega)

/-! ### The hypotheses can be met -/

/-- Two tokens stored out of order, one batch row, one head, size 1; two query rows. -/
example : ∃ (Q : Tens ℝ) (T : Tokens), Holds Q 1 2 1 1 (fun _ s _ _ => s) ∧
    (isContiguous Q.shape Q.stride).isSome = true ∧ Stored T 1 2 1 1 1 (fun _ j _ _ => j) (fun _ j _ _ => 5 * j) ∧
    T.kp 0 > T.kp 1 := by
  refine ⟨exact [1, 2, 1, 1] (fun k => k),
    ⟨fun a => if a = 7 then some 0 else if a = 3 then some 1 else if a = 8 then some 0 else if a = 4 then some 5 else none,
     fun j => if j = 0 then 7 else 3, fun j => if j = 0 then 8 else 4, 2, 2⟩, ⟨rfl, ?_⟩, by decide, ⟨rfl, rfl, ?_, ?_⟩, by simp⟩
  · intro a b c d ha hb hc hd
    obtain rfl : a = 0 := by omega
    obtain rfl : c = 0 := by omega
    obtain rfl : d = 0 := by omega
    rw [exact, fresh_elem _ _ (inB4.mpr ⟨ha, hb, hc, hd⟩), lin4']
    rw [if_pos (by simp [numel]; omega)]
    simp
  all_goals
    intro b j h x hb hj hh hx
    obtain rfl : b = 0 := by omega
    obtain rfl : h = 0 := by omega
    obtain rfl : x = 0 := by omega
    have : j = 0 ∨ j = 1 := by omega
    rcases this with rfl | rfl <;> simp

end Verif.Attn
