import Verif.Attn.Chunk
/-
Sliding-window attention with an attention sink (C81): `radixAttnSWAwSink` (mllm/nn/Functional.cpp L189-L206,
mllm/core/aops/RadixAttnWithSinkAndSwaDiffDimOp.cpp, mllm/backends/cpu/ops/RadixAttnWithSinkAndSwaDiffDimOp.cpp,
mllm/backends/cpu/kernels/common/radix_swa_sink/radix_swa_sink_fwd_bshd.hpp) and the variant over key and value
tensors (mllm/backends/cpu/ops/FlashAttn2WithSinkAndSwaOp.cpp,
mllm/backends/cpu/kernels/common/fa2_1_swa_sink/fa2_swa_sink_fwd_bshd.hpp).
A window of -1 is refused by an assertion; the window is a natural number here.
-/
namespace Verif.Attn
open Verif.Tensor Verif.Ops

/-! ### Model -/

inductive Pattern where
  | decode
  | prefill
  | append

structure SwaOpt where
  B : Nat
  HQ : Nat
  HK : Nat
  DK : Nat
  DV : Nat
  window : Nat
  cur : Nat
  pattern : Pattern

/-- `for (j = full_attention_start; j <= full_attention_end; ++j)` of the prefill kernel
(radix_swa_sink_fwd_bshd.hpp L152-L156). -/
def prefillKeys (SQ SKV W s : Nat) : List Nat :=
  let start := max 0 ((s : Int) + SKV - SQ - W)
  let stop := min (SKV : Int) (s + SKV - SQ)
  span start.toNat (stop + 1).toNat

/-- `local_attention_end` of the decode kernel (radix_swa_sink_fwd_bshd.hpp L55-L65; the same lines in
fa2_swa_sink_fwd_bshd.hpp L59-L69), as the list of table slots visited. -/
def localKeys (SQ cur W s : Nat) : List Nat :=
  let start := max 0 ((s : Int) + cur - SQ - W)
  let stop := min (cur : Int) (s + cur - SQ)
  let e := stop - start
  let e := if e < W then e + 1 else e
  List.range e.toNat

def swaKeys (o : SwaOpt) (SQ SKV s : Nat) : List Nat :=
  match o.pattern with
  | .decode => localKeys SQ o.cur o.window s
  | .prefill => prefillKeys SQ SKV o.window s
  | .append => []

noncomputable def swaVal (arch : Arch) (o : SwaOpt) (Q : Tens ℝ) (T : Tokens) (aux : Nat → Option ℝ)
    (SQ b h s d : Nat) : Option ℝ :=
  rowVal arch o.DK (some (aux h)) (fun x => qAt Q SQ o.HQ o.DK b s h x)
    (fun j x => tokAt T.mem T.kp o.HK o.DK b j (h / (o.HQ / o.HK)) x)
    (fun j => tokAt T.mem T.vp o.HK o.DV b j (h / (o.HQ / o.HK)) d) (swaKeys o SQ T.nk s)

/-- The stores: `kAppend` is a `TODO` that stores nothing. -/
noncomputable def swaWrites (arch : Arch) (ord : Nat → List Nat) (o : SwaOpt) (Q : Tens ℝ) (T : Tokens)
    (aux : Nat → Option ℝ) (B SQ : Nat) : List (Nat × Option ℝ) :=
  match o.pattern with
  | .append => []
  | _ => attnWrites B SQ o.HQ o.DV ord fun b h s d => swaVal arch o Q T aux SQ b h s d

/-- The operator over token addresses. -/
noncomputable def swaAttn (arch : Arch) (ord : Nat → List Nat) (o : SwaOpt) (Q : Tens ℝ) (T : Tokens)
    (aux : Nat → Option ℝ) : Option (Tens ℝ) :=
  match Q.shape with
  | [B, SQ, HQ, _] =>
    if (isContiguous Q.shape Q.stride).isSome = true ∧ HQ = o.HQ ∧ T.nk = T.nv ∧ o.HQ / o.HK ≠ 0 then
      some (fresh [o.B, SQ, o.HQ, o.DV] (bufV (swaWrites arch ord o Q T aux B SQ)))
    else none
  | _ => none

/-- The operator over tensors: it stops the program when there are more keys than the window has slots. -/
noncomputable def flashSwa (W : Nat) (ord : Nat → List Nat) (window cur : Nat) (Q K V : Tens ℝ)
    (aux : Nat → Option ℝ) : Option (Tens ℝ) :=
  match Q.shape, K.shape, V.shape with
  | [B, SQ, HQ, DK], [_, SKV, HK, _], [_, SKV', _, DV] =>
    if (isContiguous Q.shape Q.stride).isSome = true ∧ SKV = SKV' ∧ ¬ SKV > window ∧ HQ / HK ≠ 0 then
      some (fresh [B, SQ, HQ, DV] (bufV (attnWrites B SQ HQ DV ord fun b h s d =>
        rowVal (.simd W) DK (some (aux h)) (fun x => qAt Q SQ HQ DK b s h x)
          (fun j x => kvAt K SKV HK DK b j (h / (HQ / HK)) x)
          (fun j => kvAt V SKV HK DV b j (h / (HQ / HK)) d) (localKeys SQ cur window s))))
    else none
  | _, _, _ => none

/-! ### Specification -/

/-- Grouped-query attention with a sink of the query row `s` over the keys `J`. -/
noncomputable def sinkAttn (HQ HK DK : Nat) (q k v : Nat → Nat → Nat → Nat → ℝ) (sink : Nat → ℝ) (J : Finset Nat)
    (b s h d : Nat) : ℝ :=
  attendSink J (fun j => score DK (q b s h) (k b j (h / (HQ / HK)))) (fun j => v b j (h / (HQ / HK)) d) (sink h)

/-! ### Proofs -/

theorem span_nodup (a b : Nat) : (span a b).Nodup :=
  (List.nodup_range).map (fun _ _ h => by simpa using h)

theorem span_mem {a b j : Nat} : j ∈ span a b ↔ a ≤ j ∧ j < b := by
  simp only [span, List.mem_map, List.mem_range]
  constructor
  · rintro ⟨x, hx, rfl⟩; omega
  · rintro ⟨h1, h2⟩; exact ⟨j - a, by omega, by omega⟩

theorem prefillKeys_set {SQ SKV W s : Nat} (hS : SQ ≤ SKV) (hs : s < SQ) :
    (prefillKeys SQ SKV W s).toFinset = Finset.Icc (SKV - SQ + s - W) (SKV - SQ + s) := by
  ext j
  rw [List.mem_toFinset, prefillKeys, span_mem, Finset.mem_Icc]
  omega

theorem localKeys_all {SQ cur W s : Nat} (hS : SQ ≤ cur) (hs : s < SQ) (hW : cur ≤ W) :
    localKeys SQ cur W s = List.range (cur - SQ + s + 1) := by
  unfold localKeys
  simp only []
  congr 1
  split <;> omega

theorem localKeys_one {cur W : Nat} (hc : 0 < cur) : localKeys 1 cur W 0 = List.range (min cur W) := by
  unfold localKeys
  simp only []
  congr 1
  split <;> omega

/-- In a call with more than one row after the window is full, every row in which the window is full visits the
whole table. -/
theorem localKeys_full {SQ cur W s : Nat} (h : SQ + W ≤ cur + s) (hs : s < SQ) :
    localKeys SQ cur W s = List.range W := by
  unfold localKeys
  simp only []
  congr 1
  split <;> omega

theorem swa_core (W : Nat) (ord : Nat → List Nat) (o : SwaOpt) (Q : Tens ℝ) (T : Tokens)
    (aux : Nat → Option ℝ) (sink : Nat → ℝ) (SQ S : Nat) (q k v : Nat → Nat → Nat → Nat → ℝ)
    (ho : HeadOrder o.B o.HQ ord) (hQ : Holds Q o.B SQ o.HQ o.DK q)
    (hQc : (isContiguous Q.shape Q.stride).isSome = true) (hT : Stored T o.B S o.HK o.DK o.DV k v)
    (haux : ∀ h, h < o.HQ → aux h = some (sink h)) (hH : o.HK ∣ o.HQ) (hHQ : 0 < o.HQ) (hD : 0 < o.DK)
    (hp : o.pattern ≠ .append) (J : Nat → Finset Nat)
    (hJ : ∀ s, s < SQ → (swaKeys o SQ S s).Nodup ∧ (swaKeys o SQ S s).toFinset = J s ∧ ∀ j ∈ swaKeys o SQ S s, j < S) :
    ∃ O, swaAttn (.simd W) ord o Q T aux = some O ∧
      Holds O o.B SQ o.HQ o.DV (fun b s h d => sinkAttn o.HQ o.HK o.DK q k v sink (J s) b s h d) := by
  have hHK : 0 < o.HK := Nat.pos_of_dvd_of_pos hH hHQ
  have hrep : o.HQ / o.HK ≠ 0 := (Nat.div_pos (Nat.le_of_dvd hHQ hH) hHK).ne'
  have hQp : Packed Q := contig_packed (isContiguous_some hQc)
  have hw : swaWrites (.simd W) ord o Q T aux o.B SQ =
      attnWrites o.B SQ o.HQ o.DV ord fun b h s d => swaVal (.simd W) o Q T aux SQ b h s d := by
    unfold swaWrites
    cases hpat : o.pattern <;> first | rfl | exact absurd hpat hp
  refine ⟨fresh [o.B, SQ, o.HQ, o.DV] (bufV (swaWrites (.simd W) ord o Q T aux o.B SQ)), ?_, rfl, ?_⟩
  · unfold swaAttn
    rw [hQ.shape] at hQc ⊢
    simp only
    rw [if_pos ⟨hQc, trivial, hT.nk.trans hT.nv.symm, hrep⟩]
  · intro b s h d hb hs hh hd
    rw [hw, attn_elem ho _ hb hs hh hd, swaVal, hT.nk, haux h hh]
    have hg := group_lt hH hh
    obtain ⟨hn, hset, hlt⟩ := hJ s hs
    rw [rowVal_sink hD (qf := q b s h) (kf := fun j => k b j (h / (o.HQ / o.HK)))
      (vf := fun j => v b j (h / (o.HQ / o.HK)) d) hn]
    · rw [sinkAttn, hset]
    · intro x hx
      rw [qAt_elem hQ.shape hQp hb hs hh hx, hQ.val b s h x hb hs hh hx]
    · intro j hj x hx
      exact hT.key b j _ x hb (hlt j hj) hg hx
    · intro j hj
      exact hT.value b j _ d hb (hlt j hj) hg hd

/-- C81, prefill: the row at position `p` gets softmax attention with the sink over the keys from `p - window` to
`p`, both included (`window + 1` keys once there are that many). -/
theorem swa_prefill_partial (W : Nat) (ord : Nat → List Nat) (o : SwaOpt) (Q : Tens ℝ) (T : Tokens)
    (aux : Nat → Option ℝ) (sink : Nat → ℝ) (SQ S : Nat) (q k v : Nat → Nat → Nat → Nat → ℝ)
    (ho : HeadOrder o.B o.HQ ord) (hQ : Holds Q o.B SQ o.HQ o.DK q)
    (hQc : (isContiguous Q.shape Q.stride).isSome = true) (hT : Stored T o.B S o.HK o.DK o.DV k v)
    (haux : ∀ h, h < o.HQ → aux h = some (sink h)) (hH : o.HK ∣ o.HQ) (hHQ : 0 < o.HQ) (hD : 0 < o.DK)
    (hp : o.pattern = .prefill) (hS : SQ ≤ S) :
    ∃ O, swaAttn (.simd W) ord o Q T aux = some O ∧
      Holds O o.B SQ o.HQ o.DV (fun b s h d =>
        sinkAttn o.HQ o.HK o.DK q k v sink (Finset.Icc (S - SQ + s - o.window) (S - SQ + s)) b s h d) := by
  refine swa_core W ord o Q T aux sink SQ S q k v ho hQ hQc hT haux hH hHQ hD (by rw [hp]; exact fun h => by cases h) _ ?_
  intro s hs
  simp only [swaKeys, hp]
  refine ⟨span_nodup _ _, prefillKeys_set hS hs, fun j hj => ?_⟩
  rw [← List.mem_toFinset, prefillKeys_set hS hs, Finset.mem_Icc] at hj
  omega

/-- C81, decode before the window is full: every row gets causal attention with the sink over all tokens up to
its own position, the same as prefill. -/
theorem swa_decode_partial (W : Nat) (ord : Nat → List Nat) (o : SwaOpt) (Q : Tens ℝ) (T : Tokens)
    (aux : Nat → Option ℝ) (sink : Nat → ℝ) (SQ : Nat) (q k v : Nat → Nat → Nat → Nat → ℝ)
    (ho : HeadOrder o.B o.HQ ord) (hQ : Holds Q o.B SQ o.HQ o.DK q)
    (hQc : (isContiguous Q.shape Q.stride).isSome = true) (hT : Stored T o.B o.cur o.HK o.DK o.DV k v)
    (haux : ∀ h, h < o.HQ → aux h = some (sink h)) (hH : o.HK ∣ o.HQ) (hHQ : 0 < o.HQ) (hD : 0 < o.DK)
    (hp : o.pattern = .decode) (hS : SQ ≤ o.cur) (hW : o.cur ≤ o.window) :
    ∃ O, swaAttn (.simd W) ord o Q T aux = some O ∧
      Holds O o.B SQ o.HQ o.DV (fun b s h d =>
        sinkAttn o.HQ o.HK o.DK q k v sink (Finset.range (o.cur - SQ + s + 1)) b s h d) := by
  refine swa_core W ord o Q T aux sink SQ o.cur q k v ho hQ hQc hT haux hH hHQ hD
    (by rw [hp]; exact fun h => by cases h) _ ?_
  intro s hs
  simp only [swaKeys, hp, localKeys_all hS hs hW]
  refine ⟨List.nodup_range, List.toFinset_range _, fun j hj => ?_⟩
  have := List.mem_range.mp hj
  omega

/-- C81, decode of one token: it gets attention with the sink over the first `min cur window` slots of the
table. -/
theorem swa_decode_one_partial (W : Nat) (ord : Nat → List Nat) (o : SwaOpt) (Q : Tens ℝ) (T : Tokens)
    (aux : Nat → Option ℝ) (sink : Nat → ℝ) (S : Nat) (q k v : Nat → Nat → Nat → Nat → ℝ)
    (ho : HeadOrder o.B o.HQ ord) (hQ : Holds Q o.B 1 o.HQ o.DK q)
    (hQc : (isContiguous Q.shape Q.stride).isSome = true) (hT : Stored T o.B S o.HK o.DK o.DV k v)
    (haux : ∀ h, h < o.HQ → aux h = some (sink h)) (hH : o.HK ∣ o.HQ) (hHQ : 0 < o.HQ) (hD : 0 < o.DK)
    (hp : o.pattern = .decode) (hc : 0 < o.cur) (hS : min o.cur o.window ≤ S) :
    ∃ O, swaAttn (.simd W) ord o Q T aux = some O ∧
      Holds O o.B 1 o.HQ o.DV (fun b s h d =>
        sinkAttn o.HQ o.HK o.DK q k v sink (Finset.range (min o.cur o.window)) b s h d) := by
  refine swa_core W ord o Q T aux sink 1 S q k v ho hQ hQc hT haux hH hHQ hD
    (by rw [hp]; exact fun h => by cases h) (fun _ => Finset.range (min o.cur o.window)) ?_
  intro s hs
  obtain rfl : s = 0 := by omega
  simp only [swaKeys, hp, localKeys_one hc]
  refine ⟨List.nodup_range, List.toFinset_range _, fun j hj => ?_⟩
  have := List.mem_range.mp hj
  omega

/-- C81: while the sequence fits in the window, prefill and decode agree row by row. -/
theorem swa_agree_partial (W W' : Nat) (ord ord' : Nat → List Nat) (o o' : SwaOpt) (Q : Tens ℝ) (T T' : Tokens)
    (aux : Nat → Option ℝ) (sink : Nat → ℝ) (SQ : Nat) (q k v : Nat → Nat → Nat → Nat → ℝ)
    (ho : HeadOrder o.B o.HQ ord) (ho' : HeadOrder o.B o.HQ ord') (hQ : Holds Q o.B SQ o.HQ o.DK q)
    (hQc : (isContiguous Q.shape Q.stride).isSome = true) (hT : Stored T o.B o.cur o.HK o.DK o.DV k v)
    (hT' : Stored T' o.B o.cur o.HK o.DK o.DV k v)
    (haux : ∀ h, h < o.HQ → aux h = some (sink h)) (hH : o.HK ∣ o.HQ) (hHQ : 0 < o.HQ) (hD : 0 < o.DK)
    (hp : o.pattern = .prefill) (ho2 : o' = { o with pattern := .decode }) (hS : SQ ≤ o.cur)
    (hW : o.cur ≤ o.window) :
    ∃ O O', swaAttn (.simd W) ord o Q T aux = some O ∧ swaAttn (.simd W') ord' o' Q T' aux = some O' ∧
      ∀ b s h d, b < o.B → s < SQ → h < o.HQ → d < o.DV → O.elem [b, s, h, d] = O'.elem [b, s, h, d] := by
  subst ho2
  obtain ⟨O, h1, h2⟩ := swa_prefill_partial W ord o Q T aux sink SQ o.cur q k v ho hQ hQc hT haux hH hHQ hD hp hS
  obtain ⟨O', h1', h2'⟩ := swa_decode_partial W' ord' { o with pattern := .decode } Q T' aux sink SQ q k v ho' hQ hQc
    hT' haux hH hHQ hD rfl hS hW
  refine ⟨O, O', h1, h1', fun b s h d hb hs hh hd => ?_⟩
  rw [h2.val b s h d hb hs hh hd, h2'.val b s h d hb hs hh hd]
  have : Finset.Icc (o.cur - SQ + s - o.window) (o.cur - SQ + s) = Finset.range (o.cur - SQ + s + 1) := by
    ext j; rw [Finset.mem_Icc, Finset.mem_range]; omega
  rw [this]

/-- C81, over tensors: while the sequence fits in the window, causal attention with the sink. -/
theorem flash_swa_partial (W : Nat) (ord : Nat → List Nat) (Q K V : Tens ℝ) (B SQ S HQ HK DK DV window : Nat)
    (aux : Nat → Option ℝ) (sink : Nat → ℝ) (q k v : Nat → Nat → Nat → Nat → ℝ) (ho : HeadOrder B HQ ord)
    (hQ : Holds Q B SQ HQ DK q) (hK : Holds K B S HK DK k) (hV : Holds V B S HK DV v)
    (hQc : (isContiguous Q.shape Q.stride).isSome = true) (hKc : Packed K) (hVc : Packed V)
    (haux : ∀ h, h < HQ → aux h = some (sink h)) (hH : HK ∣ HQ) (hHQ : 0 < HQ) (hD : 0 < DK) (hS : SQ ≤ S)
    (hW : S ≤ window) :
    ∃ O, flashSwa W ord window S Q K V aux = some O ∧
      Holds O B SQ HQ DV (fun b s h d => sinkAttn HQ HK DK q k v sink (Finset.range (S - SQ + s + 1)) b s h d) := by
  have hHK : 0 < HK := Nat.pos_of_dvd_of_pos hH hHQ
  have hrep : HQ / HK ≠ 0 := (Nat.div_pos (Nat.le_of_dvd hHQ hH) hHK).ne'
  have hQp : Packed Q := contig_packed (isContiguous_some hQc)
  refine ⟨fresh [B, SQ, HQ, DV] (bufV (attnWrites B SQ HQ DV ord fun b h s d =>
        rowVal (.simd W) DK (some (aux h)) (fun x => qAt Q SQ HQ DK b s h x)
          (fun j x => kvAt K S HK DK b j (h / (HQ / HK)) x)
          (fun j => kvAt V S HK DV b j (h / (HQ / HK)) d) (localKeys SQ S window s))), ?_, rfl, ?_⟩
  · unfold flashSwa
    rw [hQ.shape] at hQc ⊢
    rw [hK.shape, hV.shape]
    simp only
    rw [if_pos ⟨hQc, trivial, by omega, hrep⟩]
  · intro b s h d hb hs hh hd
    rw [attn_elem ho _ hb hs hh hd, localKeys_all hS hs hW, haux h hh]
    have hg := group_lt hH hh
    rw [rowVal_sink hD (qf := q b s h) (kf := fun j => k b j (h / (HQ / HK)))
      (vf := fun j => v b j (h / (HQ / HK)) d) (List.nodup_range)]
    · rw [sinkAttn, List.toFinset_range]
    · intro x hx
      rw [qAt_elem hQ.shape hQp hb hs hh hx, hQ.val b s h x hb hs hh hx]
    · intro j hj x hx
      have hj' : j < S := by have := List.mem_range.mp hj; omega
      rw [kvAt_elem hK.shape hKc hb hj' hg hx, hK.val b j _ x hb hj' hg hx]
    · intro j hj
      have hj' : j < S := by have := List.mem_range.mp hj; omega
      rw [kvAt_elem hV.shape hVc hb hj' hg hd, hV.val b j _ d hb hj' hg hd]

/-- C81, over tensors: more keys than the window stop the program. -/
theorem flash_swa_refuses (W : Nat) (ord : Nat → List Nat) (Q K V : Tens ℝ) (B S HK DK window cur : Nat)
    (aux : Nat → Option ℝ) (hK : K.shape = [B, S, HK, DK]) (hW : window < S) :
    flashSwa W ord window cur Q K V aux = none := by
  unfold flashSwa
  rw [hK]
  split
  · rename_i _ _ _ _ _ _ _ _ _ _ _ _ heq1 heq2 heq3
    simp only [List.cons.injEq, and_true] at heq2
    obtain ⟨rfl, rfl, rfl, rfl⟩ := heq2
    rw [if_neg]
    omega
  · rfl

/-- C81 violated once the window is full: prefill of the token at position `p ≥ window` and decode of the same
token differ, whichever tokens of the sequence the decode table holds (each at most once).  One batch row, one
head, size 1, a query of zeros and a value of 1 at the oldest position prefill sees: prefill averages over
`window + 1` keys and the sink, decode over `window`. -/
theorem swa_window_violated (W W' window p : Nat) (hp : window ≤ p) (hw : 0 < window) (Q : Tens ℝ) (T T' : Tokens) (f : Nat → Nat)
    (hf : ∀ i j, i < window → j < window → f i = f j → i = j)
    (aux : Nat → Option ℝ) (haux : aux 0 = some 0) (k : Nat → Nat → Nat → Nat → ℝ)
    (hQ : Holds Q 1 1 1 1 (fun _ _ _ _ => 0)) (hQc : (isContiguous Q.shape Q.stride).isSome = true)
    (hT : Stored T 1 (p + 1) 1 1 1 k (fun _ j _ _ => if j = p - window then 1 else 0))
    (hT' : Stored T' 1 window 1 1 1 (fun b j => k b (f j)) (fun _ j _ _ => if f j = p - window then 1 else 0)) :
    ∃ O O', swaAttn (.simd W) (fun _ => [0]) ⟨1, 1, 1, 1, 1, window, p + 1, .prefill⟩ Q T aux = some O ∧
      swaAttn (.simd W') (fun _ => [0]) ⟨1, 1, 1, 1, 1, window, p + 1, .decode⟩ Q T' aux = some O' ∧
      O.elem [0, 0, 0, 0] ≠ O'.elem [0, 0, 0, 0] := by
  have ho : HeadOrder 1 1 (fun _ => [0]) := fun _ _ => List.Perm.refl _
  have haux' : ∀ h, h < 1 → aux h = some ((fun _ => (0 : ℝ)) h) := by
    intro h hh; obtain rfl : h = 0 := by omega
    exact haux
  obtain ⟨O, h1, h2⟩ := swa_prefill_partial W (fun _ => [0]) ⟨1, 1, 1, 1, 1, window, p + 1, .prefill⟩ Q T aux (fun _ => 0)
    1 (p + 1) _ _ _ ho hQ hQc hT haux' (dvd_refl 1) Nat.one_pos Nat.one_pos rfl (by omega)
  obtain ⟨O', h1', h2'⟩ := swa_decode_one_partial W' (fun _ => [0]) ⟨1, 1, 1, 1, 1, window, p + 1, .decode⟩ Q T' aux
    (fun _ => 0) window _ _ _ ho hQ hQc hT' haux' (dvd_refl 1) Nat.one_pos Nat.one_pos rfl (by simp) (by simp)
  refine ⟨O, O', h1, h1', ?_⟩
  rw [h2.val 0 0 0 0 Nat.one_pos Nat.one_pos Nat.one_pos Nat.one_pos,
    h2'.val 0 0 0 0 Nat.one_pos Nat.one_pos Nat.one_pos Nat.one_pos]
  have hmin : min (p + 1) window = window := by omega
  simp only [sinkAttn, attendSink, score, zero_mul, Finset.sum_const_zero, zero_div, Real.exp_zero, one_mul,
    Finset.sum_const, nsmul_eq_mul, mul_one, Finset.card_range, Nat.card_Icc, hmin, ne_eq, Option.some.injEq]
  have e1 : p + 1 - 1 + 0 = p := by omega
  rw [e1]
  have hs1 : (∑ x ∈ Finset.Icc (p - window) p, if x = p - window then (1 : ℝ) else 0) = 1 := by
    rw [Finset.sum_ite_eq' , if_pos (by rw [Finset.mem_Icc]; omega)]
  have hc : p + 1 - (p - window) = window + 1 := by omega
  rw [hs1, hc]
  have hs2 : (∑ x ∈ Finset.range window, if f x = p - window then (1 : ℝ) else 0) = 0 ∨
      (∑ x ∈ Finset.range window, if f x = p - window then (1 : ℝ) else 0) = 1 := by
    by_cases hex : ∃ i, i < window ∧ f i = p - window
    · obtain ⟨i, hi, hfi⟩ := hex
      right
      rw [Finset.sum_eq_single i]
      · rw [if_pos hfi]
      · intro j hj hne
        rw [if_neg]
        intro hfj
        exact hne (hf j i (Finset.mem_range.mp hj) hi (hfj.trans hfi.symm))
      · intro h; exact absurd (Finset.mem_range.mpr hi) h
    · left
      apply Finset.sum_eq_zero
      intro j hj
      rw [if_neg]
      intro hfj
      exact hex ⟨j, Finset.mem_range.mp hj, hfj⟩
  have hw' : (0 : ℝ) < (window : ℝ) := by exact_mod_cast hw
  push_cast
  rcases hs2 with h | h <;> rw [h]
  · rw [zero_div]; positivity
  · intro he
    rw [div_eq_div_iff (by positivity) (by positivity)] at he
    linarith

/-- C81 violated for chunks after the window is full: a decode call with several rows makes its first row visit
every slot of the table, including the slots of tokens after it. -/
theorem swa_rows_violated (W : Nat) (ord : Nat → List Nat) (o : SwaOpt) (Q : Tens ℝ) (T : Tokens)
    (aux : Nat → Option ℝ) (sink : Nat → ℝ) (SQ : Nat) (q k v : Nat → Nat → Nat → Nat → ℝ)
    (ho : HeadOrder o.B o.HQ ord) (hQ : Holds Q o.B SQ o.HQ o.DK q)
    (hQc : (isContiguous Q.shape Q.stride).isSome = true) (hT : Stored T o.B o.window o.HK o.DK o.DV k v)
    (haux : ∀ h, h < o.HQ → aux h = some (sink h)) (hH : o.HK ∣ o.HQ) (hHQ : 0 < o.HQ) (hD : 0 < o.DK)
    (hp : o.pattern = .decode) (hS : SQ + o.window ≤ o.cur) :
    ∃ O, swaAttn (.simd W) ord o Q T aux = some O ∧
      Holds O o.B SQ o.HQ o.DV (fun b s h d =>
        sinkAttn o.HQ o.HK o.DK q k v sink (Finset.range o.window) b s h d) := by
  refine swa_core W ord o Q T aux sink SQ o.window q k v ho hQ hQc hT haux hH hHQ hD
    (by rw [hp]; exact fun h => by cases h) (fun _ => Finset.range o.window) ?_
  intro s hs
  simp only [swaKeys, hp, localKeys_full (show SQ + o.window ≤ o.cur + s by omega) hs]
  exact ⟨List.nodup_range, List.toFinset_range _, fun j hj => List.mem_range.mp hj⟩

/-- C81 violated for the append pattern, and on x86 builds for every pattern: nothing is written. -/
theorem swa_append_violated (arch : Arch) (ord : Nat → List Nat) (o : SwaOpt) (Q O : Tens ℝ) (T : Tokens)
    (aux : Nat → Option ℝ) (SQ DK : Nat) (hQ : Q.shape = [o.B, SQ, o.HQ, DK]) (ho : HeadOrder o.B o.HQ ord)
    (hbad : o.pattern = .append ∨ arch = .noop) (hO : swaAttn arch ord o Q T aux = some O) (b s h d : Nat)
    (hb : b < o.B) (hs : s < SQ) (hh : h < o.HQ) (hd : d < o.DV) : O.elem [b, s, h, d] = none := by
  have hi : InB [o.B, SQ, o.HQ, o.DV] [b, s, h, d] := inB4.mpr ⟨hb, hs, hh, hd⟩
  unfold swaAttn at hO
  rw [hQ] at hO
  simp only at hO
  split at hO
  · cases hO
    rcases hbad with hbad | hbad
    · rw [fresh_elem _ _ hi, swaWrites, hbad]; rfl
    · subst hbad
      unfold swaWrites
      cases hpat : o.pattern
      · simp only; rw [attn_elem ho _ hb hs hh hd]; rfl
      · simp only; rw [attn_elem ho _ hb hs hh hd]; rfl
      · rw [fresh_elem _ _ hi]; rfl
  · cases hO

/-! ### The hypotheses can be met -/

/-- Tokens of any contents can be stored in tables: key rows at even, value rows at odd addresses (size 1). -/
theorem stored_exists (S : Nat) (k v : Nat → Nat → Nat → Nat → ℝ) : ∃ T, Stored T 1 S 1 1 1 k v := by
  refine ⟨⟨fun a => if a % 2 = 0 then some (k 0 (a / 2).toNat 0 0) else some (v 0 (a / 2).toNat 0 0),
    fun j => 2 * j, fun j => 2 * j + 1, S, S⟩, rfl, rfl, ?_, ?_⟩
  · intro b j h x hb hj hh hx
    obtain rfl : b = 0 := by omega
    obtain rfl : h = 0 := by omega
    obtain rfl : x = 0 := by omega
    have e2 : (2 * (j : Int)) % 2 = 0 := by omega
    have e3 : (2 * (j : Int) / 2).toNat = j := by omega
    simp [e2]
  · intro b j h x hb hj hh hx
    obtain rfl : b = 0 := by omega
    obtain rfl : h = 0 := by omega
    obtain rfl : x = 0 := by omega
    have e2 : ¬ ((2 * (j : Int) + 1) % 2 = 0) := by omega
    have e3 : ((2 * (j : Int) + 1) / 2).toNat = j := by omega
    simp only [Nat.zero_mul, Nat.zero_add, Nat.cast_zero, add_zero, Nat.mul_one]
    rw [if_neg e2, e3]

/-- The violation of `swa_window_violated` occurs: window 3, sequence of 5 tokens, the table of the last 3. -/
example : ∃ (Q : Tens ℝ) (T T' : Tokens) (O O' : Tens ℝ),
    swaAttn (.simd 4) (fun _ => [0]) ⟨1, 1, 1, 1, 1, 3, 5, .prefill⟩ Q T (fun _ => some 0) = some O ∧
    swaAttn (.simd 4) (fun _ => [0]) ⟨1, 1, 1, 1, 1, 3, 5, .decode⟩ Q T' (fun _ => some 0) = some O' ∧
    O.elem [0, 0, 0, 0] ≠ O'.elem [0, 0, 0, 0] := by
  obtain ⟨T, hT⟩ := stored_exists 5 (fun _ _ _ _ => 0) (fun _ j _ _ => if j = 4 - 3 then 1 else 0)
  obtain ⟨T', hT'⟩ := stored_exists 3 (fun _ _ _ _ => 0) (fun _ j _ _ => if j + 2 = 4 - 3 then 1 else 0)
  obtain ⟨O, O', h⟩ := swa_window_violated 4 4 3 4 (by decide) (by decide) _ T T' (fun j => j + 2)
    (by intro i j _ _ h; omega) (fun _ => some 0) rfl (fun _ _ _ _ => 0) (holds_exact 1 1 1 1 _) rfl hT hT'
  exact ⟨_, T, T', O, O', h⟩

end Verif.Attn
