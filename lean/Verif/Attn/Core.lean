import Verif.Attn.Online
import Verif.Ops.Mask
/-
The frame shared by the CPU attention kernels: loops over batch, query head (possibly in parallel), query row
and output component, and the row-major output addresses.
-/
namespace Verif.Attn
open Verif.Tensor Verif.Ops

/-! ### Model -/

/-- Which primitives the build gives the kernel.  `simd W`: vector primitives with `W` lanes
(fa2_1/impl-arm.hpp, fa2_1/impl-any-simd-inl.hpp, radix_attn/impl-arm.hpp).  `noop`: the primary templates of
radix_attn/arch.hpp L19-L38, whose bodies are empty; a build for x86 gets these for the radix kernels because
radix_attn/impl-any-simd.hpp is an empty file and impl-any.hpp only specialises `__AnyArchTag`. -/
inductive Arch where
  | simd (W : Nat)
  | noop

/-- One output element: the row loop over the keys `js`, the optional sink, the final rescale.  With the empty
primitives `acc_o` is never stored to, so the element keeps whatever the fresh buffer holds (`none`). -/
noncomputable def rowVal (arch : Arch) (DK : Nat) (sink : Option (Option ℝ)) (q : Nat → Option ℝ)
    (k : Nat → Nat → Option ℝ) (v : Nat → Option ℝ) (js : List Nat) : Option ℝ :=
  match arch with
  | .noop => none
  | .simd W =>
    (osLoop (kscale DK) (fun j => dotO W DK q (k j)) v js osInit).bind fun st =>
      match sink with
      | none => osFinish st
      | some none => none
      | some (some s) => osFinish (osSink DK st s)

/-- The stores of the whole kernel: `acc_o = out + b*H_Q*S_Q*D_V + s*H_Q*D_V + h*D_V` (fa2_1/fwd_bshd.hpp
L33-L43 and the same lines of the other kernels).  `ord b` is the order in which the head loop runs in batch
`b`: `MLLM_CONDITIONAL_PARALLEL_FOR` runs it on several threads.  Threads are not interleaved below the level
of one head; they store to disjoint addresses. -/
def attnWrites (B SQ HQ DV : Nat) (ord : Nat → List Nat) (val : Nat → Nat → Nat → Nat → Option ℝ) :
    List (Nat × Option ℝ) :=
  (List.range B).flatMap fun b => (ord b).flatMap fun h => (List.range SQ).flatMap fun s =>
    (List.range DV).map fun d => (b * HQ * SQ * DV + s * HQ * DV + h * DV + d, val b h s d)

/-- Read of a query component: `q + b*H_Q*S_Q*D + s*H_Q*D + h*D`. -/
def qAt (Q : Tens ℝ) (SQ HQ DK b s h x : Nat) : Option ℝ := Q.raw (b * HQ * SQ * DK + s * HQ * DK + h * DK + x)

/-- The keys of row `s`: `S_KV_BOUND = min(S_KV - S_Q + s + 1, S_KV)`. -/
def causalKeys (SQ SKV s : Nat) : List Nat := List.range (min ((SKV : Int) - SQ + s + 1) SKV).toNat

/-! ### Specification -/

/-- The order in which threads take the heads. -/
def HeadOrder (B HQ : Nat) (ord : Nat → List Nat) : Prop := ∀ b, b < B → (ord b).Perm (List.range HQ)

/-- Elements of the tensor lie row-major from its start: contiguous tensors, and views that keep the strides
of every dimension that has more than one element. -/
def Packed (t : Tens ℝ) : Prop := ∀ i, InB t.shape i → t.addr i = t.off + lin t.shape i

/-! ### Proofs -/

theorem contig_packed {t : Tens ℝ} (h : t.Contig) : Packed t := fun _ hi => h.addr hi

theorem exact_raw (s : List Nat) (v : Nat → ℝ) (k : Nat) :
    (exact s v).raw k = if k < numel s then some (v k) else none := by
  unfold Tens.raw exact fresh
  simp

theorem packed_raw {t : Tens ℝ} (h : Packed t) {i : List Nat} (hi : InB t.shape i) :
    t.raw (lin t.shape i) = t.elem i := by
  unfold Tens.raw Tens.elem
  rw [h i hi]

theorem lin4' (A B C D a b c d : Nat) :
    lin [A, B, C, D] [a, b, c, d] = a * C * B * D + b * C * D + c * D + d := by
  rw [lin4]; ring

theorem attn_elem {B SQ HQ DV : Nat} {ord : Nat → List Nat} (ho : HeadOrder B HQ ord)
    (val : Nat → Nat → Nat → Nat → Option ℝ) {b s h d : Nat} (hb : b < B) (hs : s < SQ) (hh : h < HQ)
    (hd : d < DV) :
    (fresh [B, SQ, HQ, DV] (bufV (attnWrites B SQ HQ DV ord val))).elem [b, s, h, d] = val b h s d := by
  have hi : InB [B, SQ, HQ, DV] [b, s, h, d] := inB4.mpr ⟨hb, hs, hh, hd⟩
  rw [fresh_elem _ _ hi]
  apply bufV_eq
  · intro w hw hk
    simp only [attnWrites, List.mem_flatMap, List.mem_range, List.mem_map] at hw
    obtain ⟨b', hb', h', hh', s', hs', d', hd', rfl⟩ := hw
    dsimp only at hk ⊢
    have hh'' : h' < HQ := List.mem_range.mp ((ho b' hb').mem_iff.mp hh')
    rw [← lin4'] at hk
    have := lin_inj (inB4.mpr ⟨hb', hs', hh'', hd'⟩) hi hk
    simp only [List.cons.injEq, and_true] at this
    obtain ⟨rfl, rfl, rfl, rfl⟩ := this
    rfl
  · simp only [attnWrites, List.mem_flatMap, List.mem_range, List.mem_map]
    refine ⟨b, hb, h, (ho b hb).mem_iff.mpr (List.mem_range.mpr hh), s, hs, d, hd, ?_⟩
    rw [lin4']

theorem qAt_elem {Q : Tens ℝ} {B SQ HQ DK : Nat} (hQ : Q.shape = [B, SQ, HQ, DK]) (hc : Packed Q)
    {b s h x : Nat} (hb : b < B) (hs : s < SQ) (hh : h < HQ) (hx : x < DK) :
    qAt Q SQ HQ DK b s h x = Q.elem [b, s, h, x] := by
  unfold qAt
  rw [← lin4' B SQ HQ DK, ← hQ]
  exact packed_raw hc (by rw [hQ]; exact inB4.mpr ⟨hb, hs, hh, hx⟩)

theorem causalKeys_eq {SQ SKV s : Nat} (h : SQ ≤ SKV) (hs : s < SQ) :
    causalKeys SQ SKV s = List.range (SKV - SQ + s + 1) := by
  unfold causalKeys; congr 1; omega

theorem causalKeys_short {SQ SKV s : Nat} (h : SKV + s < SQ) : causalKeys SQ SKV s = [] := by
  have : (min ((SKV : Int) - SQ + s + 1) SKV).toNat = 0 := by omega
  unfold causalKeys; rw [this]; rfl

/-- A row over a non-empty list of distinct keys, all of whose reads succeed, is softmax attention. -/
theorem rowVal_attend {W DK : Nat} {q : Nat → Option ℝ} {k : Nat → Nat → Option ℝ} {v : Nat → Option ℝ}
    {js : List Nat} {qf : Nat → ℝ} {kf : Nat → Nat → ℝ} {vf : Nat → ℝ} (hne : js ≠ []) (hnd : js.Nodup)
    (hq : ∀ x, x < DK → q x = some (qf x)) (hk : ∀ j ∈ js, ∀ x, x < DK → k j x = some (kf j x))
    (hv : ∀ j ∈ js, v j = some (vf j)) :
    rowVal (.simd W) DK none q k v js = some (attend js.toFinset (fun j => score DK qf (kf j)) vf) := by
  unfold rowVal
  show (osLoop (kscale DK) (fun j => dotO W DK q (k j)) v js osInit).bind osFinish = _
  rw [online_attend hne hnd (fun j hj => dotO_some hq (hk j hj)) hv]
  rfl

theorem rowVal_sink {W DK : Nat} (hD : 0 < DK) {q : Nat → Option ℝ} {k : Nat → Nat → Option ℝ} {v : Nat → Option ℝ}
    {js : List Nat} {qf : Nat → ℝ} {kf : Nat → Nat → ℝ} {vf : Nat → ℝ} (hnd : js.Nodup) (sink : ℝ)
    (hq : ∀ x, x < DK → q x = some (qf x)) (hk : ∀ j ∈ js, ∀ x, x < DK → k j x = some (kf j x))
    (hv : ∀ j ∈ js, v j = some (vf j)) :
    rowVal (.simd W) DK (some (some sink)) q k v js =
      some (attendSink js.toFinset (fun j => score DK qf (kf j)) vf sink) := by
  unfold rowVal
  show (osLoop (kscale DK) (fun j => dotO W DK q (k j)) v js osInit).bind
    (fun st => osFinish (osSink DK st sink)) = _
  rw [online_sink hD hnd (fun j hj => dotO_some hq (hk j hj)) hv]
  rfl

/-- A row that needs a value from memory that holds none gives none. -/
theorem osLoop_none {scale : ℝ} {sc v : Nat → Option ℝ} : ∀ {js : List Nat} {st : OS} {j : Nat},
    j ∈ js → (sc j = none ∨ v j = none) → osLoop scale sc v js st = none
  | j' :: js, st, j, hj, h => by
    unfold osLoop
    rcases List.mem_cons.mp hj with rfl | hj
    · rcases h with h | h <;> rw [h]
      cases sc j <;> rfl
    · cases hs : sc j' <;> cases hv : v j' <;> simp only []
      exact osLoop_none hj h

theorem rowVal_none_v {arch : Arch} {DK : Nat} {sink : Option (Option ℝ)} {q : Nat → Option ℝ}
    {k : Nat → Nat → Option ℝ} {v : Nat → Option ℝ} {js : List Nat} {j : Nat} (hj : j ∈ js) (h : v j = none) :
    rowVal arch DK sink q k v js = none := by
  cases arch with
  | noop => rfl
  | simd W => unfold rowVal; simp only []; rw [osLoop_none hj (Or.inr h)]; rfl

theorem rowVal_empty {arch : Arch} {DK : Nat} {q : Nat → Option ℝ} {k : Nat → Nat → Option ℝ} {v : Nat → Option ℝ} :
    rowVal arch DK none q k v [] = none := by
  cases arch with
  | noop => rfl
  | simd W => exact online_empty (kscale DK) (fun j => dotO W DK q (k j)) v

theorem attend_one (j : Nat) (s v : Nat → ℝ) : attend {j} s v = v j := by
  unfold attend
  simp only [Finset.sum_singleton]
  field_simp

/-- Query heads are grouped evenly over the key heads. -/
theorem group_lt {HQ HK h : Nat} (hd : HK ∣ HQ) (hh : h < HQ) : h / (HQ / HK) < HK := by
  obtain ⟨r, rfl⟩ := hd
  rcases Nat.eq_zero_or_pos HK with h0 | h0
  · subst h0; simp at hh
  · rw [Nat.mul_div_cancel_left _ h0]
    exact Nat.div_lt_of_lt_mul (by rwa [mul_comm])

end Verif.Attn
